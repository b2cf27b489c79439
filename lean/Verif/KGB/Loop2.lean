import Verif.KGB.Loop
/-
The loops that generate the set `K\G/B`.
-/
namespace Verif.KGB
open Verif Verif.F2 Verif.Weyl Verif.Tits Verif.Coxeter CoxeterSystem Verif.BitSet
set_option linter.unusedSectionVars false

variable {n r : Nat} {Mx : CoxeterMatrix (Fin n)} {G : Type} [Group G]
variable {cs : CoxeterSystem Mx G} {α αv : Fin n → Fin r → Int} {ρ : G →* Module.End ℤ (Fin r → Int)} {δ : Matrix (Fin r) (Fin r) Int} {f : Fin n → Fin n}
variable {𝒯 : Type} [Group 𝒯] {ι : (Fin r → ZMod 2) → 𝒯} {σ : Fin n → 𝒯} {π : 𝒯 →* G} {g : Fin n → Bool} {τ : 𝒯 →* 𝒯} {ψ : 𝒯 → TE}
variable {nd : Bool} {c : TC} {φ : G → List Nat} {it : ITab} {θ : G →* G} {seeds : List 𝒯} {nf : 𝒯 → 𝒯} {N : Nat} {e0 : Nat → 𝒯}

variable (V : Env cs α αv ρ δ f ι σ π g τ ψ nd c φ it θ seeds nf N e0)

local notation "E" => Eqv ρ δ ι π
local notation "R" => Reach cs f α δ g ρ ι σ π τ seeds
local notation "NC" => Noncompact cs f α g ι σ π
local notation "OK" => EsOK cs α ρ δ f ι σ π g τ seeds nf
local notation "FOK" => FieldOK cs α f ι σ π g τ nf
local notation "IOK" => InfoOK cs α f ι σ π g

theorem FieldOK.mono {es es' : List 𝒯} (h : es <+: es') {s : Fin n} {b : 𝒯} {F : Fields} (hF : FOK es s b F) : FOK es' s b F :=
  ⟨prefix_get h hF.1, fun c => prefix_get h (hF.2.1 c), hF.2.2⟩

include V

theorem genLoop_ok {x : Nat} {b : 𝒯} : ∀ (k s : Nat), s + k = n → ∀ (es : List 𝒯) (C : Nat → Nat → Fields) (I : Nat → Info), OK es → Out es C I → es[x]? = some b →
    (∀ j : Fin n, j.1 < s → FOK es j b (C j x)) → (∀ j, s ≤ j → C j x = {}) → IOK s (I x) b →
    ∃ es' C' I', genLoop nd c it N x k s (stOf n ψ es C I) = .ok (stOf n ψ es' C' I') ∧ es <+: es' ∧ OK es' ∧ Out es' C' I' ∧
      (∀ s' y, y ≠ x → C' s' y = C s' y) ∧ (∀ y, y ≠ x → I' y = I y) ∧ (∀ j : Fin n, FOK es' j b (C' j x)) ∧ IOK n (I' x) b
  | 0, s, hk, es, C, I, h, ho, hb, h1, h2, h3 => by
    refine ⟨es, C, I, rfl, List.prefix_rfl, h, ho, fun _ _ _ => rfl, fun _ _ => rfl, fun j => h1 j (by omega), ?_⟩
    obtain rfl : s = n := by omega
    exact h3
  | k + 1, s, hk, es, C, I, h, ho, hb, h1, h2, h3 => by
    have hsn : s < n := by omega
    obtain ⟨es1, C1, I1, k1, k2, k3, k4, k5, k6, k7, k8⟩ := stepGen_ok V (s := ⟨s, hsn⟩) h ho hb (h2 s le_rfl) h3
    obtain ⟨es', C', I', j1, j2, j3, j4, j5, j6, j7, j8⟩ := genLoop_ok (k := k) (s := s + 1) (by omega) es1 C1 I1 k3 k4 (prefix_get k2 hb) (by
        intro j hj
        by_cases e : j.1 = s
        · rw [show j = ⟨s, hsn⟩ from Fin.ext e]
          exact k7
        · rw [k5 j x (.inl e)]
          exact (h1 j (by omega)).mono k2) (by
        intro j hj
        rw [k5 j x (.inl (by show j ≠ s; omega))]
        exact h2 j (by omega)) k8
    refine ⟨es', C', I', ?_, k2.trans j2, j3, j4, fun s' y hy => (j5 s' y hy).trans (k5 s' y (.inr hy)), fun y hy => (j6 y hy).trans (k6 y hy), j7, j8⟩
    rw [genLoop]
    have : stepGen nd c it N x (stOf n ψ es C I) s = _ := k1
    rw [this, Res.ok_bind, j1]

theorem infoOK_zero (b : 𝒯) : IOK 0 ({} : Info) b := by
  refine ⟨?_, fun j => by simp⟩
  refine cast (congrArg (StRep _) ?_) stRep_zero
  funext j
  simp

theorem eltLoop_ok : ∀ (fuel x : Nat) (es : List 𝒯) (C : Nat → Nat → Fields) (I : Nat → Info), N < fuel + x → OK es → Out es C I → x ≤ es.length →
    (∀ y b, y < x → es[y]? = some b → (∀ j : Fin n, FOK es j b (C j y)) ∧ IOK n (I y) b) → (∀ y, x ≤ y → (∀ j, C j y = {}) ∧ I y = {}) →
    ∃ es' C' I', eltLoop nd c it N n fuel x (stOf n ψ es C I) = .ok (stOf n ψ es' C' I') ∧ es <+: es' ∧ OK es' ∧
      (∀ y b, es'[y]? = some b → (∀ j : Fin n, FOK es' j b (C' j y)) ∧ IOK n (I' y) b)
  | 0, x, es, C, I, hf, h, ho, hx, h1, h2 => by
    have := V.length_le h
    omega
  | fuel + 1, x, es, C, I, hf, h, ho, hx, h1, h2 => by
    by_cases hlt : x < es.length
    · have hb : es[x]? = some es[x] := List.getElem?_eq_getElem hlt
      obtain ⟨es1, C1, I1, k1, k2, k3, k4, k5, k6, k7, k8⟩ := genLoop_ok V n 0 (by omega) es C I h ho hb (fun j hj => by omega) (fun j _ => (h2 x le_rfl).1 j)
        (by rw [(h2 x le_rfl).2]; exact infoOK_zero V _)
      have hb1 := prefix_get k2 hb
      obtain ⟨es', C', I', j1, j2, j3, j4⟩ := eltLoop_ok fuel (x + 1) es1 C1 I1 (by omega) k3 k4 (by have := k2.length_le; omega) (by
          intro y b hy hyb
          by_cases e : y = x
          · subst e
            rw [hb1] at hyb
            obtain rfl := Option.some.inj hyb
            exact ⟨k7, k8⟩
          · have hyb' : es[y]? = some b := by
              have h3 : es[y]? = some es[y] := List.getElem?_eq_getElem (by omega)
              rw [prefix_get k2 h3] at hyb
              rw [h3]; exact hyb
            obtain ⟨p1, p2⟩ := h1 y b (by omega) hyb'
            refine ⟨fun j => ?_, ?_⟩
            · rw [k5 j y e]; exact (p1 j).mono k2
            · rw [k6 y e]; exact p2) (by
          intro y hy
          have e : y ≠ x := by omega
          refine ⟨fun j => ?_, ?_⟩
          · rw [k5 j y e]; exact (h2 y (by omega)).1 j
          · rw [k6 y e]; exact (h2 y (by omega)).2)
      refine ⟨es', C', I', ?_, k2.trans j2, j3, j4⟩
      rw [eltLoop, if_pos (by simpa [stOf] using hlt), k1, Res.ok_bind, j1]
    · refine ⟨es, C, I, ?_, List.prefix_rfl, h, fun y b hy => h1 y b (by have := (List.getElem?_eq_some_iff.1 hy).1; omega) hy⟩
      rw [eltLoop, if_neg (by simpa [stOf] using hlt)]

theorem plant_ok : ∀ (l es : List 𝒯), (∀ a ∈ l, R a) → OK (es ++ l.map nf) →
    plant nd it N (l.map ψ) (stOf n ψ es (fun _ _ => {}) fun _ => {}) = .ok (stOf n ψ (es ++ l.map nf) (fun _ _ => {}) fun _ => {})
  | [], es, _, _ => by simp [plant]
  | a :: l, es, h1, h2 => by
    have hn : nf a ∉ es := by
      intro hm
      have := h2.1
      rw [List.nodup_append] at this
      exact this.2.2 _ hm _ (by simp) rfl
    have h0 : ψ (nf a) ∉ es.map ψ := by
      rw [List.mem_map]
      rintro ⟨b, hb, e⟩
      exact hn (V.ctx.hI.injective e ▸ hb)
    have h3 : (es.map ψ).idxOf (ψ (nf a)) = es.length := by rw [List.idxOf_of_notMem h0, List.length_map]
    have hl : es ++ (a :: l).map nf = (es ++ [nf a]) ++ l.map nf := by simp
    rw [List.map_cons, plant, V.red (h1 a (by simp)), Res.ok_bind]
    have hp : (stOf n ψ es (fun _ _ => ({} : Fields)) fun _ => ({} : Info)).pool = es.map ψ := rfl
    simp only [hp, h3]
    rw [Res.assertIn_bind nd (by simp [stOf]), if_neg (by simp)]
    have h4 := addElement_ok (n := n) (ψ := ψ) es (nf a) (fun _ _ => {}) (fun _ => {}) (fun y hy => ⟨fun _ => rfl, rfl⟩)
    have h5 := plant_ok l (es ++ [nf a]) (fun b hb => h1 b (by simp [hb])) (by rw [← hl]; exact h2)
    rw [hl, ← h5, ← h4]
    simp [stOf]

/-- the elements generated -/
theorem Env.gen (hp : seeds.Pairwise fun a b => ¬ E a b) : ∃ st0 es C I, plant nd it N (seeds.map ψ) ⟨[], List.replicate n [], []⟩ = .ok st0 ∧
    eltLoop nd c it N n (N + 1) 0 st0 = .ok (stOf n ψ es C I) ∧ OK es ∧ es.length = N ∧ (∀ a, R a → nf a ∈ es) ∧
    (∀ y b, es[y]? = some b → (∀ j : Fin n, FOK es j b (C j y)) ∧ IOK n (I y) b) ∧ seeds.map nf <+: es := by
  have hR : ∀ a ∈ seeds, R a := fun a ha => .seed ha
  have hok : OK (seeds.map nf) := by
    refine ⟨?_, ?_⟩
    · show List.Pairwise (· ≠ ·) _
      rw [List.pairwise_map]
      refine (List.Pairwise.and_mem.1 hp).imp ?_
      rintro a b ⟨ha, hb, h⟩ e
      exact h ((V.nf_iff (hR a ha) (hR b hb)).2 e)
    · intro b hb
      obtain ⟨a, ha, rfl⟩ := List.mem_map.1 hb
      exact ⟨V.R_nf (hR a ha), V.nf_nf (hR a ha)⟩
  have h1 := plant_ok V seeds [] hR (by simpa using hok)
  have h0 : stOf n ψ ([] : List 𝒯) (fun _ _ => ({} : Fields)) (fun _ => ({} : Info)) = ⟨[], List.replicate n [], []⟩ := by
    simp [stOf, grid]
  rw [h0] at h1
  simp only [List.nil_append] at h1
  obtain ⟨es, C, I, k1, k2, k3, k4⟩ := eltLoop_ok V (N + 1) 0 (seeds.map nf) (fun _ _ => {}) (fun _ => {}) (by omega) hok (fun y _ => ⟨fun _ => rfl, rfl⟩)
    (Nat.zero_le _) (fun y b hy => by omega) (fun y _ => ⟨fun _ => rfl, rfl⟩)
  have hall : ∀ a, R a → nf a ∈ es := by
    intro a ha
    induction ha with
    | seed h => exact k2.subset (List.mem_map_of_mem h)
    | eqv h e ih => rw [← (V.nf_iff h (h.eqv e)).1 e]; exact ih
    | @cross a s h ih =>
      obtain ⟨y, hy⟩ := List.mem_iff_getElem?.1 ih
      have h5 := ((k4 y _ hy).1 s).1
      have : E (σ s * a * (τ (σ s))⁻¹) (σ s * nf a * (τ (σ s))⁻¹) := V.ctx.hL.conj_eqv _ _ _ (V.E_nf h)
      rw [(V.nf_iff (h.cross s) ((V.R_nf h).cross s)).1 this]
      exact List.mem_of_getElem? h5
    | @cayley a s h hn ih =>
      obtain ⟨y, hy⟩ := List.mem_iff_getElem?.1 ih
      have hn' : NC s (nf a) := V.ctx.nc_eqv (V.E_nf h) hn
      have h5 := ((k4 y _ hy).1 s).2.1 hn'
      have : E (σ s * a) (σ s * nf a) := V.ctx.hL.cayley_eqv _ _ _ hn.1 (V.E_nf h)
      rw [(V.nf_iff (h.cayley s hn) ((V.R_nf h).cayley s hn')).1 this]
      exact List.mem_of_getElem? h5
  exact ⟨_, es, C, I, h1, k1, k3, le_antisymm (V.length_le k3) (V.le_length hall), hall, k4, k2⟩

end Verif.KGB
