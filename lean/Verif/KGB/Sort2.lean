import Verif.KGB.Sort
/-
The second part of the construction of the set `K\G/B`: sorting.
-/
namespace Verif.KGB
open Verif Verif.F2 Verif.Weyl Verif.Tits Verif.Coxeter CoxeterSystem Verif.BitSet Verif.Perm
set_option linter.unusedSectionVars false

variable {n r : Nat} {Mx : CoxeterMatrix (Fin n)} {G : Type} [Group G]
variable {cs : CoxeterSystem Mx G} {α αv : Fin n → Fin r → Int} {ρ : G →* Module.End ℤ (Fin r → Int)} {δ : Matrix (Fin r) (Fin r) Int} {f : Fin n → Fin n}
variable {𝒯 : Type} [Group 𝒯] {ι : (Fin r → ZMod 2) → 𝒯} {σ : Fin n → 𝒯} {π : 𝒯 →* G} {g : Fin n → Bool} {τ : 𝒯 →* 𝒯} {ψ : 𝒯 → TE}
variable {nd : Bool} {c : TC} {φ : G → List Nat} {it : ITab} {θ : G →* G} {seeds : List 𝒯} {nf : 𝒯 → 𝒯} {N : Nat} {e0 : Nat → 𝒯}

variable (cs f α g ι σ π τ nf N) in
/-- links of an element after sorting -/
def FieldOK' (e : Nat → 𝒯) (s : Fin n) (b : 𝒯) (F : Fields) : Prop :=
  (F.cross < N ∧ e F.cross = nf (σ s * b * (τ (σ s))⁻¹)) ∧ (Noncompact cs f α g ι σ π s b → F.cayley < N ∧ e F.cayley = nf (σ s * b)) ∧
  (¬ Noncompact cs f α g ι σ π s b → F.cayley = undefKGB) ∧ F.inv1 = undefKGB ∧ F.inv2 = undefKGB

variable (ψ π φ) in
/-- place of the involution of an element -/
def lc (it : ITab) (L : List Nat) (b : 𝒯) : Nat := L.idxOf (it.nr (φ (π b)))

local notation "E" => Eqv ρ δ ι π
local notation "R" => Reach cs f α δ g ρ ι σ π τ seeds
local notation "NC" => Noncompact cs f α g ι σ π
local notation "OK" => EsOK cs α ρ δ f ι σ π g τ seeds nf
local notation "FOK" => FieldOK cs α f ι σ π g τ nf
local notation "IOK" => InfoOK cs α f ι σ π g

variable (cs α ρ δ f ι σ π g τ ψ c φ it seeds nf N) in
/-- the object, after sorting -/
structure Sorted (orbits : List (Nat × Nat)) (nInv : Nat) (es : List 𝒯) (L loc fot : List Nat) (e : Nat → 𝒯) (C : Nat → Nat → Fields) (I : Nat → Info) : Prop where
  perm : L.Perm (orbitNrs orbits)
  ordered : L.Pairwise fun i j => KLe (keyOf it i) (keyOf it j)
  locLen : loc.length = nInv
  locAt : ∀ j m : Nat, L[j]? = some m → loc[m]? = some j
  locNot : ∀ m, m < nInv → m ∉ L → loc[m]? = some undefKGB
  mem : ∀ x, x < N → e x ∈ es
  inj : ∀ x y, x < N → y < N → e x = e y → x = y
  surj : ∀ a ∈ es, ∃ x, x < N ∧ e x = a
  fields : ∀ x, x < N → ∀ s : Fin n, FieldOK' cs α f ι σ π g τ nf N e s (e x) (C s x)
  info : ∀ x, x < N → IOK n (I x) (e x)
  mono : ∀ x y, x ≤ y → y < N → lc π φ it L (e x) ≤ lc π φ it L (e y)
  fotLen : fot.length = L.length + 1
  fotAt : ∀ k, k ≤ L.length → ∃ m, fot[k]? = some m ∧ m ≤ N ∧ ∀ x, x < N → (x < m ↔ lc π φ it L (e x) < k)

variable (V : Env cs α αv ρ δ f ι σ π g τ ψ nd c φ it θ seeds nf N e0)
include V

theorem Env.finish {es : List 𝒯} {C : Nat → Nat → Fields} {I : Nat → Info} (hok : OK es) (hlen : es.length = N)
    (hall : ∀ y b, es[y]? = some b → (∀ j : Fin n, FOK es j b (C j y)) ∧ IOK n (I y) b)
    {orbits : List (Nat × Nat)} {nInv : Nat} (ho1 : (orbitNrs orbits).Nodup) (ho2 : ∀ i ∈ orbitNrs orbits, i < it.pool.length) (ho3 : it.pool.length ≤ nInv)
    (ho4 : ∀ a, R a → it.nr (φ (π a)) ∈ orbitNrs orbits) :
    ∃ L loc fot e C' I', finish nd c it n N orbits nInv (stOf n ψ es C I) = .ok ⟨grid n N fun t y => fillF (pre C' t y N) (C' t y), (List.range N).map I',
        L, loc, fot, (List.range N).map fun x => c.T.leftTorusPart (ψ (e x))⟩ ∧ Sorted cs α f ι σ π g τ φ it nf N orbits nInv es L loc fot e C' I' := by
  have hN := V.small
  obtain ⟨L, l1, l2, l3⟩ := sort_ok nd it V.hit.length (by
    intro Rc hRc
    obtain ⟨i, hi, rfl⟩ := List.getElem_of_mem hRc
    have hi' : i < it.pool.length := by rw [← V.hit.length]; exact hi
    obtain ⟨w, hw⟩ := V.hit.stored _ (List.getElem_mem hi')
    have h1 : it.pool[i]? = some (φ w) := by rw [List.getElem?_eq_getElem hi', hw]
    exact ⟨(V.hit.ilength i w _ h1 (List.getElem?_eq_getElem hi)).1, (V.hit.wLength i w _ h1 (List.getElem?_eq_getElem hi)).2⟩) (orbitNrs orbits) ho2
  have hLn : L.Nodup := l2.nodup_iff.2 ho1
  obtain ⟨loc, m1, m2, m3, m4⟩ := locLoop_ok L 0 (List.replicate nInv undefKGB) hLn (fun m hm => by
    have := ho2 m (l2.mem_iff.1 hm)
    rw [List.length_replicate]; omega)
  rw [List.length_replicate] at m2
  have hlc : ∀ a, R a → lc π φ it L a < L.length ∧ L[lc π φ it L a]? = some (it.nr (φ (π a))) := by
    intro a ha
    have h1 : L.idxOf (it.nr (φ (π a))) < L.length := List.idxOf_lt_length_iff.2 (l2.mem_iff.2 (ho4 a ha))
    exact ⟨h1, by rw [lc, List.getElem?_eq_getElem h1, List.getElem_idxOf]⟩
  have hinvs : invsLoop it loc ((stOf n ψ es C I).pool.take N) = .ok (es.map (lc π φ it L)) := by
    have e1 : (stOf n ψ es C I).pool.take N = es.map ψ := by
      show (es.map ψ).take N = _
      rw [List.take_of_length_le (by simp [hlen])]
    rw [e1, invsLoop_ok it loc (fun a => L.idxOf (it.nr a.w))]
    · rw [List.map_map]
      congr 1
      apply List.map_congr_left
      intro b _
      show L.idxOf (it.nr (ψ b).w) = _
      rw [V.ctx.hI.weyl]; rfl
    · intro a ha
      obtain ⟨b, hb, rfl⟩ := List.mem_map.1 ha
      rw [V.ctx.hI.weyl]
      have := m3 _ _ (hlc b (hok.2 b hb).1).2
      rw [Nat.zero_add] at this
      exact this
  obtain ⟨a1, fot, s1, s2, s3, s4, s5⟩ := C26_standardize nd (es.map (lc π φ it L)) L.length (by
    intro x hx
    obtain ⟨b, hb, rfl⟩ := List.mem_map.1 hx
    exact (hlc b (hok.2 b hb).1).1) (by rw [List.length_map, hlen]; omega)
  rw [List.length_map, hlen] at s2
  obtain ⟨a, p1, p2, p3⟩ := C26_inverse s2
  have hA : ∀ x, x < N → ∃ y, a[x]? = some y ∧ y < N ∧ a1[y]? = some x := by
    intro x hx
    obtain ⟨y, hy, hy2⟩ := p2.get? hx
    exact ⟨y, hy, hy2, (p3 _ _).2 hy⟩
  have hA1 : ∀ x, x < N → ∃ y, a1[x]? = some y ∧ y < N ∧ a[y]? = some x := by
    intro x hx
    obtain ⟨y, hy, hy2⟩ := s2.get? hx
    exact ⟨y, hy, hy2, (p3 _ _).1 hy⟩
  set A : Nat → Nat := fun x => (a[x]?).getD 0 with hAd
  set A1 : Nat → Nat := fun x => (a1[x]?).getD 0 with hA1d
  have hAx : ∀ x, x < N → a[x]? = some (A x) ∧ A x < N ∧ a1[A x]? = some x := by
    intro x hx
    obtain ⟨y, h1, h2, h3⟩ := hA x hx
    have : A x = y := by rw [hAd]; simp [h1]
    rw [this]; exact ⟨h1, h2, h3⟩
  have hA1x : ∀ x, x < N → a1[x]? = some (A1 x) ∧ A1 x < N ∧ a[A1 x]? = some x ∧ A (A1 x) = x := by
    intro x hx
    obtain ⟨y, h1, h2, h3⟩ := hA1 x hx
    have : A1 x = y := by rw [hA1d]; simp [h1]
    rw [this]; exact ⟨h1, h2, h3, by rw [hAd]; simp [h3]⟩
  set e : Nat → 𝒯 := fun x => (es[A x]?).getD 1 with hed
  have he : ∀ x, x < N → es[A x]? = some (e x) := by
    intro x hx
    have h1 := (hAx x hx).2.1
    rw [hed]
    simp [List.getElem?_eq_getElem (show A x < es.length by omega)]
  have ha : a = (List.range N).map A := by
    apply List.ext_getElem (by simp [p2.length])
    intro i h1 h2
    rw [p2.length] at h1
    have := (hAx i h1).1
    rw [List.getElem?_eq_getElem (by rw [p2.length]; exact h1)] at this
    simpa using Option.some.inj this
  have hpull : ∀ {β : Type} (D : Nat → β), Perm.pullBack nd a ((List.range N).map D) = .ok ((List.range N).map fun x => D (A x)) := by
    intro β D
    obtain ⟨rr, h1, h2, h3⟩ := C26_pullBack nd p2 ((List.range N).map D) (by simp)
    rw [h1]
    congr 1
    apply List.ext_getElem? ; intro i
    rw [h3]
    by_cases hi : i < N
    · obtain ⟨q1, q2, q3⟩ := hAx i hi
      rw [q1]
      simp [hi, q2]
    · rw [List.getElem?_eq_none (by rw [p2.length]; omega)]
      simp [hi]
  set RN : Fields → Fields := fun t => ⟨A1 t.cross, if t.cayley = undefKGB then undefKGB else A1 t.cayley, t.inv1, t.inv2⟩ with hRN
  have hF : ∀ s : Fin n, ∀ x, x < N → FOK es s (e x) (C s (A x)) := fun s x hx => (hall _ _ (he x hx)).1 s
  have hidx : ∀ {i b}, es[i]? = some b → i < N := by
    intro i b h
    have := (List.getElem?_eq_some_iff.1 h).1
    omega
  have hcay : ∀ s : Fin n, ∀ x, x < N → (C s (A x)).cayley = undefKGB ∨ (C s (A x)).cayley < N := by
    intro s x hx
    by_cases hn : NC s (e x)
    · exact .inr (hidx ((hF s x hx).2.1 hn))
    · exact .inl ((hF s x hx).2.2.1 hn)
  have hperm : permuteData nd a a1 (grid n N C) = .ok (grid n N fun s x => RN (C s (A x))) := by
    unfold grid
    refine permuteData_ok nd a a1 RN (fun D x => D (A x)) (fun D => hpull D) C _ ?_
    intro s hs
    rw [List.mem_range] at hs
    rw [renumberLoop_ok a1 RN]
    · rw [List.map_map]; rfl
    · intro t ht
      obtain ⟨x, hx, rfl⟩ := List.mem_map.1 ht
      rw [List.mem_range] at hx
      have h1 := hF ⟨s, hs⟩ x hx
      refine ⟨(hA1x _ (hidx h1.1)).1, fun hc => ?_, fun hc => ?_, rfl, rfl⟩
      · have := hcay ⟨s, hs⟩ x hx
        rw [hRN]
        simp only [if_neg hc]
        exact (hA1x _ (this.resolve_left hc)).1
      · rw [hRN]; simp only [if_pos hc]
  have htor : torusLoop c (stOf n ψ es C I).pool a = .ok ((List.range N).map fun x => c.T.leftTorusPart (ψ (e x))) := by
    rw [torusLoop_ok c _ (fun y => ψ ((es[y]?).getD 1))]
    · rw [ha, List.map_map]; rfl
    · intro y hy
      have hy : y < N := p2.mem.1 hy
      show (es.map ψ)[y]? = _
      rw [List.getElem?_map, List.getElem?_eq_getElem (by omega)]; rfl
  have hinv := invLoop_ok hN (fun s x => RN (C s (A x))) (fun s x hs hx => by
      rcases hcay ⟨s, hs⟩ x hx with h | h
      · left; rw [hRN]; simp only; rw [if_pos h]
      · right; rw [hRN]; simp only
        rw [if_neg (by unfold undefKGB; show (C s (A x)).cayley ≠ _; have : (C s (A x)).cayley < N := h; omega)]
        exact (hA1x _ h).2.1) N 0 (by omega)
  have h0 : (grid n N fun t y => fillF (pre (fun s x => RN (C s (A x))) t y 0) (RN (C t (A y)))) = grid n N fun s x => RN (C s (A x)) := by
    simp [pre, fillF]
  beta_reduce at hinv
  rw [h0] at hinv
  have hmono : ∀ x y, x ≤ y → y < N → lc π φ it L (e x) ≤ lc π φ it L (e y) := by
    intro x y hxy hy
    by_cases exy : x = y
    · rw [exy]
    · have hx : x < N := by omega
      have := (s3 (A x) (A y) (lc π φ it L (e x)) (lc π φ it L (e y)) x y (by rw [List.getElem?_map, he x hx]; rfl)
        (by rw [List.getElem?_map, he y hy]; rfl) (hAx x hx).2.2 (hAx y hy).2.2).1 (by omega)
      omega
  have hes : es = (List.range N).map fun y => (es[y]?).getD 1 := by
    apply List.ext_getElem (by simp [hlen])
    intro i h1 h2
    simp [h1]
  have hpes : ((List.range N).map e).Perm es := by
    have h1 : (List.range N).map e = a.map fun y => (es[y]?).getD 1 := by rw [ha, List.map_map]; rfl
    rw [h1]
    conv => rhs; rw [hes]
    exact List.Perm.map _ p2
  refine ⟨L, loc, fot, e, fun s x => RN (C s (A x)), fun x => I (A x), ?_, ?_⟩
  · unfold KGB.finish
    rw [l1, Res.ok_bind, m1, Res.ok_bind, if_pos (by simp [stOf, hlen]), hinvs, Res.ok_bind, s1, Res.ok_bind]
    simp only []
    rw [p1, Res.ok_bind]
    have hd : (stOf n ψ es C I).data = grid n N C := by rw [← hlen]; rfl
    have hi : (stOf n ψ es C I).info = (List.range N).map I := by rw [← hlen]; rfl
    rw [hd, hi, hperm, Res.ok_bind, hpull, Res.ok_bind, htor, Res.ok_bind, hinv, Res.ok_bind, Res.pure_eq]
  · refine ⟨l2, l3, m2, fun j m h => by rw [m3 j m h, Nat.zero_add], fun m h1 h2 => by rw [m4 m h2]; simp [h1], ?_, ?_, ?_, ?_, ?_, hmono, s4, ?_⟩
    · intro x hx; exact List.mem_of_getElem? (he x hx)
    · intro x y hx hy exy
      have h1 := he x hx
      have h2 := he y hy
      obtain ⟨q1, q2⟩ := List.getElem?_eq_some_iff.1 h1
      obtain ⟨q3, q4⟩ := List.getElem?_eq_some_iff.1 h2
      have h3 : A x = A y := (hok.1.getElem_inj_iff).1 (by rw [q2, q4, exy])
      have h4 := (hAx x hx).2.2
      have h5 := (hAx y hy).2.2
      rw [h3] at h4
      rw [h4] at h5
      exact Option.some.inj h5
    · intro b hb
      obtain ⟨i, hi⟩ := List.mem_iff_getElem?.1 hb
      obtain ⟨q1, q2, q3, q4⟩ := hA1x i (hidx hi)
      refine ⟨A1 i, q2, ?_⟩
      have := he _ q2
      rw [q4, hi] at this
      exact (Option.some.inj this).symm
    · intro x hx s
      have h1 := hF s x hx
      have key : ∀ {i b}, es[i]? = some b → A1 i < N ∧ e (A1 i) = b := by
        intro i b h
        obtain ⟨q1, q2, q3, q4⟩ := hA1x i (hidx h)
        refine ⟨q2, ?_⟩
        have := he _ q2
        rw [q4, h] at this
        exact (Option.some.inj this).symm
      refine ⟨key h1.1, fun hn => ?_, fun hn => ?_, h1.2.2.2.1, h1.2.2.2.2⟩
      · have h2 := h1.2.1 hn
        have := hidx h2
        rw [hRN]
        simp only []
        rw [if_neg (by unfold undefKGB; omega)]
        exact key h2
      · rw [hRN]
        simp only []
        rw [if_pos (h1.2.2.1 hn)]
    · intro x hx
      exact (hall _ _ (he x hx)).2
    · intro k hk
      refine ⟨_, s5 k hk, ?_, ?_⟩
      · have := List.countP_le_length (p := fun x => decide (x < k)) (l := es.map (lc π φ it L))
        rw [List.length_map, hlen] at this
        exact this
      · intro x hx
        have h1 := (hpes.map (lc π φ it L)).countP_eq (fun x => decide (x < k))
        rw [← h1, List.map_map, List.countP_map]
        rw [countP_range _ N (by
          intro x y hxy hy h
          simp only [Function.comp, decide_eq_true_eq] at h ⊢
          have := hmono x y hxy hy
          omega) x hx]
        simp

end Verif.KGB
