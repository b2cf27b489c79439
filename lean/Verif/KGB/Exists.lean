import Verif.KGB.Props
import Verif.Tits.CosetProps
/-
C68 for root data: there is a table of all twisted involutions, and the generation of `K\G/B` terminates for any seeds.
-/
namespace Verif.KGB
open Verif Verif.F2 Verif.Weyl Verif.Tits Verif.Coxeter CoxeterSystem Verif.BitSet Verif.Perm
open Matrix

variable {n r : Nat} {Mx : CoxeterMatrix (Fin n)} {G : Type} [Group G]
variable {cs : CoxeterSystem Mx G} {α αv : Fin n → Fin r → Int} {ρ : G →* Module.End ℤ (Fin r → Int)} {δ : Matrix (Fin r) (Fin r) Int} {f : Fin n → Fin n}
variable {𝒯 : Type} [Group 𝒯] {ι : (Fin r → ZMod 2) → 𝒯} {σ : Fin n → 𝒯} {π : 𝒯 →* G} {g : Fin n → Bool} {τ : 𝒯 →* 𝒯} {ψ : 𝒯 → TE}
variable {nd : Bool} {c : TC} {φ : G → List Nat} {θ : G →* G} {seeds : List 𝒯}

theorem redExpr_le (hθ : IsTwist cs f θ) {l : List (Fin n × Bool)} {w : G} (h : RedExpr cs θ l w) : l.length ≤ cs.length w := by
  induction h with
  | nil => simp
  | mul _ _ h ih => simp only [List.length_cons]; omega
  | @conj l w s h1 h2 h3 ih =>
    have hti := h1.isTI hθ
    have hc := (commutation_iff hθ hti s).not.mpr h2
    have hd := hti.descent hθ s
    have n3 := cs.length_simple_mul (w * θ (cs.simple s)) s
    rw [mul_assoc, List.length_cons]
    by_contra hne
    apply hc
    constructor <;> omega

/-- a matrix for the involution of the coweights -/
theorem exists_matrix (w : G) : ∃ Θ : Matrix (Fin r) (Fin r) Int, ∀ v, v ᵥ* Θ = inv ρ δ w v := by
  refine ⟨Matrix.of fun i => inv ρ δ w (Pi.single i 1), fun v => ?_⟩
  have hL : ∀ v, inv ρ δ w v = ((ρ w).comp (Matrix.mulVecLin δᵀ)) v := fun v => rfl
  rw [hL]
  funext k
  conv_rhs => rw [← Finset.univ_sum_single v]
  rw [map_sum, Finset.sum_apply]
  show ∑ i, v i * inv ρ δ w (Pi.single i 1) k = _
  refine Finset.sum_congr rfl fun i _ => ?_
  rw [hL, show (Pi.single i (v i) : Fin r → Int) = v i • Pi.single i 1 from by rw [← Pi.single_smul]; simp, map_smul, Pi.smul_apply, smul_eq_mul]

/-- a table of all twisted involutions -/
theorem exists_table (nd : Bool) (hr : r ≤ 32) (hθ : IsTwist cs f θ) (hφ : Function.Injective φ) [Finite G] (hcard : Nat.card G < 2 ^ 32 - 1)
    (hlen : ∀ w, cs.length w < 2 ^ 31) : ∃ it : ITab, IsInvTable cs θ φ δ ρ it ∧ ∀ w, IsTI θ w → φ w ∈ it.pool := by
  classical
  have := Fintype.ofFinite G
  have hV : ∀ w : G, ∃ V, IsModSpace ρ δ w V := fun w => by
    obtain ⟨Θ, h⟩ := exists_matrix (ρ := ρ) (δ := δ) w
    obtain ⟨V, -, h⟩ := C67_fiberDenom nd hr Θ h
    exact ⟨V, h⟩
  choose V hV using hV
  have hE : ∀ w : G, ∃ l, IsTI θ w → RedExpr cs θ l w := fun w => by
    by_cases h : IsTI θ w
    · obtain ⟨l, h⟩ := exists_redExpr hθ w h
      exact ⟨l, fun _ => h⟩
    · exact ⟨[], fun h' => absurd h' h⟩
  choose E hE using hE
  let ws := (Finset.univ.filter fun w => IsTI θ w).toList
  have hws : ∀ w, w ∈ ws ↔ IsTI θ w := fun w => by simp [ws]
  have hget : ∀ (i : Nat) w R, (ws.map φ)[i]? = some (φ w) → (ws.map fun w => (⟨V w, (E w).length, cs.length w⟩ : IRec))[i]? = some R →
      IsTI θ w ∧ R = ⟨V w, (E w).length, cs.length w⟩ := by
    intro i w R h1 h2
    rw [List.getElem?_map, Option.map_eq_some_iff] at h1 h2
    obtain ⟨w1, p1, p2⟩ := h1
    obtain ⟨w2, q1, q2⟩ := h2
    rw [p1] at q1
    cases q1
    rw [← hφ p2]
    exact ⟨(hws _).1 (List.mem_of_getElem? p1), q2.symm⟩
  refine ⟨⟨ws.map φ, ws.map fun w => ⟨V w, (E w).length, cs.length w⟩⟩, ⟨?_, ?_, ?_, ?_, ?_, ?_, ?_⟩, fun w hw => List.mem_map_of_mem ((hws w).2 hw)⟩
  · exact (Finset.nodup_toList _).map hφ
  · simp
  · rw [List.length_map, Finset.length_toList]
    refine lt_of_le_of_lt (Finset.card_le_univ _) ?_
    rwa [← Nat.card_eq_fintype_card]
  · intro x hx
    obtain ⟨w, -, rfl⟩ := List.mem_map.1 hx
    exact ⟨w, rfl⟩
  · intro i w R h1 h2
    obtain ⟨-, rfl⟩ := hget i w R h1 h2
    exact hV w
  · intro i w R h1 h2
    obtain ⟨-, rfl⟩ := hget i w R h1 h2
    exact ⟨rfl, hlen w⟩
  · intro i w R h1 h2
    obtain ⟨hw, rfl⟩ := hget i w R h1 h2
    exact ⟨lt_of_le_of_lt (redExpr_le hθ (hE w hw)) (hlen w), E w, hE w hw, rfl⟩

theorem card_tits (hT : IsTits cs α αv ι σ π) [Finite G] : Finite 𝒯 ∧ Nat.card 𝒯 ≤ 2 ^ r * Nat.card G := by
  have hs : ∀ w : G, ∃ a, π a = w := fun w => by
    obtain ⟨l, rfl⟩ := cs.wordProd_surjective w
    induction l with
    | nil => exact ⟨1, by simp⟩
    | cons s l ih =>
      obtain ⟨a, ha⟩ := ih
      exact ⟨σ s * a, by rw [map_mul, hT.proj_sigma, ha, cs.wordProd_cons]⟩
  choose u hu using hs
  have hsurj : Function.Surjective fun p : (Fin r → ZMod 2) × G => ι p.1 * u p.2 := by
    intro a
    obtain ⟨x, hx⟩ := (hT.kernel (a * (u (π a))⁻¹)).1 (by rw [map_mul, map_inv, hu, mul_inv_cancel])
    exact ⟨(x, π a), by show ι x * u (π a) = a; rw [← hx, inv_mul_cancel_right]⟩
  refine ⟨Finite.of_surjective _ hsurj, (Nat.card_le_card_of_surjective _ hsurj).trans ?_⟩
  rw [Nat.card_prod, Nat.card_fun]
  simp

/-- a system of representatives in a finite set -/
theorem exists_system [Finite 𝒯] (R : 𝒯 → Prop) (E : 𝒯 → 𝒯 → Prop) (h1 : ∀ a, E a a) (h2 : ∀ a b, E a b → E b a) (h3 : ∀ a b c, E a b → E b c → E a c) :
    ∃ N e, IsSystem R E N e ∧ N ≤ Nat.card 𝒯 := by
  let S : Setoid {a // R a} := ⟨fun a b => E a b, fun a => h1 a, fun h => h2 _ _ h, fun h h' => h3 _ _ _ h h'⟩
  let Q := Quotient S
  have : Finite Q := inferInstance
  let eq := Finite.equivFin Q
  refine ⟨Nat.card Q, fun x => if h : x < Nat.card Q then ((eq.symm ⟨x, h⟩).out : {a // R a}).1 else 1, ⟨fun x hx => ?_, fun a ha => ?_⟩, ?_⟩
  · beta_reduce; rw [dif_pos hx]; exact Subtype.property _
  · refine ⟨eq (Quotient.mk S ⟨a, ha⟩), ⟨Fin.is_lt _, ?_⟩, fun y hy h => ?_⟩
    · beta_reduce
      rw [dif_pos (Fin.is_lt _)]
      have : Quotient.mk S ⟨a, ha⟩ = Quotient.mk S (Quotient.out (Quotient.mk S ⟨a, ha⟩)) := (Quotient.out_eq _).symm
      have h4 : E a (Quotient.out (Quotient.mk S ⟨a, ha⟩)).1 := Quotient.exact this
      simpa using h4
    · beta_reduce at h
      rw [dif_pos hy] at h
      have h4 : Quotient.mk S ⟨a, ha⟩ = Quotient.mk S (eq.symm ⟨y, hy⟩).out := Quotient.sound h
      rw [Quotient.out_eq] at h4
      rw [h4]; simp
  · refine (Nat.card_le_card_of_surjective (Quotient.mk S) Quotient.mk_surjective).trans ?_
    exact Nat.card_le_card_of_injective _ Subtype.val_injective

variable {C : Fin n → Fin n → Int}

/-- **C68** for root data.  With a table of all twisted involutions, the set is generated from any seeds that represent strong involutions. -/
theorem C68_rootDatum (nd : Bool) {comps : List Comp} (h : IsDynkin n C comps) (hd : ∀ s, C s s = 2) (hn : ∀ s t, s ≠ t → C s t ≤ 0)
    (hz : ∀ s t, C s t = 0 → C t s = 0) {f : Fin n → Fin n} (hf1 : ∀ s, f (f s) = s) (hf2 : ∀ s t, C (f s) (f t) = C s t)
    (cs : CoxeterSystem (coxMatrix C) G) (tw : List Nat) (ht : ∀ s : Fin n, tw[s.1]? = some (f s).1)
    (hr : r ≤ 32) (α αv : Fin n → Fin r → Int) (hp : ∀ s t, ∑ i, α s i * αv t i = C s t) (δ : Matrix (Fin r) (Fin r) Int)
    (h1 : δ * δ = 1) (h2 : ∀ s, δ *ᵥ α s = α (f s)) (h3 : ∀ s, αv s ᵥ* δ = αv (f s))
    (g : Fin n → Bool) (hg : ∀ s, g (f s) = g s) (grading : Nat) (hgr : ∀ s : Fin n, grading.testBit s = g s)
    (hcard : 2 ^ r * Nat.card G < 2 ^ 32 - 1) (hlen : ∀ w, cs.length w < 2 ^ 31) :
    ∃ W φ T θ, WG.make nd n comps = .ok W ∧ Implements nd cs W φ ∧ IsTwist cs f θ ∧
      TG.make nd ⟨W, tw⟩ r (List.ofFn fun s => List.ofFn (α s)) (List.ofFn fun s => List.ofFn (αv s)) (Mat.enc δ) = .ok T ∧
      ∃ (𝒯 : Type) (_ : Group 𝒯) (ι : (Fin r → ZMod 2) → 𝒯) (σ : Fin n → 𝒯) (π : 𝒯 →* G) (ψ : 𝒯 → TE)
        (ρ : G →* Module.End ℤ (Fin r → Int)) (τ : 𝒯 →* 𝒯) (it : ITab),
        IsTits cs α αv ι σ π ∧ ImplementsTits nd cs T φ f α αv δ ι σ π ψ ∧ IsLatticeAction cs α αv ρ ∧ IsBase f αv δ g ι σ τ ∧
        IsInvTable cs θ φ δ ρ it ∧ (∀ w, IsTI θ w → φ w ∈ it.pool) ∧
        ∀ seeds : List 𝒯, (∀ a ∈ seeds, a * τ a = 1) → (seeds.Pairwise fun a b => ¬ Eqv ρ δ ι π a b) → ∃ N k e,
          make nd ⟨T, grading⟩ it n N (seeds.map ψ) [(0, it.pool.length)] it.pool.length = .ok k ∧
          IsSystem (Reach cs f α δ g ρ ι σ π τ seeds) (Eqv ρ δ ι π) N e ∧ IsKGB nd cs ⟨T, grading⟩ it θ φ f α δ g ρ ι σ π τ ψ k N e := by
  obtain ⟨-, -, θ, -, -, hθ, -⟩ := C47_twisted nd h hd hn hz hf1 hf2 cs tw ht
  obtain ⟨W, φ, T, k1, k2, k3, 𝒯, _, ι, σ, π, ψ, ρ, τ, hT, hI, hρ, hB, hL, hC⟩ :=
    C67_titsCoset nd h hd hn hz hf1 hf2 cs tw ht hr α αv hp δ h1 h2 h3 g hg grading hgr
  obtain ⟨_⟩ := Implements.fintype k2
  have hW : Implements nd cs T.tw.W φ := by
    obtain ⟨T', e1, e2, -⟩ := make_ok nd ⟨W, tw⟩ hr α αv hp δ
    rw [e1] at k3
    cases k3
    rw [e2]; exact k2
  obtain ⟨it, hit, hall⟩ := exists_table (ρ := ρ) (δ := δ) nd hr hθ k2.injective (by
    have := Nat.one_le_two_pow (n := r)
    have : Nat.card G ≤ 2 ^ r * Nat.card G := Nat.le_mul_of_pos_left _ (by omega)
    omega) hlen
  obtain ⟨hfin, hcT⟩ := card_tits hT
  refine ⟨W, φ, T, θ, k1, k2, hθ, k3, 𝒯, inferInstance, ι, σ, π, ψ, ρ, τ, it, hT, hI, hρ, hB, hit, hall, fun seeds hv hp => ?_⟩
  obtain ⟨N, e0, hs, hN⟩ := exists_system (Reach cs f α δ g ρ ι σ π τ seeds) (Eqv ρ δ ι π) hL.refl hL.symm hL.trans
  have H : Ctx cs α αv ρ δ f ι σ π g τ ψ nd ⟨T, grading⟩ φ := ⟨h.rank_le, hT, hI, hW, hB, hL, hC⟩
  have ho : orbitNrs [(0, it.pool.length)] = List.range it.pool.length := by simp [orbitNrs, List.range_eq_range']
  obtain ⟨k, e, q⟩ := C68_kgb (c := ⟨T, grading⟩) h.rank_le hT hI hW hB hL hC hit hv hp (orbits := [(0, it.pool.length)]) (nInv := it.pool.length)
    (by rw [ho]; exact List.nodup_range) (by rw [ho]; simp) le_rfl (fun a ha => by
      have hva := H.valid hv ha
      have hti : IsTI θ (π a) := by
        have := congrArg π hva
        rw [map_mul, map_one, pi_tau hT hB hθ] at this
        exact eq_inv_of_mul_eq_one_right this
      obtain ⟨i, hi⟩ := List.mem_iff_getElem?.1 (hall _ hti)
      refine ⟨i, ?_, hi⟩
      rw [ho, List.mem_range]
      exact (List.getElem?_eq_some_iff.1 hi).1) ⟨e0, hs⟩ (by omega)
  exact ⟨N, k, e, q⟩

/-! ### an example: GL(5), with the automorphism that is minus the reversal of the coordinates -/

theorem exCard : Nat.card (coxMatrix exCA).Group = 120 ∧ ∀ w, (coxMatrix exCA).toCoxeterSystem.length w ≤ 10 := by
  obtain ⟨W, φ, hW, hI⟩ := C40_weylGroup false exDynkinA (coxMatrix exCA).toCoxeterSystem
  obtain ⟨z, z1, -, z3⟩ := hI.order
  obtain ⟨w0, -, q1, q2, -⟩ := hI.longest
  have e1 : (do let W ← WG.make false 4 exCompsA; let z ← W.order; pure (Size.val z)) = .ok 120 := by decide +kernel
  have e2 : (do let W ← WG.make false 4 exCompsA; W.maxLength) = .ok 10 := by decide +kernel
  rw [hW, Res.ok_bind, z1] at e1
  rw [hW, Res.ok_bind, q1] at e2
  have e1 : Size.val z = 120 := by injection e1
  have e2 := Res.ok.inj e2
  refine ⟨by rw [← z3, e1], fun w => ?_⟩
  by_cases hw : w = w0
  · rw [hw]; omega
  · have := q2 w hw; omega

/-- the hypotheses of `C68_rootDatum` are met, and so are those of `C68_kgb`, which is used to prove it; a seed is the base element -/
example : ∃ W T it N k, WG.make false 4 exCompsA = .ok W ∧
    TG.make false ⟨W, [3, 2, 1, 0]⟩ 5 (List.ofFn fun s => List.ofFn (exRoot s)) (List.ofFn fun s => List.ofFn (exRoot s)) (Mat.enc exDelta) = .ok T ∧
    make false ⟨T, 9⟩ it 4 N [T.one] [(0, it.pool.length)] it.pool.length = .ok k ∧ k.size = N := by
  obtain ⟨W, φ, T, θ, h1, -, -, h2, 𝒯, _, ι, σ, π, ψ, ρ, τ, it, -, hI, -, -, -, -, h3⟩ :=
    C68_rootDatum false exDynkinA (by decide) (by decide) (by decide) (f := exTwist) (by decide) (by decide)
      (coxMatrix exCA).toCoxeterSystem [3, 2, 1, 0] (by decide) (r := 5) (by decide) exRoot exRoot (by decide) exDelta (by decide) (by decide) (by decide)
      (fun s => s.1 == 0 || s.1 == 3) (by decide) 9 (by decide) (by rw [exCard.1]; decide) (fun w => by have := exCard.2 w; omega)
  obtain ⟨N, k, e, k1, -, k2⟩ := h3 [1] (by simp) (by simp)
  exact ⟨W, T, it, N, k, h1, h2, by rw [hI.one]; exact k1, k2.size⟩

end Verif.KGB
