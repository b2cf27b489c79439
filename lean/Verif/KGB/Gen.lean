import Verif.KGB.Spec
import Verif.Tits.Laws
import Verif.Weyl.Iface
import Verif.BitSet.Props2
/-
Lemmas on strong involutions used for the set `K\G/B`: reduced elements, status of simple roots.
-/
namespace Verif.KGB
open Verif Verif.F2 Verif.Weyl Verif.Tits Verif.Coxeter CoxeterSystem Verif.BitSet
set_option linter.unusedSectionVars false

/-! ### status words -/

/-- the word holds the values `V j` -/
def StRep (st : B2) (V : Nat → Nat) : Prop :=
  ∃ S, Rep2 st S ∧ ∀ j, j < 32 → V j < 4 ∧ (2 * j ∈ S ↔ V j % 2 = 1) ∧ (2 * j + 1 ∈ S ↔ 2 ≤ V j)

theorem stRep_zero : StRep ⟨0, 0⟩ fun _ => 0 := ⟨∅, rep2_zero, fun j _ => by simp⟩

theorem statusSet_rep {st : B2} {V : Nat → Nat} (h : StRep st V) {j v : Nat} (hj : j < 32) (hv : v < 4) (h0 : V j = 0) :
    StRep (statusSet st j v) (Function.update V j v) := by
  obtain ⟨S, h1, h2⟩ := h
  obtain ⟨T, hT, hT2⟩ : ∃ T, Rep2 (B2.ofWide v) T ∧ ∀ i, i ∈ T ↔ v.testBit i = true := by
    have hv' : v = 0 ∨ v = 1 ∨ v = 2 ∨ v = 3 := by omega
    have hb : (B2.ofWide v).lo = v ∧ (B2.ofWide v).hi = 0 := by rcases hv' with rfl | rfl | rfl | rfl <;> decide
    obtain ⟨T, hT⟩ := C22_two_rep (a := B2.ofWide v) (by rw [hb.1]; omega) (by rw [hb.2]; omega)
    refine ⟨T, hT, fun i => ?_⟩
    have e := hT.bits i
    unfold B2.bit at e
    rw [hb.1, hb.2] at e
    by_cases hi : i < 32
    · rw [if_pos hi] at e
      rw [e]; simp
    · have : v.testBit i = false := Nat.testBit_lt_two_pow (lt_of_lt_of_le (show v < 2 ^ 2 by omega) (Nat.pow_le_pow_right (by omega) (by omega)))
      rw [if_neg hi] at e
      simp at e
      rw [this]; simp [e]
  refine ⟨_, C22_two_or h1 (C22_two_shl hT (2 * j)), fun i hi => ?_⟩
  obtain ⟨k1, k2, k3⟩ := h2 i hi
  have b0 : v.testBit 0 = true ↔ v % 2 = 1 := by rw [Nat.testBit_zero]; simp
  have b1 : v.testBit 1 = true ↔ 2 ≤ v := by
    have hv' : v = 0 ∨ v = 1 ∨ v = 2 ∨ v = 3 := by omega
    rcases hv' with rfl | rfl | rfl | rfl <;> decide
  have hbig : ∀ i, 2 ≤ i → v.testBit i = false := fun i hi =>
    Nat.testBit_lt_two_pow (lt_of_lt_of_le (show v < 2 ^ 2 by omega) (Nat.pow_le_pow_right (by omega) hi))
  simp only [Finset.mem_union, Finset.mem_filter, Finset.mem_image]
  by_cases e : i = j
  · subst e
    rw [Function.update_self]
    rw [h0] at k2 k3
    refine ⟨hv, ?_, ?_⟩
    · constructor
      · rintro (c | ⟨⟨t, ht, e⟩, -⟩)
        · have := k2.1 c; omega
        · obtain rfl : t = 0 := by omega
          exact b0.1 ((hT2 0).1 ht)
      · intro c
        exact .inr ⟨⟨0, (hT2 0).2 (b0.2 c), by omega⟩, by omega⟩
    · constructor
      · rintro (c | ⟨⟨t, ht, e⟩, -⟩)
        · have := k3.1 c; omega
        · obtain rfl : t = 1 := by omega
          exact b1.1 ((hT2 1).1 ht)
      · intro c
        exact .inr ⟨⟨1, (hT2 1).2 (b1.2 c), by omega⟩, by omega⟩
  · rw [Function.update_of_ne e]
    refine ⟨k1, ?_, ?_⟩
    · rw [← k2]
      constructor
      · rintro (c | ⟨⟨t, ht, e'⟩, -⟩)
        · exact c
        · have : t < 2 := by
            by_contra h2
            have := (hT2 t).1 ht
            rw [hbig t (by omega)] at this; cases this
          omega
      · exact .inl
    · rw [← k3]
      constructor
      · rintro (c | ⟨⟨t, ht, e'⟩, -⟩)
        · exact c
        · have : t < 2 := by
            by_contra h2
            have := (hT2 t).1 ht
            rw [hbig t (by omega)] at this; cases this
          omega
      · exact .inl

theorem statusGet_rep {st : B2} {V : Nat → Nat} (h : StRep st V) {j : Nat} (hj : j < 32) : statusGet st j = .ok (V j) := by
  obtain ⟨S, h1, h2⟩ := h
  obtain ⟨k1, k2, k3⟩ := h2 j hj
  unfold statusGet
  rw [C22_two_test h1 (by omega), Res.ok_bind, C22_two_test h1 (by omega), Res.ok_bind]
  by_cases c1 : V j % 2 = 1 <;> by_cases c2 : 2 ≤ V j
  · rw [decide_eq_true (k2.2 c1), decide_eq_true (k3.2 c2)]
    show Res.ok (1 + 2) = _
    congr 1; omega
  · rw [decide_eq_true (k2.2 c1), decide_eq_false (fun c => c2 (k3.1 c))]
    show Res.ok 1 = _
    congr 1; omega
  · rw [decide_eq_false (fun c => c1 (k2.1 c)), decide_eq_true (k3.2 c2)]
    show Res.ok (0 + 2) = _
    congr 1; omega
  · rw [decide_eq_false (fun c => c1 (k2.1 c)), decide_eq_false (fun c => c2 (k3.1 c))]
    show Res.ok 0 = _
    congr 1; omega

theorem statusIsComplex_rep {st : B2} {V : Nat → Nat} (h : StRep st V) {j : Nat} (hj : j < 32) : statusIsComplex st j = .ok (decide (V j = 0)) := by
  obtain ⟨S, h1, h2⟩ := h
  obtain ⟨k1, k2, k3⟩ := h2 j hj
  unfold statusIsComplex
  rw [C22_two_test h1 (by omega), Res.ok_bind]
  by_cases c1 : V j % 2 = 1
  · rw [decide_eq_true (k2.2 c1), if_pos rfl, decide_eq_false (by omega)]; rfl
  · rw [decide_eq_false (fun c => c1 (k2.1 c)), if_neg (by simp), C22_two_test h1 (by omega), Res.ok_bind]
    by_cases c2 : 2 ≤ V j
    · rw [decide_eq_true (k3.2 c2), decide_eq_false (by omega)]; rfl
    · rw [decide_eq_false (fun c => c2 (k3.1 c)), decide_eq_true (by omega)]; rfl

/-! ### strong involutions -/

variable {n r : Nat} {Mx : CoxeterMatrix (Fin n)} {G : Type} [Group G]
variable {cs : CoxeterSystem Mx G} {α αv : Fin n → Fin r → Int} {ρ : G →* Module.End ℤ (Fin r → Int)} {δ : Matrix (Fin r) (Fin r) Int} {f : Fin n → Fin n}
variable {𝒯 : Type} [Group 𝒯] {ι : (Fin r → ZMod 2) → 𝒯} {σ : Fin n → 𝒯} {π : 𝒯 →* G} {g : Fin n → Bool} {τ : 𝒯 →* 𝒯} {ψ : 𝒯 → TE}
variable {nd : Bool} {c : TC} {φ : G → List Nat} {it : ITab} {θ : G →* G} {seeds : List 𝒯}

variable (nd cs c φ f α αv δ g ρ ι σ π τ ψ) in
/-- what is known of the based Tits group -/
structure Ctx : Prop where
  rank : n ≤ 32
  hT : IsTits cs α αv ι σ π
  hI : ImplementsTits nd cs c.T φ f α αv δ ι σ π ψ
  hW : Implements nd cs c.T.tw.W φ
  hB : IsBase f αv δ g ι σ τ
  hL : CosetLaws cs f α αv δ ρ ι σ π τ
  hC : ImplementsCoset nd cs c f α αv δ g ρ ι σ π τ ψ

section
variable (H : Ctx cs α αv ρ δ f ι σ π g τ ψ nd c φ)
include H

local notation "E" => Eqv ρ δ ι π
local notation "R" => Reach cs f α δ g ρ ι σ π τ seeds
local notation "NC" => Noncompact cs f α g ι σ π

theorem Ctx.pi_cross (s : Fin n) (a : 𝒯) : π (σ s * a * (τ (σ s))⁻¹) = cs.simple s * π a * cs.simple (f s) := by
  rw [map_mul, map_mul, H.hT.proj_sigma, map_inv, H.hB.sigma, map_mul, pi_io H.hT, one_mul, H.hT.proj_sigma, cs.inv_simple]

theorem Ctx.grading (s : Fin n) (a : 𝒯) : ∃ b, c.simpleGrading (ψ a) s = .ok b ∧ (Imaginary cs f s (π a) → (b = true ↔ NC s a)) := by
  obtain ⟨b, h1, h2, h3, h4⟩ := H.hC.grading a s
  refine ⟨b, h1, fun hi => ?_⟩
  have key : ∀ x l, cs.IsReduced l → a = ι x * (l.map σ).prod → b = (g s ^^ decide (∑ i, mod2 (α s) i * x i = 1)) := by
    intro x l hl e
    obtain ⟨b', k1, -, k3, -⟩ := H.hC.grading (l.map σ).prod s
    rw [H.hC.grading_lift l s hl] at k1
    have := k3 x
    rw [← e, h1, ← Res.ok.inj k1] at this
    exact Res.ok.inj this
  constructor
  · intro hb
    obtain ⟨l, hl1, hl2⟩ := cs.exists_isReduced (π a)
    obtain ⟨x, hx⟩ := decomp H.hT a hl2.symm
    exact ⟨hi, x, l, hl1, hx, by rw [← key x l hl1 hx]; exact hb⟩
  · rintro ⟨-, x, l, hl, hx, e⟩
    rw [key x l hl hx]; exact e

theorem Ctx.nc_grading {s : Fin n} {a : 𝒯} (h : NC s a) : c.simpleGrading (ψ a) s = .ok true := by
  obtain ⟨b, h1, h2⟩ := H.grading s a
  rw [h1, (h2 h.1).2 h]

theorem Ctx.nc_conj {s : Fin n} {a : 𝒯} (h : NC s a) : σ s * a * (τ (σ s))⁻¹ = ι (mod2 (αv s)) * a := by
  obtain ⟨b, h1, h2, -⟩ := H.hC.grading a s
  rw [H.nc_grading h] at h1
  have := h2 h.1
  rwa [← Res.ok.inj h1, if_pos rfl] at this

theorem Ctx.nc_eqv {s : Fin n} {a b : 𝒯} (e : E a b) (h : NC s a) : NC s b := by
  obtain ⟨q, h1, -, -, h4⟩ := H.hC.grading a s
  rw [H.nc_grading h] at h1
  have hb := h4 b h.1 e
  rw [← Res.ok.inj h1] at hb
  obtain ⟨q', k1, k2⟩ := H.grading s b
  rw [hb] at k1
  exact (k2 (by rw [e.pi H.hT]; exact h.1)).1 (Res.ok.inj k1).symm

/-- conjugation twice by the same generator -/
theorem Ctx.cross_cross (s : Fin n) {a : 𝒯} (ha : a * τ a = 1) : E (σ s * (σ s * a * (τ (σ s))⁻¹) * (τ (σ s))⁻¹) a := by
  have h := H.hL.conj_weyl a (σ s * σ s) 1 ha (by rw [map_mul, H.hT.proj_sigma, cs.simple_mul_simple_self, map_one])
  rw [map_one, inv_one, mul_one, one_mul, map_mul, mul_inv_rev] at h
  refine cast (congrArg (fun z => E z a) ?_) h
  group

theorem Ctx.nc_cross {s : Fin n} {a : 𝒯} (h : NC s a) (ha : a * τ a = 1) : NC s (σ s * a * (τ (σ s))⁻¹) := by
  have hpi : π (σ s * a * (τ (σ s))⁻¹) = π a := by
    rw [H.pi_cross, h.1.1, mul_assoc, cs.simple_mul_simple_self, mul_one]
  obtain ⟨q, k1, k2⟩ := H.grading s (σ s * a * (τ (σ s))⁻¹)
  refine (k2 (by rw [hpi]; exact h.1)).1 ?_
  obtain ⟨b, h1, -, h3, -⟩ := H.hC.grading a s
  rw [H.nc_grading h] at h1
  have h3 := h3 (mod2 (αv s))
  rw [← H.nc_conj h, k1, ← Res.ok.inj h1] at h3
  rw [Res.ok.inj h3]
  have hz : ¬ ∑ i, mod2 (α s) i * mod2 (αv s) i = 1 := by
    intro e
    have h5 := H.hT.conj s (mod2 (αv s))
    rw [e, one_smul, ← H.hT.square, show σ s * (σ s * σ s) * (σ s)⁻¹ = σ s * σ s by group] at h5
    have h6 : ι (mod2 (αv s) + mod2 (αv s)) = 1 := by
      rw [H.hT.torus_mul, io_sq H.hT]
    rw [h6] at h5
    have h7 : mod2 (αv s) = 0 := H.hT.torus_injective (by rw [← H.hT.square, h5, io_zero H.hT])
    rw [h7] at e
    simp at e
  simp [hz]

/-- the elements with the same Cayley transform -/
theorem Ctx.cayley_fibre {s : Fin n} {a b : 𝒯} (ha : NC s a) (hb : NC s b) (va : a * τ a = 1) (vb : b * τ b = 1)
    (hV : ∃ V, IsModSpace ρ δ (π (σ s * a)) V) (e : E (σ s * a) (σ s * b)) : E a b ∨ E (σ s * a * (τ (σ s))⁻¹) b := by
  obtain ⟨V, hV⟩ := hV
  obtain ⟨d, h1, h2⟩ := H.hC.inverseCayley (σ s * a) a s V ha.1 (H.nc_grading ha) (H.hL.refl _) hV
  obtain ⟨d', h3, h4⟩ := H.hC.inverseCayley (σ s * a) b s V hb.1 (H.nc_grading hb) (H.hL.symm _ _ e) hV
  rw [h1] at h3
  obtain rfl := H.hI.injective (Res.ok.inj h3)
  have T := fun {x y z} => H.hL.trans x y z
  have S := fun {x y} => H.hL.symm x y
  rcases h2 with h2 | h2 <;> rcases h4 with h4 | h4
  · exact .inl (T h2 (S h4))
  · right
    exact T (H.hL.conj_eqv _ _ _ (T h2 (S h4))) (H.cross_cross s vb)
  · exact .inr (T h2 (S h4))
  · left
    exact T (S (H.cross_cross s va)) (T (H.hL.conj_eqv _ _ _ (T h2 (S h4))) (H.cross_cross s vb))

theorem Ctx.cayley_cross {s : Fin n} {a : 𝒯} (ha : NC s a) : E (σ s * a) (σ s * (σ s * a * (τ (σ s))⁻¹)) := H.hL.cayley_cross a s ha.1

theorem Ctx.real_cross {s : Fin n} {a : 𝒯} (hr : Real cs f s (π a)) : E a (σ s * a * (τ (σ s))⁻¹) := by
  have hi : Imaginary cs f s (π ((σ s)⁻¹ * a)) := by
    rw [map_mul, map_inv, H.hT.proj_sigma, cs.inv_simple]
    refine ⟨?_, by rw [cs.simple_mul_simple_cancel_left]; exact hr.2⟩
    rw [hr.1, mul_assoc, cs.simple_mul_simple_self, mul_one, ← hr.1, cs.simple_mul_simple_cancel_left]
  have := H.hL.cayley_cross _ s hi
  refine cast (congrArg₂ E ?_ ?_) this
  · group
  · group

theorem Ctx.valid (hs : ∀ a ∈ seeds, a * τ a = 1) {a : 𝒯} (ha : R a) : a * τ a = 1 := by
  induction ha with
  | seed h => exact hs _ h
  | eqv _ e ih => exact H.hL.valid _ _ e ih
  | cross s _ ih => exact H.hL.conj_valid _ _ ih
  | cayley s _ hn ih => exact H.hL.cayley_valid _ s hn.1 (H.nc_conj hn) ih

/-! ### reduction by the table -/

variable (hit : IsInvTable cs θ φ δ ρ it)
include hit

theorem nr_ok {w : G} (hw : φ w ∈ it.pool) : it.nr (φ w) < it.pool.length ∧ it.pool[it.nr (φ w)]? = some (φ w) ∧
    ∃ Rc, it.recs[it.nr (φ w)]? = some Rc := by
  have h1 : it.pool.idxOf (φ w) < it.pool.length := List.idxOf_lt_length_iff.2 hw
  unfold ITab.nr
  rw [if_pos h1]
  refine ⟨h1, ?_, ?_⟩
  · rw [List.getElem?_eq_getElem h1, List.getElem_idxOf]
  · exact ⟨_, List.getElem?_eq_getElem (by rw [hit.length]; exact h1)⟩

theorem nr_iff {w : G} : φ w ∈ it.pool ↔ it.nr (φ w) ≠ undefKGB := by
  constructor
  · intro h
    have := (nr_ok H hit h).1
    have := hit.small
    unfold undefKGB
    omega
  · intro h
    by_contra hw
    apply h
    unfold ITab.nr
    rw [if_neg (by rw [List.idxOf_lt_length_iff]; exact hw)]

theorem record_ok {i : Nat} {Rc : IRec} (h : it.recs[i]? = some Rc) : it.record nd i = .ok Rc := by
  obtain ⟨hi, e⟩ := List.getElem?_eq_some_iff.1 h
  unfold ITab.record
  rw [Res.assertIn_bind nd (decide_eq_true (by rw [← hit.length]; exact hi)), Vec.get, h]

theorem involution_ok {i : Nat} {x : List Nat} (h : it.pool[i]? = some x) : it.involution nd i = .ok x := by
  obtain ⟨hi, e⟩ := List.getElem?_eq_some_iff.1 h
  unfold ITab.involution
  rw [Res.assertIn_bind nd (decide_eq_true hi), Vec.get, h]

theorem reduce_ok (a : 𝒯) (ha : φ (π a) ∈ it.pool) : ∃ a', it.reduce nd (ψ a) = .ok (ψ a') ∧ E a a' ∧
    ∀ b, π b = π a → (E a b ↔ it.reduce nd (ψ b) = .ok (ψ a')) := by
  obtain ⟨h1, h2, Rc, h3⟩ := nr_ok H hit ha
  have hV := hit.modSpace _ _ _ h2 h3
  obtain ⟨a', k1, k2, k3⟩ := H.hC.reduce a _ hV
  have key : ∀ b, π b = π a → it.reduce nd (ψ b) = (ψ b).reduce nd Rc.modSpace := by
    intro b hb
    unfold ITab.reduce
    rw [H.hI.weyl, hb, record_ok H hit h3, Res.ok_bind]
  exact ⟨a', by rw [key a rfl]; exact k1, k2, fun b hb => by rw [key b hb]; exact k3 b hb⟩

/-- reduced elements -/
theorem exists_nf : ∃ nf : 𝒯 → 𝒯, ∀ a, φ (π a) ∈ it.pool → it.reduce nd (ψ a) = .ok (ψ (nf a)) ∧ E a (nf a) ∧
    ∀ b, φ (π b) ∈ it.pool → (E a b ↔ nf a = nf b) := by
  classical
  refine ⟨fun a => if h : φ (π a) ∈ it.pool then (reduce_ok H hit a h).choose else a, fun a ha => ?_⟩
  simp only [dif_pos ha]
  have h1 := (reduce_ok H hit a ha).choose_spec
  refine ⟨h1.1, h1.2.1, fun b hb => ?_⟩
  rw [dif_pos hb]
  have h2 := (reduce_ok H hit b hb).choose_spec
  constructor
  · intro e
    have := (h1.2.2 b (e.pi H.hT)).1 e
    rw [h2.1] at this
    exact (H.hI.injective (Res.ok.inj this)).symm
  · intro e
    have h3 : π b = π a := by rw [← h1.2.1.pi H.hT, ← h2.2.1.pi H.hT, e]
    rw [h1.2.2 b h3, h2.1, e]

end

end Verif.KGB
