import Verif.Coxeter.Geom
import Mathlib.Algebra.BigOperators.Ring.Finset
import Mathlib.Algebra.BigOperators.Pi
import Mathlib.Algebra.Order.BigOperators.Ring.Finset
import Mathlib.Data.Fintype.Card
import Mathlib.Tactic.LinearCombination
/-
Roots and coroots of a Coxeter group with a Cartan matrix: images of simple roots and simple coroots.  A root determines its coroot and
its reflection; positive roots that are not simple have descents; if the group is finite, roots form strings.
-/
namespace Verif.Coxeter
open CoxeterSystem

variable {B : Type} [Fintype B] [DecidableEq B] {M : CoxeterMatrix B} {W : Type} [Group W] (cs : CoxeterSystem M W) {C : B → B → ℤ} (h : IsCartan C M)

omit [Fintype B] [DecidableEq B] in
/-- the transposed matrix is a Cartan matrix with the same Coxeter matrix -/
theorem IsCartan.dual {C : B → B → ℤ} (h : IsCartan C M) : IsCartan (fun s t => C t s) M where
  diag := h.diag
  nonpos s t hst := h.nonpos t s (Ne.symm hst)
  zero s t e := h.zero t s e
  order s t hst := by
    have := h.order t s (Ne.symm hst)
    rw [M.symmetric s t]
    exact this

/-- pairing of the root lattice with the coroot lattice -/
def form (C : B → B → ℤ) (x y : B → ℤ) : ℤ := ∑ s, ∑ t, x s * C s t * y t

omit [DecidableEq B] in
theorem form_add_left (x y z : B → ℤ) : form C (x + y) z = form C x z + form C y z := by
  simp [form, add_mul, Finset.sum_add_distrib]
omit [DecidableEq B] in
theorem form_sub_left (x y z : B → ℤ) : form C (x - y) z = form C x z - form C y z := by
  simp [form, sub_mul, Finset.sum_sub_distrib]
omit [DecidableEq B] in
theorem form_smul_left (a : ℤ) (x z : B → ℤ) : form C (a • x) z = a * form C x z := by
  simp [form, mul_assoc, Finset.mul_sum]
omit [DecidableEq B] in
theorem form_sub_right (x y z : B → ℤ) : form C x (y - z) = form C x y - form C x z := by
  simp [form, mul_sub, Finset.sum_sub_distrib]
omit [DecidableEq B] in
theorem form_smul_right (a : ℤ) (x z : B → ℤ) : form C x (a • z) = a * form C x z := by
  unfold form
  rw [Finset.mul_sum]
  refine Finset.sum_congr rfl fun s _ => ?_
  rw [Finset.mul_sum]
  refine Finset.sum_congr rfl fun t _ => ?_
  simp only [Pi.smul_apply, smul_eq_mul]
  ring
omit [DecidableEq B] in
theorem form_neg_left (x z : B → ℤ) : form C (-x) z = -form C x z := by
  have := form_smul_left (C := C) (-1) x z
  simpa using this
omit [DecidableEq B] in
theorem form_neg_right (x z : B → ℤ) : form C x (-z) = -form C x z := by
  have := form_smul_right (C := C) (-1) x z
  simpa using this

theorem form_root_right (x : B → ℤ) (s : B) : form C x (root s) = pairing C s x := by
  unfold form
  show _ = ∑ i, x i * C i s
  refine Finset.sum_congr rfl fun i _ => ?_
  simp [root_apply]

omit [DecidableEq B] in
theorem form_swap (x y : B → ℤ) : form (fun s t => C t s) x y = form C y x := by
  unfold form
  rw [Finset.sum_comm]
  refine Finset.sum_congr rfl fun s _ => Finset.sum_congr rfl fun t _ => by ring

theorem form_root_left (x : B → ℤ) (s : B) : form C (root s) x = pairing (fun s t => C t s) s x := by
  rw [← form_root_right, form_swap]

theorem form_root_root (s t : B) : form C (root s) (root t) = C s t := by rw [form_root_right, pairing_root]

theorem form_expand (x y : B → ℤ) : form C x y = ∑ i, y i * pairing C i x := by
  unfold form
  rw [Finset.sum_comm]
  refine Finset.sum_congr rfl fun t _ => ?_
  show _ = y t * ∑ i, x i * C i t
  rw [Finset.mul_sum]
  refine Finset.sum_congr rfl fun s _ => by ring

/-- the pairing is invariant -/
theorem form_inv (w : W) (x y : B → ℤ) : form C (geom cs h w x) (geom cs h.dual w y) = form C x y := by
  obtain ⟨l, rfl⟩ := cs.wordProd_surjective w
  induction l generalizing x y with
  | nil => simp
  | cons s l ih =>
    rw [cs.wordProd_cons, geom_mul, geom_mul, geom_simple, geom_simple, srefl_apply, srefl_apply, ← form_root_right, ← form_root_left]
    rw [form_sub_left, form_sub_right, form_sub_right, form_smul_left, form_smul_left, form_smul_right, form_smul_right, form_root_root, h.diag, ih]
    ring

/-- `β` is a root, `β'` its coroot and `t` its reflection -/
def IsRoot (β β' : B → ℤ) (t : W) : Prop :=
  ∃ w s, β = geom cs h w (root s) ∧ β' = geom cs h.dual w (root s) ∧ t = w * cs.simple s * w⁻¹

variable {cs h}

theorem IsRoot.dual {β β' : B → ℤ} {t : W} (hr : IsRoot cs h β β' t) : IsRoot cs h.dual β' β t := by
  obtain ⟨w, s, h1, h2, h3⟩ := hr
  exact ⟨w, s, h2, h1, h3⟩

theorem isRoot_simple (s : B) : IsRoot cs h (root s) (root s) (cs.simple s) := ⟨1, s, by simp, by simp, by simp⟩

theorem IsRoot.act {β β' : B → ℤ} {t : W} (hr : IsRoot cs h β β' t) (u : W) :
    IsRoot cs h (geom cs h u β) (geom cs h.dual u β') (u * t * u⁻¹) := by
  obtain ⟨w, s, rfl, rfl, rfl⟩ := hr
  refine ⟨u * w, s, (geom_mul cs h u w _).symm, (geom_mul cs h.dual u w _).symm, ?_⟩
  rw [mul_inv_rev]
  simp only [mul_assoc]

theorem IsRoot.neg {β β' : B → ℤ} {t : W} (hr : IsRoot cs h β β' t) : IsRoot cs h (-β) (-β') t := by
  obtain ⟨w, s, rfl, rfl, rfl⟩ := hr
  refine ⟨w * cs.simple s, s, ?_, ?_, ?_⟩
  · rw [geom_mul, geom_simple_root, map_neg]
  · rw [geom_mul, geom_simple_root, map_neg]
  · rw [mul_inv_rev, cs.inv_simple]
    simp [mul_assoc]

theorem IsRoot.form_self {β β' : B → ℤ} {t : W} (hr : IsRoot cs h β β' t) : form C β β' = 2 := by
  obtain ⟨w, s, rfl, rfl, rfl⟩ := hr
  rw [form_inv, form_root_root, h.diag]

theorem IsRoot.sq {β β' : B → ℤ} {t : W} (hr : IsRoot cs h β β' t) : t * t = 1 := by
  obtain ⟨w, s, rfl, rfl, rfl⟩ := hr
  simp [mul_assoc]

/-- the reflection of a root -/
theorem IsRoot.refl {β β' : B → ℤ} {t : W} (hr : IsRoot cs h β β' t) (x : B → ℤ) : geom cs h t x = x - form C x β' • β := by
  obtain ⟨w, s, rfl, rfl, rfl⟩ := hr
  rw [geom_mul, geom_mul, geom_simple, srefl_apply, map_sub, map_smul, ← form_root_right]
  have e1 : geom cs h w (geom cs h w⁻¹ x) = x := by rw [← geom_mul, mul_inv_cancel, map_one]; rfl
  have e2 : form C (geom cs h w⁻¹ x) (root s) = form C x (geom cs h.dual w (root s)) := by
    rw [← form_inv cs h w (geom cs h w⁻¹ x), e1]
  rw [e1, e2]

theorem IsRoot.sign {β β' : B → ℤ} {t : W} (hr : IsRoot cs h β β' t) :
    ((∀ i, 0 ≤ β i) ∧ ∀ i, 0 ≤ β' i) ∨ ((∀ i, β i ≤ 0) ∧ ∀ i, β' i ≤ 0) := by
  obtain ⟨w, s, rfl, rfl, rfl⟩ := hr
  by_cases hd : cs.IsRightDescent w s
  · exact .inr ⟨geom_neg cs h hd, geom_neg cs h.dual hd⟩
  · exact .inl ⟨geom_pos cs h hd, geom_pos cs h.dual hd⟩

theorem IsRoot.ne_zero {β β' : B → ℤ} {t : W} (hr : IsRoot cs h β β' t) : β ≠ 0 := by
  obtain ⟨w, s, rfl, rfl, rfl⟩ := hr
  intro e
  have : geom cs h w (root s) = geom cs h w 0 := by rw [e, map_zero]
  exact root_ne_zero s (geom_injective cs h w this)

theorem IsRoot.primitive {β β' : B → ℤ} {t : W} (hr : IsRoot cs h β β' t) {k : ℤ} {x : B → ℤ} (e : β = k • x) : k = 1 ∨ k = -1 := by
  obtain ⟨w, s, rfl, rfl, rfl⟩ := hr
  have h1 := congrArg (geom cs h w⁻¹) e
  rw [geom_inv, map_smul] at h1
  have h2 := congrFun h1 s
  rw [root_apply, if_pos rfl] at h2
  simp only [Pi.smul_apply, smul_eq_mul] at h2
  exact Int.isUnit_iff.mp (isUnit_of_dvd_one ⟨_, h2⟩)

/-- A root determines its coroot and its reflection. -/
theorem IsRoot.unique {β β1 β2 : B → ℤ} {t1 t2 : W} (h1 : IsRoot cs h β β1 t1) (h2 : IsRoot cs h β β2 t2) : β1 = β2 ∧ t1 = t2 := by
  have ht : t1 = t2 := by
    obtain ⟨v, s, rfl, rfl, rfl⟩ := h2
    -- reduce to a simple root
    have h3 : IsRoot cs h (root s) (geom cs h.dual v⁻¹ β1) (v⁻¹ * t1 * v⁻¹⁻¹) := by
      have := h1.act v⁻¹
      rwa [geom_inv] at this
    obtain ⟨g, hg⟩ : ∃ g, g = v⁻¹ * t1 * v⁻¹⁻¹ * cs.simple s := ⟨_, rfl⟩
    have hact : ∀ x, geom cs h g x = x - (pairing C s x + form C x (geom cs h.dual v⁻¹ β1) - pairing C s x * 2) • root s := by
      intro x
      rw [hg, geom_mul, h3.refl, geom_simple, srefl_apply, form_sub_left, form_smul_left, h3.form_self]
      funext i
      simp only [Pi.sub_apply, Pi.smul_apply, smul_eq_mul]
      ring
    have hg1 : g = 1 := by
      by_contra hne
      obtain ⟨r, hr⟩ := cs.exists_rightDescent_of_ne_one hne
      have hn := geom_neg cs h hr r
      rw [hact] at hn
      simp only [Pi.sub_apply, Pi.smul_apply, smul_eq_mul, root_apply, if_true] at hn
      by_cases hrs : r = s
      · subst hrs
        rw [if_pos rfl, pairing_root, h.diag, h3.form_self] at hn
        omega
      · rw [if_neg hrs] at hn
        omega
    rw [hg1] at hg
    have e := eq_inv_of_mul_eq_one_left hg.symm
    rw [inv_inv, cs.inv_simple] at e
    have := congrArg (fun g => v * g * v⁻¹) e
    simpa [mul_assoc] using this
  refine ⟨?_, ht⟩
  subst ht
  have e1 := h1.dual.refl β1
  have e2 := h2.dual.refl β1
  have e3 : form (fun s t => C t s) β1 β = 2 := by rw [form_swap, h1.form_self]
  rw [e1, e3] at e2
  funext i
  have := congrFun e2 i
  simp only [Pi.sub_apply, Pi.smul_apply, smul_eq_mul] at this
  omega

theorem IsRoot.unique_dual {β β1 β2 : B → ℤ} {t1 t2 : W} (h1 : IsRoot cs h β1 β t1) (h2 : IsRoot cs h β2 β t2) : β1 = β2 ∧ t1 = t2 :=
  h1.dual.unique h2.dual

/-- sum of the coefficients -/
def lev (x : B → ℤ) : ℤ := ∑ i, x i

theorem lev_srefl (s : B) (x : B → ℤ) : lev (srefl C s x) = lev x - pairing C s x := by
  unfold lev
  rw [srefl_apply]
  simp [Finset.sum_sub_distrib, root_apply]

omit [DecidableEq B] in
theorem lev_pos {x : B → ℤ} (hx : ∀ i, 0 ≤ x i) (h0 : x ≠ 0) : 0 < lev x := by
  obtain ⟨i, hi⟩ := Function.ne_iff.mp h0
  have h1 : 0 < x i := by have := hx i; simp only [Pi.zero_apply] at hi; omega
  exact Finset.sum_pos' (fun i _ => hx i) ⟨i, Finset.mem_univ i, h1⟩

omit [DecidableEq B] in
theorem le_lev {x : B → ℤ} (hx : ∀ i, 0 ≤ x i) (i : B) : x i ≤ lev x :=
  Finset.single_le_sum (f := x) (fun i _ => hx i) (Finset.mem_univ i)

theorem eq_root_of_lev {x : B → ℤ} (hx : ∀ i, 0 ≤ x i) (h1 : lev x = 1) : ∃ s, x = root s := by
  have h0 : x ≠ 0 := by rintro rfl; simp [lev] at h1
  obtain ⟨s, hs⟩ := Function.ne_iff.mp h0
  have hs1 : 0 < x s := by have := hx s; simp only [Pi.zero_apply] at hs; omega
  have e := Finset.add_sum_erase Finset.univ x (Finset.mem_univ s)
  have e' : x s + ∑ i ∈ Finset.univ.erase s, x i = 1 := e.trans h1
  have hn : 0 ≤ ∑ i ∈ Finset.univ.erase s, x i := Finset.sum_nonneg fun i _ => hx i
  have hz : ∑ i ∈ Finset.univ.erase s, x i = 0 := by omega
  rw [Finset.sum_eq_zero_iff_of_nonneg fun i _ => hx i] at hz
  refine ⟨s, ?_⟩
  funext i
  rw [root_apply]
  by_cases hi : i = s
  · rw [if_pos hi, hi]; omega
  · rw [if_neg hi, hz i (Finset.mem_erase.mpr ⟨hi, Finset.mem_univ i⟩)]

theorem lev_root (s : B) : lev (root s) = 1 := by simp [lev, root_apply]

/-- a simple reflection makes only its own root negative -/
theorem IsRoot.simple_pos {β β' : B → ℤ} {t : W} (hr : IsRoot cs h β β' t) (hp : ∀ i, 0 ≤ β i) {s : B} (hs : β ≠ root s) :
    ∀ i, 0 ≤ srefl C s β i := by
  have h1 := (hr.act (cs.simple s)).sign
  rw [geom_simple] at h1
  rcases h1 with h1 | ⟨h1, -⟩
  · exact h1.1
  · exfalso
    have hz : ∀ i, i ≠ s → β i = 0 := by
      intro i hi
      have := h1 i
      rw [srefl_apply, Pi.sub_apply, Pi.smul_apply, root_apply, if_neg hi, smul_zero, sub_zero] at this
      have := hp i
      omega
    have e : β = β s • root s := by
      funext i
      rw [Pi.smul_apply, root_apply]
      by_cases hi : i = s
      · rw [if_pos hi, hi]; simp
      · rw [if_neg hi, hz i hi]; simp
    rcases hr.primitive e with h2 | h2
    · rw [h2, one_smul] at e; exact hs e
    · have := hp s; omega

/-- a positive root has a positive pairing with some simple coroot -/
theorem IsRoot.exists_descent {β β' : B → ℤ} {t : W} (hr : IsRoot cs h β β' t) (hp : ∀ i, 0 ≤ β i) : ∃ s, 0 < pairing C s β := by
  have hp' : ∀ i, 0 ≤ β' i := by
    rcases hr.sign with h1 | ⟨h1, -⟩
    · exact h1.2
    · exact absurd (funext fun i => le_antisymm (h1 i) (hp i)) hr.ne_zero
  by_contra hc
  push Not at hc
  have h2 := hr.form_self
  rw [form_expand] at h2
  have : ∑ i, β' i * pairing C i β ≤ 0 := Finset.sum_nonpos fun i _ => mul_nonpos_of_nonneg_of_nonpos (hp' i) (hc i)
  omega

/-! ### finite groups -/

section finite
variable [Finite W]

/-- an invariant positive definite form -/
theorem exists_inner (cs : CoxeterSystem M W) (h : IsCartan C M) : ∃ Q : (B → ℤ) → (B → ℤ) → ℤ, (∀ x y, Q x y = Q y x) ∧
    (∀ x y z, Q (x - y) z = Q x z - Q y z) ∧ (∀ (a : ℤ) x y, Q (a • x) y = a * Q x y) ∧
    (∀ w x y, Q (geom cs h w x) (geom cs h w y) = Q x y) ∧ ∀ x, x ≠ 0 → 0 < Q x x := by
  have := Fintype.ofFinite W
  refine ⟨fun x y => ∑ w : W, ∑ i, geom cs h w x i * geom cs h w y i, ?_, ?_, ?_, ?_, ?_⟩
  · intro x y
    exact Finset.sum_congr rfl fun w _ => Finset.sum_congr rfl fun i _ => mul_comm _ _
  · intro x y z
    simp [sub_mul, Finset.sum_sub_distrib]
  · intro a x y
    simp only [map_smul, Pi.smul_apply, smul_eq_mul, Finset.mul_sum, mul_assoc]
  · intro w x y
    refine Fintype.sum_equiv (Equiv.mulRight w) _ _ fun u => ?_
    simp only [Equiv.coe_mulRight, geom_mul]
  · intro x hx
    refine Finset.sum_pos' (fun w _ => Finset.sum_nonneg fun i _ => mul_self_nonneg _) ⟨1, Finset.mem_univ _, ?_⟩
    obtain ⟨i, hi⟩ := Function.ne_iff.mp hx
    refine Finset.sum_pos' (fun i _ => mul_self_nonneg _) ⟨i, Finset.mem_univ _, ?_⟩
    simp only [map_one, Module.End.one_apply]
    exact mul_self_pos.mpr hi

/-- pairings of two roots -/
theorem IsRoot.pair {α α' β β' : B → ℤ} {t u : W} (ha : IsRoot cs h α α' t) (hb : IsRoot cs h β β' u) :
    (0 < form C β α' ↔ 0 < form C α β') ∧ (form C β α' = 0 ↔ form C α β' = 0) ∧
      (β ≠ α → β ≠ -α → form C β α' * form C α β' ≤ 3) := by
  obtain ⟨Q, q1, q2, q3, q4, q5⟩ := exists_inner cs h
  have q2r : ∀ x y z, Q x (y - z) = Q x y - Q x z := fun x y z => by rw [q1, q2, q1 y, q1 z]
  have q3r : ∀ (a : ℤ) x y, Q x (a • y) = a * Q x y := fun a x y => by rw [q1, q3, q1 y]
  have key : ∀ {α α' : B → ℤ} {t : W}, IsRoot cs h α α' t → ∀ x, 2 * Q x α = form C x α' * Q α α := by
    intro α α' t ha x
    have h1 := q4 t x α
    rw [ha.refl x, ha.refl α, ha.form_self] at h1
    have e : α - (2 : ℤ) • α = (-1 : ℤ) • α := by
      funext i; simp only [Pi.sub_apply, Pi.smul_apply, smul_eq_mul]; ring
    rw [e, q2, q3r, q3, q3r] at h1
    linarith
  have a0 := q5 α ha.ne_zero
  have b0 := q5 β hb.ne_zero
  have e1 := key ha β
  have e2 := key hb α
  rw [q1 α β] at e2
  have e3 : form C β α' * Q α α = form C α β' * Q β β := by rw [← e1, e2]
  refine ⟨?_, ?_, ?_⟩
  · constructor
    · intro hp
      by_contra hc
      push Not at hc
      have : 0 < form C β α' * Q α α := mul_pos hp a0
      have : form C α β' * Q β β ≤ 0 := mul_nonpos_of_nonpos_of_nonneg hc (le_of_lt b0)
      omega
    · intro hp
      by_contra hc
      push Not at hc
      have : 0 < form C α β' * Q β β := mul_pos hp b0
      have : form C β α' * Q α α ≤ 0 := mul_nonpos_of_nonpos_of_nonneg hc (le_of_lt a0)
      omega
  · constructor
    · intro hz
      rw [hz, zero_mul] at e3
      exact (mul_eq_zero.mp e3.symm).resolve_right (by omega)
    · intro hz
      rw [hz, zero_mul] at e3
      exact (mul_eq_zero.mp e3).resolve_right (by omega)
  · intro hne hne'
    by_contra hc
    push Not at hc
    have hv : form C β α' • α - (2 : ℤ) • β ≠ 0 := by
      intro e
      have e' : form C β α' • α = (2 : ℤ) • β := sub_eq_zero.mp e
      -- evaluate on the coroot of α
      have h2 := congrArg (fun x => form C x β') e'
      simp only [form_smul_left, hb.form_self] at h2
      have h4 : form C β α' * form C α β' = 4 := by omega
      generalize form C β α' = p at *
      generalize form C α β' = q at *
      have hp : p ∣ 4 := ⟨q, h4.symm⟩
      have hpb : p ≤ 4 ∧ -4 ≤ p := by
        have h5 := Int.le_of_dvd (by norm_num) hp
        have h6 := Int.le_of_dvd (by norm_num) (neg_dvd.mpr hp)
        omega
      obtain ⟨hp1, hp2⟩ := hpb
      have cases : p = 1 ∨ p = 2 ∨ p = 4 ∨ p = -1 ∨ p = -2 ∨ p = -4 := by
        interval_cases p <;> omega
      rcases cases with rfl | rfl | rfl | rfl | rfl | rfl
      · rw [one_smul] at e'
        rcases ha.primitive e' with h7 | h7 <;> omega
      · apply hne
        funext i
        have := congrFun e' i
        simp only [Pi.smul_apply, smul_eq_mul] at this
        omega
      · have : β = (2 : ℤ) • α := by
          funext i
          have := congrFun e' i
          simp only [Pi.smul_apply, smul_eq_mul] at this ⊢
          omega
        rcases hb.primitive this with h7 | h7 <;> omega
      · have : α = (-2 : ℤ) • β := by
          funext i
          have := congrFun e' i
          simp only [Pi.smul_apply, smul_eq_mul] at this ⊢
          omega
        rcases ha.primitive this with h7 | h7 <;> omega
      · apply hne'
        funext i
        have := congrFun e' i
        simp only [Pi.smul_apply, smul_eq_mul, Pi.neg_apply] at this ⊢
        omega
      · have : β = (-2 : ℤ) • α := by
          funext i
          have := congrFun e' i
          simp only [Pi.smul_apply, smul_eq_mul] at this ⊢
          omega
        rcases hb.primitive this with h7 | h7 <;> omega
    have hq := q5 _ hv
    rw [q2, q3, q3, q2r, q2r, q3r, q3r, q3r, q3r, q1 α β] at hq
    generalize form C β α' = p at *
    generalize form C α β' = q at *
    generalize Q α α = a at *
    generalize Q β β = b at *
    generalize Q β α = c at *
    have e5 : p * (p * a - 2 * c) - 2 * (p * c - 2 * b) = (4 - p * q) * b := by linear_combination (-p) * e1 - p * e2
    rw [e5] at hq
    have h9 : (4 - p * q) * b ≤ 0 := mul_nonpos_of_nonpos_of_nonneg (by omega) (le_of_lt b0)
    omega

/-- if a root has positive pairing with the coroot of another one, then their difference is a root -/
theorem IsRoot.sub {α α' β β' : B → ℤ} {t u : W} (ha : IsRoot cs h α α' t) (hb : IsRoot cs h β β' u) (hne : β ≠ α) (hp : 0 < form C β α') :
    ∃ γ' v, IsRoot cs h (β - α) γ' v := by
  obtain ⟨h1, -, h3⟩ := ha.pair hb
  have hq := h1.mp hp
  have hn : β ≠ -α := by
    rintro rfl
    rw [form_neg_left, ha.form_self] at hp
    omega
  have h4 := h3 hne hn
  by_cases hp1 : form C β α' = 1
  · have := hb.act t
    rw [ha.refl, hp1, one_smul] at this
    exact ⟨_, _, this⟩
  · have hq1 : form C α β' = 1 := by
      generalize form C β α' = p at *
      generalize form C α β' = q at *
      by_contra hq1
      have : 2 ≤ p := by omega
      have : 2 ≤ q := by omega
      nlinarith
    have := (ha.act u).neg
    rw [hb.refl, hq1, one_smul, neg_sub] at this
    exact ⟨_, _, this⟩

/-- below every positive root that is not simple there is one at the previous level -/
theorem IsRoot.lower {β β' : B → ℤ} {t : W} (hr : IsRoot cs h β β' t) (hp : ∀ i, 0 ≤ β i) (hl : 1 < lev β) :
    ∃ γ γ' u, IsRoot cs h γ γ' u ∧ (∀ i, 0 ≤ γ i) ∧ lev γ = lev β - 1 := by
  obtain ⟨s, hs⟩ := hr.exists_descent hp
  have hne : β ≠ root s := by rintro rfl; rw [lev_root] at hl; omega
  rw [← form_root_right] at hs
  obtain ⟨γ', u, hγ⟩ := (isRoot_simple s).sub hr hne hs
  have hlev : lev (β - root s) = lev β - 1 := by
    rw [← lev_root s]
    simp [lev, Finset.sum_sub_distrib]
  refine ⟨_, _, _, hγ, ?_, hlev⟩
  rcases hγ.sign with h1 | ⟨h1, -⟩
  · exact h1.1
  · exfalso
    have : lev (β - root s) ≤ 0 := Finset.sum_nonpos fun i _ => h1 i
    omega

end finite

end Verif.Coxeter
