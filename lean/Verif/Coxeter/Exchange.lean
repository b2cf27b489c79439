import Mathlib.GroupTheory.Coxeter.Inversion
import Mathlib.Algebra.BigOperators.Intervals
import Mathlib.Tactic.Abel
/-
Inversions of elements of Coxeter groups and the longest element of a finite one. This is mathematics used in proofs, not a model.
-/
namespace Verif.Coxeter
open CoxeterSystem

section
variable {B W : Type} [Group W] {M : CoxeterMatrix B} (cs : CoxeterSystem M W)

open Classical in
/-- indicator function -/
noncomputable def ind (p : Prop) : ZMod 2 := if p then 1 else 0

theorem ind_congr {p q : Prop} (h : p ↔ q) : ind p = ind q := by rw [propext h]

theorem zadd (a : ZMod 2) : a + a = 0 := by revert a; decide

/-- effect of a simple reflection on pairs -/
noncomputable def refl (i : B) : Equiv.Perm (W × ZMod 2) where
  toFun x := (cs.simple i * x.1 * cs.simple i, x.2 + ind (x.1 = cs.simple i))
  invFun x := (cs.simple i * x.1 * cs.simple i, x.2 + ind (x.1 = cs.simple i))
  left_inv x := by
    have h : (cs.simple i * x.1 * cs.simple i = cs.simple i) ↔ x.1 = cs.simple i := by
      rw [mul_eq_right, mul_eq_one_iff_eq_inv', cs.inv_simple]
    ext1
    · simp [mul_assoc]
    · simp only
      rw [ind_congr h, add_assoc, zadd, add_zero]
  right_inv x := by
    have h : (cs.simple i * x.1 * cs.simple i = cs.simple i) ↔ x.1 = cs.simple i := by
      rw [mul_eq_right, mul_eq_one_iff_eq_inv', cs.inv_simple]
    ext1
    · simp [mul_assoc]
    · simp only
      rw [ind_congr h, add_assoc, zadd, add_zero]

theorem refl_apply (i : B) (t : W) (e : ZMod 2) :
    refl cs i (t, e) = (cs.simple i * t * cs.simple i, e + ind (t = cs.simple i)) := rfl

theorem conj_simple (i j : B) (a : Nat) :
    cs.simple j * (cs.simple i * cs.simple j) ^ a = (cs.simple j * cs.simple i) ^ a * cs.simple j := by
  induction a with
  | zero => simp
  | succ a ih => rw [pow_succ, ← mul_assoc, ih, pow_succ]; simp [mul_assoc]

theorem inv_pow_simple (i j : B) (a : Nat) : ((cs.simple i * cs.simple j) ^ a)⁻¹ = (cs.simple j * cs.simple i) ^ a := by
  rw [← inv_pow]; simp

theorem refl_pow (i j : B) (k : Nat) (t : W) (e : ZMod 2) :
    ((refl cs i * refl cs j) ^ k) (t, e) =
      ((cs.simple i * cs.simple j) ^ k * t * (cs.simple j * cs.simple i) ^ k,
        e + ∑ b ∈ Finset.range (2 * k), ind (t = cs.simple j * (cs.simple i * cs.simple j) ^ b)) := by
  induction k with
  | zero => simp
  | succ k ih =>
    rw [pow_succ', Equiv.Perm.mul_apply, ih, Equiv.Perm.mul_apply, refl_apply, refl_apply]
    ext1
    · simp only
      rw [pow_succ', pow_succ]
      simp only [mul_assoc]
    · simp only
      rw [show 2 * (k + 1) = 2 * k + 1 + 1 by omega, Finset.sum_range_succ, Finset.sum_range_succ]
      simp only [add_assoc]
      congr 3
      · apply ind_congr
        rw [two_mul, pow_add, ← mul_assoc, conj_simple, ← inv_pow_simple cs i j, mul_inv_eq_iff_eq_mul, mul_assoc _ (cs.simple j),
          eq_inv_mul_iff_mul_eq]
      · apply ind_congr
        have e : cs.simple j * (cs.simple i * cs.simple j) ^ (2 * k + 1) =
            ((cs.simple i * cs.simple j) ^ k)⁻¹ * (cs.simple j * cs.simple i) * (cs.simple j * (cs.simple i * cs.simple j) ^ k) := by
          rw [show 2 * k + 1 = k + 1 + k by omega, pow_add _ (k + 1), ← mul_assoc, conj_simple cs i j (k + 1), pow_succ,
            inv_pow_simple cs i j]
          simp only [mul_assoc]
        rw [e, ← inv_pow_simple cs i j]
        generalize (cs.simple i * cs.simple j) ^ k = p
        constructor
        · intro h
          have h2 : p * t * p⁻¹ = cs.simple j * cs.simple i * cs.simple j := by rw [← h]; simp [mul_assoc]
          rw [mul_inv_eq_iff_eq_mul, ← eq_inv_mul_iff_mul_eq] at h2
          rw [h2]; simp only [mul_assoc]
        · rintro rfl
          simp [mul_assoc]

theorem refl_liftable : M.IsLiftable (refl cs) := by
  intro i j
  ext1 x
  obtain ⟨t, e⟩ := x
  rw [refl_pow, cs.simple_mul_simple_pow, cs.simple_mul_simple_pow', two_mul, Finset.sum_range_add]
  simp only [pow_add, cs.simple_mul_simple_pow, one_mul, mul_one]
  rw [zadd, add_zero]
  rfl

/-- the homomorphism to permutations of pairs -/
noncomputable def rho : W →* Equiv.Perm (W × ZMod 2) := cs.lift ⟨refl cs, refl_liftable cs⟩

/-- parity of the number of times that `t` occurs in the right inversion sequence of a word for `w` -/
noncomputable def par (w t : W) : ZMod 2 := (rho cs w (t, 0)).2

theorem rho_apply (w t : W) (e : ZMod 2) : rho cs w (t, e) = (w * t * w⁻¹, e + par cs w t) := by
  unfold par
  induction w using cs.simple_induction_left generalizing t e with
  | one => simp
  | mul_simple_left w i ih =>
    rw [map_mul, Equiv.Perm.mul_apply, ih, Equiv.Perm.mul_apply, ih t 0, rho, cs.lift_apply_simple]
    simp only [refl_apply]
    ext1
    · simp [mul_assoc]
    · simp only
      abel

theorem par_mul (u v t : W) : par cs (u * v) t = par cs v t + par cs u (v * t * v⁻¹) := by
  rw [par, map_mul, Equiv.Perm.mul_apply, rho_apply, rho_apply, zero_add]

theorem par_one (t : W) : par cs 1 t = 0 := by simp [par]

theorem par_simple (i : B) (t : W) : par cs (cs.simple i) t = ind (t = cs.simple i) := by
  rw [par, rho, cs.lift_apply_simple, refl_apply, zero_add]

open Classical in
theorem par_word (l : List B) (t : W) : par cs (cs.wordProd l) t = ((cs.rightInvSeq l).count t : ZMod 2) := by
  induction l with
  | nil => simp [par_one]
  | cons i l ih =>
    rw [cs.wordProd_cons, par_mul, ih, par_simple, rightInvSeq, List.count_cons, Nat.cast_add]
    congr 1
    rw [ind]
    by_cases h : cs.wordProd l * t * (cs.wordProd l)⁻¹ = cs.simple i
    · have h2 : (cs.wordProd l)⁻¹ * cs.simple i * cs.wordProd l = t := by rw [← h]; group
      rw [if_pos h, h2]; simp
    · have h2 : (cs.wordProd l)⁻¹ * cs.simple i * cs.wordProd l ≠ t := by
        rintro rfl
        apply h
        group
      rw [if_neg h]
      simp [h2]

theorem par_inv (w t : W) : par cs w⁻¹ t = par cs w (w⁻¹ * t * w) := by
  have h := par_mul cs w w⁻¹ t
  rw [mul_inv_cancel, par_one, inv_inv] at h
  have h2 := zadd (par cs w (w⁻¹ * t * w))
  rw [← h2] at h
  exact (add_right_cancel h).symm

theorem par_refl {t : W} (ht : cs.IsReflection t) : par cs t t = 1 := by
  obtain ⟨w, i, rfl⟩ := ht
  rw [par_mul, par_mul, par_inv]
  simp only [inv_inv, mul_assoc, inv_mul_cancel_left, inv_mul_cancel, mul_one, cs.inv_simple, cs.simple_mul_simple_cancel_left]
  rw [par_simple]
  have : par cs w (cs.simple i) + (ind (cs.simple i = cs.simple i) + par cs w (cs.simple i)) =
    par cs w (cs.simple i) + par cs w (cs.simple i) + ind (cs.simple i = cs.simple i) := by abel
  rw [this, zadd, zero_add, ind, if_pos rfl]

/-- the strong exchange property: a reflection that shortens an element on the right occurs in the right inversion sequence of
any reduced word -/
theorem par_eq_one_iff {t : W} (ht : cs.IsReflection t) (w : W) : par cs w t = 1 ↔ cs.length (w * t) < cs.length w := by
  classical
  have key : ∀ w, par cs w t = 1 → cs.length (w * t) < cs.length w := by
    intro w h
    obtain ⟨l, h1, h2⟩ := cs.exists_isReduced w
    rw [h2, par_word] at h
    have hm : t ∈ cs.rightInvSeq l := by
      by_contra hc
      rw [List.count_eq_zero_of_not_mem hc] at h
      exact absurd h (by decide)
    have := (cs.isRightInversion_of_mem_rightInvSeq h1 hm).2
    rwa [← h2] at this
  refine ⟨key w, fun h => ?_⟩
  by_contra hc
  have h0 : par cs w t = 0 := by
    revert hc
    generalize par cs w t = a
    revert a
    decide
  have h1 := key (w * t) (by
    rw [par_mul, par_refl cs ht]
    simp [h0])
  rw [mul_assoc, ht.mul_self, mul_one] at h1
  omega

/-- the right inversions of an element -/
theorem mem_rightInvSeq_iff {l : List B} (hl : cs.IsReduced l) (t : W) :
    t ∈ cs.rightInvSeq l ↔ cs.IsReflection t ∧ par cs (cs.wordProd l) t = 1 := by
  constructor
  · intro h
    have := cs.isRightInversion_of_mem_rightInvSeq hl h
    exact ⟨this.1, (par_eq_one_iff cs this.1 _).2 this.2⟩
  · rintro ⟨h1, h2⟩
    classical
    rw [par_word] at h2
    by_contra hc
    rw [List.count_eq_zero_of_not_mem hc] at h2
    exact absurd h2 (by decide)

/-- the number of right inversions is the length -/
theorem length_eq_card (w : W) {R : Finset W} (hR : ∀ t, t ∈ R ↔ cs.IsReflection t ∧ par cs w t = 1) : R.card = cs.length w := by
  classical
  obtain ⟨l, h1, h2⟩ := cs.exists_isReduced w
  have : R = (cs.rightInvSeq l).toFinset := by
    ext t
    rw [hR, List.mem_toFinset, mem_rightInvSeq_iff cs h1, ← h2]
  rw [this, List.toFinset_card_of_nodup h1.nodup_rightInvSeq, cs.length_rightInvSeq, h2, h1.eq]

/-! ### the longest element -/

variable {w0 : W} (h0 : ∀ w, cs.length w ≤ cs.length w0)
include h0

theorem par_longest {t : W} (ht : cs.IsReflection t) : par cs w0 t = 1 := by
  rw [par_eq_one_iff cs ht]
  have := h0 (w0 * t)
  have := ht.length_mul_left_ne w0
  omega

theorem length_longest_mul (w : W) : cs.length (w0 * w) + cs.length w = cs.length w0 := by
  classical
  obtain ⟨l, h1, h2⟩ := cs.exists_isReduced w0
  have hT : ∀ t, t ∈ (cs.rightInvSeq l).toFinset ↔ cs.IsReflection t := by
    intro t
    rw [List.mem_toFinset, mem_rightInvSeq_iff cs h1, ← h2]
    exact ⟨fun h => h.1, fun h => ⟨h, par_longest cs h0 h⟩⟩
  have e0 := length_eq_card cs w0 (R := (cs.rightInvSeq l).toFinset) fun t => by
    rw [hT]
    exact ⟨fun h => ⟨h, par_longest cs h0 h⟩, fun h => h.1⟩
  have e1 := length_eq_card cs w (R := (cs.rightInvSeq l).toFinset.filter fun t => par cs w t = 1) fun t => by
    rw [Finset.mem_filter, hT]
  have e2 := length_eq_card cs (w0 * w) (R := (cs.rightInvSeq l).toFinset.filter fun t => ¬ par cs w t = 1) fun t => by
    rw [Finset.mem_filter, hT]
    refine and_congr_right fun ht => ?_
    rw [par_mul, par_longest cs h0 (ht.conj w)]
    generalize par cs w t = a
    revert a
    decide
  rw [← e0, ← e1, ← e2, add_comm]
  exact Finset.card_filter_add_card_filter_not _

theorem longest_sq : w0 * w0 = 1 := by
  have := length_longest_mul cs h0 w0
  rw [← cs.length_eq_zero_iff]
  omega

theorem longest_inv : w0⁻¹ = w0 := by
  rw [inv_eq_iff_mul_eq_one, longest_sq cs h0]

theorem longest_unique {w : W} (h : cs.length w = cs.length w0) : w = w0 := by
  have := length_longest_mul cs h0 w
  have h1 : w0 * w = 1 := by
    rw [← cs.length_eq_zero_iff]
    omega
  rw [← longest_inv cs h0]
  exact eq_inv_of_mul_eq_one_right h1

theorem length_mul_longest (w : W) : cs.length (w * w0) + cs.length w = cs.length w0 := by
  have := length_longest_mul cs h0 w⁻¹
  rw [← cs.length_inv (w0 * w⁻¹), mul_inv_rev, inv_inv, longest_inv cs h0, cs.length_inv] at this
  exact this

theorem length_conj_longest (w : W) : cs.length (w0 * w * w0) = cs.length w := by
  have h1 := length_mul_longest cs h0 (w0 * w)
  have h2 := length_longest_mul cs h0 w
  omega

/-- the longest element permutes the simple reflections -/
theorem conj_longest_simple (i : B) : ∃ j, w0 * cs.simple i * w0 = cs.simple j := by
  rw [← cs.length_eq_one_iff, length_conj_longest cs h0, cs.length_simple]

end
end Verif.Coxeter
