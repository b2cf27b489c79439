import Mathlib.GroupTheory.Coxeter.Length
import Mathlib.LinearAlgebra.Pi
import Mathlib.Algebra.Module.LinearMap.End
import Mathlib.Tactic.Ring
import Mathlib.Tactic.Abel
import Mathlib.Tactic.Linarith
import Mathlib.Tactic.IntervalCases
/-
The reflection representation of a Coxeter group with a Cartan matrix on its root lattice, and the theorem that relates lengths
to signs of roots.
-/
namespace Verif.Coxeter
open CoxeterSystem

variable {B : Type} [Fintype B] [DecidableEq B]

/-- `C` is a Cartan matrix (all of whose pairs of indices are of finite type), and `M` is its Coxeter matrix. -/
structure IsCartan (C : B → B → ℤ) (M : CoxeterMatrix B) : Prop where
  diag : ∀ s, C s s = 2
  nonpos : ∀ s t, s ≠ t → C s t ≤ 0
  zero : ∀ s t, C s t = 0 → C t s = 0
  order : ∀ s t, s ≠ t → (C s t * C t s = 0 ∧ M s t = 2) ∨ (C s t * C t s = 1 ∧ M s t = 3) ∨ (C s t * C t s = 2 ∧ M s t = 4) ∨
    (C s t * C t s = 3 ∧ M s t = 6)

theorem IsCartan.cases {C : B → B → ℤ} {M : CoxeterMatrix B} (h : IsCartan C M) {s t : B} (hst : s ≠ t) :
    (C s t = 0 ∧ C t s = 0 ∧ M s t = 2) ∨ (C s t = -1 ∧ C t s = -1 ∧ M s t = 3) ∨ (C s t = -1 ∧ C t s = -2 ∧ M s t = 4) ∨
    (C s t = -2 ∧ C t s = -1 ∧ M s t = 4) ∨ (C s t = -1 ∧ C t s = -3 ∧ M s t = 6) ∨ (C s t = -3 ∧ C t s = -1 ∧ M s t = 6) := by
  have a := h.nonpos s t hst
  have b := h.nonpos t s (Ne.symm hst)
  have z1 := h.zero s t
  have z2 := h.zero t s
  have o := h.order s t hst
  generalize C s t = x at *
  generalize C t s = y at *
  have hp : 0 ≤ x * y ∧ x * y ≤ 3 := by omega
  have hx : -3 ≤ x := by
    by_contra hx
    have : y ≤ -1 := by
      by_contra hy
      have : y = 0 := by omega
      exact absurd (z2 this) (by omega)
    nlinarith
  have hy : -3 ≤ y := by
    by_contra hy
    have : x ≤ -1 := by
      by_contra hx
      have : x = 0 := by omega
      exact absurd (z1 this) (by omega)
    nlinarith
  interval_cases x <;> interval_cases y <;> simp_all

/-- value of the simple coroot `s` on the element `v` of the root lattice -/
def pairing (C : B → B → ℤ) (s : B) : (B → ℤ) →ₗ[ℤ] ℤ where
  toFun v := ∑ i, v i * C i s
  map_add' v w := by simp [add_mul, Finset.sum_add_distrib]
  map_smul' a v := by simp [mul_assoc, Finset.mul_sum]

/-- the simple root `s` -/
def root (s : B) : B → ℤ := Pi.single s 1

omit [Fintype B] in
theorem root_apply (s i : B) : root s i = if i = s then 1 else 0 := by simp [root, Pi.single_apply]

theorem pairing_root (C : B → B → ℤ) (s t : B) : pairing C s (root t) = C t s := by
  simp [pairing, root_apply]

/-- simple reflection -/
def srefl (C : B → B → ℤ) (s : B) : Module.End ℤ (B → ℤ) where
  toFun v := v - pairing C s v • root s
  map_add' v w := by rw [map_add, add_smul]; abel
  map_smul' a v := by rw [map_smul, RingHom.id_apply, smul_sub, smul_assoc]

theorem srefl_apply (C : B → B → ℤ) (s : B) (v : B → ℤ) : srefl C s v = v - pairing C s v • root s := rfl

theorem srefl_root {C : B → B → ℤ} {M : CoxeterMatrix B} (h : IsCartan C M) (s : B) : srefl C s (root s) = -root s := by
  rw [srefl_apply, pairing_root, h.diag, two_smul]
  abel

theorem srefl_srefl {C : B → B → ℤ} {M : CoxeterMatrix B} (h : IsCartan C M) (s : B) (v : B → ℤ) : srefl C s (srefl C s v) = v := by
  rw [srefl_apply C s v, map_sub, map_smul, srefl_root h, srefl_apply]
  simp

theorem pair_step {C : B → B → ℤ} {M : CoxeterMatrix B} (h : IsCartan C M) (s t : B) (v : B → ℤ) (p q : ℤ) :
    (srefl C s * srefl C t) (v + (p • root s + q • root t)) =
      v + ((-p - pairing C s v - (-q - pairing C t v - p * C s t) * C t s) • root s + (-q - pairing C t v - p * C s t) • root t) := by
  simp only [Module.End.mul_apply, srefl_apply, map_add, map_sub, map_smul, pairing_root, h.diag, smul_eq_mul]
  funext i
  simp only [Pi.add_apply, Pi.sub_apply, Pi.smul_apply, smul_eq_mul]
  ring

theorem srefl_liftable {C : B → B → ℤ} {M : CoxeterMatrix B} (h : IsCartan C M) : M.IsLiftable (srefl C) := by
  intro s t
  by_cases hst : s = t
  · subst hst
    rw [M.diagonal, pow_one]
    refine LinearMap.ext fun v => ?_
    exact srefl_srefl h s v
  · refine LinearMap.ext fun v => ?_
    have step := fun p q => pair_step h s t v p q
    have e0 : v = v + ((0 : ℤ) • root s + (0 : ℤ) • root t) := by simp
    rw [Module.End.one_apply]
    conv_lhs => rw [e0]
    conv_rhs => rw [e0]
    rcases h.cases hst with ⟨a, b, m⟩ | ⟨a, b, m⟩ | ⟨a, b, m⟩ | ⟨a, b, m⟩ | ⟨a, b, m⟩ | ⟨a, b, m⟩ <;>
    · rw [m]
      simp only [pow_succ, pow_zero, one_mul]
      simp only [Module.End.mul_apply (srefl C s * srefl C t), Module.End.mul_apply (_ * (srefl C s * srefl C t)), step, a, b]
      congr 2
      · congr 1; ring
      · congr 1; ring

variable {M : CoxeterMatrix B} {W : Type} [Group W] (cs : CoxeterSystem M W) {C : B → B → ℤ} (h : IsCartan C M)

/-- the representation on the root lattice -/
noncomputable def geom : W →* Module.End ℤ (B → ℤ) := cs.lift ⟨srefl C, srefl_liftable h⟩

theorem geom_simple (s : B) : geom cs h (cs.simple s) = srefl C s := cs.lift_apply_simple (srefl_liftable h) s

theorem geom_simple_root (s : B) : geom cs h (cs.simple s) (root s) = -root s := by rw [geom_simple, srefl_root h]

theorem geom_mul (v w : W) (x : B → ℤ) : geom cs h (v * w) x = geom cs h v (geom cs h w x) := by rw [map_mul]; rfl

theorem geom_inv (w : W) (x : B → ℤ) : geom cs h w⁻¹ (geom cs h w x) = x := by
  rw [← geom_mul, inv_mul_cancel, map_one]; rfl

theorem geom_injective (w : W) : Function.Injective (geom cs h w) := Function.LeftInverse.injective (geom_inv cs h w)

omit [Fintype B] [DecidableEq B] in
/-- strip letters `s`, `t` on the right -/
theorem strip (n : Nat) : ∀ (w : W) (s t : B), cs.length w = n → ¬ cs.IsRightDescent w s → ∃ k v, w = v * cs.wordProd (alternatingWord s t k) ∧
    cs.length w = cs.length v + k ∧ ¬ cs.IsRightDescent v s ∧ ¬ cs.IsRightDescent v t := by
  induction n with
  | zero =>
    intro w s t hw hs
    rw [cs.length_eq_zero_iff] at hw
    subst hw
    exact ⟨0, 1, by simp [alternatingWord], by simp, cs.not_isRightDescent_one s, cs.not_isRightDescent_one t⟩
  | succ n ih =>
    intro w s t hw hs
    by_cases ht : cs.IsRightDescent w t
    · have h1 := cs.isRightDescent_iff.mp ht
      obtain ⟨k, v, e1, e2, e3, e4⟩ := ih (w * cs.simple t) t s (by omega) (cs.isRightDescent_iff_not_isRightDescent_mul.mp ht)
      refine ⟨k + 1, v, ?_, by omega, e4, e3⟩
      rw [alternatingWord_succ, List.concat_eq_append, cs.wordProd_append, cs.wordProd_singleton, ← mul_assoc, ← e1]
      simp
    · exact ⟨0, w, by simp [alternatingWord], by simp, hs, ht⟩

/-- positive combination of two simple roots -/
theorem dihedral {s t : B} (hst : s ≠ t) {k : Nat} (hk : k < M s t) :
    ∃ a b : ℤ, 0 ≤ a ∧ 0 ≤ b ∧ geom cs h (cs.wordProd (alternatingWord s t k)) (root s) = a • root s + b • root t := by
  have step : ∀ i (v : B → ℤ), geom cs h (cs.simple i) v = v - pairing C i v • root i := fun i v => by rw [geom_simple, srefl_apply]
  have lin : ∀ (a b c d : ℤ), a = c → b = d → a • root s + b • root t = c • root s + d • (root t : B → ℤ) := by
    intro a b c d e1 e2; rw [e1, e2]
  have S : ∀ a b : ℤ, geom cs h (cs.simple s) (a • root s + b • root t) = (-a - b * C t s) • root s + b • root t := by
    intro a b
    simp only [step, map_add, map_smul, pairing_root, h.diag, smul_eq_mul]
    funext i
    simp only [Pi.add_apply, Pi.sub_apply, Pi.smul_apply, smul_eq_mul]
    ring
  have T : ∀ a b : ℤ, geom cs h (cs.simple t) (a • root s + b • root t) = a • root s + (-b - a * C s t) • root t := by
    intro a b
    simp only [step, map_add, map_smul, pairing_root, h.diag, smul_eq_mul]
    funext i
    simp only [Pi.add_apply, Pi.sub_apply, Pi.smul_apply, smul_eq_mul]
    ring
  have e0 : root s = (1 : ℤ) • root s + (0 : ℤ) • (root t : B → ℤ) := by simp
  have go : ∀ k, geom cs h (cs.wordProd (alternatingWord s t (k + 1))) (root s) =
      geom cs h (cs.simple (if Even k then t else s)) (geom cs h (cs.wordProd (alternatingWord s t k)) (root s)) := by
    intro k
    rw [alternatingWord_succ', cs.wordProd_cons, geom_mul]
  have g0 : geom cs h (cs.wordProd (alternatingWord s t 0)) (root s) = (1 : ℤ) • root s + (0 : ℤ) • (root t : B → ℤ) := by
    rw [← e0]; simp [alternatingWord]
  have g1 := go 0
  have g2 := go 1
  have g3 := go 2
  have g4 := go 3
  have g5 := go 4
  rw [g0, if_pos (by decide), T] at g1
  rw [g1, if_neg (by decide), S] at g2
  rw [g2, if_pos (by decide), T] at g3
  rw [g3, if_neg (by decide), S] at g4
  rw [g4, if_pos (by decide), T] at g5
  rcases h.cases hst with ⟨a, b, m⟩ | ⟨a, b, m⟩ | ⟨a, b, m⟩ | ⟨a, b, m⟩ | ⟨a, b, m⟩ | ⟨a, b, m⟩ <;>
  · rw [m] at hk
    rw [a, b] at g5 g4 g3 g2
    rw [a] at g1
    interval_cases k
    all_goals first
      | exact ⟨_, _, by norm_num, by norm_num, g0⟩
      | exact ⟨_, _, by norm_num, by norm_num, g1⟩
      | exact ⟨_, _, by norm_num, by norm_num, g2⟩
      | exact ⟨_, _, by norm_num, by norm_num, g3⟩
      | exact ⟨_, _, by norm_num, by norm_num, g4⟩
      | exact ⟨_, _, by norm_num, by norm_num, g5⟩

/-- A simple root stays positive under `w` if the simple reflection makes `w` longer. -/
theorem geom_pos {w : W} {s : B} (hs : ¬ cs.IsRightDescent w s) : ∀ i, 0 ≤ geom cs h w (root s) i := by
  obtain ⟨n, hn⟩ : ∃ n, cs.length w = n := ⟨_, rfl⟩
  induction n using Nat.strong_induction_on generalizing w s with
  | _ n ih =>
  by_cases hw : w = 1
  · subst hw
    intro i
    rw [map_one, Module.End.one_apply, root_apply]
    split <;> omega
  · obtain ⟨t, ht⟩ := cs.exists_rightDescent_of_ne_one hw
    have hst : s ≠ t := by rintro rfl; exact hs ht
    obtain ⟨k, v, e1, e2, e3, e4⟩ := strip cs n w s t hn hs
    have hk0 : k ≠ 0 := by
      rintro rfl
      simp only [alternatingWord, cs.wordProd_nil, mul_one] at e1
      rw [e1] at ht
      exact e4 ht
    have hlt : cs.length v < n := by omega
    have p1 := ih _ hlt e3 rfl
    have p2 := ih _ hlt e4 rfl
    have hk : k < M s t := by
      by_contra hk
      have h1 := cs.not_isRightDescent_iff.mp hs
      have hM : M t s ≠ 0 := by rcases h.cases (Ne.symm hst) with a | a | a | a | a | a <;> omega
      have := cs.not_isReduced_alternatingWord t s (m := k + 1) hM (by rw [M.symmetric]; omega)
      apply this
      have h2 : w * cs.simple s = v * cs.wordProd (alternatingWord t s (k + 1)) := by
        rw [alternatingWord_succ, List.concat_eq_append, cs.wordProd_append, cs.wordProd_singleton, ← mul_assoc, ← e1]
      rw [h2] at h1
      have h3 := cs.length_mul_le v (cs.wordProd (alternatingWord t s (k + 1)))
      have h4 := cs.length_wordProd_le (alternatingWord t s (k + 1))
      rw [length_alternatingWord] at h4
      show cs.length _ = _
      rw [length_alternatingWord]
      omega
    obtain ⟨a, b, ha, hb, e⟩ := dihedral cs h hst hk
    intro i
    rw [e1, geom_mul, e, map_add, map_smul, map_smul]
    simp only [Pi.add_apply, Pi.smul_apply, smul_eq_mul]
    have := mul_nonneg ha (p1 i)
    have := mul_nonneg hb (p2 i)
    omega

/-- A simple root becomes negative if the simple reflection makes `w` shorter. -/
theorem geom_neg {w : W} {s : B} (hs : cs.IsRightDescent w s) : ∀ i, geom cs h w (root s) i ≤ 0 := by
  intro i
  have := geom_pos cs h (cs.isRightDescent_iff_not_isRightDescent_mul.mp hs) i
  rw [geom_mul, geom_simple_root, map_neg, Pi.neg_apply] at this
  omega

omit [Fintype B] in
theorem root_ne_zero (s : B) : (root s : B → ℤ) ≠ 0 := by
  intro e
  have := congrFun e s
  simp [root_apply] at this

/-- The representation is faithful. -/
theorem geom_faithful : Function.Injective (geom cs h) := by
  rw [injective_iff_map_eq_one]
  intro w hw
  by_contra hne
  obtain ⟨t, ht⟩ := cs.exists_rightDescent_of_ne_one hne
  have := geom_neg cs h ht t
  rw [hw, Module.End.one_apply, root_apply, if_pos rfl] at this
  omega

end Verif.Coxeter
