import Verif.KL.Spec
import Mathlib.Algebra.MonoidAlgebra.NoZeroDivisors
import Mathlib.Algebra.Group.UniqueProds.Basic
import Mathlib.Tactic.LinearCombination
import Mathlib.Tactic.Ring

/-! Auxiliary facts on Laurent polynomials: coefficients, degree bounds, self-duality. -/

namespace Verif.KL

open Polynomial LaurentPolynomial

abbrev co (f : L) (i : ℤ) : ℤ := AddMonoidAlgebra.coeff f i

theorem co_ext {f g : L} (h : ∀ i, co f i = co g i) : f = g := LaurentPolynomial.ext h

theorem co_add (f g : L) (i : ℤ) : co (f + g) i = co f i + co g i := by simp [co]
theorem co_sub (f g : L) (i : ℤ) : co (f - g) i = co f i - co g i := by simp [co]
theorem co_neg (f : L) (i : ℤ) : co (-f) i = - co f i := by simp [co]
theorem co_zero (i : ℤ) : co 0 i = 0 := by simp [co]
theorem co_T (n i : ℤ) : co (LaurentPolynomial.T n) i = if i = n then 1 else 0 := by
  show (Finsupp.single n (1 : ℤ)) i = _
  rw [Finsupp.single_apply]
  by_cases h : i = n
  · rw [if_pos h, if_pos h.symm]
  · rw [if_neg h, if_neg (Ne.symm h)]
theorem co_one (i : ℤ) : co 1 i = if i = 0 then 1 else 0 := by
  rw [← LaurentPolynomial.T_zero, co_T]
theorem co_T_mul (n : ℤ) (f : L) (i : ℤ) : co (LaurentPolynomial.T n * f) i = co f (i - n) := by
  have := AddMonoidAlgebra.coeff_single_mul_apply f (1 : ℤ) n i
  rw [one_mul] at this
  rw [show i - n = -n + i by ring]
  exact this
theorem co_inv (f : L) (i : ℤ) : co (LaurentPolynomial.invert f) i = co f (-i) := by
  simp [co]
theorem co_sum {ι : Type} (s : Finset ι) (f : ι → L) (i : ℤ) :
    co (∑ j ∈ s, f j) i = ∑ j ∈ s, co (f j) i := by
  classical
  induction s using Finset.induction_on with
  | empty => simp [co]
  | insert a s ha ih => rw [Finset.sum_insert ha, Finset.sum_insert ha, co_add, ih]

theorem co_C (c : ℤ) (i : ℤ) : co (LaurentPolynomial.C c) i = if i = 0 then c else 0 := by
  show (Finsupp.single 0 c) i = _
  rw [Finsupp.single_apply]
  by_cases h : i = 0
  · rw [if_pos h, if_pos h.symm]
  · rw [if_neg h, if_neg (Ne.symm h)]
theorem co_C_mul (c : ℤ) (f : L) (i : ℤ) : co (LaurentPolynomial.C c * f) i = c * co f i := by
  have := AddMonoidAlgebra.coeff_single_mul_apply f c 0 i
  rw [neg_zero, zero_add] at this
  exact this

theorem co_toL (p : ℕ[X]) (i : ℤ) :
    co (toL p) i = if 0 ≤ i then (p.coeff i.toNat : ℤ) else 0 := by
  induction p using Polynomial.induction_on' with
  | add p r hp hr =>
    rw [map_add, co_add, hp, hr]
    by_cases h : 0 ≤ i
    · simp [h]
    · simp [h]
  | monomial n a =>
    have : toL (Polynomial.monomial n a) = LaurentPolynomial.C (a : ℤ) * LaurentPolynomial.T n := by
      simp only [toL, RingHom.comp_apply, Polynomial.coe_mapRingHom, Polynomial.map_monomial]
      rw [← Polynomial.C_mul_X_pow_eq_monomial, Polynomial.toLaurent_C_mul_X_pow]
      rfl
    rw [this, co_C_mul, co_T, Polynomial.coeff_monomial]
    by_cases h : 0 ≤ i
    · rw [if_pos h]
      by_cases h' : i = n
      · subst h'; simp
      · rw [if_neg h', if_neg (by omega)]; simp
    · rw [if_neg h, if_neg (by omega)]; simp

theorem co_toL_nat (p : ℕ[X]) (i : ℕ) : co (toL p) i = p.coeff i := by
  rw [co_toL, if_pos (by omega)]; simp

theorem toL_inj {p r : ℕ[X]} (h : toL p = toL r) : p = r := by
  ext i
  have := congrArg (fun f => co f (i : ℤ)) h
  simp only [co_toL_nat] at this
  exact_mod_cast this

theorem toL_X : toL X = q := by
  simp [toL]

theorem toL_X_pow (n : ℕ) : toL (X ^ n) = LaurentPolynomial.T n := by
  rw [map_pow, toL_X, LaurentPolynomial.T_pow]; simp

/-! ### Degree bounds -/

/-- every exponent `i` of `f` satisfies `2i < c` -/
def Bd (c : ℤ) (f : L) : Prop := ∀ i, co f i ≠ 0 → 2 * i < c

theorem Bd.zero (c : ℤ) : Bd c 0 := fun i h => absurd (co_zero i) h
theorem Bd.mono {c d : ℤ} (h : c ≤ d) {f : L} (hf : Bd c f) : Bd d f := fun i hi => by
  have := hf i hi; omega
theorem Bd.add {c : ℤ} {f g : L} (hf : Bd c f) (hg : Bd c g) : Bd c (f + g) := fun i hi => by
  rw [co_add] at hi
  by_cases h : co f i = 0
  · rw [h, zero_add] at hi; exact hg i hi
  · exact hf i h
theorem Bd.neg {c : ℤ} {f : L} (hf : Bd c f) : Bd c (-f) := fun i hi => by
  rw [co_neg] at hi; exact hf i (by simpa using hi)
theorem Bd.sub {c : ℤ} {f g : L} (hf : Bd c f) (hg : Bd c g) : Bd c (f - g) := by
  rw [sub_eq_add_neg]; exact hf.add hg.neg
theorem Bd.sum {ι : Type} {c : ℤ} (s : Finset ι) (f : ι → L) (h : ∀ j ∈ s, Bd c (f j)) :
    Bd c (∑ j ∈ s, f j) := by
  intro i hi
  rw [co_sum] at hi
  obtain ⟨j, hj, hne⟩ := Finset.exists_ne_zero_of_sum_ne_zero hi
  exact h j hj i hne
theorem Bd.qmul {c : ℤ} {f : L} (hf : Bd c f) : Bd (c + 2) (q * f) := fun i hi => by
  rw [co_T_mul] at hi
  have := hf _ hi; omega
theorem Bd.T_mul {c : ℤ} {f : L} (n : ℤ) (hf : Bd c f) :
    Bd (c + 2 * n) (LaurentPolynomial.T n * f) := fun i hi => by
  rw [co_T_mul] at hi
  have := hf _ hi; omega

theorem Bd.mul {c d : ℤ} {f g : L} (hf : Bd c f) (hg : Bd d g) : Bd (c + d - 1) (f * g) := by
  intro i hi
  rw [co, AddMonoidAlgebra.coeff_mul] at hi
  rw [Finsupp.sum] at hi
  obtain ⟨a, ha, h1⟩ := Finset.exists_ne_zero_of_sum_ne_zero hi
  rw [Finsupp.sum] at h1
  obtain ⟨b, hb, h2⟩ := Finset.exists_ne_zero_of_sum_ne_zero h1
  have hab : a + b = i := by
    by_contra hne
    exact h2 (by rw [if_neg hne])
  have h3 := hf a (by simpa using ha)
  have h4 := hg b (by simpa using hb)
  omega

theorem Bd.C (c : ℤ) : Bd 1 (LaurentPolynomial.C c) := fun i hi => by
  rw [co_C] at hi
  by_cases h : i = 0
  · omega
  · rw [if_neg h] at hi; exact absurd rfl hi

theorem Bd.one : Bd 1 1 := fun i hi => by
  rw [co_one] at hi
  by_cases h : i = 0
  · omega
  · rw [if_neg h] at hi; exact absurd rfl hi

/-- a symmetric element with exponents below the middle is zero -/
theorem sym_zero {k : ℤ} {f : L} (hs : f = LaurentPolynomial.T k * LaurentPolynomial.invert f)
    (hb : Bd k f) : f = 0 := by
  apply co_ext
  intro i
  rw [co_zero]
  by_contra h
  have h1 : co f i = co f (k - i) := by
    conv_lhs => rw [hs]
    rw [co_T_mul, co_inv]; congr 1; ring
  have h2 := hb i h
  have h3 := hb (k - i) (h1 ▸ h)
  omega

/-- a symmetric element with exponents up to the middle is a multiple of the middle power -/
theorem sym_mid {k : ℤ} {f : L} (hs : f = LaurentPolynomial.T k * LaurentPolynomial.invert f)
    (hb : Bd (k + 1) f) (i : ℤ) (hi : co f i ≠ 0) : 2 * i = k := by
  have h1 : co f i = co f (k - i) := by
    conv_lhs => rw [hs]
    rw [co_T_mul, co_inv]; congr 1; ring
  have h2 := hb i hi
  have h3 := hb (k - i) (h1 ▸ hi)
  omega

theorem q_ne_one : (q - 1 : L) ≠ 0 := by
  intro h
  have := congrArg (fun f => co f 1) h
  simp [co_sub, co_one, co_zero] at this

theorem q_add_one : (q + 1 : L) ≠ 0 := by
  intro h
  have := congrArg (fun f => co f 1) h
  simp [co_add, co_one, co_zero] at this

theorem q_ne : (q : L) ≠ 0 := by
  intro h
  have := congrArg (fun f => co f 1) h
  simp [co_zero] at this

end Verif.KL
