import Verif.RatVec.Model
import Mathlib.Data.Rat.Floor
import Mathlib.LinearAlgebra.Matrix.Notation
/-
What a `RationalVector` stands for.
-/
namespace Verif.RatVec

/-- `v` stands for the vector `q` over the rationals: its denominator is positive, its numerators
are those of the components of `q` over that denominator, and all of them, as well as their
negatives, are in the range of 64-bit signed numbers. -/
def Rep {n : Nat} (v : RatVec) (q : Fin n → ℚ) : Prop :=
  0 < v.den ∧ v.den < 2 ^ 63 ∧
  ∃ a : Fin n → Int, v.num = List.ofFn a ∧ ∀ i, |a i| < 2 ^ 63 ∧ q i = a i / v.den

/-- no number but 1 divides the denominator and all numerators -/
def Reduced (v : RatVec) : Prop := ∀ k : Nat, k ∣ v.den → (∀ x ∈ v.num, (k : Int) ∣ x) → k = 1

end Verif.RatVec
