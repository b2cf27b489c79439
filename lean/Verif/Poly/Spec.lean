import Mathlib.Algebra.Polynomial.Coeff
import Mathlib.Algebra.Polynomial.Degree.Defs
/-
Specification: the polynomial that a list of coefficients stands for.
-/
namespace Verif.Poly

open _root_.Polynomial

/-- the polynomial `∑ l[i] X^i` -/
noncomputable def val {S : Type} [CommSemiring S] (l : List S) : _root_.Polynomial S :=
  ∑ i ∈ Finset.range l.length, C (l.getD i 0) * X ^ i

/-- the leading coefficient, if there is one, is nonzero -/
def Canon {S : Type} [Zero S] (l : List S) : Prop := ∀ h : l ≠ [], l.getLast h ≠ 0

end Verif.Poly
