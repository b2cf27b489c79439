import Mathlib.Algebra.BigOperators.Group.List.Basic
import Mathlib.Algebra.Ring.Defs
import Mathlib.Order.Defs.LinearOrder
/-
Specification: the function with finite support that a list of blocks of terms stands for, and
the condition on the blocks that all operations maintain.
-/
namespace Verif.Free

variable {T C : Type} [LinearOrder T] [CommRing C]

/-- the coefficient of `e`: the sum of the coefficients of all its terms -/
def den (L : List (List (T × C))) (e : T) : C :=
  ((L.flatten.filter (fun t => decide (t.1 = e))).map Prod.snd).sum

/-- blocks are nonempty and sorted by exponent, no exponent occurs twice -/
def Inv (L : List (List (T × C))) : Prop :=
  (∀ b ∈ L, b ≠ [] ∧ b.Pairwise (fun x y => x.1 < y.1)) ∧ (L.flatten.map Prod.fst).Nodup

end Verif.Free
