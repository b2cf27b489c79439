import Verif.Pre.Model
import Mathlib.Logic.Relation
/-
Specification for C31: the relation given by the lists a preorder is constructed from.
-/
namespace Verif.Pre

/-- `y` is listed in row `x` -/
def Edge (ls : List (List Nat)) (x y : Nat) : Prop := ∃ l, ls[x]? = some l ∧ y ∈ l

/-- Fewer than `2^32` rows, and they list numbers of rows only. -/
def Proper (ls : List (List Nat)) : Prop := ls.length < 2 ^ 32 ∧ ∀ x y, Edge ls x y → y < ls.length

/-- there is a path of at least one edge -/
def Path (ls : List (List Nat)) : Nat → Nat → Prop := Relation.TransGen (Edge ls)

end Verif.Pre
