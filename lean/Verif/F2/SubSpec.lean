import Verif.F2.Spec
import Verif.F2.SubModel
/-
Specification for C34: the subspaces and subquotients that objects stand for.
-/
namespace Verif.F2
open Verif

/-- `s` stands for the subspace `V` of vectors of size `n` -/
structure IsSub (n : Nat) (s : Sub) (V : Submodule (ZMod 2) (Nat → ZMod 2)) : Prop where
  rank : s.rank = n
  reduced : IsReduced n s.support s.basis
  span : Span s.basis = V

/-- `q` stands for the quotient of `V` by its subspace `W`; the basis vectors selected by `q.rel` are those whose leading
position is not one for `W` -/
structure IsSubq (n : Nat) (q : Subq) (V W : Submodule (ZMod 2) (Nat → ZMod 2)) : Prop where
  space : IsSub n q.space V
  sub : IsSub n q.sub W
  le : W ≤ V
  rel : ∀ i, q.rel.testBit i = true ↔ ∃ (v : BV) (p : Nat), q.space.basis[i]? = some v ∧ Lead v.data p ∧ q.sub.support.testBit p = false

end Verif.F2
