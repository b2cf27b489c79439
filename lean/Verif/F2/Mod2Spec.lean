import Verif.F2.Mod2Model
import Verif.F2.Spec
/-
Specification for C35: what a history of calls on a `Mod2_System` describes, without reference to the elimination.
-/
namespace Verif.F2
open Verif

/-- the number of unknowns introduced -/
def unknowns : List SysOp → Nat
  | [] => 0
  | .extend n :: ops => n + unknowns ops
  | _ :: ops => unknowns ops

/-- `x` satisfies all equations that were added: the sum of the unknowns listed (each counted once) is the right hand side -/
def Solves (ops : List SysOp) (x : Nat → ZMod 2) : Prop :=
  ∀ (l : List Nat) (r : Nat), SysOp.add l r ∈ ops → ∑ i ∈ l.toFinset, x i = (r : ZMod 2)

/-- `x` satisfies the homogeneous equations associated to those that were added -/
def SolvesHom (ops : List SysOp) (x : Nat → ZMod 2) : Prop :=
  ∀ (l : List Nat) (r : Nat), SysOp.add l r ∈ ops → ∑ i ∈ l.toFinset, x i = 0

/-- a call that respects the documented preconditions, after the calls `pre`: equations only involve existing unknowns, and
`reduce` is only called for solvable systems -/
def Proper (pre : List SysOp) : SysOp → Prop
  | .extend _ => True
  | .add l _ => ∀ i ∈ l, i < unknowns pre
  | .reduce => ∃ x, Solves pre x

/-- a history of proper calls -/
def Valid (ops : List SysOp) : Prop := ∀ (pre : List SysOp) (op : SysOp) (post : List SysOp), ops = pre ++ op :: post → Proper pre op

/-- the solutions to the homogeneous equations in unknowns `0,…,n-1` -/
structure IsHomBasis (ops : List SysOp) (b : List Nat) : Prop where
  fits : ∀ x ∈ b, x < 2 ^ unknowns ops
  independent : Independent (b.map fun x => ⟨x, unknowns ops⟩)
  span : ∀ u, u ∈ Span (b.map fun x => ⟨x, unknowns ops⟩) ↔ (∀ i, unknowns ops ≤ i → u i = 0) ∧ SolvesHom ops u

end Verif.F2
