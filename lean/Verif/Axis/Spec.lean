import Verif.Axis.Model
import Mathlib.Order.WellFounded
/-
Specification for C75: what it means to unify types.
-/
namespace Verif.Axis
open Verif

mutual
/-- replacing each type variable by a type -/
def subst (θ : Nat → Ty) : Ty → Ty
  | .undet => .undet
  | .prim n => .prim n
  | .var n => θ n
  | .func a r => .func (subst θ a) (subst θ r)
  | .row c => .row (subst θ c)
  | .tuple l => .tuple (substL θ l)
  | .union l => .union (substL θ l)
def substL (θ : Nat → Ty) : List Ty → List Ty
  | [] => []
  | t :: l => subst θ t :: substL θ l
end

mutual
/-- the type variables of a type, from left to right -/
def vars : Ty → List Nat
  | .undet => []
  | .prim _ => []
  | .var n => [n]
  | .func a r => vars a ++ vars r
  | .row c => vars c
  | .tuple l => varsL l
  | .union l => varsL l
def varsL : List Ty → List Nat
  | [] => []
  | t :: l => vars t ++ varsL l
end

mutual
/-- no undetermined parts -/
def Full : Ty → Prop
  | .undet => False
  | .prim _ => True
  | .var _ => True
  | .func a r => Full a ∧ Full r
  | .row c => Full c
  | .tuple l => FullL l
  | .union l => FullL l
def FullL : List Ty → Prop
  | [] => True
  | t :: l => Full t ∧ FullL l
end

/-- `p` is assigned to the type variable `i` -/
def TA.Assigned (E : TA) (i : Nat) (p : Ty) : Prop := E.threshold ≤ i ∧ E.equiv[i - E.threshold]? = some (some p)

/-- the substitution agrees with what is assigned; type variables below the threshold are constants -/
def Solves (E : TA) (θ : Nat → Ty) : Prop := (∀ i < E.threshold, θ i = .var i) ∧ ∀ i p, E.Assigned i p → θ i = subst θ p

/-- the substitution makes the types equal -/
def Unifies (θ : Nat → Ty) (P Q : Ty) : Prop := subst θ P = subst θ Q

/-- a type to which `unify` may be applied: complete, with known variables only -/
def Known (E : TA) (t : Ty) : Prop := Full t ∧ ∀ v ∈ vars t, v < E.threshold + E.size

/-- the type variable `j` occurs in the type assigned to `i` -/
def TA.Uses (E : TA) (j i : Nat) : Prop := ∃ p, E.Assigned i p ∧ j ∈ vars p

/-- the class invariant: assigned types are complete and known, and following references from variables to variables always comes to an end -/
structure TA.Good (E : TA) : Prop where
  known : ∀ i p, E.Assigned i p → Known E p
  acyclic : WellFounded E.Uses

/-- nothing is forgotten: `E'` has all assignments of `E` -/
structure Extends (E E' : TA) : Prop where
  threshold : E'.threshold = E.threshold
  size : E'.size = E.size
  assigned : ∀ i p, E.Assigned i p → E'.Assigned i p

/-- the type variables in `VQ` that are not constants occur only once, and not elsewhere -/
structure Fresh (E : TA) (VP VQ : List Nat) : Prop where
  once : (VQ.filter (E.threshold ≤ ·)).Nodup
  left : ∀ v ∈ VQ, E.threshold ≤ v → v ∉ VP
  free : ∀ v ∈ VQ, E.threshold ≤ v → ∀ p, ¬ E.Assigned v p
  unused : ∀ v ∈ VQ, E.threshold ≤ v → ∀ i, ¬ E.Uses v i

/-- `renumber` closes the gaps: the number of a free type variable counts the free ones before it -/
def TA.number (E : TA) (c : Nat) : Nat := if c < E.threshold then c else E.threshold + ((E.equiv.take (c - E.threshold)).filter Option.isNone).length

end Verif.Axis
