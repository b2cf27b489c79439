import Verif.Axis.Balance
import Verif.Axis.CloseSpec
import Verif.Axis.Spec
import Mathlib.Data.List.Forall2
/-
Specification for C78: when a type accepts another one, and the common type of several branches.
-/
namespace Verif.Axis
open Verif

/-- `Accepts tab a b`: where a type `a` is required, an expression that has type `b` when considered alone may be tried: `a` is void (the value is thrown away), the types are equal,
`a` is a primitive type with a coercion from `b`, or this holds for the components of rows, tuples and unions, and for the results of functions with the same arguments.
Undetermined types are accepted by all types. -/
inductive Accepts (tab : CTab) : Ty → Ty → Prop
  | void (b : Ty) : Accepts tab (.tuple []) b
  | undet (a : Ty) : Accepts tab a .undet
  | refl (a : Ty) : Accepts tab a a
  | coercion {n : Nat} {b : Ty} : (b, .prim n) ∈ tab → Accepts tab (.prim n) b
  | row {c c' : Ty} : Accepts tab c c' → Accepts tab (.row c) (.row c')
  | func (x : Ty) {r r' : Ty} : Accepts tab r r' → Accepts tab (.func x r) (.func x r')
  | tuple {l l' : List Ty} : List.Forall₂ (Accepts tab) l l' → Accepts tab (.tuple l) (.tuple l')
  | union {l l' : List Ty} : List.Forall₂ (Accepts tab) l l' → Accepts tab (.union l) (.union l')

/-- `c` is a common type for the types in the list: it is one of them, and accepts all of them -/
def IsTop (tab : CTab) (l : List Ty) (c : Ty) : Prop := c ∈ l ∧ ∀ t ∈ l, Accepts tab c t

/-- no type of the list accepts all of them -/
def NoTop (tab : CTab) (l : List Ty) : Prop := ¬ ∃ c, IsTop tab l c

/-- the types concerned by balancing: what the context requires, and those of the branches -/
def outer (common : Option Ty) (types : List (Option Ty)) : List Ty := common.toList ++ types.filterMap id

/-- what the coercions must satisfy for `Accepts` to be an order: they do not go in both directions between primitive types, and can be composed with conversions of components of the source -/
structure TabOrder (tab : CTab) : Prop where
  ok : TabOK tab
  anti : ∀ m n, (Ty.prim m, Ty.prim n) ∈ tab → (Ty.prim n, Ty.prim m) ∈ tab → m = n
  trans : ∀ n b c, (b, Ty.prim n) ∈ tab → Accepts tab b c → Full c → Accepts tab (.prim n) c

end Verif.Axis
