import Verif.Axis.Close
import Mathlib.Data.List.Forall2
/-
Specification for C77: conversion of argument types, and the overload table.
-/
namespace Verif.Axis
open Verif

/-- an expression of type `x` given as argument can be converted to type `y`: by a coercion from the table from or to a primitive type, or by conversion of the components of rows and tuples -/
inductive Conv (tab : CTab) : Ty → Ty → Prop
  | refl (x : Ty) : Conv tab x x
  | coercion {x y : Ty} : (x, y) ∈ tab → x.isPrim = true ∨ y.isPrim = true → Conv tab x y
  | row {c c' : Ty} : Conv tab c c' → Conv tab (.row c) (.row c')
  | tuple {l l' : List Ty} : List.Forall₂ (Conv tab) l l' → Conv tab (.tuple l) (.tuple l')

/-- the types are close: corresponding components are equal, or there is a coercion in one direction or the other -/
inductive CloseTo (tab : CTab) : Ty → Ty → Prop
  | refl (x : Ty) : CloseTo tab x x
  | coercion {x y : Ty} : (x, y) ∈ tab ∨ (y, x) ∈ tab → x.isPrim = true ∨ y.isPrim = true → CloseTo tab x y
  | row {c c' : Ty} : CloseTo tab c c' → CloseTo tab (.row c) (.row c')
  | tuple {l l' : List Ty} : List.Forall₂ (CloseTo tab) l l' → CloseTo tab (.tuple l) (.tuple l')

/-- coercions do not concern undetermined types or the void type -/
def TabOK (tab : CTab) : Prop := ∀ r ∈ tab, r.1.isUndet = false ∧ r.1.isVoid = false ∧ r.2.isUndet = false ∧ r.2.isVoid = false

/-- the types `x` and `y` cannot both be argument types of one overloaded function: they are close, but none is more specific -/
def Conflict (tab : CTab) (x y : Ty) : Prop := CloseTo tab x y ∧ x ≠ y ∧ (Conv tab x y ↔ Conv tab y x)

/-- a list of argument types is in order: no conflicts, and more specific types come first -/
def Ordered (tab : CTab) (l : List Ty) : Prop := l.Pairwise fun x y => CloseTo tab x y → Conv tab x y ∧ ¬ Conv tab y x

/-- among the given types, conversions can be composed, and what is close to a type is close to less specific ones -/
structure Consistent (tab : CTab) (S : Ty → Prop) : Prop where
  trans : ∀ x y z, S x → S y → S z → Conv tab x y → Conv tab y z → Conv tab x z
  close : ∀ x y z, S x → S y → S z → Conv tab x y → ¬ Conv tab y x → CloseTo tab x z → CloseTo tab y z

/-- the overload tables obtained by adding and removing functions with argument types in `S` -/
inductive Reach (tab : CTab) (S : Ty → Prop) : OTab → Prop
  | empty : Reach tab S (fun _ => none)
  | add {T T' : OTab} {id : Nat} {v : Variant} : Reach tab S T → S v.arg → T.add tab id v = .ok T' → Reach tab S T'
  | remove {T : OTab} {id : Nat} {arg : Ty} : Reach tab S T → Reach tab S (T.remove id arg).2

end Verif.Axis
