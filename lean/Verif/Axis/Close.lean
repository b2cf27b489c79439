import Verif.Axis.Model
import Mathlib.Logic.Function.Basic
/-
Model of comparison of types in the interpreter: equality, `specialise`, `coercible`, `is_close` (/repo/sources/interpreter/axis-types.w), and of the overload table (/repo/sources/interpreter/global.w).
Tabled types are left out, as in Axis/Model.lean.
-/
namespace Verif.Axis
open Verif

mutual
/-- `operator==` (axis-types.w L1088-1106, without tabled types) -/
def Ty.beq : Ty → Ty → Bool
  | .undet, .undet => true
  | .prim m, .prim n => m == n
  | .var m, .var n => m == n
  | .func a r, .func a' r' => Ty.beq a a' && Ty.beq r r'
  | .row c, .row c' => Ty.beq c c'
  | .tuple l, .tuple l' => beqL l l'
  | .union l, .union l' => beqL l l'
  | _, _ => false
/-- the loop over components (axis-types.w L1115-1122) -/
def beqL : List Ty → List Ty → Bool
  | [], [] => true
  | a :: l, b :: l' => if Ty.beq a b then beqL l l' else false
  | _, _ => false
end

mutual
/-- `specialise` (axis-types.w L911-941, without tabled types): the result, and the new value of `*this` -/
def specialise : Ty → Ty → Bool × Ty
  | t, .undet => (true, t)
  | .undet, p => (true, p)
  | .prim m, .prim n => (m == n, .prim m)
  | .var m, .var n => (m == n, .var m)
  | .func a r, .func a' r' =>
    let x := specialise a a'
    if x.1 then
      let y := specialise r r'
      (y.1, .func x.2 y.2)
    else (false, .func x.2 r)
  | .row c, .row c' =>
    let x := specialise c c'
    (x.1, .row x.2)
  | .tuple l, .tuple l' =>
    let x := specialiseL l l'
    (x.1, .tuple x.2)
  | .union l, .union l' =>
    let x := specialiseL l l'
    (x.1, .union x.2)
  | t, _ => (false, t)
/-- the loop over components (axis-types.w L989-996) -/
def specialiseL : List Ty → List Ty → Bool × List Ty
  | [], [] => (true, [])
  | a :: l, b :: l' =>
    let x := specialise a b
    if x.1 then
      let y := specialiseL l l'
      (y.1, x.2 :: y.2)
    else (false, x.2 :: l)
  | l, _ => (false, l)
end

mutual
/-- `can_specialise` (axis-types.w L1025-1053, without tabled types) -/
def canSpecialise : Ty → Ty → Bool
  | _, .undet => true
  | .undet, _ => true
  | .prim m, .prim n => m == n
  | .var m, .var n => m == n
  | .func a r, .func a' r' => if canSpecialise a a' then canSpecialise r r' else false
  | .row c, .row c' => canSpecialise c c'
  | .tuple l, .tuple l' => canSpecialiseL l l'
  | .union l, .union l' => canSpecialiseL l l'
  | _, _ => false
/-- the loop over components (axis-types.w L1059-1066) -/
def canSpecialiseL : List Ty → List Ty → Bool
  | [], [] => true
  | a :: l, b :: l' => if canSpecialise a b then canSpecialiseL l l' else false
  | _, _ => false
end

/-- `void_type`: the type of empty tuples (axis-types.w L3878, `is_void` L873-876) -/
def Ty.isVoid : Ty → Bool
  | .tuple [] => true
  | _ => false

def Ty.isPrim : Ty → Bool
  | .prim _ => true
  | _ => false

/-- `coerce_table` (axis-types.w L4941): the types converted from and to -/
abbrev CTab := List (Ty × Ty)

/-- `coercible` (axis-types.w L5061-5067) -/
def coercible (tab : CTab) (x y : Ty) : Bool := y.isVoid || tab.any fun r => x.beq r.1 && y.beq r.2

mutual
/-- `is_close` (axis-types.w L5279-5312, without tabled types) -/
def isClose (tab : CTab) : Ty → Ty → Nat
  | x, y =>
    if x.beq y then 7
    else if x.isUndet || y.isUndet then 0
    else if x.isVoid || y.isVoid then 0
    else if x.isPrim || y.isPrim then
      let flags := (if coercible tab x y then 1 else 0) ||| (if coercible tab y x then 2 else 0)
      if flags = 0 then flags else flags ||| 4
    else
      match x, y with
      | .row c, .row c' => isClose tab c c'
      | .tuple l, .tuple l' => isCloseL tab 7 l l'
      | _, _ => 0
/-- the loop over the components of tuples (axis-types.w L5306-5311) -/
def isCloseL (tab : CTab) (flags : Nat) : List Ty → List Ty → Nat
  | [], [] => flags
  | a :: l, b :: l' =>
    let f := flags &&& isClose tab a b
    if f ≠ 0 then isCloseL tab f l l' else 0
  | _, _ => 0
end

/-- the coercions that the program installs (global.w L2877-2903, atlas-types.w L9616-9623), with the numbers of primitive types from axis-types.w L335-338, L5628-5634 -/
def stdTab : CTab :=
  let int := Ty.prim 0; let rat := Ty.prim 1; let str := Ty.prim 2; let vec := Ty.prim 4; let mat := Ty.prim 5; let ratvec := Ty.prim 6
  let lieType := Ty.prim 7; let rd := Ty.prim 8; let ic := Ty.prim 10; let rf := Ty.prim 11; let split := Ty.prim 15
  let kType := Ty.prim 16; let kTypePol := Ty.prim 17; let param := Ty.prim 18; let paramPol := Ty.prim 19
  [(int, rat), (.row int, vec), (.row rat, ratvec), (vec, .row int), (ratvec, .row rat), (vec, ratvec), (.row int, ratvec), (vec, .row rat), (.row int, .row rat),
   (.row vec, mat), (.row (.row int), mat), (.row (.row int), .row vec), (mat, .row vec), (mat, .row (.row int)), (.row vec, .row (.row int)), (mat, .row ratvec), (mat, .row (.row rat)),
   (.row vec, .row ratvec), (.row vec, .row (.row rat)), (.row (.row int), .row ratvec), (.row (.row int), .row (.row rat)),
   (str, lieType), (ic, rd), (rf, ic), (rf, rd), (int, split), (.tuple [int, int], split), (kType, kTypePol), (param, paramPol)]

/-- `overload_data` (global.w L449-467); the function value is a number, source locations are left out -/
structure Variant where
  val : Nat
  arg : Ty
  res : Ty
  degree : Nat

/-- `overload_table` (global.w L485-515): a map from identifiers to lists of variants -/
abbrev OTab := Nat → Option (List Variant)

/-- the loop of `locate_overload` (global.w L585-604): the number of variants passed over, and whether the next one is to be replaced; a conflict throws `program_error` -/
def locate (tab : CTab) (arg : Ty) : List Variant → Nat → Res (Nat × Bool)
  | [], i => .ok (i, false)
  | v :: slot, i =>
    let cmp := isClose tab arg v.arg
    if cmp = 6 then locate tab arg slot (i + 1)
    else if cmp = 5 then .ok (i, false)
    else if cmp = 7 then
      if v.arg.beq arg then .ok (i, true) else .throw
    else if cmp = 4 then .throw
    else locate tab arg slot (i + 1)

/-- `overload_table::add` (global.w L638-667) -/
def OTab.add (tab : CTab) (T : OTab) (id : Nat) (v : Variant) : Res OTab :=
  match T id with
  | none => .ok (Function.update T id (some [v]))
  | some slot => do
    let (i, overwrite) ← locate tab v.arg slot 0
    if overwrite then .ok (Function.update T id (some (slot.set i v)))
    else .ok (Function.update T id (some (slot.take i ++ v :: slot.drop i)))

/-- `overload_table::entry` without shift (global.w L543-553) -/
def OTab.entry (T : OTab) (id : Nat) (arg : Ty) : Option Variant := (T id).bind fun slot => slot.find? fun v => v.arg.beq arg

/-- the loop of `remove`: the list without the first variant of the given type -/
def eraseFirst (arg : Ty) : List Variant → Option (List Variant)
  | [] => none
  | v :: slot => if v.arg.beq arg then some slot else (eraseFirst arg slot).map (v :: ·)

/-- `overload_table::remove` (global.w L684-700) -/
def OTab.remove (T : OTab) (id : Nat) (arg : Ty) : Bool × OTab :=
  match T id with
  | none => (false, T)
  | some slot =>
    match eraseFirst arg slot with
    | none => (false, T)
    | some [] => (true, Function.update T id none)
    | some slot' => (true, Function.update T id (some slot'))

/-- the search for an inexact match (axis.w L2063-2066) -/
def inexact (tab : CTab) (apt : Ty) (slot : List Variant) : Option Variant := slot.find? fun v => v.degree == 0 && (isClose tab apt v.arg &&& 1) != 0

end Verif.Axis
