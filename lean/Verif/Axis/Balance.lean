import Verif.Axis.Close
/-
Model of the choice of a common type for the branches of an expression: `accepts`, `join_to` (/repo/sources/interpreter/axis-types.w) and the part of `balance` that works on types (/repo/sources/interpreter/axis.w).
Only monomorphic types, and the type `type::bottom` (any type at all), are modelled; the latter is `none`.
-/
namespace Verif.Axis
open Verif

mutual
/-- `accepts` (axis-types.w L5392-5430, without tabled types) -/
def accepts (tab : CTab) : Ty → Ty → Bool
  | a, b =>
    if a.isVoid || b.isUndet then true
    else if b.isVoid then false
    else if a.beq b then true
    else if a.isPrim then isClose tab a b &&& 2 != 0
    else
      match a, b with
      | .var m, .var n => m == n
      | .row c, .row c' => accepts tab c c'
      | .func x r, .func x' r' => x.beq x' && accepts tab r r'
      | .tuple l, .tuple l' => acceptsL tab l l'
      | .union l, .union l' => acceptsL tab l l'
      | _, _ => false
/-- the loop over components (axis-types.w L5418-5424) -/
def acceptsL (tab : CTab) : List Ty → List Ty → Bool
  | [], [] => true
  | a :: l, b :: l' => if accepts tab a b then acceptsL tab l l' else false
  | _, _ => false
end

/-- `join_to` (axis-types.w L5340-5363): the result, and the new value of `a`.  Where one of the types is `type::bottom`, `unify_to` succeeds and gives the other one. -/
def joinTo (tab : CTab) : Option Ty → Option Ty → Bool × Option Ty
  | none, b => (true, b)
  | some a, none => (true, some a)
  | some a, some b =>
    if a.isVoid then (true, some a)
    else if b.isVoid then (true, some b)
    else if accepts tab a b then (true, some a)
    else if accepts tab b a then (true, some b)
    else (false, some a)

/-- the second pass of `balance` (axis.w L1261-1263): `common` and `conflicts` after joining the types of the branches -/
def joinAll (tab : CTab) : Option Ty → List Ty → List (Option Ty) → Option Ty × List Ty
  | c, conf, [] => (c, conf)
  | c, conf, t :: l =>
    let r := joinTo tab c t
    if r.1 then joinAll tab r.2 conf l else joinAll tab r.2 (conf ++ t.toList) l

/-- the loop that removes conflicts (axis.w L1277-1282): `common` and what remains -/
def prune (tab : CTab) : Option Ty → List Ty → Option Ty × List Ty
  | c, [] => (c, [])
  | c, t :: l =>
    let r := joinTo tab c (some t)
    if r.1 then prune tab r.2 l
    else
      let q := prune tab r.2 l
      (q.1, t :: q.2)

/-- `balance` (axis.w L1170-1196), from the types found for the branches in the first pass, and the types collected from errors in inner balancing; an error gives the list `variants` (axis.w L1283-1288) -/
def balance (tab : CTab) (common : Option Ty) (types : List (Option Ty)) (inner : List Ty) : Except (List Ty) (Option Ty) :=
  let r := joinAll tab common inner types
  let q := prune tab r.1 r.2
  if q.2.isEmpty then .ok q.1 else .error (q.1.toList ++ q.2)

/-- the types of an error in an inner list display, as types of the branch (axis.w L1236-1241) -/
def wrapRow (variants : List Ty) : List Ty := variants.map .row

end Verif.Axis
