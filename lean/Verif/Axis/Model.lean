import Verif.Vec
/-
Model of types of the interpreter and of their unification (/repo/sources/interpreter/axis-types.w).
A `type_expr` is a tree; user-defined ("tabled") types and type constructors are left out, so the parts of the code that deal with `tag==tabled` are not modelled.
Linked lists of types are lists, null pointers in `equiv` are `none`.  Numbers of primitive types and of type variables are natural numbers.
`nd` tells whether assertions are disabled; `fuel` bounds the depth of recursion.
-/
namespace Verif.Axis
open Verif

/-- `type_expr` (axis-types.w L330-430), without tabled types -/
inductive Ty where
  | undet
  | prim (n : Nat)
  | var (n : Nat)
  | func (a r : Ty)
  | row (c : Ty)
  | tuple (l : List Ty)
  | union (l : List Ty)

/-- `type_assignment` (axis-types.w L2457-2460) -/
structure TA where
  threshold : Nat
  equiv : List (Option Ty)

/-- the constructor (axis-types.w L2462-2466) -/
def TA.make (fix degree : Nat) : TA := ⟨fix, List.replicate degree none⟩

/-- `size` (axis-types.w L2470) -/
def TA.size (E : TA) : Nat := E.equiv.length

/-- `equivalent` (axis-types.w L2490-2492) -/
def TA.equivalent (nd : Bool) (E : TA) (i : Nat) : Res (Option Ty) :=
  if i < E.threshold then .ok none
  else do
    Res.assertIn nd (decide (i < E.threshold + E.size))
    Vec.get E.equiv (i - E.threshold)

/-- the loops over components in `is_free_in` (axis-types.w L2627-2630) -/
def anyLoop (f : Ty → Res Bool) : List Ty → Res Bool
  | [] => .ok false
  | t :: l => do if ← f t then .ok true else anyLoop f l

/-- `is_free_in` (axis-types.w L2615-2639) -/
def TA.isFree (nd : Bool) (E : TA) : Nat → Ty → Nat → Res Bool
  | 0, _, _ => .outOfFuel
  | k + 1, tp, nr =>
    match tp with
    | .var n => do
      match ← E.equivalent nd n with
      | some p => E.isFree nd k p nr
      | none => .ok (n == nr)
    | .row c => E.isFree nd k c nr
    | .func a r => do if ← E.isFree nd k a nr then .ok true else E.isFree nd k r nr
    | .tuple l => anyLoop (fun t => E.isFree nd k t nr) l
    | .union l => anyLoop (fun t => E.isFree nd k t nr) l
    | _ => .ok false

/-- `set_equivalent` (axis-types.w L2599-2605) -/
def TA.setEquivalent (nd : Bool) (fuel : Nat) (E : TA) (i : Nat) (tp : Ty) : Res (Bool × TA) := do
  Res.assertIn nd (decide (E.threshold ≤ i) && decide (i < E.threshold + E.size))
  if ← E.isFree nd fuel tp i then .ok (false, E)
  else do
    let e ← Vec.put E.equiv (i - E.threshold) (some tp)
    .ok (true, { E with equiv := e })

/-- the second part of the case of a type variable in `unify` (axis-types.w L2869-2877); `self` stands for recursive calls -/
def unifyRight (self : TA → Ty → Ty → Res (Bool × TA)) (nd : Bool) (fuel : Nat) (E : TA) (P : Ty) : Ty → Res (Bool × TA)
  | .var q =>
    if E.threshold ≤ q then do
      match ← E.equivalent nd q with
      | some t => self E P t
      | none => E.setEquivalent nd fuel q P
    else .ok (false, E)
  | _ => .ok (false, E)

/-- the test for equal variables in `unify` (axis-types.w L2860) -/
def Ty.isThe (p : Nat) : Ty → Bool
  | .var q => p == q
  | _ => false

/-- the case of a type variable in `unify` (axis-types.w L2858-2878) -/
def unifyVar (self : TA → Ty → Ty → Res (Bool × TA)) (nd : Bool) (fuel : Nat) (E : TA) : Ty → Ty → Res (Bool × TA)
  | .var p, Q =>
    if Q.isThe p then .ok (true, E)
    else if E.threshold ≤ p then do
      match ← E.equivalent nd p with
      | some t => self E t Q
      | none => E.setEquivalent nd fuel p Q
    else unifyRight self nd fuel E (.var p) Q
  | P, Q => unifyRight self nd fuel E P Q

/-- the loop over components of tuples and unions in `unify` (axis-types.w L2802-2807) -/
def unifyList (self : TA → Ty → Ty → Res (Bool × TA)) (E : TA) : List Ty → List Ty → Res (Bool × TA)
  | [], [] => .ok (true, E)
  | p :: lp, q :: lq => do
    let (b, E) ← self E p q
    if b then unifyList self E lp lq else .ok (false, E)
  | _, _ => .ok (false, E)

def Ty.isVar : Ty → Bool
  | .var _ => true
  | _ => false

def Ty.isUndet : Ty → Bool
  | .undet => true
  | _ => false

/-- the comparison of types of equal kind in `unify` (axis-types.w L2794-2812) -/
def unifyKinds (self : TA → Ty → Ty → Res (Bool × TA)) (E : TA) : Ty → Ty → Res (Bool × TA)
  | .prim m, .prim n => .ok (m == n, E)
  | .func a r, .func a' r' => do
    let (b, E) ← self E a a'
    if b then self E r r' else .ok (false, E)
  | .row c, .row c' => self E c c'
  | .tuple l, .tuple l' => unifyList self E l l'
  | .union l, .union l' => unifyList self E l l'
  | _, _ => .ok (false, E)

/-- `unify` (axis-types.w L2784-2813) -/
def unify (nd : Bool) : Nat → TA → Ty → Ty → Res (Bool × TA)
  | 0, _, _, _ => .outOfFuel
  | k + 1, E, P, Q => do
    Res.assertIn nd (!P.isUndet && !Q.isUndet)
    if P.isVar || Q.isVar then unifyVar (unify nd k) nd k E P Q
    else unifyKinds (unify nd k) E P Q

/-- the loop of `renumber` (axis-types.w L2673-2676) -/
def TA.renumberLoop (E : TA) : Nat → Nat → Res Nat
  | 0, i => .ok i
  | j + 1, i =>
    if E.threshold ≤ j then do
      let p ← Vec.get E.equiv (j - E.threshold)
      E.renumberLoop j (if p.isSome then i - 1 else i)
    else .ok i

/-- `renumber` (axis-types.w L2671-2678) -/
def TA.renumber (E : TA) (i : Nat) : Res Nat := E.renumberLoop i i

/-- the loops over components in `substitution` (axis-types.w L2714-2717) -/
def mapLoop (f : Ty → Res Ty) : List Ty → Res (List Ty)
  | [] => .ok []
  | t :: l => do
    let u ← f t
    let v ← mapLoop f l
    .ok (u :: v)

/-- `substitution` (axis-types.w L2701-2732, L2753-2759) -/
def TA.substitution (nd : Bool) (E : TA) : Nat → Ty → Nat → Res Ty
  | 0, _, _ => .outOfFuel
  | k + 1, tp, sh =>
    match tp with
    | .prim n => .ok (.prim n)
    | .func a r => do
      let a ← E.substitution nd k a sh
      let r ← E.substitution nd k r sh
      .ok (.func a r)
    | .row c => do .ok (.row (← E.substitution nd k c sh))
    | .tuple l => do .ok (.tuple (← mapLoop (fun t => E.substitution nd k t sh) l))
    | .union l => do .ok (.union (← mapLoop (fun t => E.substitution nd k t sh) l))
    | .var n => do
      match ← E.equivalent nd (n + sh) with
      | none => do .ok (.var (← E.renumber (n + sh)))
      | some p => E.substitution nd k p 0
    | .undet => do
      Res.assertIn nd false
      .ok .undet

/-- `polymorphics` (axis-types.w L2652-2657): the bits from `threshold` upwards; the lower ones are not set -/
def TA.polymorphics (E : TA) : List Bool := E.equiv.map Option.isNone

/-- `restore_polymorphics` (axis-types.w L2658-2665) -/
def TA.restore (E : TA) (which : List Bool) : TA := { E with equiv := List.zipWith (fun p b => if b then none else p) (E.equiv.take which.length) which }

end Verif.Axis
