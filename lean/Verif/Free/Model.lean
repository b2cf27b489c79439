import Verif.Vec
import Mathlib.Algebra.Ring.Defs
import Mathlib.Algebra.Ring.Int.Defs
import Mathlib.Order.Defs.LinearOrder
import Mathlib.Data.List.Sort
/-
Model of `Free_Abelian_light<T,C,Compare>`, sources/utilities/free_abelian.h and
sources/utilities/free_abelian_def.h.

The only data member besides the comparison is `L`, a list of vectors ("blocks") of terms
(exponent, coefficient).  `T` is linearly ordered, its `<` being the comparison `Compare`;
`operator<` of `T`, which one function uses instead of `Compare`, is a parameter `lt`.
The coefficients form a commutative ring `C`.

Simplifications: moving and copying of terms are not distinguished; pointers and iterators into
blocks are pairs (number of the block in `L`, index in the block); `std::lower_bound` is its
specification for sorted ranges; the coefficient type `B` of the argument of `add_multiple` is `C`.
-/
namespace Verif.Free

open Verif

variable {T C : Type} [LinearOrder T] [CommRing C] [DecidableEq C]

/-- position of a term: block and index in the block -/
abbrev Pos := Nat × Nat

/-- dereferencing an iterator -/
def entryAt (L : List (List (T × C))) (p : Pos) : Option (T × C) := (L[p.1]?).bind (·[p.2]?)

/-- `it->second=c` -/
def setAt (L : List (List (T × C))) (p : Pos) (c : C) : List (List (T × C)) :=
  L.modify p.1 (fun b => b.modify p.2 (fun t => (t.1, c)))

/-- the exponents in the blocks -/
def shape (L : List (List (T × C))) : List (List T) := L.map (·.map Prod.fst)

/-- `std::lower_bound` on a block, free_abelian_def.h 144 -/
def lowerBound (b : List (T × C)) (e : T) : Nat := (b.takeWhile (fun t => decide (t.1 < e))).length

/-- `Free_Abelian_light::find`, free_abelian_def.h 137-149 and 151-163, from block `k` on -/
def findFrom (e : T) : Nat → List (List (T × C)) → Option Pos
  | _, [] => none
  | k, b :: L =>
    match b[lowerBound b e]? with
    | some t => if ¬ (e < t.1) then some (k, lowerBound b e) else findFrom e (k+1) L
    | none => findFrom e (k+1) L

/-- `Free_Abelian_light::find`, free_abelian_def.h 137-149 and 151-163 -/
def find (L : List (List (T × C))) (e : T) : Option Pos := findFrom e 0 L

/-- `operator[]`, free_abelian_def.h 165-171 -/
def lookup (L : List (List (T × C))) (e : T) : C :=
  match (find L e).bind (entryAt L) with
  | some t => t.2
  | none => 0

/-- the merge of block `b` into `org`, free_abelian_def.h 211-222 -/
def mergeBlock (lt : T → T → Bool) : List (T × C) → List (T × C) → List (T × C)
  | [], org => org
  | e :: b, org =>
    if e.2 ≠ 0 then
      org.takeWhile (fun t => lt t.1 e.1) ++ e :: mergeBlock lt b (org.dropWhile (fun t => lt t.1 e.1))
    else mergeBlock lt b org

/-- the fusion loop of `insert`, free_abelian_def.h 209-231: `prev` are the blocks before `b` in
reverse order, `rest` those after it -/
def fuse (lt : T → T → Bool) : List (List (T × C)) → List (T × C) → List (T × C) → List (List (T × C)) →
    List (List (T × C))
  | [], b, v, rest => mergeBlock lt b v :: rest
  | p :: prev, b, v, rest =>
    if p.length < 2 * (mergeBlock lt b v).length then fuse lt prev p (mergeBlock lt b v) rest
    else (p :: prev).reverse ++ mergeBlock lt b v :: rest

/-- `insert(v)`, free_abelian_def.h 191-232, skipping large blocks: `prev` are those skipped, in
reverse order -/
def insertFrom (lt : T → T → Bool) (v : List (T × C)) : List (List (T × C)) → List (List (T × C)) →
    List (List (T × C))
  | prev, [] => prev.reverse ++ [v]
  | prev, b :: L =>
    if b.length < 2 * v.length then
      if ¬ (v.length < 2 * b.length) then prev.reverse ++ v :: b :: L else fuse lt prev b v L
    else insertFrom lt v (b :: prev) L

/-- `Free_Abelian_light::insert`, free_abelian_def.h 191-232 -/
def insert (lt : T → T → Bool) (L : List (List (T × C))) (v : List (T × C)) : List (List (T × C)) :=
  if v = [] then L else insertFrom lt v [] L

/-- `*ptr += c` for a pointer into a block -/
def addAt (L : List (List (T × C))) (p : Pos) (c : C) : Res (List (List (T × C))) :=
  match entryAt L p with
  | some t => .ok (setAt L p (t.2 + c))
  | none => .undefined

/-- `add_term`, free_abelian_def.h 234-259 -/
def addTerm (lt : T → T → Bool) (L : List (List (T × C))) (e : T) (m : C) : Res (List (List (T × C))) :=
  match find L e with
  | some p => addAt L p m
  | none => .ok (insert lt L [(e, m)])

/-- `clear_coefficient`, free_abelian_def.h 173-179 -/
def clearCoef (L : List (List (T × C))) (e : T) : List (List (T × C)) :=
  match find L e with
  | some p => setAt L p 0
  | none => L

/-- `set_coefficient`, free_abelian_def.h 181-189 -/
def setCoef (lt : T → T → Bool) (L : List (List (T × C))) (e : T) (m : C) : Res (List (List (T × C))) :=
  match find L e with
  | none => addTerm lt L e m
  | some p => .ok (setAt L p m)

/-- monomial constructors, free_abelian.h 153-160 and free_abelian_def.h 101-117 -/
def mono (e : T) (m : C) : List (List (T × C)) := if m = 0 then [] else [[(e, m)]]

/-- constructor from a vector, free_abelian_def.h 119-135 -/
def ofVec (vec : List (T × C)) (doSort : Bool) : List (List (T × C)) :=
  let w := vec.filter (fun x => decide (x.2 ≠ 0))
  if w = [] then []
  else [if doSort then w.mergeSort (fun a b => decide (a.1 ≤ b.1)) else w]

/-! ### iterators -/

/-- `struct triple`, free_abelian.h 290-296: the block in which `cur` and `end` point, `cur`, `min` -/
structure Tr where
  blk : Nat
  cur : Nat
  min : Pos
  deriving DecidableEq

/-- exponent at a position -/
def keyAt (K : List (List T)) (p : Pos) : Option T := (K[p.1]?).bind (·[p.2]?)

/-- number of terms in a block -/
def len (K : List (List T)) (b : Nat) : Nat := (K.getD b []).length

/-- `less(p->first,q->first)` -/
def less (K : List (List T)) (p q : Pos) : Res Bool :=
  match keyAt K p, keyAt K q with
  | some a, some b => .ok (decide (a < b))
  | _, _ => .undefined

/-- `const_iterator::pop`, free_abelian_def.h 404-438 -/
def pop (K : List (List T)) : List Tr → Res (Bool × List Tr)
  | [] => .assertFail
  | [t] =>
    if t.cur + 1 ≠ len K t.blk then .ok (false, [⟨t.blk, t.cur + 1, (t.blk, t.cur + 1)⟩])
    else .ok (true, [])
  | t :: u :: s =>
    if t.min = (t.blk, t.cur) then
      if t.cur + 1 = len K t.blk then .ok (false, u :: s)
      else do
        let c ← less K (t.blk, t.cur + 1) u.min
        .ok (false, ⟨t.blk, t.cur + 1, if c then (t.blk, t.cur + 1) else u.min⟩ :: u :: s)
    else do
      let r ← pop K (u :: s)
      (if r.1 then .ok (false, [⟨t.blk, t.cur, (t.blk, t.cur)⟩])
      else match r.2 with
        | [] => .undefined
        | u' :: s' => do
          let c ← less K (t.blk, t.cur) u'.min
          .ok (false, ⟨t.blk, t.cur, if c then (t.blk, t.cur) else u'.min⟩ :: u' :: s'))

/-- building the stack in `begin`, free_abelian_def.h 315-329: the part for blocks `k`, `k+1`, … -/
def initStack (K : List (List T)) : Nat → List (List T) → Res (List Tr)
  | _, [] => .ok []
  | k, b :: bs => do
    let s ← initStack K (k+1) bs
    Res.assert (decide (b ≠ []))
    match s with
    | [] => .ok [⟨k, 0, (k, 0)⟩]
    | u :: s' => do
      let c ← less K (k, 0) u.min
      .ok (⟨k, 0, if c then (k, 0) else u.min⟩ :: u :: s')

/-- is the coefficient at a position zero? -/
def zeroAt (L : List (List (T × C))) (p : Pos) : Res Bool :=
  match entryAt L p with
  | some t => .ok (decide (t.2 = 0))
  | none => .undefined

/-- `const_iterator::skip_zeros`, free_abelian_def.h 335-340 -/
def skipZeros (L : List (List (T × C))) : Nat → List Tr → Res (List Tr)
  | 0, _ => .outOfFuel
  | _+1, [] => .ok []
  | f+1, t :: s => do
    let z ← zeroAt L t.min
    (if z then do
      let r ← pop (shape L) (t :: s)
      skipZeros L f r.2
    else .ok (t :: s))

/-- `const_iterator::operator++`, free_abelian_def.h 342-350 -/
def incr (L : List (List (T × C))) : Nat → List Tr → Res (List Tr)
  | 0, _ => .outOfFuel
  | f+1, s => do
    let r ← pop (shape L) s
    (if r.1 then .ok r.2
    else match r.2 with
      | [] => .undefined
      | t :: s' => do
        let z ← zeroAt L t.min
        (if z then incr L f (t :: s') else .ok (t :: s')))

/-- `size()`, free_abelian.h 250-254 -/
def size (L : List (List (T × C))) : Nat := (L.map List.length).sum

/-- the loop `for ( ; it!=end(); ++it)` with body acting on a state that contains the element `getL`
that is being traversed (coefficients may be changed by the body) -/
def loop {S : Type} (getL : S → List (List (T × C))) (body : Pos → S → Res S) : Nat → List Tr → S → Res S
  | 0, _, _ => .outOfFuel
  | _+1, [], x => .ok x
  | f+1, t :: s, x => do
    let x ← body t.min x
    let s ← incr (getL x) (size (getL x) + 1) (t :: s)
    loop getL body f s x

/-- `begin()`, free_abelian_def.h 311-333 -/
def begin' (L : List (List (T × C))) : Res (List Tr) := do
  let s ← initStack (shape L) 0 (shape L)
  skipZeros L (size L + 1) s

/-- a loop over an element from `begin()` to `end()` -/
def forEach {S : Type} (getL : S → List (List (T × C))) (body : Pos → S → Res S) (x : S) : Res S := do
  let s ← begin' (getL x)
  loop getL body (size (getL x) + 1) s x

/-- the terms met when traversing an element -/
def terms (L : List (List (T × C))) : Res (List (T × C)) :=
  forEach (fun _ => L) (fun p acc =>
    match entryAt L p with
    | some t => .ok (acc ++ [t])
    | none => .undefined) []

/-- the loop body of `add_multiple`, free_abelian_def.h 270-281: `find` is applied to `L`, the
entry is read from `P`; `v` collects terms not found -/
def addBody (m : C) (P : List (List (T × C))) (p : Pos) (L : List (List (T × C))) (v : List (T × C)) :
    Res (List (List (T × C)) × List (T × C)) :=
  match entryAt P p with
  | none => .undefined
  | some t =>
    if m * t.2 ≠ 0 then
      match find L t.1 with
      | some q => do .ok (← addAt L q (m * t.2), v)
      | none => .ok (L, v ++ [(t.1, m * t.2)])
    else .ok (L, v)

/-- `add_multiple(p,m)` for `p` another object, free_abelian_def.h 261-309 -/
def addMultiple (lt : T → T → Bool) (L P : List (List (T × C))) (m : C) : Res (List (List (T × C))) :=
  if m = 0 then .ok L else do
    let r ← forEach (fun _ => P) (fun p (x : List (List (T × C)) × List (T × C)) => addBody m P p x.1 x.2) (L, [])
    .ok (insert lt r.1 r.2)

/-- `add_multiple(p,m)` for `p` the object `*this` itself -/
def addMultipleSelf (lt : T → T → Bool) (L : List (List (T × C))) (m : C) : Res (List (List (T × C))) :=
  if m = 0 then .ok L else do
    let r ← forEach (fun x => x.1) (fun p (x : List (List (T × C)) × List (T × C)) => addBody m x.1 p x.1 x.2) (L, [])
    .ok (insert lt r.1 r.2)

/-- `is_zero()`, free_abelian.h 236 -/
def isZero (L : List (List (T × C))) : Res Bool := do
  let s ← begin' L
  .ok (decide (s = []))

/-- `operator+=`, free_abelian.h 218-227 -/
def addAssign (lt : T → T → Bool) (L P : List (List (T × C))) : Res (List (List (T × C))) := do
  let z ← isZero L
  (if z then .ok P else addMultiple lt L P 1)

/-- `operator-=`, free_abelian.h 229-230 -/
def subAssign (lt : T → T → Bool) (L P : List (List (T × C))) : Res (List (List (T × C))) :=
  addMultiple lt L P (-1)

/-- `x+=x`, free_abelian.h 218-227 -/
def addAssignSelf (lt : T → T → Bool) (L : List (List (T × C))) : Res (List (List (T × C))) := do
  let z ← isZero L
  (if z then .ok L else addMultipleSelf lt L 1)

/-- `x-=x`, free_abelian.h 229-230 -/
def subAssignSelf (lt : T → T → Bool) (L : List (List (T × C))) : Res (List (List (T × C))) :=
  addMultipleSelf lt L (-1)

/-- `map_coefficents(f)`, free_abelian.h 279-285, and `operator*=` with `f` multiplication -/
def mapCoef (f : C → C) (L : List (List (T × C))) : Res (List (List (T × C))) :=
  forEach id (fun p L =>
    match entryAt L p with
    | some t => .ok (setAt L p (f t.2))
    | none => .undefined) L

/-- `operator*=(c)`, free_abelian.h 272-277 -/
def scale (L : List (List (T × C))) (c : C) : Res (List (List (T × C))) := mapCoef (fun x => x * c) L

/-- `flatten()`, free_abelian.h 264-270 -/
def flatten (L : List (List (T × C))) : Res (List (List (T × C))) := do
  let ts ← terms L
  .ok (ofVec ts false)

/-- `operator==`, free_abelian.h 238-246 -/
def equal (L P : List (List (T × C))) : Res Bool := do
  let a ← terms L
  let b ← terms P
  .ok (a.all (fun t => decide (lookup P t.1 = t.2)) && b.all (fun t => decide (lookup L t.1 = t.2)))

/-- `count_terms()`, free_abelian.h 256-263 -/
def countTerms (L : List (List (T × C))) : Nat := (L.map (fun b => b.countP (fun t => decide (t.2 ≠ 0)))).sum

end Verif.Free
