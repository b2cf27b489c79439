import Verif.Weyl.Model
import Verif.Weyl.Check
import Verif.Vec
/-
Model of the class `WeylGroup` (/repo/sources/structure/weyl.h and weyl.cpp, Chapter 2).

A `WeylElt` is the list of its 32 pieces.  The parameter `nd` tells whether assertions are switched off (`NDEBUG`).
-/
namespace Verif.Weyl
open Verif

/-- `DynkinDiagram::comp_info` (dynkin.h L64-73), without the field `support` -/
structure Comp where
  ty : Ty
  offset : Nat
  position : List Nat
  deriving DecidableEq, Repr

/-- `comp.rank()` (dynkin.h L72) -/
def Comp.rank (c : Comp) : Nat := c.position.length

/-- a `Transducer` with its field `offset` -/
structure Tr where
  offset : Nat
  T : Transducer
  deriving DecidableEq, Repr

/-- a `WeylGroup` (weyl.h L253-261) -/
structure WG where
  tr : List Tr
  din : List Nat
  dout : List Nat
  minStar : List Nat
  upper : List Nat
  deriving DecidableEq, Repr

/-- `rank()` (weyl.h L383-384) -/
def WG.rank (W : WG) : Nat := W.minStar.length

/-! ### use of transducers -/

namespace Transducer

/-- `table(x,s)` with the assertions of `has_shift` (weyl.cpp L149-152) -/
def look (nd : Bool) (T : Transducer) (x s : Nat) : Res Nat := do
  Res.assertIn nd (decide (x < T.n))
  Res.assertIn nd (decide (s < T.limit))
  if x < T.n ∧ s < T.limit then pure (T.ent x s) else .undefined

/-- `shift` (weyl.cpp L168-169) -/
def shift (nd : Bool) (T : Transducer) (x s : Nat) : Res Nat := do
  let e ← T.look nd x s
  Res.assertIn nd (decide (e < T.n))
  pure e

/-- `elt[x].length` (weyl.cpp L138) -/
def getLen (T : Transducer) (x : Nat) : Res Nat := if x < T.n then .ok (T.len x) else .undefined

/-- `unshift` (weyl.cpp L418-425): the letter and the new state -/
def unshift (nd : Bool) (T : Transducer) (x : Nat) : Res (Nat × Nat) := do
  if x < T.n then
    let s := T.right x
    Res.assertIn nd (decide (s ≠ undef))
    let y ← T.shift nd x s
    Res.assertIn nd (decide (s < T.limit))
    pure (s, y)
  else .undefined

/-- `max_piece_length` (weyl.cpp L130-131) -/
def maxPieceLength : Nat := 63

/-- `k=0; while (x>0) stack[k++]=tr.unshift(x);` (for instance weyl.cpp L663-665); the list has the letter last stored at its
head, and `k` letters are already in it -/
def stackLoop (nd : Bool) (T : Transducer) : Nat → Nat → List Nat → Res (List Nat)
  | 0, _, _ => .outOfFuel
  | f + 1, x, stack =>
    if x > 0 then do
      let (s, y) ← T.unshift nd x
      if stack.length < maxPieceLength then stackLoop nd T f y (s :: stack) else .undefined
    else .ok stack

/-- the letters of state `x`, in the order in which `while (k-->0)` takes them from the stack -/
def letters (nd : Bool) (T : Transducer) (x : Nat) : Res (List Nat) := T.stackLoop nd 256 x []

/-- `while (x>0) f(tr.unshift(x))`: the letters of state `x` from right to left (for instance weyl.cpp L758-759) -/
def unwind {α : Type} (nd : Bool) (T : Transducer) (f : α → Nat → Res α) : Nat → Nat → α → Res α
  | 0, _, _ => .outOfFuel
  | k + 1, x, a =>
    if x > 0 then do
      let (s, y) ← T.unshift nd x
      unwind nd T f k y (← f a s)
    else .ok a

end Transducer

namespace WG

/-- `transduce` (weyl.cpp L627-638) -/
def transduce (nd : Bool) (W : WG) : Nat → Nat → List Nat → Res (List Nat × Int)
  | 0, s, w => do
    let tr ← Vec.get W.tr 0
    let wi ← Vec.get w 0
    let e ← tr.T.look nd wi s
    if e < tr.T.n then
      let w ← Vec.put w 0 e
      pure (w, if e < wi then -1 else 1)
    else
      Res.assertIn nd false
      .undefined
  | i + 1, s, w => do
    let tr ← Vec.get W.tr (i + 1)
    let wi ← Vec.get w (i + 1)
    let e ← tr.T.look nd wi s
    if e < tr.T.n then
      let w ← Vec.put w (i + 1) e
      pure (w, if e < wi then -1 else 1)
    else transduce nd W i (e - tr.T.n) w

/-- `inner_mult` (weyl.cpp L640-643) -/
def innerMult (nd : Bool) (W : WG) (w : List Nat) (s : Nat) : Res (List Nat × Int) := do
  let start ← Vec.get W.upper s
  let tr ← Vec.get W.tr s
  W.transduce nd start (s - tr.offset) w

/-- `while (k-->0) result+=transduce(w,start,stack[k]);` (weyl.cpp L666-667) -/
def transduceAll (nd : Bool) (W : WG) (start : Nat) : List Nat → List Nat → Int → Res (List Nat × Int)
  | [], w, res => .ok (w, res)
  | s :: l, w, res => do
    let (w, d) ← W.transduce nd start s w
    W.transduceAll nd start l w (res + d)

/-- `mult_by_piece` (weyl.cpp L653-670) -/
def multByPiece (nd : Bool) (W : WG) (w v : List Nat) (i : Nat) : Res (List Nat × Int) := do
  let x ← Vec.get v i
  let tr ← Vec.get W.tr i
  let start ← Vec.get W.upper i
  let l ← tr.T.getLen x
  let stack ← tr.T.letters nd x
  W.transduceAll nd start stack w (-l)

/-- the identity (weyl.h L122) -/
def one : List Nat := List.replicate rankMax 0

/-- `inner_gen` (weyl.cpp L555-560) -/
def innerGen (i : Nat) : Res (List Nat) := Vec.put one i 1

/-- `generator` (weyl.h L303-304) -/
def generator (W : WG) (i : Nat) : Res (List Nat) := do innerGen (← Vec.get W.din i)

/-- `mult` by a generator (weyl.h L307) -/
def multGen (nd : Bool) (W : WG) (w : List Nat) (s : Nat) : Res (List Nat × Int) := do
  W.innerMult nd w (← Vec.get W.din s)

/-- loop of `mult` (weyl.cpp L723-724) -/
def multLoop (nd : Bool) (W : WG) (v : List Nat) : List Nat → List Nat → Res (List Nat)
  | [], w => .ok w
  | i :: l, w => do
    let (w, _) ← W.multByPiece nd w v i
    W.multLoop nd v l w

/-- `mult` by a `WeylElt` (weyl.cpp L721-725) -/
def mult (nd : Bool) (W : WG) (w v : List Nat) : Res (List Nat) := W.multLoop nd v (List.range W.rank) w

/-- `mult` by a `WeylWord` (weyl.cpp L733-737) -/
def multWord (nd : Bool) (W : WG) : List Nat → List Nat → Res (List Nat)
  | w, [] => .ok w
  | w, s :: l => do
    let (w, _) ← W.multGen nd w s
    W.multWord nd w l

/-- first loop of `inner_left_mult` (weyl.cpp L706-707) -/
def leftLoop (nd : Bool) (W : WG) (w : List Nat) : List Nat → List Nat → Int → Res (List Nat × Int)
  | [], sw, l => .ok (sw, l)
  | i :: is, sw, l => do
    let (sw, d) ← W.multByPiece nd sw w i
    W.leftLoop nd w is sw (l + d)

/-- second loop of `inner_left_mult` (weyl.cpp L710-711) -/
def copyLoop (sw : List Nat) : List Nat → List Nat → Res (List Nat)
  | [], w => .ok w
  | i :: is, w => do copyLoop sw is (← Vec.put w i (← Vec.get sw i))

/-- the numbers `i` of `for (Generator i=t; i<=s; ++i)` -/
def interval (t s : Nat) : List Nat := (List.range (s + 1)).drop t

/-- `inner_left_mult` (weyl.cpp L700-714) -/
def innerLeftMult (nd : Bool) (W : WG) (w : List Nat) (s : Nat) : Res (List Nat × Int) := do
  let sw ← innerGen s
  let t ← Vec.get W.minStar s
  let (sw, l) ← W.leftLoop nd w (interval t s) sw 1
  pure (← copyLoop sw (interval t s) w, l)

/-- `left_multiply` by a generator (weyl.h L316-317) -/
def leftMultiplyGen (nd : Bool) (W : WG) (w : List Nat) (s : Nat) : Res (List Nat × Int) := do
  W.innerLeftMult nd w (← Vec.get W.din s)

/-- `left_multiply` by a `WeylWord` (weyl.h L318-322); the argument is the word read from right to left -/
def leftMultiplyRev (nd : Bool) (W : WG) (w : List Nat) : List Nat → Res (List Nat)
  | [] => .ok w
  | s :: l => do
    let (w, _) ← W.leftMultiplyGen nd w s
    W.leftMultiplyRev nd w l

/-- `left_multiply` by a `WeylWord` (weyl.h L318-322) -/
def leftMultiplyWord (nd : Bool) (W : WG) (w l : List Nat) : Res (List Nat) := W.leftMultiplyRev nd w l.reverse

/-- `left_multiply` by a `WeylElt` (weyl.cpp L740-743) -/
def leftMultiply (nd : Bool) (W : WG) (w x : List Nat) : Res (List Nat) := W.mult nd x w

/-- loop of `inverse` (weyl.cpp L755-760) -/
def inverseLoop (nd : Bool) (W : WG) (w : List Nat) : List Nat → List Nat → Res (List Nat)
  | [], wi => .ok wi
  | i :: l, wi => do
    let x ← Vec.get w i
    let tr ← Vec.get W.tr i
    let wi ← tr.T.unwind nd (fun wi s => do pure (← W.innerMult nd wi (s + tr.offset)).1) 256 x wi
    W.inverseLoop nd w l wi

/-- `inverse` (weyl.cpp L751-763) -/
def inverse (nd : Bool) (W : WG) (w : List Nat) : Res (List Nat) := W.inverseLoop nd w (List.range W.rank).reverse one

/-- loop of `longest` (weyl.cpp L769-770) -/
def longestLoop (W : WG) : List Nat → List Nat → Res (List Nat)
  | [], w => .ok w
  | i :: l, w => do
    let tr ← Vec.get W.tr i
    W.longestLoop l (← Vec.put w i (tr.T.n - 1))

/-- `longest` (weyl.cpp L765-772) -/
def longest (W : WG) : Res (List Nat) := W.longestLoop (List.range W.rank) one

/-- loop of `max_length` (weyl.cpp L777-778) -/
def maxLengthLoop (W : WG) : List Nat → Nat → Res Nat
  | [], r => .ok r
  | i :: l, r => do
    let tr ← Vec.get W.tr i
    W.maxLengthLoop l (r + (← tr.T.getLen (tr.T.n - 1)))

/-- `max_length` (weyl.cpp L774-780) -/
def maxLength (W : WG) : Res Nat := W.maxLengthLoop (List.range W.rank) 0

/-- `inner_commutes` (weyl.cpp L794-803) -/
def innerCommutes (nd : Bool) (W : WG) (s t : Nat) : Res Bool := do
  let us ← Vec.get W.upper s
  let ut ← Vec.get W.upper t
  if us ≠ ut then pure true
  else
    let tr ← Vec.get W.tr (max s t)
    let e ← tr.T.look nd 1 (min s t - tr.offset)
    pure (decide (¬ e < tr.T.n))

/-- `commutes` (weyl.h L386-387) -/
def commutes (nd : Bool) (W : WG) (s t : Nat) : Res Bool := do
  if s = t then pure true else W.innerCommutes nd (← Vec.get W.din s) (← Vec.get W.din t)

/-- loop of `length` (weyl.cpp L938-939) -/
def lengthLoop (W : WG) (w : List Nat) : List Nat → Nat → Res Nat
  | [], r => .ok r
  | i :: l, r => do
    let tr ← Vec.get W.tr i
    W.lengthLoop w l (r + (← tr.T.getLen (← Vec.get w i)))

/-- `length` (weyl.cpp L934-942) -/
def length (W : WG) (w : List Nat) : Res Nat := W.lengthLoop w (List.range W.rank) 0

/-- loop of `word` (weyl.cpp L948-954): the numbers still to be filled in and the letters already there -/
def wordLoop (nd : Bool) (W : WG) (w : List Nat) : List Nat → Nat × List Nat → Res (Nat × List Nat)
  | [], r => .ok r
  | i :: l, r => do
    let x ← Vec.get w i
    let tr ← Vec.get W.tr i
    let r ← tr.T.unwind nd (fun r s => do
      let g ← Vec.get W.dout (s + tr.offset)
      if r.1 = 0 then .undefined else pure (r.1 - 1, g :: r.2)) 256 x r
    W.wordLoop nd w l r

/-- `word` (weyl.cpp L944-958); without assertions unfilled places would be 0 -/
def word (nd : Bool) (W : WG) (w : List Nat) : Res (List Nat) := do
  let k ← W.length w
  let (k, result) ← W.wordLoop nd w (List.range W.rank).reverse (k, [])
  Res.assertIn nd (decide (k = 0))
  pure (List.replicate k 0 ++ result)

/-- `element` (weyl.h L390) -/
def element (nd : Bool) (W : WG) (l : List Nat) : Res (List Nat) := W.multWord nd one l

/-- loop of `leftDescent` (weyl.cpp L921-922) -/
def leftDescentLoop (W : WG) (w : List Nat) : List Nat → Res Nat
  | [] => .ok undef
  | i :: l => do
    if (← Vec.get w i) > 0 then Vec.get W.dout i else W.leftDescentLoop w l

/-- `leftDescent` (weyl.cpp L919-926) -/
def leftDescent (W : WG) (w : List Nat) : Res Nat := W.leftDescentLoop w (List.range W.rank)

/-- `while (k-->0) if (transduce(sw,start,stack[k])<0) return true;` (weyl.cpp L883-885); `none` stands for the return -/
def descentAll (nd : Bool) (W : WG) (start : Nat) : List Nat → List Nat → Res (Option (List Nat))
  | [], sw => .ok (some sw)
  | s :: l, sw => do
    let (sw, d) ← W.transduce nd start s sw
    if d < 0 then pure none else W.descentAll nd start l sw

/-- loop of `has_descent` (weyl.cpp L875-886) -/
def descentLoop (nd : Bool) (W : WG) (start : Nat) (w : List Nat) : List Nat → List Nat → Res Bool
  | [], _ => .ok false
  | i :: is, sw => do
    let x ← Vec.get w i
    let tr ← Vec.get W.tr i
    let stack ← tr.T.letters nd x
    match ← W.descentAll nd start stack sw with
    | none => pure true
    | some sw => W.descentLoop nd start w is sw

/-- `has_descent` on the left (weyl.cpp L867-889) -/
def hasDescent (nd : Bool) (W : WG) (s : Nat) (w : List Nat) : Res Bool := do
  let s ← Vec.get W.din s
  let sw ← innerGen s
  let start ← Vec.get W.upper s
  let t ← Vec.get W.minStar s
  W.descentLoop nd start w (interval t s) sw

end WG

/-! ### construction -/

/-- `for (i=0; i<position.size(); ++i) v[base+i]=f(i)` (weyl.cpp L516-520) -/
def fillUp (base : Nat) : Nat → List Nat → List Nat → Res (List Nat)
  | _, [], v => .ok v
  | i, x :: l, v => do fillUp base (i + 1) l (← Vec.put v (base + i) x)

/-- the same with `v[last-i]` (weyl.cpp L522-523) -/
def fillDown (last : Nat) : Nat → List Nat → List Nat → Res (List Nat)
  | _, [], v => .ok v
  | i, x :: l, v => do fillDown last (i + 1) l (← Vec.put v (last - i) x)

/-- first loop on components (weyl.cpp L513-524): sets `upper` and `d_out` -/
def orderLoop : List Comp → List Nat → List Nat → Res (List Nat × List Nat)
  | [], upper, dout => .ok (upper, dout)
  | c :: cs, upper, dout => do
    let last := c.offset + c.rank - 1
    let upper ← fillUp c.offset 0 (List.replicate c.rank last) upper
    let dout ← (if c.ty = .B ∨ c.ty = .C ∨ c.ty = .D then fillDown last 0 c.position dout
      else fillUp c.offset 0 c.position dout : Res (List Nat))
    orderLoop cs upper dout

/-- `d_in[d_out[i]]=i` for all `i` (weyl.cpp L526-527) -/
def invertLoop (dout : List Nat) : List Nat → List Nat → Res (List Nat)
  | [], din => .ok din
  | i :: l, din => do invertLoop dout l (← Vec.put din (← Vec.get dout i) i)

/-- construction of the transducers of a component (weyl.cpp L532-533) -/
def trLoop (nd : Bool) (c : Comp) : List Nat → List Tr → Res (List Tr)
  | [], v => .ok v
  | i :: l, v => do
    let T ← Transducer.make nd (coxeter c.ty) i
    trLoop nd c l (← Vec.put v (c.offset + i) ⟨c.offset, T⟩)

/-- construction of the transducers (weyl.cpp L531-533) -/
def trLoops (nd : Bool) : List Comp → List Tr → Res (List Tr)
  | [], v => .ok v
  | c :: cs, v => do trLoops nd cs (← trLoop nd c (List.range c.rank) v)

/-- inner loop for `d_min_star` (weyl.cpp L537-542) -/
def starInner (nd : Bool) (W : WG) (j : Nat) : List Nat → Res Nat
  | [] => .ok j
  | i :: l => do if ← W.innerCommutes nd i j then starInner nd W j l else pure i

/-- loop for `d_min_star` (weyl.cpp L536-543) -/
def starLoop (nd : Bool) : List Nat → WG → Res WG
  | [], W => .ok W
  | j :: l, W => do
    let i ← starInner nd W j (List.range j)
    starLoop nd l { W with minStar := ← Vec.put W.minStar j i }

/-- the constructor of `WeylGroup` (weyl.cpp L495-547), given the components found by the `DynkinDiagram` constructor -/
def WG.make (nd : Bool) (rank : Nat) (comps : List Comp) : Res WG := do
  let (upper, dout) ← orderLoop comps (List.replicate rank 0) (List.replicate rankMax undef)
  let din ← invertLoop dout (List.range rank) (List.replicate rankMax undef)
  let tr ← trLoops nd comps (List.replicate rank ⟨0, 0, 0, 0, 0⟩)
  starLoop nd (List.range rank) ⟨tr, din, dout, List.replicate rank 0, upper⟩

end Verif.Weyl
