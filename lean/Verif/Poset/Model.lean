import Verif.BitMap.Model
import Verif.Vec
/-
Model of class `Poset` (/repo/sources/utilities/poset.h, poset.cpp).

The only data member is the vector of bitmaps `d_below`; it is a list of values of the bitmap model.
`Elt` is `unsigned int` with 32 bits; the reduction of sizes modulo `2^32` is written out where a size
is converted to `Elt` and then used.  `nd` tells whether assertions (in the bitmap functions) are
disabled.  Containers of elements are lists.
-/
namespace Verif.Poset
open Verif.BitMap

/-- a default constructed bitmap (bitmap.h L77) -/
def bm0 : BitMap := ⟨0, []⟩

/-- the loop `for (j=k; ...) d_below[j].set_capacity(j)` for the last `m` entries, all default
constructed, of a vector (poset.cpp L42-45, L51-54, L185-186) -/
def fresh : Nat → Nat → Res (List BitMap)
  | _, 0 => .ok []
  | k, m + 1 => do
    let b ← setCapacity bm0 k
    let l ← fresh (k + 1) m
    .ok (b :: l)

/-- `Poset(n)` (poset.cpp L39-46) -/
def make (n : Nat) : Res (List BitMap) := fresh 0 n

/-- `new_cover(x,y)` (poset.h L139-140) -/
def newCover (nd : Bool) (P : List BitMap) (x y : Nat) : Res (List BitMap) := do
  let by' ← Vec.get P y
  let bx ← Vec.get P x
  let u ← orAssign nd by' bx
  let v ← insert nd u x
  Vec.put P y v

/-- `extend(lks)` (poset.h L120-124) -/
def extend (nd : Bool) : List BitMap → List (Nat × Nat) → Res (List BitMap)
  | P, [] => .ok P
  | P, l :: lks => do extend nd (← newCover nd P l.1 l.2) lks

/-- `Poset(n,lks)` (poset.cpp L48-56) -/
def ofLinks (nd : Bool) (n : Nat) (lks : List (Nat × Nat)) : Res (List BitMap) := do
  extend nd (← make n) lks

/-- the loop over `hasse[i]` or `container` calling `new_cover(*it,y)` (poset.h L132-134, L167-169) -/
def newCovers (nd : Bool) (y : Nat) : List BitMap → List Nat → Res (List BitMap)
  | P, [] => .ok P
  | P, x :: l => do newCovers nd y (← newCover nd P x y) l

/-- the loop over `i` in the constructor from a Hasse diagram (poset.h L164-170), entries up to `i`
being done -/
def hasseLoop (nd : Bool) : Nat → List BitMap → List (List Nat) → Res (List BitMap)
  | _, P, [] => .ok P
  | i, P, c :: h => do
    let b ← setCapacity (← Vec.get P i) i
    let P ← Vec.put P i b
    let P ← newCovers nd i P c
    hasseLoop nd (i + 1) P h

/-- `Poset(hasse)` (poset.h L160-171) -/
def ofHasse (nd : Bool) (hasse : List (List Nat)) : Res (List BitMap) :=
  hasseLoop nd 0 (List.replicate hasse.length bm0) hasse

/-- `new_max(container)` (poset.h L127-135) -/
def newMax (nd : Bool) (P : List BitMap) (c : List Nat) : Res (List BitMap) :=
  newCovers nd P.length (P ++ [BitMap.make P.length]) c

/-- `lesseq(i,j)` (poset.h L81-82) -/
def lesseq (P : List BitMap) (i j : Nat) : Res Bool :=
  if i < j then do isMember (← Vec.get P j) i else .ok (decide (i = j))

/-- the loop over `j` in the dual constructor (poset.cpp L67-69) -/
def dualRow (nd : Bool) (P : List BitMap) (n i : Nat) : Nat → BitMap → Res BitMap
  | 0, b => .ok b
  | k + 1, b => do
    let b ← dualRow nd P n i k b
    let c ← lesseq P (n - i) (n - k)
    (if c then insert nd b k else .ok b)

/-- the loop over `i` in the dual constructor (poset.cpp L63-70) for the first `k` rows -/
def dualRows (nd : Bool) (P : List BitMap) (n : Nat) : Nat → Res (List BitMap)
  | 0 => .ok []
  | k + 1 => do
    let l ← dualRows nd P n k
    let b ← dualRow nd P n k k (BitMap.make k)
    .ok (l ++ [b])

/-- `Poset(p,DualTag())` (poset.cpp L58-71).  For the empty poset `n` is the largest `unsigned int` and
the loop calls `p.lesseq` on elements that do not exist, when `i` is 1. -/
def dual (nd : Bool) (P : List BitMap) : Res (List BitMap) :=
  dualRows nd P ((P.length + 4294967295) % 4294967296) ((P.length + 4294967295) % 4294967296 + 1)

/-- `operator==` (poset.cpp L76-86) -/
def equal : List BitMap → List BitMap → Bool
  | P, Q => P.length == Q.length && (P.zip Q).all (fun x => beq x.1 x.2)

/-- the loop of `above` (poset.cpp L92-94) for the next `m` values of `s` -/
def aboveLoop (nd : Bool) (P : List BitMap) (x : Nat) : Nat → Nat → BitMap → Res BitMap
  | _, 0, r => .ok r
  | s, m + 1, r => do
    let c ← isMember (← Vec.get P s) x
    let r ← (if c then insert nd r s else .ok r : Res BitMap)
    aboveLoop nd P x (s + 1) m r

/-- `above(x)` (poset.cpp L88-96) -/
def above (nd : Bool) (P : List BitMap) (x : Nat) : Res BitMap :=
  aboveLoop nd P x (x + 1) (P.length - (x + 1)) (BitMap.make P.length)

/-- the loop of `maxima` (poset.cpp L109-110) with fuel -/
def maximaLoop (nd : Bool) (P : List BitMap) : Nat → Nat → BitMap → Res BitMap
  | 0, _, _ => .outOfFuel
  | f + 1, x, r => do
    match ← backUp r x with
    | none => .ok r
    | some y => do
      let r ← andnot nd r (← Vec.get P y)
      maximaLoop nd P f y r

/-- `maxima(b)` (poset.cpp L104-113) -/
def maxima (nd : Bool) (P : List BitMap) (b : BitMap) : Res BitMap := maximaLoop nd P (b.cap + 1) b.cap b

/-- the loop of `minima` (poset.cpp L118-120) over the elements of `b` -/
def minimaLoop (nd : Bool) (P : List BitMap) (b : BitMap) : List Nat → BitMap → Res BitMap
  | [], r => .ok r
  | x :: l, r => do
    let c := disjoint (← Vec.get P x) b
    let r ← (if c then insert nd r x else .ok r : Res BitMap)
    minimaLoop nd P b l r

/-- `minima(b)` (poset.cpp L115-123) -/
def minima (nd : Bool) (P : List BitMap) (b : BitMap) : Res BitMap := do
  minimaLoop nd P b (← elements b) (BitMap.make P.length)

/-- `covered_by(y)` (poset.h L94) -/
def coveredBy (nd : Bool) (P : List BitMap) (y : Nat) : Res BitMap := do maxima nd P (← Vec.get P y)

/-- `covers_of(x)` (poset.h L95) -/
def coversOf (nd : Bool) (P : List BitMap) (x : Nat) : Res BitMap := do minima nd P (← above nd P x)

/-- the first `k` edge lists of `hasseDiagram()` (poset.cpp L138-141) -/
def hasseRows (nd : Bool) (P : List BitMap) : Nat → Res (List (List Nat))
  | 0 => .ok []
  | k + 1 => do
    let l ← hasseRows nd P k
    let t ← elements (← coveredBy nd P k)
    .ok (l ++ [t])

/-- `hasseDiagram()` (poset.cpp L134-143): the list of edge lists -/
def hasse (nd : Bool) (P : List BitMap) : Res (List (List Nat)) := hasseRows nd P P.length

/-- the loop of `hasseDiagram(max)` (poset.cpp L160-164) over the elements of the closure -/
def hasseMaxLoop (nd : Bool) (P : List BitMap) : List Nat → List (List Nat) → Res (List (List Nat))
  | [], h => .ok h
  | x :: l, h => do
    let t ← elements (← coveredBy nd P x)
    hasseMaxLoop nd P l (← Vec.put h x t)

/-- `hasseDiagram(max)` (poset.cpp L153-166) -/
def hasseMax (nd : Bool) (P : List BitMap) (m : Nat) : Res (List (List Nat)) := do
  let cl ← orAssign nd (BitMap.make (m + 1)) (← Vec.get P m)
  let cl ← insert nd cl m
  hasseMaxLoop nd P (← elements cl) (List.replicate (m + 1) [])

/-- `n_comparable()` (poset.cpp L168-175) -/
def nComparable (P : List BitMap) : Nat := P.length + (P.map size).sum

/-- `resize(n)` (poset.cpp L180-187) -/
def resize (P : List BitMap) (n : Nat) : Res (List BitMap) := do
  let l ← fresh P.length (n - P.length)
  .ok (P.take n ++ l)

/-! ### `n_comparable_from_Hasse` -/

/-- the loop computing the least of `m` and the entries of a list (poset.cpp L206-209) -/
def minLoop : Nat → List Nat → Nat
  | m, [] => m
  | m, x :: l => minLoop (if x < m then x else m) l

/-- the vector `min_after` (poset.cpp L201-211) -/
def minAfter (n : Nat) : List (List Nat) → List Nat
  | [] => [n]
  | c :: h =>
    match minAfter n h with
    | [] => []
    | m :: l => minLoop m c :: m :: l

/-- the loop `cl |= closure[hasse[i][j]]` (poset.cpp L220-221), where `cl` is `closure[i]` -/
def closeLoop (nd : Bool) (i : Nat) : List BitMap → List Nat → Res (List BitMap)
  | cl, [] => .ok cl
  | cl, x :: l => do
    let b ← orAssign nd (← Vec.get cl i) (← Vec.get cl x)
    closeLoop nd i (← Vec.put cl i b) l

/-- the loop freeing bitmaps (poset.cpp L226-227), `m` passes from `j` on -/
def freeLoop : Nat → Nat → List BitMap → Res (List BitMap)
  | _, 0, cl => .ok cl
  | j, m + 1, cl => do
    let b ← setCapacity (← Vec.get cl j) 0
    freeLoop (j + 1) m (← Vec.put cl j b)

/-- the main loop (poset.cpp L216-228) -/
def countLoop (nd : Bool) (mins : List Nat) : Nat → List BitMap → Nat → List (List Nat) → Res Nat
  | _, _, count, [] => .ok count
  | i, cl, count, c :: h => do
    let b ← setCapacity (← Vec.get cl i) (i + 1)
    let b ← insert nd b i
    let cl ← closeLoop nd i (← Vec.put cl i b) c
    let b ← Vec.get cl i
    let m0 ← Vec.get mins i
    let m1 ← Vec.get mins (i + 1)
    countLoop nd mins (i + 1) (← freeLoop m0 (m1 - m0) cl) (count + size b) h

/-- `n_comparable_from_Hasse` (poset.cpp L197-231) -/
def nComparableFromHasse (nd : Bool) (hasse : List (List Nat)) : Res Nat :=
  countLoop nd (minAfter hasse.length hasse) 0 (List.replicate hasse.length bm0) 0 hasse

end Verif.Poset
