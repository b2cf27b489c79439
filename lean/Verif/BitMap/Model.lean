import Verif.Common
import Verif.Bits.Model
/-
Model of class `BitMap` (/repo/sources/utilities/bitmap.h, bitmap.cpp).

`size_t` and `unsigned long` are 64 bits wide; words are naturals below `2^64`.  A vector
access out of range is `undefined`.  The capacity of the underlying `std::vector` (as opposed
to its size) is not modelled, so "shrink-wrapping" in `set_capacity` has no effect here.
-/
namespace Verif.BitMap
open Verif.Bits

/-- data of `BitMap` (bitmap.h L52-53) -/
structure BitMap where
  cap : Nat
  map : List Nat
  deriving DecidableEq, Repr

/-- `n >> baseShift`, with `baseShift = 6` (bitmap.cpp L72, constants.h L36-43) -/
def wordOf (n : Nat) : Nat := n >>> 6
/-- `n & posBits`, with `posBits = 63` (bitmap.cpp L54, constants.h L36-43) -/
def posOf (n : Nat) : Nat := n &&& 63

/-- reading `d_map[i]` -/
def rd (l : List Nat) (i : Nat) : Res Nat :=
  match l[i]? with
  | some w => .ok w
  | none => .undefined

/-- an update of `d_map[i]` -/
def upd (l : List Nat) (i : Nat) (f : Nat → Nat) : Res (List Nat) :=
  match l[i]? with
  | some w => .ok (l.set i (f w))
  | none => .undefined

/-- constructor `BitMap(n)` (bitmap.h L85-87) -/
def make (n : Nat) : BitMap := ⟨n, List.replicate (wordOf ((n + 63) % 𝐌)) 0⟩

/-- `isMember` (bitmap.h L137-142) -/
def isMember (b : BitMap) (n : Nat) : Res Bool := do
  if n ≥ b.cap then return false
  else
    let w ← rd b.map (wordOf n)
    return decide (w &&& eqMask (posOf n) ≠ 0)

/-- `insert` (bitmap.h L206-210) -/
def insert (nd : Bool) (b : BitMap) (n : Nat) : Res BitMap := do
  Res.assertIn nd (decide (n < b.cap))
  return { b with map := ← upd b.map (wordOf n) (· ||| eqMask (posOf n)) }

/-- `remove` (bitmap.h L216-220) -/
def remove (nd : Bool) (b : BitMap) (n : Nat) : Res BitMap := do
  Res.assertIn nd (decide (n < b.cap))
  return { b with map := ← upd b.map (wordOf n) (· &&& lnot (eqMask (posOf n))) }

/-- `set_to` (bitmap.h L222-223) -/
def setTo (nd : Bool) (b : BitMap) (n : Nat) (v : Bool) : Res BitMap :=
  if v then insert nd b n else remove nd b n

/-- `set_mod2` (bitmap.h L225) -/
def setMod2 (nd : Bool) (b : BitMap) (n v : Nat) : Res BitMap := setTo nd b n (decide (v &&& 1 ≠ 0))

/-- `flip` (bitmap.h L227-231) -/
def flip (nd : Bool) (b : BitMap) (n : Nat) : Res BitMap := do
  Res.assertIn nd (decide (n < b.cap))
  return { b with map := ← upd b.map (wordOf n) (· ^^^ eqMask (posOf n)) }

/-- `insert(first,last)` and the constructors from a range of values
(bitmap.h L90-105, bitmap.cpp L526-533) -/
def insertAll (nd : Bool) : BitMap → List Nat → Res BitMap
  | b, [] => .ok b
  | b, n :: l => do insertAll nd (← insert nd b n) l

/-- constructor from a capacity and a list of values (bitmap.h L90-105) -/
def ofList (nd : Bool) (n : Nat) (l : List Nat) : Res BitMap := insertAll nd (make n) l

/-- the loop of `back_up` (bitmap.cpp L159-160) -/
def backUpLoop (map : List Nat) : Nat → Nat → Res (Nat × Nat)
  | 0, m => .ok (0, m)
  | i + 1, m => if m = 0 then do backUpLoop map i (← rd map i) else .ok (i + 1, m)

/-- `back_up` (bitmap.cpp L154-166): the new value of `n`, or `none` if `false` is returned.
The word index `i` is an `unsigned int` and so is the value assigned to `n`. -/
def backUp (b : BitMap) (n : Nat) : Res (Option Nat) := do
  let i := wordOf n % 4294967296
  let m ← (if posOf n = 0 then pure 0 else do
    let w ← rd b.map i
    pure (w &&& ltMask (posOf n)) : Res Nat)
  let (i, m) ← backUpLoop b.map i m
  if m = 0 then return none
  else return some (((i <<< 6) % 4294967296 + lastBit m + 4294967295) % 4294967296)

/-- `last` (bitmap.cpp L168-178) -/
def last (nd : Bool) (b : BitMap) : Res Nat := do
  let r ← backUp b b.cap
  Res.assertIn nd r.isSome
  return r.getD b.cap

/-- the loop of `contains` (bitmap.cpp L191-193) over the words of `b` and of `*this` -/
def containsLoop : List Nat → List Nat → Res Bool
  | [], _ => .ok true
  | _ :: _, [] => .undefined
  | w :: ws, v :: vs => if w &&& lnot v ≠ 0 then .ok false else containsLoop ws vs

/-- `contains` (bitmap.cpp L187-196) -/
def contains (nd : Bool) (a b : BitMap) : Res Bool := do
  Res.assertIn nd (decide (b.cap ≤ a.cap))
  containsLoop b.map a.map

/-- the loop of `disjoint` (bitmap.cpp L201-203) -/
def disjointLoop : List Nat → List Nat → Bool
  | v :: vs, w :: ws => if v &&& w ≠ 0 then false else disjointLoop vs ws
  | _, _ => true

/-- `disjoint` (bitmap.cpp L199-206) -/
def disjoint (a b : BitMap) : Bool := disjointLoop a.map b.map

/-- `empty` (bitmap.cpp L214-221) -/
def empty (b : BitMap) : Bool := b.map.all (· == 0)

/-- the search of `front` (bitmap.cpp L230-232): number and value of the first nonzero word -/
def frontLoop : Nat → List Nat → Option (Nat × Nat)
  | _, [] => none
  | i, w :: l => if w ≠ 0 then some (i, w) else frontLoop (i + 1) l

/-- `front` (bitmap.cpp L228-238) -/
def front (b : BitMap) : Nat :=
  match frontLoop 0 b.map with
  | none => b.cap
  | some (i, w) => (i <<< 6) + firstBit w

/-- the loop of `full` (bitmap.cpp L256-258), downwards from `j` -/
def fullLoop (map : List Nat) : Nat → Res Bool
  | 0 => .ok true
  | j + 1 => do if lnot (← rd map j) ≠ 0 then return false else fullLoop map j

/-- `full` (bitmap.cpp L245-261) -/
def full (b : BitMap) : Res Bool := do
  let partBad ← (if posOf b.cap ≠ 0 then
    match b.map.getLast? with
    | some w => .ok (decide (w ≠ ltMask (posOf b.cap)))
    | none => .undefined
    else .ok false : Res Bool)
  if partBad then return false
  else fullLoop b.map (wordOf b.cap)

/-- the clearing loop of `n_th` (bitmap.cpp L299-300) -/
def clearLow : Nat → Nat → Nat
  | 0, f => f
  | j + 1, f => clearLow j (f &&& (f + 𝐌 - 1) % 𝐌)

/-- the loop of `n_th` (bitmap.cpp L277-290) and the code following it -/
def nthLoop (cap : Nat) : List Nat → Nat → Nat → Nat
  | [], _, _ => cap
  | w :: l, i, pos =>
    let chunkSize := bitCount w
    if chunkSize > i then pos + firstBit (clearLow i w)
    else nthLoop cap l (i - chunkSize) (pos + 64)

/-- `n_th` (bitmap.cpp L272-303) -/
def nTh (b : BitMap) (i : Nat) : Nat := nthLoop b.cap b.map i 0

/-- the loop of `position` (bitmap.cpp L315-316) -/
def positionLoop (map : List Nat) : Nat → Res Nat
  | 0 => .ok 0
  | j + 1 => do
    let p ← positionLoop map j
    return p + bitCount (← rd map j)

/-- `position` (bitmap.cpp L310-322) -/
def position (b : BitMap) (n : Nat) : Res Nat := do
  let p ← positionLoop b.map (wordOf n)
  if posOf n ≠ 0 then return p + bitCount ((← rd b.map (wordOf n)) &&& ltMask (posOf n))
  else return p

/-- `range` (bitmap.cpp L336-342); `lt_mask` has `longBits+1` entries -/
def range (b : BitMap) (n r : Nat) : Res Nat := do
  if r > 64 then .undefined
  else return (← rd b.map (wordOf n)) >>> posOf n &&& ltMask r

/-- `size` (bitmap.cpp L350-359) -/
def size (b : BitMap) : Nat := (b.map.map bitCount).sum

/-- masking of the last word (bitmap.cpp L373-374) -/
def maskLast (cap : Nat) (l : List Nat) : Res (List Nat) :=
  if posOf cap ≠ 0 then upd l (l.length - 1) (· &&& ltMask (posOf cap)) else .ok l

/-- `take_complement` (bitmap.cpp L368-377), `operator~` (bitmap.h L166) -/
def complement (b : BitMap) : Res BitMap := do
  return { b with map := ← maskLast b.cap (b.map.map lnot) }

/-- loop combining the words of `b` into ours (bitmap.cpp L398-399, L408-409, L423-424) -/
def mergeLoop (f : Nat → Nat → Nat) : List Nat → List Nat → Res (List Nat)
  | vs, [] => .ok vs
  | [], _ :: _ => .undefined
  | v :: vs, w :: ws => do
    let r ← mergeLoop f vs ws
    return f v w :: r

/-- the two loops of `operator&=` (bitmap.cpp L383-389), with the flag `any` -/
def andLoop : List Nat → List Nat → Res (Bool × List Nat)
  | vs, [] => .ok (false, vs.map fun _ => 0)
  | [], _ :: _ => .undefined
  | v :: vs, w :: ws => do
    let (any, r) ← andLoop vs ws
    return (decide (v &&& w ≠ 0) || any, (v &&& w) :: r)

/-- `operator&=` (bitmap.cpp L380-392) -/
def andAssign (nd : Bool) (a b : BitMap) : Res (Bool × BitMap) := do
  Res.assertIn nd (decide (b.cap ≤ a.cap))
  let (any, r) ← andLoop a.map b.map
  return (any, { a with map := r })

/-- `operator|=` (bitmap.cpp L395-402) -/
def orAssign (nd : Bool) (a b : BitMap) : Res BitMap := do
  Res.assertIn nd (decide (b.cap ≤ a.cap))
  return { a with map := ← mergeLoop (· ||| ·) a.map b.map }

/-- `operator^=` (bitmap.cpp L405-412) -/
def xorAssign (nd : Bool) (a b : BitMap) : Res BitMap := do
  Res.assertIn nd (decide (b.cap ≤ a.cap))
  return { a with map := ← mergeLoop (· ^^^ ·) a.map b.map }

/-- `andnot` (bitmap.cpp L420-427) -/
def andnot (nd : Bool) (a b : BitMap) : Res BitMap := do
  Res.assertIn nd (decide (b.cap ≤ a.cap))
  return { a with map := ← mergeLoop (fun v w => v &&& lnot w) a.map b.map }

/-- the bit shifting loop of `operator<<=` (bitmap.cpp L440-446); it runs downwards, so each
word is combined with the old value of the word below it, here passed as first argument -/
def shlLoop (d : Nat) : Nat → List Nat → List Nat
  | _, [] => []
  | p, w :: l => ((w <<< d) % 𝐌 ||| p >>> (64 - d)) :: shlLoop d w l

/-- `operator<<=` (bitmap.cpp L429-449) -/
def shl (b : BitMap) (delta : Nat) : Res BitMap := do
  let rem := posOf delta
  let d := wordOf delta
  if d > b.map.length then .undefined
  else
    let l := List.replicate d 0 ++ b.map.take (b.map.length - d)
    return { b with map := if rem > 0 then shlLoop rem 0 l else l }

/-- the bit shifting loop of `operator>>=` (bitmap.cpp L462-468) -/
def shrLoop (d : Nat) : List Nat → List Nat
  | [] => []
  | [w] => [(w <<< d) % 𝐌]
  | w :: v :: l => (w >>> d ||| (v <<< (64 - d)) % 𝐌) :: shrLoop d (v :: l)

/-- `operator>>=` (bitmap.cpp L451-471) -/
def shr (b : BitMap) (delta : Nat) : Res BitMap := do
  let rem := posOf delta
  let d := wordOf delta
  if d > b.map.length then .undefined
  else
    let l := b.map.drop d ++ List.replicate d 0
    return { b with map := if rem > 0 then shrLoop rem l else l }

/-- `fill()` (bitmap.cpp L478-484) -/
def fillAll (b : BitMap) : Res BitMap := do
  let l := b.map.map fun _ => 𝐌 - 1
  return { b with map := ← (if posOf b.cap ≠ 0 then
    upd l (l.length - 1) (fun _ => ltMask (posOf b.cap)) else .ok l : Res (List Nat)) }

/-- `reset()` (bitmap.h L235) -/
def reset (b : BitMap) : BitMap := { b with map := b.map.map fun _ => 0 }

/-- loop setting `k` whole words from number `i` (bitmap.cpp L497-498, L515-516) -/
def setWords (v : Nat) : Nat → Nat → List Nat → Res (List Nat)
  | 0, _, l => .ok l
  | k + 1, i, l => do setWords v k (i + 1) (← upd l i fun _ => v)

/-- `fill(start,stop)` (bitmap.cpp L487-502) -/
def fillRange (b : BitMap) (start stop : Nat) : Res BitMap := do
  if start ≥ stop then return b
  else
    let s := wordOf start
    let e := wordOf stop
    if s = e then
      return { b with map := ← upd b.map s (· ||| (ltMask (stop - start) <<< posOf start) % 𝐌) }
    else
      let l ← upd b.map s (· ||| lnot (ltMask (posOf start)))
      let l ← setWords (𝐌 - 1) (e - (s + 1)) (s + 1) l
      let l ← (if posOf stop ≠ 0 then upd l e (· ||| ltMask (posOf stop)) else .ok l : Res (List Nat))
      return { b with map := l }

/-- `clear(start,stop)` (bitmap.cpp L505-520) -/
def clearRange (b : BitMap) (start stop : Nat) : Res BitMap := do
  if start ≥ stop then return b
  else
    let s := wordOf start
    let e := wordOf stop
    if s = e then
      return { b with map := ← upd b.map s (· &&& lnot ((ltMask (stop - start) <<< posOf start) % 𝐌)) }
    else
      let l ← upd b.map s (· &&& ltMask (posOf start))
      let l ← setWords 0 (e - (s + 1)) (s + 1) l
      let l ← (if posOf stop ≠ 0 then upd l e (· &&& lnot (ltMask (posOf stop))) else .ok l : Res (List Nat))
      return { b with map := l }

/-- `std::vector::resize(n,0)` -/
def resize (l : List Nat) (n : Nat) : List Nat := l.take n ++ List.replicate (n - l.length) 0

/-- `set_capacity` (bitmap.cpp L542-550) -/
def setCapacity (b : BitMap) (n : Nat) : Res BitMap := do
  let l ← (if n < b.cap ∧ posOf n ≠ 0 then upd b.map (wordOf n) (· &&& ltMask (posOf n))
    else .ok b.map : Res (List Nat))
  return ⟨n, resize l (wordOf ((n + 63) % 𝐌))⟩

/-- `extend_capacity` (bitmap.cpp L553-558) -/
def extendCapacity (nd : Bool) (b : BitMap) (v : Bool) : Res BitMap :=
  let l := if b.cap = (b.map.length <<< 6) % 𝐌 then b.map ++ [0] else b.map
  setTo nd ⟨(b.cap + 1) % 𝐌, l⟩ b.cap v

/-- `setRange` (bitmap.cpp L568-575) -/
def setRange (b : BitMap) (n r a : Nat) : Res BitMap := do
  if r > 64 then .undefined
  else
    let l ← upd b.map (wordOf n) (· &&& lnot ((ltMask r <<< posOf n) % 𝐌))
    return { b with map := ← upd l (wordOf n) (· ||| ((a &&& ltMask r) <<< posOf n) % 𝐌) }

/-- `operator<` (bitmap.h L124): lexicographic comparison of the vectors of words -/
def ltWords : List Nat → List Nat → Bool
  | _, [] => false
  | [], _ :: _ => true
  | v :: vs, w :: ws => if v < w then true else if w < v then false else ltWords vs ws

/-- `operator==` (bitmap.h L125) -/
def beq (a b : BitMap) : Bool := a.map == b.map

/-! ### iterators -/

/-- data of `BitMap::iterator` (bitmap.h L276-278), the pointer `d_chunk` being represented by
the number of words from the start of the bitmap -/
structure Iter where
  chunk : Nat
  addr : Nat
  cap : Nat
  deriving DecidableEq, Repr

/-- `begin` (bitmap.cpp L124-128) -/
def begin (b : BitMap) : Iter := ⟨wordOf (front b), front b, b.cap⟩

/-- the loop of `operator++` (bitmap.cpp L649-657) and the code after it, with fuel -/
def nextLoop (map : List Nat) (cap : Nat) : Nat → Nat → Nat → Res Iter
  | 0, _, _ => .outOfFuel
  | k + 1, chunk, addr => do
    let addr := (addr + 64) % 𝐌
    if addr < cap then
      let f ← rd map (chunk + 1)
      if f = 0 then nextLoop map cap k (chunk + 1) addr
      else return ⟨chunk + 1, (addr + firstBit f) % 𝐌, cap⟩
    else return ⟨chunk, cap, cap⟩

/-- `operator++` (bitmap.cpp L630-662), for a bitmap that may have changed since `begin`;
`baseBits` is the complement of `posBits` -/
def next (b : BitMap) (it : Iter) : Res Iter := do
  let f := (← rd b.map it.chunk) >>> posOf it.addr
  let f := f >>> 1
  if f ≠ 0 then return { it with addr := (it.addr + (firstBit f + 1)) % 𝐌 }
  else nextLoop b.map it.cap (b.map.length + 1) it.chunk (it.addr &&& lnot 63)

/-- the values seen by `for (auto it=b.begin(); it(); ++it)`, with fuel -/
def collect (b : BitMap) : Nat → Iter → Res (List Nat)
  | 0, _ => .outOfFuel
  | k + 1, it => do
    if it.addr ≠ it.cap then
      let l ← collect b k (← next b it)
      return it.addr :: l
    else return []

/-- all values seen by an iteration over `b` -/
def elements (b : BitMap) : Res (List Nat) := collect b (b.cap + 1) (begin b)

end Verif.BitMap
