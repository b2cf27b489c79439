import Verif.Common
import Verif.Map
/-
Model of `TallyVec<Count>` (/repo/sources/utilities/tally.h, tally_def.h) and of the byte
input and output of /repo/sources/io/basic_io_def.h it uses.  `M` is `maxCount`, the largest
value of the type `Count`.  Counters of type `ullong` are reduced modulo `2^64`.
-/
namespace Verif.Tally
set_option linter.dupNamespace false

/-- reduction to `unsigned long long` -/
def u64 (x : Nat) : Nat := x % 18446744073709551616

/-- data members (tally.h L51-54); `cap` is `count.capacity()`, at least the limit passed to the
constructor, which does not change since `count` is never extended beyond it -/
structure Tally where
  cap : Nat
  count : List Nat
  overflow : List (Nat × Nat)
  max : Nat
  total : Nat
  deriving DecidableEq, Repr

/-- constructor (tally.h L57-58) -/
def make (cap : Nat) : Tally := ⟨cap, [], [], 0, 0⟩

/-- `overflow.find(i)->second`, where not finding `i` means dereferencing `end()` -/
def found (o : Option Nat) : Res Nat :=
  match o with
  | some v => .ok v
  | none => .undefined

/-- `multiplicity` (tally_def.h L15-22) -/
def multiplicity (M : Nat) (t : Tally) (i : Nat) : Res Nat :=
  if i < t.count.length then
    if t.count.getD i 0 ≠ M then .ok (t.count.getD i 0) else found (SMap.get t.overflow i)
  else .ok ((SMap.get t.overflow i).getD 0)

/-- `while (count.size()<i) count.push_back(0);` (tally_def.h L40, L74) -/
def padTo (l : List Nat) (i : Nat) : List Nat := l ++ List.replicate (i - l.length) 0

/-- `tally(i)` (tally_def.h L24-49); `overflow[i]` creates a value 0 when absent -/
def tally1 (M : Nat) (t : Tally) (i : Nat) : Tally × Bool :=
  let t := { t with total := u64 (t.total + 1) }
  if i < t.count.length then
    if t.count.getD i 0 ≠ M then
      let c := (t.count.getD i 0 + 1) % (M + 1)
      let t := { t with count := t.count.set i c }
      if c = M then ({ t with overflow := SMap.set t.overflow i M }, false)
      else (t, c == 1)
    else ({ t with overflow := SMap.set t.overflow i (u64 ((SMap.get t.overflow i).getD 0 + 1)) }, false)
  else
    let t := if i > t.max then { t with max := i } else t
    if i < t.cap then ({ t with count := padTo t.count i ++ [1] }, true)
    else
      match SMap.get t.overflow i with
      | none => ({ t with overflow := SMap.set t.overflow i 1 }, true)
      | some v => ({ t with overflow := SMap.set t.overflow i (u64 (v + 1)) }, false)

/-- `tally(i,multiplicity)` (tally_def.h L51-91) -/
def tallyN (M : Nat) (t : Tally) (i : Nat) (m : Nat) : Tally × Bool :=
  let t := { t with total := u64 (t.total + m) }
  if i < t.count.length then
    if t.count.getD i 0 ≠ M then
      if u64 (t.count.getD i 0 + m) < M then
        let result := t.count.getD i 0 == 0
        ({ t with count := t.count.set i ((t.count.getD i 0 + m) % (M + 1)) }, result)
      else
        ({ t with overflow := SMap.set t.overflow i (u64 (t.count.getD i 0 + m)), count := t.count.set i M }, false)
    else ({ t with overflow := SMap.set t.overflow i (u64 ((SMap.get t.overflow i).getD 0 + m)) }, false)
  else
    let t := if i > t.max then { t with max := i } else t
    if i < t.cap then
      if m ≥ M then
        ({ t with overflow := SMap.set t.overflow i m, count := padTo t.count i ++ [M] }, true)
      else ({ t with count := padTo t.count i ++ [m] }, true)
    else
      match SMap.get t.overflow i with
      | none => ({ t with overflow := SMap.set t.overflow i m }, true)
      | some v => ({ t with overflow := SMap.set t.overflow i (u64 (v + m)) }, false)

/-- `size` (tally.h L66) -/
def size (t : Tally) : Nat := u64 (t.max + 1)

/-- `sum` (tally.h L68) -/
def sum (t : Tally) : Nat := t.total

/-- the loop of `advance` over `count` (tally_def.h L99-101); `some i` when it returns, with the
remaining number of counters as bound on the passes -/
def advanceLoop (count : List Nat) : Nat → Nat → Option Nat
  | 0, _ => none
  | k + 1, i => if count.getD i 0 ≠ 0 then some i else advanceLoop count k (i + 1)

/-- `advance` (tally_def.h L93-107) -/
def advance (nd : Bool) (t : Tally) (i : Nat) : Res Nat :=
  if i ≥ t.max then .ok (size t)
  else
    match advanceLoop t.count (t.count.length - (i + 1)) (i + 1) with
    | some j => .ok j
    | none =>
      let i := Nat.max (i + 1) t.count.length
      match SMap.lowerBound t.overflow i with
      | some e => .ok e.1
      | none => do
        Res.assertIn nd false
        .undefined

/-- the loop of `lower` over `count` (tally_def.h L121-123); the values of `i` and of the result -/
def lowerLoop (count : List Nat) : Nat → Nat × Bool
  | 0 => (18446744073709551615, false)
  | i + 1 => if count.getD i 0 ≠ 0 then (i, true) else lowerLoop count i

/-- `lower` (tally_def.h L109-126) -/
def lower (t : Tally) (i : Nat) : Nat × Bool :=
  if i > t.count.length then
    match SMap.lastBelow t.overflow i with
    | some e => if e.1 ≥ t.count.length then (e.1, true) else lowerLoop t.count t.count.length
    | none => lowerLoop t.count t.count.length
  else lowerLoop t.count i

/-- the loop of `derived` (tally_def.h L186-187), with a bound on the number of passes -/
def derivedLoop (M : Nat) (M' : Nat) (nd : Bool) (t : Tally) : Nat → Nat → Tally → Res Tally
  | 0, _, _ => .outOfFuel
  | k + 1, i, mu =>
    if i < size t then do
      let m ← multiplicity M t i
      let mu := (tally1 M' mu m).1
      derivedLoop M M' nd t k (← advance nd t i) mu
    else .ok mu

/-- `derived` (tally_def.h L181-189) -/
def derived (M M' : Nat) (nd : Bool) (t : Tally) (cap : Nat) : Res Tally :=
  derivedLoop M M' nd t (t.max + 2) 0 (tally1 M' (make cap) 0).1

/-! ### bytes -/

/-- `write_bytes<n>` (basic_io_def.h L63-73) -/
def writeBytes : Nat → Nat → List Nat
  | 0, _ => []
  | 1, v => [v % 256]
  | n + 1, v => (v &&& 0xFF) :: writeBytes n (v >>> 8)

/-- `in.get()` converted to `unsigned char`: at the end of the input `EOF`, that is `-1`, gives 255 -/
def getByte : List Nat → Nat × List Nat
  | [] => (255, [])
  | b :: s => (b, s)

/-- `read_bytes<n>` (basic_io_def.h L50-60).  The two operands of `+` read from the stream, and
the language does not say which is evaluated first: `lr` is true when it is the left one. -/
def readBytes (lr : Bool) : Nat → List Nat → Nat × List Nat
  | 0, s => (0, s)
  | 1, s => getByte s
  | n + 2, s =>
    if lr then
      let a := getByte s
      let b := readBytes lr (n + 1) a.2
      (u64 (a.1 + u64 (b.1 <<< 8)), b.2)
    else
      let b := readBytes lr (n + 1) s
      let a := getByte b.2
      (u64 (a.1 + u64 (b.1 <<< 8)), a.2)

/-- `write_to` (tally_def.h L128-141); `w` is `sizeof(Count)` -/
def writeTo (w : Nat) (t : Tally) : List Nat :=
  writeBytes 4 (t.count.length % 4294967296) ++ writeBytes 4 (t.overflow.length % 4294967296) ++
    t.count.flatMap (writeBytes w) ++ t.overflow.flatMap (fun e => writeBytes 8 e.1 ++ writeBytes 8 e.2)

/-- reading the counters (tally_def.h L151-152) -/
def readCounts (lr : Bool) (w : Nat) : Nat → List Nat → List Nat × List Nat
  | 0, s => ([], s)
  | k + 1, s =>
    let a := readBytes lr w s
    let r := readCounts lr w k a.2
    (a.1 :: r.1, r.2)

/-- reading the overflow table (tally_def.h L153-159); `insert` does not replace -/
def readOverflow (lr : Bool) : Nat → List Nat → List (Nat × Nat) → Nat → List (Nat × Nat) × Nat
  | 0, _, o, max => (o, max)
  | n + 1, s, o, max =>
    let k := readBytes lr 8 s
    let max := if k.1 > max then k.1 else max
    let v := readBytes lr 8 k.2
    readOverflow lr n v.2 (match SMap.get o k.1 with | some _ => o | none => SMap.set o k.1 v.1) max

/-- constructor from a file (tally_def.h L143-160); `cap` is what `capacity()` is after `resize` -/
def readFrom (lr : Bool) (w : Nat) (cap : Nat) (s : List Nat) : Tally :=
  let n := readBytes lr 4 s
  let o := readBytes lr 4 n.2
  let c := readCounts lr w n.1 o.2
  let r := readOverflow lr o.1 c.2 [] (n.1 - 1)
  ⟨cap, c.1, r.1, r.2, 0⟩

end Verif.Tally
