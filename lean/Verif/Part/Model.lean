import Verif.Vec
import Verif.Map
/-
Model of `Partition` and `PartitionIterator` (/repo/sources/utilities/partition.h,
partition.cpp, partition_def.h).
-/
namespace Verif.Part
open Verif

/-- data members `d_class` and `d_classRep` (partition.h L53-54) -/
structure Partition where
  cls : List Nat
  rep : List Nat
  deriving DecidableEq, Repr

/-- `Partition(n)` (partition.h L64) -/
def Partition.sized (n : Nat) : Partition := ⟨List.replicate n 0, []⟩

/-- `class_of` (partition.h L76) -/
def Partition.classOf (P : Partition) (j : Nat) : Res Nat := Vec.get P.cls j

/-- `classCount` (partition.h L82) -/
def Partition.classCount (P : Partition) : Nat := P.rep.length

/-- `classRep` (partition.h L85) -/
def Partition.classRep (P : Partition) (c : Nat) : Res Nat := Vec.get P.rep c

/-- `new_class` (partition.cpp L96-101), with the class number it returns -/
def Partition.newClass (P : Partition) (j : Nat) : Res (Nat × Partition) := do
  let cls ← Vec.put P.cls j P.rep.length
  pure (P.rep.length, ⟨cls, P.rep ++ [j]⟩)

/-- `addToClass` (partition.h L117-121) -/
def Partition.addToClass (P : Partition) (c j : Nat) : Res Partition := do
  pure ⟨← Vec.put P.cls j c, P.rep⟩

/-- loop of the constructor from a class function (partition.cpp L51-62); `l` is what is left of
`f`, `i` the index, `s` the number of classes, `val` the map (whose `insert` has no effect for a
key that is present) -/
def makeLoop : List Nat → Nat → Nat → List (Nat × Nat) → Partition → Res Partition
  | [], _, _, _, P => .ok P
  | x :: l, i, s, val, P =>
    match SMap.get val x with
    | none => do
      let r ← P.newClass i
      makeLoop l (i + 1) (s + 1) (SMap.set val x s) r.2
    | some c => do
      makeLoop l (i + 1) s val (← P.addToClass c i)

/-- the constructor from a class function (partition.cpp L40-63) -/
def make (f : List Nat) : Res Partition := makeLoop f 0 0 [] (Partition.sized f.length)

/-- first loop of the constructor without normalization (partition.cpp L72-73) -/
def firstLoop : List Nat → Nat → List (Nat × Nat) → List (Nat × Nat)
  | [], _, val => val
  | x :: l, j, val => firstLoop l (j + 1) (match SMap.get val x with | none => SMap.set val x j | some _ => val)

/-- second loop of it (partition.cpp L80-82) -/
def repLoop : List (Nat × Nat) → List Nat → Res (List Nat)
  | [], r => .ok r
  | e :: m, r => do repLoop m (← Vec.put r e.1 e.2)

/-- the constructor without normalization (partition.cpp L65-83) -/
def makeUnnormalized (f : List Nat) : Res Partition := do
  let val := firstLoop f 0 []
  pure ⟨f, ← repLoop val (List.replicate val.length 0)⟩

/-- `classSize` (partition.cpp L109-118) -/
def Partition.classSize (P : Partition) (c : Nat) : Nat :=
  P.cls.foldl (fun n elt => if elt = c then n + 1 else n) 0

/-- loop of `class_sizes` (partition.cpp L123-124) -/
def sizesLoop : List Nat → List Nat → Res (List Nat)
  | [], r => .ok r
  | e :: l, r => do sizesLoop l (← Vec.put r e ((← Vec.get r e) + 1))

/-- `class_sizes` (partition.cpp L120-127); the counts cannot overflow -/
def Partition.classSizes (P : Partition) : Res (List Nat) :=
  sizesLoop P.cls (List.replicate P.classCount 0)

/-! ### orbits -/

/-- the `for` loop over generators (partition_def.h L88-97): images of `x` that are still in the
bitmap `b` (given by its bits) join class `c`; `m` generators to go -/
def imagesLoop (a : Nat → Nat → Nat) (x c : Nat) : Nat → Nat → List Bool → Partition → List Nat → Res (List Bool × Partition × List Nat)
  | 0, _, b, P, todo => .ok (b, P, todo)
  | m + 1, i, b, P, todo => do
    let y := a i x
    let t ← Vec.get b y
    if t then
      let b ← Vec.put b y false
      let P ← P.addToClass c y
      imagesLoop a x c m (i + 1) b P (y :: todo)
    else imagesLoop a x c m (i + 1) b P todo

/-- the `do`-`while` loop (partition_def.h L84-99), with fuel; `todo` is the stack, top first -/
def orbitLoop (a : Nat → Nat → Nat) (gens c : Nat) : Nat → List Bool → Partition → List Nat → Res (List Bool × Partition)
  | 0, _, _, _ => .outOfFuel
  | k + 1, b, P, todo =>
    match todo with
    | [] => .undefined
    | x :: todo => do
      let r ← imagesLoop a x c gens 0 b P todo
      if r.2.2 = [] then pure (r.1, r.2.1) else orbitLoop a gens c k r.1 r.2.1 r.2.2

/-- the outer loop (partition_def.h L77-100).  The iterator `it` runs in increasing order through
the elements still in `b` (C19; it refetches the bitmap at each step), which is modelled by
running through all numbers and skipping those no longer in `b`; `m` numbers to go -/
def rootsLoop (a : Nat → Nat → Nat) (gens : Nat) : Nat → Nat → List Bool → Partition → Res Partition
  | 0, _, _, P => .ok P
  | m + 1, root, b, P => do
    let t ← Vec.get b root
    if t then
      let r ← P.newClass root
      let b ← Vec.put b root false
      let s ← orbitLoop a gens r.1 (b.length + 1) b r.2 [root]
      rootsLoop a gens m (root + 1) s.1 s.2
    else rootsLoop a gens m (root + 1) b P

/-- `orbits(a,c,n)` (partition_def.h L69-102) -/
def orbits (a : Nat → Nat → Nat) (gens n : Nat) : Res Partition :=
  rootsLoop a gens n 0 (List.replicate n true) (Partition.sized n)

/-! ### the iterator -/

/-- data of `PartitionIterator` (partition.h L179-182); iterators into `d_data` and `d_stop` are
given by their index -/
structure Iter where
  data : List Nat
  stop : List Nat
  first : Nat
  second : Nat
  cur : Nat
  deriving DecidableEq, Repr

/-- the loop finding class boundaries (partition.cpp L166-171); `l` is what is left of `d_data` -/
def stopLoop (P : Partition) : List Nat → Nat → Nat → List Nat → Res (List Nat)
  | [], _, _, stop => .ok stop
  | x :: l, i, this, stop => do
    let c ← P.classOf x
    if c ≠ this then stopLoop P l (i + 1) c (stop ++ [i]) else stopLoop P l (i + 1) this stop

/-- `rewind` (partition.h L226-230) -/
def rewind (data stop : List Nat) : Res Iter := do
  pure ⟨data, stop, ← Vec.get stop 0, ← Vec.get stop 1, 1⟩

/-- the constructor (partition.cpp L148-179); `std::stable_sort` is modelled by Lean's merge sort,
which is stable; the comparison takes `d_class` values of elements in range -/
def iter (P : Partition) : Res Iter :=
  if P.cls.length = 0 then rewind [] [0, 0]
  else do
    let data := (List.range P.cls.length).mergeSort (fun x y => !decide (P.cls.getD y 0 < P.cls.getD x 0))
    let x ← Vec.get data 0
    let this ← P.classOf x
    let stop ← stopLoop P data 0 this [0]
    rewind data (stop ++ [data.length] ++ [data.length])

/-- `operator++` (partition.cpp L181-189) -/
def Iter.next (it : Iter) : Res Iter := do
  let e ← Vec.get it.stop (it.cur + 1)
  pure { it with cur := it.cur + 1, first := it.second, second := e }

/-- the ranges seen by `for (PartitionIterator it(pi); it(); ++it)` (with `operator()` at
partition.h L213-215), with fuel -/
def collect : Nat → Iter → Res (List (List Nat))
  | 0, _ => .outOfFuel
  | k + 1, it =>
    if it.first ≠ it.data.length then do
      let l ← collect k (← it.next)
      pure ((it.data.drop it.first).take (it.second - it.first) :: l)
    else .ok []

/-- all ranges seen by an iteration over `P` -/
def traverse (P : Partition) : Res (List (List Nat)) := do collect (P.cls.length + 1) (← iter P)

end Verif.Part
