import Verif.Tits.Model
import Verif.Perm.Model
import Verif.BitSet.Model
/-
Model of the class `KGB` with its base class `KGB_base` (/repo/sources/gkmod/kgb.h L50-350 and kgb.cpp L95-180, L482-728) and of the class `Status`
(structure/gradings.h L52-123).  The based Tits group `c` (C67), the part `it` of the involution table that is used, the seeds and
the predicted size are given.  The hash table of Tits elements is modelled by its specification (C23): numbers in order of first
appearance.  `nd` tells whether assertions are disabled.
Not modelled: the choice of the seeds (`x0_torus_part`, `backtrack_seed`), the check that the set of Cartan classes is closed, the field
`Cartan` (which is filled but never used), the predicted size (`KGB_size`), `torus_factor`, `twisted`, the Bruhat order, the class `global_KGB`.
-/
namespace Verif.KGB
open Verif Verif.F2 Verif.Weyl Verif.Tits Verif.BitSet

/-- `UndefKGB` (Atlas.h L429), also the code `empty` of hash tables and the value `-1` of `inv_index` -/
def undefKGB : Nat := 4294967295

/-! ### `gradings::Status` -/

/-- values of the enumeration (gradings.h L58): complex, compact imaginary, real, noncompact imaginary -/
def cplx : Nat := 0
@[inherit_doc cplx] def imCpt : Nat := 1
@[inherit_doc cplx] def realSt : Nat := 2
@[inherit_doc cplx] def imNcpt : Nat := 3

/-- `set` (gradings.h L109-115) -/
def statusSet (st : B2) (j v : Nat) : B2 := st.or ((B2.ofWide v).shl (2 * j))

/-- `set_imaginary` (gradings.h L117-122) -/
def statusSetImaginary (st : B2) (j : Nat) (grading : Bool) : B2 := st.or ((B2.ofWide (if grading then imNcpt else imCpt)).shl (2 * j))

/-- `operator[]` (gradings.h L66-73) -/
def statusGet (st : B2) (j : Nat) : Res Nat := do
  let u := if ← st.test (2 * j) then 1 else 0
  if ← st.test (2 * j + 1) then pure (u + 2) else pure u

/-- `isComplex` (gradings.h L75-79) -/
def statusIsComplex (st : B2) (j : Nat) : Res Bool := do
  if ← st.test (2 * j) then pure false else pure (!(← st.test (2 * j + 1)))

/-! ### the involution table -/

/-- fields used of a `record` (involutions.h L100-121) -/
structure IRec where
  modSpace : Sub
  length : Nat
  wLength : Nat

/-- the part of `InvolutionTable` (involutions.h L87-125) that is used: `pool`, and the records -/
structure ITab where
  pool : List (List Nat)
  recs : List IRec

namespace ITab

/-- `nr` (involutions.h L134-135) -/
def nr (it : ITab) (tw : List Nat) : Nat := if it.pool.idxOf tw < it.pool.length then it.pool.idxOf tw else undefKGB

/-- `involution` (involutions.h L139-140) -/
def involution (nd : Bool) (it : ITab) (n : Nat) : Res (List Nat) := do
  Res.assertIn nd (decide (n < it.pool.length))
  Vec.get it.pool n

/-- `mod_space` (involutions.h L191-192), and similarly the other fields -/
def record (nd : Bool) (it : ITab) (n : Nat) : Res IRec := do
  Res.assertIn nd (decide (n < it.pool.length))
  Vec.get it.recs n

/-- `reduce` (involutions.cpp L430-434) -/
def reduce (nd : Bool) (it : ITab) (a : TE) : Res TE := do
  let r ← it.record nd (it.nr a.w)
  a.reduce nd r.modSpace

/-- difference of two numbers of type `unsigned int`, converted to `int` -/
def diff (a b : Nat) : Int :=
  let u := (a + 4294967296 - b) % 4294967296
  if u < 2147483648 then u else (u : Int) - 4294967296

/-- the values compared by `comparer` -/
structure Key where
  nr : Nat
  length : Nat
  wLength : Nat
  tw : List Nat

/-- `comparer::operator()` (involutions.cpp L419-428) -/
def less (i j : Key) : Bool :=
  let d := diff i.length j.length
  if d ≠ 0 then decide (d < 0)
  else
    let d := diff i.wLength j.wLength
    if d ≠ 0 then decide (d < 0) else !Weyl.TWG.lexLe j.tw i.tw

/-- the values compared, for a list of numbers; they are collected before the sort -/
def keys (nd : Bool) (it : ITab) : List Nat → Res (List Key)
  | [] => .ok []
  | i :: l => do
    let r ← it.record nd i
    let w ← it.involution nd i
    pure (⟨i, r.length, r.wLength, w⟩ :: (← keys nd it l))

/-- `std::stable_sort(...,i_tab.less())` (kgb.cpp L629), modelled by Lean's merge sort, which is stable -/
def sort (nd : Bool) (it : ITab) (l : List Nat) : Res (List Nat) := do
  let k ← it.keys nd l
  pure ((k.mergeSort fun x y => !less y x).map Key.nr)

end ITab

/-! ### generation of the elements -/

/-- `KGBfields` (kgb.h L72-82) -/
structure Fields where
  cross : Nat := undefKGB
  cayley : Nat := undefKGB
  inv1 : Nat := undefKGB
  inv2 : Nat := undefKGB
deriving DecidableEq

/-- `EltInfo` (kgb.h L63-70) -/
structure Info where
  status : B2 := ⟨0, 0⟩
  desc : Nat := 0
deriving DecidableEq

/-- variables of the constructor during generation: `elt_pool`, `data`, `info` -/
structure St where
  pool : List TE
  data : List (List Fields)
  info : List Info

/-- `add_element` (kgb.cpp L175-180) -/
def addElement (st : St) : St := { st with data := st.data.map (· ++ [{}]), info := st.info ++ [{}] }

/-- `elt_hash.match(a)`, followed by `add_element` if the element is new (kgb.cpp L569-572, L601-603).  References to elements of the
vectors are in use, so that growth beyond the reserved space is undefined. -/
def enter (size : Nat) (st : St) (a : TE) : Res (Nat × St) :=
  let child := st.pool.idxOf a
  if child < st.pool.length ∨ st.pool.length < size then
    let st := if child < st.pool.length then st else { st with pool := st.pool ++ [a] }
    if child = st.info.length then .ok (child, addElement st) else .ok (child, st)
  else .undefined

/-- assignment to the fields `data[s][x]` -/
def setFields (data : List (List Fields)) (s x : Nat) (f : Fields → Fields) : Res (List (List Fields)) := do
  let row ← Vec.get data s
  let fl ← Vec.get row x
  Vec.put data s (← Vec.put row x (f fl))

/-- body of the loop on `s` (kgb.cpp L561-612) -/
def stepGen (nd : Bool) (c : TC) (it : ITab) (size x : Nat) (st : St) (s : Nat) : Res St := do
  let current ← Vec.get st.pool x
  let a ← c.cross nd current s
  let a ← it.reduce nd a
  let lc ← (if a.w = current.w then pure 0 else c.T.tw.W.lengthChangeLeft nd s current.w : Res Int)
  let (child, st) ← enter size st a
  let st := { st with data := ← setFields st.data s x fun f => { f with cross := child } }
  let my ← Vec.get st.info x
  if lc ≠ 0 then do
    let d ← bsSet dim my.desc s (decide (lc < 0))
    pure { st with info := ← Vec.put st.info x ⟨statusSet my.status s cplx, d⟩ }
  else if ← c.T.tw.W.hasDescent nd s current.w then do
    Res.assertIn nd (decide (child = x))
    let d ← bsSet dim my.desc s true
    pure { st with info := ← Vec.put st.info x ⟨statusSet my.status s realSt, d⟩ }
  else do
    let g ← c.simpleGrading current s
    let d ← bsSet dim my.desc s false
    let my : Info := ⟨statusSetImaginary my.status s g, d⟩
    let st := { st with info := ← Vec.put st.info x my }
    if (← statusGet my.status s) = imNcpt then do
      let a ← c.cayley nd current s
      Res.assertIn nd (← (if nd then pure true else do pure (decide ((← c.T.length current) < (← c.T.length a))) : Res Bool))
      let a ← it.reduce nd a
      let (child, st) ← enter size st a
      pure { st with data := ← setFields st.data s x fun f => { f with cayley := child } }
    else pure st

/-- loop on `s`, from `s` on for `k` passes -/
def genLoop (nd : Bool) (c : TC) (it : ITab) (size x : Nat) : Nat → Nat → St → Res St
  | 0, _, st => .ok st
  | k + 1, s, st => do genLoop nd c it size x k (s + 1) (← stepGen nd c it size x st s)

/-- loop on `x` (kgb.cpp L554-614) -/
def eltLoop (nd : Bool) (c : TC) (it : ITab) (size rank : Nat) : Nat → Nat → St → Res St
  | 0, _, _ => .outOfFuel
  | fuel + 1, x, st =>
    if x < st.pool.length then do eltLoop nd c it size rank fuel (x + 1) (← genLoop nd c it size x rank 0 st) else .ok st

/-- the seeds (kgb.cpp L523-551); when there is only one, it is new -/
def plant (nd : Bool) (it : ITab) (size : Nat) : List TE → St → Res St
  | [], st => .ok st
  | a :: l, st => do
    let a ← it.reduce nd a
    let k := st.pool.idxOf a
    let pool := if k < st.pool.length then st.pool else st.pool ++ [a]
    Res.assertIn nd (decide (k = st.info.length))
    plant nd it size l (addElement { st with pool := pool })

/-! ### sorting -/

/-- A `KGB` object: `data`, `info`, `inv_nrs`, `inv_loc`, `first_of_tau`, `left_torus_part`. -/
structure Obj where
  data : List (List Fields)
  info : List Info
  invNrs : List Nat
  invLoc : List Nat
  firstOfTau : List Nat
  torusPart : List BV

/-- the involutions of the given orbits (kgb.cpp L623-625), each given by its fields `start` and `size` -/
def orbitNrs : List (Nat × Nat) → List Nat
  | [] => []
  | o :: l => List.range' o.1 o.2 ++ orbitNrs l

/-- loop that fills `inv_loc` (kgb.cpp L630-631) -/
def locLoop : List Nat → Nat → List Nat → Res (List Nat)
  | [], _, v => .ok v
  | m :: l, i, v => do locLoop l (i + 1) (← Vec.put v m i)

/-- loop that fills `invs` (kgb.cpp L635-636) -/
def invsLoop (it : ITab) (invLoc : List Nat) : List TE → Res (List Nat)
  | [] => .ok []
  | a :: l => do
    let i ← Vec.get invLoc (it.nr a.w)
    pure (i :: (← invsLoop it invLoc l))

/-- renumbering of the links (kgb.cpp L650-656) -/
def renumberLoop (a1 : List Nat) : List Fields → Res (List Fields)
  | [] => .ok []
  | f :: l => do
    let f := { f with cross := ← Vec.get a1 f.cross }
    let f ← (if f.cayley ≠ undefKGB then do pure { f with cayley := ← Vec.get a1 f.cayley } else pure f : Res Fields)
    pure (f :: (← renumberLoop a1 l))

/-- loop on `s` (kgb.cpp L646-657) -/
def permuteData (nd : Bool) (a a1 : List Nat) : List (List Fields) → Res (List (List Fields))
  | [] => .ok []
  | ds :: l => do
    let ds ← Perm.pullBack nd a ds
    let ds ← renumberLoop a1 ds
    pure (ds :: (← permuteData nd a a1 l))

/-- loop for the torus parts (kgb.cpp L662-663) -/
def torusLoop (c : TC) (pool : List TE) : List Nat → Res (List BV)
  | [] => .ok []
  | x :: l => do
    let a ← Vec.get pool x
    pure (c.T.leftTorusPart a :: (← torusLoop c pool l))

/-- body of the loops that install inverse Cayley links (kgb.cpp L674-680) -/
def stepInv (x : Nat) (data : List (List Fields)) (s : Nat) : Res (List (List Fields)) := do
  let f ← Vec.get (← Vec.get data s) x
  if f.cayley ≠ undefKGB then
    setFields data s f.cayley fun t => if t.inv1 = undefKGB then { t with inv1 := x } else { t with inv2 := x }
  else pure data

/-- loop on `s` (kgb.cpp L672-681) -/
def invGenLoop (x : Nat) : Nat → Nat → List (List Fields) → Res (List (List Fields))
  | 0, _, data => .ok data
  | k + 1, s, data => do invGenLoop x k (s + 1) (← stepInv x data s)

/-- loop on `x` (kgb.cpp L670-682) -/
def invLoop (rank : Nat) : Nat → Nat → List (List Fields) → Res (List (List Fields))
  | 0, _, data => .ok data
  | k + 1, x, data => do invLoop rank k (x + 1) (← invGenLoop x rank 0 data)

/-- The part of the constructor after generation (kgb.cpp L618-683); `nInv` is the number of involutions of the inner class, and `orbits`
gives the numbers of the involutions for the Cartan classes. -/
def finish (nd : Bool) (c : TC) (it : ITab) (rank size : Nat) (orbits : List (Nat × Nat)) (nInv : Nat) (st : St) : Res Obj := do
  let invNrs ← it.sort nd (orbitNrs orbits)
  let invLoc ← locLoop invNrs 0 (List.replicate nInv undefKGB)
  let invs ← (if size ≤ st.pool.length then invsLoop it invLoc (st.pool.take size) else .undefined : Res (List Nat))
  let (a1, firstOfTau) ← Perm.standardize nd invs invNrs.length
  let a ← Perm.inverse a1
  let data ← permuteData nd a a1 st.data
  let info ← Perm.pullBack nd a st.info
  let torusPart ← torusLoop c st.pool a
  let data ← invLoop rank size 0 data
  pure ⟨data, info, invNrs, invLoc, firstOfTau, torusPart⟩

/-- the constructor (kgb.cpp L489-683) -/
def make (nd : Bool) (c : TC) (it : ITab) (rank size : Nat) (seeds : List TE) (orbits : List (Nat × Nat)) (nInv : Nat) : Res Obj := do
  let st ← plant nd it size seeds ⟨[], List.replicate rank [], []⟩
  let st ← eltLoop nd c it size rank (size + 1) 0 st
  Res.assertIn nd (decide (st.info.length = size))
  finish nd c it rank size orbits nInv st

/-! ### accessors -/

namespace Obj

/-- `size` (kgb.h L119) -/
def size (k : Obj) : Nat := k.info.length

/-- `cross(s,x)` (kgb.h L127-128) -/
def cross (k : Obj) (s x : Nat) : Res Nat := do pure (← Vec.get (← Vec.get k.data s) x).cross

/-- `cayley` (kgb.h L129-130) -/
def cayley (k : Obj) (s x : Nat) : Res Nat := do pure (← Vec.get (← Vec.get k.data s) x).cayley

/-- `inverseCayley` (kgb.h L131-132) -/
def inverseCayley (k : Obj) (s x : Nat) : Res (Nat × Nat) := do
  let f ← Vec.get (← Vec.get k.data s) x
  pure (f.inv1, f.inv2)

/-- `isDescent` (kgb.h L158-159) -/
def isDescent (k : Obj) (s x : Nat) : Res Bool := do bsTest dim (← Vec.get k.info x).desc s

/-- `any_Cayley` (kgb.h L133-134) -/
def anyCayley (k : Obj) (s x : Nat) : Res Nat := do
  if ← k.isDescent s x then pure (← k.inverseCayley s x).1 else k.cayley s x

/-- `status(s,x)` (kgb.h L161-162) -/
def status (k : Obj) (s x : Nat) : Res Nat := do statusGet (← Vec.get k.info x).status s

/-- `isComplexDescent` (kgb.h L164-165) -/
def isComplexDescent (k : Obj) (s x : Nat) : Res Bool := do
  if ← statusIsComplex (← Vec.get k.info x).status s then k.isDescent s x else pure false

/-- `isDoubleCayleyImage` (kgb.h L167-168) -/
def isDoubleCayleyImage (k : Obj) (s x : Nat) : Res Bool := do pure (decide ((← k.inverseCayley s x).2 ≠ undefKGB))

/-- `isAscent` (kgb.h L170-173) -/
def isAscent (k : Obj) (s x : Nat) : Res Bool := do
  if ← k.isDescent s x then pure false else pure (!decide ((← k.status s x) = imCpt))

/-- `cross(x,ww)` (kgb.cpp L113-118) -/
def crossRight (k : Obj) : List Nat → Nat → Res Nat
  | [], x => .ok x
  | s :: l, x => do crossRight k l (← k.cross s x)

/-- `cross(ww,x)` (kgb.cpp L106-111) -/
def crossLeft (k : Obj) (ww : List Nat) (x : Nat) : Res Nat := k.crossRight ww.reverse x

/-- `involution_index` (kgb.h L196-201); `upper_bound` gives the first position with a larger value -/
def involutionIndex (k : Obj) (x : Nat) : Nat := (k.firstOfTau.findIdx (fun y => decide (x < y)) + 4294967296 - 1) % 4294967296

/-- `inv_nr` (kgb.h L147-148) -/
def invNr (k : Obj) (x : Nat) : Res Nat := Vec.get k.invNrs (k.involutionIndex x)

/-- `involution` (kgb.h L150-151) -/
def involution (nd : Bool) (k : Obj) (it : ITab) (x : Nat) : Res (List Nat) := do it.involution nd (← k.invNr x)

/-- `length` (kgb.h L140-141) -/
def length (nd : Bool) (k : Obj) (it : ITab) (x : Nat) : Res Nat := do pure (← it.record nd (← k.invNr x)).length

/-- `weylLength` (kgb.h L177-178) -/
def weylLength (nd : Bool) (k : Obj) (c : TC) (it : ITab) (x : Nat) : Res Nat := do c.T.tw.W.length (← k.involution nd it x)

/-- `packet` (kgb.h L180-183) -/
def packet (k : Obj) (x : Nat) : Res (Nat × Nat) := do
  let i := k.involutionIndex x
  pure (← Vec.get k.firstOfTau i, ← Vec.get k.firstOfTau (i + 1))

/-- `tauPacket` (kgb.cpp L131-140) -/
def tauPacket (k : Obj) (it : ITab) (w : List Nat) : Res (Nat × Nat) :=
  if it.nr w = undefKGB then .ok (0, 0)
  else do
    let i ← Vec.get k.invLoc (it.nr w)
    if i = undefKGB then pure (0, 0) else pure (← Vec.get k.firstOfTau i, ← Vec.get k.firstOfTau (i + 1))

/-- `packet_size` (kgb.cpp L142-151); the difference is of type `unsigned int` -/
def packetSize (k : Obj) (it : ITab) (w : List Nat) : Res Nat :=
  if it.nr w = undefKGB then .ok 0
  else do
    let i ← Vec.get k.invLoc (it.nr w)
    if i = undefKGB then pure 0
    else pure (((← Vec.get k.firstOfTau (i + 1)) + 4294967296 - (← Vec.get k.firstOfTau i)) % 4294967296)

/-- `titsElt` (kgb.cpp L694-695) -/
def titsElt (nd : Bool) (k : Obj) (c : TC) (it : ITab) (x : Nat) : Res TE := do
  pure (c.T.liftLeft (← Vec.get k.torusPart x) (← k.involution nd it x))

/-- loop of `lookup` (kgb.cpp L722-724), `m` passes from `x` on -/
def lookupLoop (nd : Bool) (k : Obj) (c : TC) (it : ITab) (t : BV) : Nat → Nat → Res Nat
  | 0, _ => .ok undefKGB
  | m + 1, x => do
    let b ← k.titsElt nd c it x
    if ← (c.T.leftTorusPart b).eq nd t then pure x else lookupLoop nd k c it t m (x + 1)

/-- `lookup` (kgb.cpp L716-726) -/
def lookup (nd : Bool) (k : Obj) (c : TC) (it : ITab) (a : TE) : Res Nat := do
  let a ← it.reduce nd a
  let p ← k.tauPacket it a.w
  k.lookupLoop nd c it (c.T.leftTorusPart a) (p.2 - p.1) p.1

end Obj

end Verif.KGB
