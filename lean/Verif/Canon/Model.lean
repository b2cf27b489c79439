import Verif.Inv.Model
/-
Model of canonical twisted involutions: `InnerClass::canonicalize` and `InnerClass::class_number`
(/repo/sources/structure/innerclass.cpp L732-846, innerclass.h L498-501), with `TwistedWeylGroup::simple_images`, the constructor of `InvolutionData` from
images of simple roots, and sums of positive roots.
A `RankFlags` is the list of its bits, and its iterator yields the positions of the bits set, in increasing order; it holds a copy of the bits.
`nd` tells whether assertions are disabled, `fuel` bounds the number of passes of each of the loops that repeat until no change occurs.
Integers are unbounded.
-/
namespace Verif.Canon
open Verif Verif.Root Verif.Mat Verif.Datum Verif.Inv

/-- the image of a root under a Weyl group element (weyl.cpp L1058-1067) -/
def actRoot (nd : Bool) (rd : RD) (T : Weyl.TWG) (w : List Nat) (a : Nat) : Res Nat := T.W.act nd (fun s a => rd.rs.simpleReflected s a) w a

/-- the image of a simple root: `simpleRootNbr(twisted(i))` followed by the action of `w` (weyl.cpp L1505-1506, innerclass.cpp L817-818) -/
def imageSimple (nd : Bool) (rd : RD) (T : Weyl.TWG) (tw : List Nat) (i : Nat) : Res Nat := do
  let a ← rd.rs.simpleNbr nd (← T.twistedGen i)
  actRoot nd rd T tw a

/-- `simple_images` (weyl.cpp L1497-1511) -/
def simpleImages (nd : Bool) (rd : RD) (T : Weyl.TWG) (tw : List Nat) : Res (List Nat) := do
  Res.assertIn nd (decide (T.W.rank = rd.rs.rk))
  tab T.W.rank fun i => imageSimple nd rd T tw i

/-- the constructor of `InvolutionData` from images of simple roots, with `classify_roots` (involutions.cpp L91-99, L38-54) -/
def ofImages (nd : Bool) (rd : RD) (im : List Nat) : Res Data := do
  let perm ← rd.rs.extend nd im
  let none := List.replicate rd.rs.numRoots false
  let (im, re, cx) ← classifyLoop rd.rs perm (List.range rd.rs.numRoots) (none, none, none)
  .ok ⟨perm, im, re, cx, ← rd.rs.simpleBasis im, ← rd.rs.simpleBasis re⟩

/-- `InvolutionData::build` (involutions.cpp L101-105); the same expression occurs in `canonicalize` (innerclass.cpp L741) -/
def build (nd : Bool) (rd : RD) (T : Weyl.TWG) (tw : List Nat) : Res Data := do ofImages nd rd (← simpleImages nd rd T tw)

/-- the loop of `root_sum` (rootdata.cpp L1728-1729) -/
def sumLoop (nd : Bool) (rd : RD) : List Nat → List Int → Res (List Int)
  | [], v => .ok v
  | a :: l, v => do sumLoop nd rd l (← vecAdd nd v (← rd.root nd a))

/-- `root_sum` (rootdata.cpp L1726-1731) -/
def rootSum (nd : Bool) (rd : RD) (S : List Bool) : Res (List Int) := sumLoop nd rd (Root.members S) (List.replicate rd.rank 0)

/-- `twoRho` of a set of roots (rootdata.h L777-778) -/
def twoRho (nd : Bool) (rd : RD) (S : List Bool) : Res (List Int) := rootSum nd rd (List.zipWith (· && ·) rd.rs.posSet S)

/-- the test in the first phase (innerclass.cpp L771-772) -/
def test1 (nd : Bool) (rd : RD) (rrs irs : List Int) (s : Nat) : Res Bool := do
  let c ← dot nd (← rd.simpleCoroot nd s) rrs
  if c < 0 then .ok true
  else if c = 0 then do .ok (decide ((← dot nd (← rd.simpleCoroot nd s) irs) < 0))
  else .ok false

/-- the test in the second phase (innerclass.cpp L816-819) -/
def test2 (nd : Bool) (rd : RD) (T : Weyl.TWG) (sigma : List Nat) (s : Nat) : Res Bool := do .ok (rd.rs.isNeg (← imageSimple nd rd T sigma s))

/-- the loops over the generators (innerclass.cpp L768, L813): the first one for which the test succeeds -/
def scan (test : Nat → Res Bool) : List Nat → Res (Option Nat)
  | [] => .ok none
  | s :: l => do if ← test s then .ok (some s) else scan test l

/-- the values changed in the loops -/
structure State where
  rrs : List Int
  irs : List Int
  sigma : List Nat
  ww : List Nat

/-- first phase (innerclass.cpp L764-783) -/
def phase1 (nd : Bool) (rd : RD) (T : Weyl.TWG) (gens : List Bool) : Nat → State → Res State
  | 0, _ => .outOfFuel
  | fuel + 1, x => do
    match ← scan (test1 nd rd x.rrs x.irs) (Root.members gens) with
    | none => .ok x
    | some s => do
      let rrs ← rd.simpleReflect nd s x.rrs
      let irs ← rd.simpleReflect nd s x.irs
      let (sigma, _) ← T.conjGen nd x.sigma s
      phase1 nd rd T gens fuel ⟨rrs, irs, sigma, x.ww ++ [s]⟩

/-- the loop that removes generators (innerclass.cpp L794-796) -/
def dropLoop (nd : Bool) (rd : RD) (rrs irs : List Int) : List Nat → List Bool → Res (List Bool)
  | [], gens => .ok gens
  | s :: l, gens => do
    let c ← dot nd rrs (← rd.simpleCoroot nd s)
    let b ← if c > 0 then .ok true else do .ok (decide ((← dot nd irs (← rd.simpleCoroot nd s)) > 0))
    dropLoop nd rd rrs irs l (← if b then Vec.put gens s false else .ok gens)

/-- second phase (innerclass.cpp L810-828) -/
def phase2 (nd : Bool) (rd : RD) (T : Weyl.TWG) (gens : List Bool) : Nat → List Nat × List Nat → Res (List Nat × List Nat)
  | 0, _ => .outOfFuel
  | fuel + 1, (sigma, ww) => do
    match ← scan (test2 nd rd T sigma) (Root.members gens) with
    | none => .ok (sigma, ww)
    | some s => do
      let (sigma, _) ← T.conjGen nd sigma s
      phase2 nd rd T gens fuel (sigma, ww ++ [s])

/-- `canonicalize` (innerclass.cpp L732-834): the word returned, and the twisted involution left in `sigma` -/
def canonicalize (nd : Bool) (fuel : Nat) (rd : RD) (T : Weyl.TWG) (sigma : List Nat) (gens : List Bool) : Res (List Nat × List Nat) := do
  let id ← build nd rd T sigma
  let rrs ← twoRho nd rd id.re
  let irs ← twoRho nd rd id.im
  let x ← phase1 nd rd T gens fuel ⟨rrs, irs, sigma, []⟩
  let gens ← dropLoop nd rd x.rrs x.irs (Root.members gens) gens
  let (sigma, ww) ← phase2 nd rd T gens fuel (x.sigma, x.ww)
  .ok (ww, sigma)

/-- the set of all generators, `RankFlags(constants::lt_mask[semisimple_rank()])` (innerclass.h L501) -/
def allGens (n : Nat) : List Bool := (List.range 32).map fun i => decide (i < n)

/-- `canonicalize` with all generators (innerclass.h L499-501) -/
def canonicalizeAll (nd : Bool) (fuel : Nat) (rd : RD) (T : Weyl.TWG) (sigma : List Nat) : Res (List Nat × List Nat) :=
  canonicalize nd fuel rd T sigma (allGens rd.ssRank)

/-- `class_number` (innerclass.cpp L837-846), for the list of the canonical involutions `Cartan[i].tw`; a `CartanNbr` is an `unsigned short` (Atlas.h L384) -/
def classNumber (nd : Bool) (fuel : Nat) (rd : RD) (T : Weyl.TWG) (cartan : List (List Nat)) (sigma : List Nat) : Res Nat := do
  let (_, sigma) ← canonicalizeAll nd fuel rd T sigma
  if cartan.idxOf sigma < cartan.length then .ok (cartan.idxOf sigma)
  else do
    Res.assertIn nd false
    .ok 65535

end Verif.Canon
