import Verif.Datum.Model
import Verif.Weyl.Group
/-
Model of the functions `Weyl_orbit` and `Weyl_orbit_Welts` (sources/structure/rootdata.cpp L1761-2175).

Simplifications.  Sets of generators (`RankFlags`) and of roots (`BitMap`) are increasing lists.  The template functions `basic_orbit` for the two
kinds of sets differ by the choice of the initial vector and by the access to roots: the common part is `basicCore`.  An argument `dual`
of the templates exchanges roots and coroots; it is expressed by the accessors given to that function.
-/
namespace Verif.Datum
open Verif Verif.Mat Verif.Root

/-- `orbit_elem` (rootdata.cpp L1778-1785) -/
structure OrbElt where
  v : List Int
  gen : Nat
  prev : Nat
  deriving DecidableEq, Repr

/-- the access to roots by numbers, as used in the loops: root, coroot and reflection; exchanged for coweights -/
structure Access where
  root : Nat → Res (List Int)
  coroot : Nat → Res (List Int)
  reflect : Nat → List Int → Res (List Int)

/-- by number of a simple root -/
def Access.simple (nd dual : Bool) (rd : RD) : Access :=
  if dual then ⟨rd.simpleCoroot nd, rd.simpleRoot nd, fun i v => rd.simpleCoreflect nd v i⟩
  else ⟨rd.simpleRoot nd, rd.simpleCoroot nd, fun i v => rd.simpleReflect nd i v⟩

/-- by number of a root -/
def Access.all (nd dual : Bool) (rd : RD) : Access :=
  if dual then ⟨rd.coroot nd, rd.root nd, fun i v => rd.coreflect nd v i⟩
  else ⟨rd.root nd, rd.coroot nd, fun i v => rd.reflect nd i v⟩

/-- the loop on generators for one element of the level (rootdata.cpp L1812-1828, L1881-1896); `new` is the part of the list after `finish` -/
def genLoop (nd : Bool) (A : Access) (v : List Int) (count : Nat) : List Nat → List OrbElt → Res (List OrbElt)
  | [], new => .ok new
  | s :: ss, new => do
    let level ← dot nd v (← A.coroot s)
    if level ≤ 0 then genLoop nd A v count ss new
    else do
      let wt ← vecSubMul v (← A.root s) level
      if new.any fun x => x.v == wt then genLoop nd A v count ss new
      else genLoop nd A v count ss (new ++ [⟨wt, s, count⟩])

/-- the loop on the elements of a level (L1811, L1880) -/
def levelLoop (nd : Bool) (A : Access) (stab : List Nat) : Nat → List OrbElt → List OrbElt → Res (List OrbElt)
  | _, [], new => .ok new
  | count, x :: xs, new => do levelLoop nd A stab (count + 1) xs (← genLoop nd A x.v count stab new)

/-- the loop on levels (L1809-1832, L1878-1900): `done` are the elements before `start`, `cur` those from `start` to `finish`.  The unbounded loop has fuel. -/
def growLoop (nd : Bool) (A : Access) (stab : List Nat) : Nat → List OrbElt → List OrbElt → Res (List OrbElt)
  | 0, _, _ => .outOfFuel
  | fuel + 1, done, cur => do
    let new ← levelLoop nd A stab done.length cur []
    if new.isEmpty then .ok (done ++ cur) else growLoop nd A stab fuel (done ++ cur) new

/-- `basic_orbit` after the choice of the initial vector (L1799-1832, L1866-1900); `stab` already contains the new generator -/
def basicCore (nd : Bool) (A : Access) (fuel : Nat) (stab : List Nat) (i : Nat) (e : List Int) : Res (List OrbElt) := do
  growLoop nd A stab fuel [⟨e, 4294967295, 4294967295⟩] [⟨← A.reflect i e, i, 0⟩]

/-- insertion in an increasing list -/
def insertAsc (i : Nat) : List Nat → List Nat
  | [] => [i]
  | s :: ss => if i < s then i :: s :: ss else if i = s then s :: ss else s :: insertAsc i ss

/-- `basic_orbit` for a set of simple generators (L1789-1833): the initial vector is the numerator of a fundamental (co)weight -/
def basicOrbit (nd dual : Bool) (rd : RD) (stab : List Nat) (i : Nat) : Res (List OrbElt × List Nat) := do
  Res.assertIn nd (!stab.contains i)
  let e ← (if dual then rd.fundamentalCoweight i else rd.fundamentalWeight i)
  let stab := insertAsc i stab
  .ok (← basicCore nd (Access.simple nd dual rd) (rd.rs.numPos + 2) stab i e.1, stab)

/-- the search for a column of the kernel on which a (co)root does not vanish (L1855-1863); beyond the last column, the call of `column` fails its
assertion, or is out of range -/
def findColumn (nd : Bool) (K : Mat Int) (c : List Int) : Nat → Nat → Res (List Int)
  | 0, j => column nd K j
  | k + 1, j => do
    let v ← column nd K j
    let ev ← dot nd c v
    if ev ≠ 0 then if ev < 0 then vecNeg v else .ok v
    else findColumn nd K c k (j + 1)

/-- `basic_orbit` for a set of roots (L1837-1901): the initial vector is found in the kernel of the (co)roots already present -/
def basicOrbitG (nd dual : Bool) (rd : RD) (stab : List Nat) (i : Nat) : Res (List OrbElt × List Nat) := do
  Res.assertIn nd (!stab.contains i)
  let A := Access.all nd dual rd
  let M ← forUp (fun k M => do setRow nd M k (← A.coroot (← Vec.get stab k))) stab.length 0 (blank stab.length rd.rank)
  let K ← kernel nd M
  let v ← findColumn nd K (← A.coroot i) K.cols 0
  let stab := insertAsc i stab
  .ok (← basicCore nd A (rd.rs.numPos + 2) stab i v, stab)

/-- the inner loop of `extend_orbit` and `extend_orbit_Welts` (L1916-1926, L1943-1954, L1977-1988, L2009-2020): `ref` are the elements found for one element of the orbit -/
def extendOne {X : Type} (op : Nat → X → Res X) : List OrbElt → List X → Res (List X)
  | [], ref => .ok ref
  | c :: cs, ref => do
    let x ← op c.gen (← Vec.get ref c.prev)
    extendOne op cs (ref ++ [x])

/-- `extend_orbit` and `extend_orbit_Welts` (L1903-2022), for the list of cosets found by `basic_orbit` -/
def extendOrbit {X : Type} (op : Nat → X → Res X) (cosets : List OrbElt) : List X → Res (List X)
  | [] => .ok []
  | o :: os => do
    let l ← extendOne op cosets.tail [o]
    .ok (l ++ (← extendOrbit op cosets os))

/-- the loop on generators that do not fix the vector, in all `Weyl_orbit` functions (for instance L2115-2116) -/
def orbitLoop {X : Type} (basic : List Nat → Nat → Res (List OrbElt × List Nat)) (op : Nat → X → Res X) : List Nat → List Nat → List X → Res (List X)
  | [], _, orbit => .ok orbit
  | i :: is, stab, orbit => do
    let c ← basic stab i
    orbitLoop basic op is c.2 (← extendOrbit op c.1 orbit)

/-- the generators among `gs` that fix the vector, and the others (for instance L2107-2111, L2140-2146) -/
def splitGens (nd : Bool) (A : Access) (v : List Int) : List Nat → Res (List Nat × List Nat)
  | [] => .ok ([], [])
  | s :: ss => do
    let b ← dot nd (← A.coroot s) v
    let (x, y) ← splitGens nd A v ss
    if b = 0 then .ok (s :: x, y) else .ok (x, s :: y)

/-- a set as increasing list -/
def sortAsc : List Nat → List Nat
  | [] => []
  | s :: ss => insertAsc s (sortAsc ss)

namespace RD

/-- `Weyl_orbit` of a weight or, if `dual`, a coweight (rootdata.cpp L2104-2134); the columns of the matrix -/
def weylOrbit (nd dual : Bool) (rd : RD) (v : List Int) : Res (List (List Int)) := do
  let v ← (if dual then rd.makeCodominant nd v else rd.makeDominant nd v)
  let A := Access.simple nd dual rd
  let st ← splitGens nd A v (List.range rd.ssRank)
  orbitLoop (Datum.basicOrbit nd dual rd) A.reflect st.2 st.1 [v]

/-- `Weyl_orbit` for a list of generators (L2136-2174) -/
def weylOrbitG (nd dual : Bool) (rd : RD) (g : List Nat) (v : List Int) : Res (List (List Int)) := do
  let v ← (if dual then rd.makeCodominantG nd g v else rd.makeDominantG nd g v)
  let A := Access.all nd dual rd
  let st ← splitGens nd A v g
  orbitLoop (basicOrbitG nd dual rd) A.reflect st.2 (sortAsc st.1) [v]

/-- `W.prod` of a generator and an element (weyl.h L325-326), in the order for weights, or for coweights -/
def prodGen (nd dual : Bool) (W : Weyl.WG) (s : Nat) (w : List Nat) : Res (List Nat) := do
  if dual then .ok (← W.multGen nd w s).1 else .ok (← W.leftMultiplyGen nd w s).1

/-- `W.prod` of the word of a reflection and an element (weyl.h L328-330), in the order for weights, or for coweights -/
def prodRefl (nd dual : Bool) (W : Weyl.WG) (rd : RD) (a : Nat) (w : List Nat) : Res (List Nat) := do
  let ww ← rd.reflectionWord nd a
  if dual then W.multWord nd w ww else W.leftMultiplyWord nd w ww

/-- `Weyl_orbit_Welts` (L2024-2058) -/
def weylOrbitW (nd dual : Bool) (rd : RD) (W : Weyl.WG) (v : List Int) : Res (List (List Nat)) := do
  let f ← (if dual then rd.factorCodominant nd v else rd.factorDominant nd v)
  let A := Access.simple nd dual rd
  let st ← splitGens nd A f.2 (List.range rd.ssRank)
  orbitLoop (Datum.basicOrbit nd dual rd) (prodGen nd dual W) st.2 st.1 [← W.element nd f.1.reverse]

/-- composition of the reflections in the letters of a word (L2063-2065, L2084-2086) -/
def moverG (nd : Bool) (W : Weyl.WG) (rd : RD) (g : List Nat) : List Nat → List Nat → Res (List Nat)
  | [], w => .ok w
  | s :: ss, w => do moverG nd W rd g ss (← W.leftMultiplyWord nd w (← rd.reflectionWord nd (← Vec.get g s)))

/-- `Weyl_orbit_Welts` for a list of generators (L2060-2101) -/
def weylOrbitWG (nd dual : Bool) (rd : RD) (W : Weyl.WG) (g : List Nat) (v : List Int) : Res (List (List Nat)) := do
  let f ← (if dual then rd.factorCodominantG nd g v else rd.factorDominantG nd g v)
  let w ← moverG nd W rd g f.1 Weyl.WG.one
  let A := Access.all nd dual rd
  let st ← splitGens nd A f.2 g
  orbitLoop (basicOrbitG nd dual rd) (prodRefl nd dual W rd) st.2 (sortAsc st.1) [w]

end RD

end Verif.Datum
