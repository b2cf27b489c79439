import Verif.KGB.Model
import Verif.Datum.Model
/-
Model of the classes `InvolutionData`, `InvolutionTable`, `Cartan_orbit` and `Cartan_orbits` (/repo/sources/structure/involutions.h and
involutions.cpp).  The hash table of twisted involutions is modelled by its specification (C23): numbers in order of first appearance, equality
being that of the byte arrays of the Weyl group elements.  From the class `InnerClass` only the canonical involutions of the Cartan classes and
the sizes of their classes are used, and these are given as a list.  `nd` tells whether assertions are disabled, `fuel` bounds the number of
passes of loops that have no evident bound.
Not modelled: the constructors of `InvolutionData` from a subsystem or from images of simple roots, `x_pack`, `x_equiv`, `real_unique`,
the function object `mapper`.
For `reduce` and `comparer` see `Verif.KGB.Model`.
-/
namespace Verif.Inv
open Verif Verif.Root Verif.Mat Verif.Datum

/-! ### `InvolutionData` -/

/-- the fields (involutions.h L47-50) -/
structure Data where
  perm : List Nat
  im : List Bool
  re : List Bool
  cx : List Bool
  simpleIm : List Nat
  simpleRe : List Nat

/-- the loop of `classify_roots` (involutions.cpp L43-49) -/
def classifyLoop (rs : RS) (perm : List Nat) : List Nat → List Bool × List Bool × List Bool → Res (List Bool × List Bool × List Bool)
  | [], s => .ok s
  | a :: l, (im, re, cx) => do
    let b ← Vec.get perm a
    if b = a then classifyLoop rs perm l (← Vec.put im a true, re, cx)
    else if b = rs.minus a then classifyLoop rs perm l (im, ← Vec.put re a true, cx)
    else classifyLoop rs perm l (im, re, ← Vec.put cx a true)

/-- the constructor from an involution, with `classify_roots` (involutions.cpp L31-54) -/
def Data.make (nd : Bool) (rd : RD) (theta : Mat Int) : Res Data := do
  let perm ← rd.rootPermutation nd theta
  let none := List.replicate rd.rs.numRoots false
  let (im, re, cx) ← classifyLoop rd.rs perm (List.range rd.rs.numRoots) (none, none, none)
  .ok ⟨perm, im, re, cx, ← rd.rs.simpleBasis im, ← rd.rs.simpleBasis re⟩

/-- the loop exchanging images (involutions.cpp L124-126) -/
def swapLoop (pi : List Nat) : List Nat → List Nat → Res (List Nat)
  | [], p => .ok p
  | a :: l, p => do
    let b ← Vec.get pi a
    if a < b then do
      let x ← Vec.get p a
      let y ← Vec.get p b
      let p ← Vec.put p a y
      swapLoop pi l (← Vec.put p b x)
    else swapLoop pi l p

/-- `cross_act` (involutions.cpp L119-133) -/
def Data.crossAct (d : Data) (pi : List Nat) : Res Data := do
  let p ← Perm.renumber pi none d.perm
  let p ← swapLoop pi (List.range p.length) p
  .ok ⟨p, ← Perm.renumberSet pi (Root.members d.im), ← Perm.renumberSet pi (Root.members d.re), ← Perm.renumberSet pi (Root.members d.cx),
    ← Perm.renumbering pi d.simpleIm, ← Perm.renumbering pi d.simpleRe⟩

/-! ### `InvolutionTable` -/

/-- loop reflecting the roots found so far (involutions.cpp L159-160) -/
def reflectAll (rs : RS) (s : Nat) : List Nat → Res (List Nat)
  | [] => .ok []
  | a :: l => do
    let b ← rs.simpleReflected s a
    .ok (b :: (← reflectAll rs s l))

/-- loop of `Cayley_roots` (involutions.cpp L152-161), for the letters in the order in which they are used -/
def cayleyLoop (nd : Bool) (rs : RS) (T : Weyl.TWG) : List Int → List Nat × List Nat → Res (List Nat × List Nat)
  | [], s => .ok s
  | x :: l, (result, cross) =>
    if 0 ≤ x then do cayleyLoop nd rs T l (result ++ [← rs.simpleNbr nd x.toNat], cross)
    else do
      let s := (-1 - x).toNat
      let (cross, _) ← T.conjGen nd cross s
      cayleyLoop nd rs T l (← reflectAll rs s result, cross)

/-- `Cayley_roots` (involutions.cpp L141-164), with the value left in its argument `cross` -/
def cayleyRoots (nd : Bool) (fuel : Nat) (tw : List Nat) (rs : RS) (T : Weyl.TWG) (cross : List Nat) : Res (List Nat × List Nat) := do
  let ex ← T.involutionExpr nd fuel tw
  cayleyLoop nd rs T ex.reverse ([], cross)

/-- `record` (involutions.h L100-121) -/
structure Rec where
  data : Data
  theta : Mat Int
  mReal : Mat Int
  lift : Mat Int
  th1rho : List Int
  modSpace : F2.Sub
  length : Nat
  wLength : Nat

/-- the data of an `InvolutionTable` (involutions.h L89-126): the references `rd`, `delta` and `tW`, the pool of the hash table, `data`
and `torus_simple_reflection` -/
structure Tab where
  rd : RD
  delta : Mat Int
  tw : Weyl.TWG
  pool : List (List Nat)
  recs : List Rec
  refl : List F2.BM

/-- the loop of the constructor (involutions.cpp L175-180) -/
def reflLoop (nd : Bool) (rd : RD) : List Nat → List F2.BM → Res (List F2.BM)
  | [], l => .ok l
  | s :: ss, l => do
    let M ← identity rd.rank
    let M ← rd.simpleReflectLeft nd s M
    let B ← Tits.bmOfMat nd (← transposed M)
    reflLoop nd rd ss (l ++ [B])

/-- the constructor (involutions.cpp L167-182) -/
def Tab.make (nd : Bool) (rd : RD) (delta : Mat Int) (tw : Weyl.TWG) : Res Tab := do
  .ok ⟨rd, delta, tw, [], [], ← reflLoop nd rd (List.range tw.W.rank) []⟩

namespace Tab

/-- `size` (involutions.h L132) -/
def size (t : Tab) : Nat := t.pool.length

/-- `nr` (involutions.h L135-136); `hash.empty` is the largest value of type `unsigned int` -/
def nr (t : Tab) (tw : List Nat) : Nat := if t.pool.idxOf tw < t.pool.length then t.pool.idxOf tw else KGB.undefKGB

/-- `unseen` (involutions.h L133-134) -/
def unseen (t : Tab) (tw : List Nat) : Bool := decide (t.nr tw = KGB.undefKGB)

/-- `hash.match` -/
def matchTw (t : Tab) (tw : List Nat) : Tab × Nat :=
  if t.pool.idxOf tw < t.pool.length then (t, t.pool.idxOf tw) else ({ t with pool := t.pool ++ [tw] }, t.pool.length)

/-- the loop that reflects in the Cayley roots (involutions.cpp L198-199) -/
def reflectLoop (nd : Bool) (rd : RD) : List Nat → Mat Int → Res (Mat Int)
  | [], M => .ok M
  | a :: l, M => do reflectLoop nd rd l (← rd.reflectLeft nd a M)

/-- the matrices `M_real` and `lift_mat` for an involution (involutions.cpp L201-206) -/
def imageMats (nd : Bool) (theta : Mat Int) : Res (Mat Int × Mat Int) := do
  let A ← addScalar (← negate theta) 1
  let (_, A, col, _) ← columnEchelon nd A
  let M ← block nd (← inverseExact nd col) 0 0 A.cols A.rows
  .ok (M, A)

/-- the record made by `add_involution` (involutions.cpp L190-220) -/
def freshRec (nd : Bool) (fuel : Nat) (t : Tab) (canonical : List Nat) : Res Rec := do
  let (cayleys, cross) ← cayleyRoots nd fuel canonical t.rd.rs t.tw Weyl.WG.one
  let theta ← t.tw.W.act nd (fun s M => t.rd.simpleReflectLeft nd s M) cross t.delta
  let theta ← reflectLoop nd t.rd cayleys theta
  let (M, A) ← imageMats nd theta
  let v ← vecAdd nd t.rd.twoRho (← Mat.apply nd theta t.rd.twoRho)
  let v ← vecDivExact v 2
  let id ← Data.make nd t.rd theta
  let mods ← Tits.fiberDenom nd theta
  let wl ← t.tw.W.length canonical
  .ok ⟨id, theta, M, A, v, mods, (wl + cayleys.length) / 2, wl⟩

/-- `add_involution` (involutions.cpp L185-224) -/
def addInvolution (nd : Bool) (fuel : Nat) (t : Tab) (canonical : List Nat) : Res (Tab × Nat) := do
  let (t, result) := t.matchTw canonical
  if result < t.recs.length then .ok (t, result)
  else do
    let R ← t.freshRec nd fuel canonical
    let t := { t with recs := t.recs ++ [R] }
    Res.assertIn nd (decide (t.recs.length = t.pool.length))
    .ok (t, result)

/-- addition of an `int` to a value of type `unsigned int` -/
def addInt (a : Nat) (d : Int) : Nat := ((a : Int) + d).emod 4294967296 |>.toNat

/-- the record made by `add_cross` (involutions.cpp L234-253) -/
def crossRec (nd : Bool) (t : Tab) (s : Nat) (R : Rec) (d : Int) : Res Rec := do
  let id ← R.data.crossAct (← Vec.get t.rd.rs.perms s)
  let theta ← t.rd.simpleReflectLeft nd s R.theta
  let theta ← t.rd.simpleReflectRight nd theta s
  let M ← t.rd.simpleReflectRight nd R.mReal s
  let A ← t.rd.simpleReflectLeft nd s R.lift
  let v ← t.rd.simpleReflect nd s R.th1rho
  let alpha ← t.rd.rs.simpleNbr nd s
  let beta ← Vec.get id.perm alpha
  let v ← vecAdd nd v (← t.rd.root nd alpha)
  let v ← vecAdd nd v (← t.rd.root nd beta)
  let mods ← R.modSpace.apply nd Tits.dim (← Vec.get t.refl s)
  .ok ⟨id, theta, M, A, v, mods, addInt R.length (d.tdiv 2), addInt R.wLength d⟩

/-- `involution` (involutions.h L140-141) -/
def involution (nd : Bool) (t : Tab) (n : Nat) : Res (List Nat) := do
  Res.assertIn nd (decide (n < t.size))
  Vec.get t.pool n

/-- `add_cross` (involutions.cpp L227-258) -/
def addCross (nd : Bool) (t : Tab) (s n : Nat) : Res (Tab × Nat) := do
  let tw ← t.involution nd n
  let (tw, d) ← t.tw.conjGen nd tw s
  let (t, result) := t.matchTw tw
  if result < t.recs.length then .ok (t, result)
  else do
    let R ← t.crossRec nd s (← Vec.get t.recs n) d
    let t := { t with recs := t.recs ++ [R] }
    Res.assertIn nd (decide (t.recs.length = t.pool.length))
    .ok (t, result)

/-- the record of a number, as used by most accessors (involutions.h L143-181, L190-191) -/
def record (nd : Bool) (t : Tab) (n : Nat) : Res Rec := do
  Res.assertIn nd (decide (n < t.size))
  Vec.get t.recs n

/-- `matrix` (involutions.h L143-144) -/
def matrix (nd : Bool) (t : Tab) (n : Nat) : Res (Mat Int) := do .ok (← t.record nd n).theta

/-- `matrix` of a twisted involution (involutions.h L145-146) -/
def matrixTw (nd : Bool) (t : Tab) (tw : List Nat) : Res (Mat Int) := t.matrix nd (t.nr tw)

/-- `length` (involutions.h L148-149) -/
def length (nd : Bool) (t : Tab) (n : Nat) : Res Nat := do .ok (← t.record nd n).length

/-- `Weyl_length` (involutions.h L150-151) -/
def weylLength (nd : Bool) (t : Tab) (n : Nat) : Res Nat := do .ok (← t.record nd n).wLength

/-- `length` of a twisted involution (involutions.h L153-154) -/
def lengthTw (nd : Bool) (t : Tab) (tw : List Nat) : Res Nat := t.length nd (t.nr tw)

/-- `Weyl_length` of a twisted involution (involutions.h L155-156) -/
def weylLengthTw (nd : Bool) (t : Tab) (tw : List Nat) : Res Nat := t.weylLength nd (t.nr tw)

/-- `root_involution(n,alpha)` (involutions.h L160-161) -/
def rootInvolution (nd : Bool) (t : Tab) (n a : Nat) : Res Nat := do Vec.get (← t.record nd n).data.perm a

/-- `imaginary_roots` (involutions.h L162-163), `real_roots`, `complex_roots`, `imaginary_basis`, `real_basis` (L164-181) -/
def imaginaryRoots (nd : Bool) (t : Tab) (n : Nat) : Res (List Bool) := do .ok (← t.record nd n).data.im
@[inherit_doc imaginaryRoots] def realRoots (nd : Bool) (t : Tab) (n : Nat) : Res (List Bool) := do .ok (← t.record nd n).data.re
@[inherit_doc imaginaryRoots] def complexRoots (nd : Bool) (t : Tab) (n : Nat) : Res (List Bool) := do .ok (← t.record nd n).data.cx
@[inherit_doc imaginaryRoots] def imaginaryBasis (nd : Bool) (t : Tab) (n : Nat) : Res (List Nat) := do .ok (← t.record nd n).data.simpleIm
@[inherit_doc imaginaryRoots] def realBasis (nd : Bool) (t : Tab) (n : Nat) : Res (List Nat) := do .ok (← t.record nd n).data.simpleRe

/-- `is_complex_simple`, `is_imaginary_simple`, `is_real_simple` (involutions.cpp L260-270) -/
def isComplexSimple (nd : Bool) (t : Tab) (n s : Nat) : Res Bool := do
  let b ← t.complexRoots nd n
  .ok (RS.bit b (← t.rd.rs.simpleNbr nd s))
@[inherit_doc isComplexSimple] def isImaginarySimple (nd : Bool) (t : Tab) (n s : Nat) : Res Bool := do
  let b ← t.imaginaryRoots nd n
  .ok (RS.bit b (← t.rd.rs.simpleNbr nd s))
@[inherit_doc isComplexSimple] def isRealSimple (nd : Bool) (t : Tab) (n s : Nat) : Res Bool := do
  let b ← t.realRoots nd n
  .ok (RS.bit b (← t.rd.rs.simpleNbr nd s))

/-- `complex_is_descent` (involutions.cpp L273-276) -/
def complexIsDescent (nd : Bool) (t : Tab) (n a : Nat) : Res Bool := do
  .ok (t.rd.rs.isPos a == t.rd.rs.isNeg (← t.rootInvolution nd n a))

/-- `theta_plus_1_rho` (involutions.h L189), without assertion -/
def thetaPlus1Rho (t : Tab) (n : Nat) : Res (List Int) := do .ok (← Vec.get t.recs n).th1rho

/-- `lambda_unique` (involutions.cpp L321-331) -/
def lambdaUnique (nd : Bool) (t : Tab) (n : Nat) (lam : List Int) : Res (List Int) := do
  let R ← Vec.get t.recs n
  let v ← Mat.apply nd R.mReal lam
  let v ← vecDivide v 2
  vecSub nd lam (← Mat.apply nd R.lift v)

/-- `y_pack` (involutions.h L208-210) -/
def yPack (nd : Bool) (t : Tab) (n : Nat) (lam : List Int) : Res F2.BV := do
  let R ← Vec.get t.recs n
  Tits.bvOfInts nd (← Mat.apply nd R.mReal lam)

/-- loop of `y_lift` (involutions.cpp L351-354) -/
def liftLoop (nd : Bool) (A : Mat Int) (y : F2.BV) : List Nat → List Int → Res (List Int)
  | [], v => .ok v
  | j :: l, v => do
    if ← y.get nd Tits.dim j then do
      let v ← tab v.length fun i => do .ok ((← Vec.get v i) + (← A.get i j))
      liftLoop nd A y l v
    else liftLoop nd A y l v

/-- `y_lift` (involutions.cpp L346-356) -/
def yLift (nd : Bool) (t : Tab) (n : Nat) (y : F2.BV) : Res (List Int) := do
  let R ← Vec.get t.recs n
  liftLoop nd R.lift y (List.range y.size) (List.replicate R.lift.rows 0)

/-- `y_unlift` (involutions.h L249-252) -/
def yUnlift (nd : Bool) (t : Tab) (n : Nat) (v : List Int) : Res F2.BV := do
  let R ← Vec.get t.recs n
  let w ← Mat.apply nd R.mReal v
  Tits.bvOfInts nd (← vecDivExact w 2)

/-- `y_act` (involutions.h L217-219) -/
def yAct (nd : Bool) (t : Tab) (i0 i1 : Nat) (y : F2.BV) (delta : Mat Int) : Res F2.BV := do
  t.yUnlift nd i1 (← Mat.apply nd delta (← t.yLift nd i0 y))

/-- what the class `KGB` uses of the table -/
def toITab (t : Tab) : KGB.ITab := ⟨t.pool, t.recs.map fun R => ⟨R.modSpace, R.length, R.wLength⟩⟩

/-! ### `Cartan_orbit` -/

/-- inner loop of the constructor (involutions.cpp L374-375) -/
def crossLoop (nd : Bool) (n : Nat) : List Nat → Tab → Res Tab
  | [], t => .ok t
  | s :: l, t => do
    let (t, _) ← t.addCross nd s n
    crossLoop nd n l t

/-- outer loop of the constructor (involutions.cpp L373-375), from its second pass on -/
def orbitLoop (nd : Bool) : Nat → Nat → Tab → Res Tab
  | 0, _, _ => .outOfFuel
  | k + 1, i, t =>
    if i < t.size then do orbitLoop nd k (i + 1) (← crossLoop nd i (List.range t.tw.W.rank) t)
    else .ok t

end Tab

/-- `Cartan_orbit` (involutions.h L259-269) -/
structure Orbit where
  cls : Nat
  start : Nat
  size : Nat

/-- `end` (involutions.h L267), of type `unsigned int` -/
def Orbit.stop (o : Orbit) : Nat := (o.start + o.size) % 4294967296

/-- `contains` (involutions.h L266), the difference being of type `unsigned int` -/
def Orbit.contains (o : Orbit) (i : Nat) : Bool := decide ((i + 4294967296 - o.start) % 4294967296 < o.size)

/-- the constructor (involutions.cpp L362-379), for given canonical involution and orbit size -/
def Orbit.make (nd : Bool) (fuel : Nat) (t : Tab) (cn : Nat) (canonical : List Nat) (size : Nat) : Res (Orbit × Tab) := do
  let o : Orbit := ⟨cn, t.size, size⟩
  Res.assertIn nd (t.unseen canonical)
  let (t, i) ← t.addInvolution nd fuel canonical
  let t ← Tab.orbitLoop nd fuel i t
  Res.assertIn nd (decide (t.size = o.stop))
  .ok (o, t)

/-! ### `Cartan_orbits` -/

/-- the data (involutions.h L274-277) -/
structure Orbits where
  tab : Tab
  orbit : List Orbit
  index : List Nat

namespace Orbits

/-- the constructor (involutions.h L281-283) -/
def make (nd : Bool) (rd : RD) (delta : Mat Int) (tw : Weyl.TWG) : Res Orbits := do .ok ⟨← Tab.make nd rd delta tw, [], []⟩

/-- `undefined` (involutions.cpp L385) -/
def undefd : Nat := 4294967295

/-- `set_size` (involutions.cpp L387-388) -/
def setSize (o : Orbits) (n : Nat) : Orbits := { o with index := resize o.index n undefd }

/-- `add` (involutions.cpp L390-399); `classes` lists the canonical involutions with the sizes of their orbits -/
def add (nd : Bool) (fuel : Nat) (classes : List (List Nat × Nat)) (o : Orbits) (cn : Nat) : Res Orbits := do
  Res.assertIn nd (decide (cn < o.index.length))
  if (← Vec.get o.index cn) ≠ undefd then .ok o
  else do
    let index ← Vec.put o.index cn o.orbit.length
    let c ← Vec.get classes cn
    let (b, t) ← Orbit.make nd fuel o.tab cn c.1 c.2
    .ok ⟨t, o.orbit ++ [b], index⟩

/-- loop of `locate` (involutions.cpp L406-413) -/
def locateLoop (o : Orbits) (i : Nat) : Nat → Nat → Nat → Res Nat
  | 0, _, _ => .outOfFuel
  | k + 1, low, high =>
    if high - low > 1 then do
      let mid := (low + high) / 2
      let b ← Vec.get o.orbit mid
      if i < b.start then locateLoop o i k low mid else locateLoop o i k mid high
    else .ok low

/-- `locate` (involutions.cpp L401-417) -/
def locate (nd : Bool) (o : Orbits) (i : Nat) : Res Nat := do
  let high := o.orbit.length
  Res.assertIn nd (match o.orbit.getLast? with | none => false | some b => decide (i < b.stop))
  let low ← locateLoop o i (high + 1) 0 high
  Res.assertIn nd (decide (low < o.orbit.length))
  let b ← Vec.get o.orbit low
  Res.assertIn nd (b.contains i)
  .ok low

/-- `operator[]` (involutions.h L292-293) -/
def get (nd : Bool) (o : Orbits) (cn : Nat) : Res Orbit := do
  let k ← Vec.get o.index cn
  Res.assertIn nd (decide (k ≠ undefd))
  Vec.get o.orbit k

/-- `Cartan_class` of a number (involutions.h L295-296) -/
def cartanClass (nd : Bool) (o : Orbits) (i : Nat) : Res Nat := do .ok (← Vec.get o.orbit (← o.locate nd i)).cls

/-- `Cartan_class` of a twisted involution (involutions.h L297-298) -/
def cartanClassTw (nd : Bool) (o : Orbits) (tw : List Nat) : Res Nat := o.cartanClass nd (o.tab.nr tw)

/-- loop of `total_size` (involutions.cpp L440-441) -/
def totalLoop (nd : Bool) (o : Orbits) : List Nat → Nat → Res Nat
  | [], s => .ok s
  | cn :: l, s => do totalLoop nd o l (s + (← o.get nd cn).size)

/-- `total_size` (involutions.cpp L437-443): the argument is not used -/
def totalSize (nd : Bool) (o : Orbits) (_classes : List Bool) : Res Nat := o.totalLoop nd (List.range o.orbit.length) 0

end Orbits

end Verif.Inv
