import Verif.Mat.Reduc2
import Verif.Root.Access
/-
Model of the class `RootDatum` (sources/structure/rootdata.h and rootdata.cpp), and of the part of `PreRootDatum`
(sources/structure/prerootdata.h and prerootdata.cpp) that it uses.

Simplifications.  Integers do not overflow.  The base class `RootSystem` is the model of C48 to C55; that model leaves out the inverse of
the Cartan matrix with its denominator, which are members here.  The types `Vector<int>` and `Vector<Numer_t>` are not distinguished.
Iterators to parts of the lists of roots are replaced by indices.
-/
namespace Verif.Datum
open Verif Verif.Mat Verif.Root

/-- `PreRootDatum` (prerootdata.h L45-47): matrices whose columns are the simple roots and the simple coroots, and the flag `prefer_co` -/
structure Pre where
  roots : Mat Int
  coroots : Mat Int
  preferCo : Bool
  deriving DecidableEq, Repr

/-- `PreRootDatum::Cartan_matrix` (prerootdata.cpp L92-102) -/
def Pre.cartan (nd : Bool) (p : Pre) : Res (Mat Int) :=
  forUp (fun i M => forUp (fun j (M : Mat Int) => do
    let c ← dot nd (← column nd p.roots i) (← column nd p.coroots j)
    M.set i j c) p.roots.cols 0 M) p.roots.cols 0 (blank p.roots.cols p.roots.cols)

/-- the data members of `RootDatum` (rootdata.h L422-443), with those of `RootSystem` in `rs`, `invC` and `denom` -/
structure RD where
  rs : RS
  invC : Mat Int
  denom : Int
  rank : Nat
  roots : List (List Int)
  coroots : List (List Int)
  weightNumer : List (List Int)
  coweightNumer : List (List Int)
  radical : List (List Int)
  coradical : List (List Int)
  twoRho : List Int
  dualTwoRho : List Int
  isAdjoint : Bool
  isSimplyConnected : Bool
  deriving DecidableEq, Repr

/-- the loop on positive roots of the constructor (rootdata.cpp L836-844), with the lists of roots and coroots and the two sums -/
def rootLoop (nd : Bool) (p : Pre) (rs : RS) : List Nat → List (List Int) × List (List Int) × List Int × List Int →
    Res (List (List Int) × List (List Int) × List Int × List Int)
  | [], st => .ok st
  | a :: as, (ro, co, s, t) => do
    let x ← Mat.apply nd p.roots (← rs.rootExpr a)
    let y ← Mat.apply nd p.coroots (← rs.corootExpr a)
    let ro ← Vec.put ro a x
    let co ← Vec.put co a y
    let s ← vecAdd nd s x
    let t ← vecAdd nd t y
    let ro ← Vec.put ro (rs.minus a) (← vecNeg x)
    let co ← Vec.put co (rs.minus a) (← vecNeg y)
    rootLoop nd p rs as (ro, co, s, t)

/-- one half of `fillStatus` (rootdata.cpp L1292-1319): whether all diagonal entries found for the matrix of simple (co)roots are 1 in absolute value -/
def statusOf (nd : Bool) (rank : Nat) (simple : List (List Int)) : Res Bool := do
  let q ← ofColumnRange simple rank
  let d ← diagonalise nd false q
  .ok (d.1.all fun x => decide (x.natAbs = 1))

/-- the part of a list from `beginSimpleRoot()` to `endSimpleRoot()` (rootdata.h L504-507, L513-516) -/
def RD.simpleOf (rs : RS) (l : List (List Int)) : Res (List (List Int)) := slice l rs.numPos (rs.numPos + rs.rk)

/-- `fillStatus` (rootdata.cpp L1292-1319) -/
def RD.fillStatus (nd : Bool) (rd : RD) : Res RD := do
  let a ← statusOf nd rd.rank (← RD.simpleOf rd.rs rd.roots)
  let b ← statusOf nd rd.rank (← RD.simpleOf rd.rs rd.coroots)
  .ok { rd with isAdjoint := a, isSimplyConnected := b }

/-- the inverse Cartan matrix and its denominator, as computed by the constructor of `RootSystem` (rootdata.cpp L137-138, L153-156) -/
def invCartan (nd : Bool) (c : Mat Int) : Res (Mat Int × Int) := if c.rows = 0 then .ok (blank 0 0, 0) else Mat.inverse nd c

/-- the constructor of `RootDatum` (rootdata.cpp L824-869) -/
def RD.make (nd : Bool) (p : Pre) : Res RD := do
  let c ← p.cartan nd
  let (iC, den) ← invCartan nd c
  let rs ← RS.make nd (← allRows nd c) p.preferCo
  let rank := p.roots.rows
  let (ro, co, s, t) ← rootLoop nd p rs (List.range' rs.numPos rs.numPos)
    (List.replicate rs.numRoots [], List.replicate rs.numRoots [], List.replicate rank 0, List.replicate rank 0)
  let w ← allColumns nd (← mul nd p.roots (← transposed iC))
  let cw ← allColumns nd (← mul nd p.coroots iC)
  let (rad, corad) ← (if rs.rk < rank then do
      let corad ← perp nd false p.coroots
      let rad ← perp nd false p.roots
      .ok (rad, corad)
    else .ok ([], []) : Res (List (List Int) × List (List Int)))
  RD.fillStatus nd ⟨rs, iC, den, rank, ro, co, w, cw, rad, corad, s, t, false, false⟩

/-- the constructor of the dual datum (rootdata.cpp L882-903) -/
def RD.dual (nd : Bool) (rd : RD) : Res RD := do
  let rs ← RS.dual rd.rs
  let iC ← transposed rd.invC
  let r ← RD.fillStatus nd ⟨rs, iC, rd.denom, rd.rank, rd.coroots, rd.roots, rd.coweightNumer, rd.weightNumer, rd.coradical, rd.radical, rd.dualTwoRho, rd.twoRho, false, false⟩
  Res.assertIn nd (r.isAdjoint == rd.isSimplyConnected)
  Res.assertIn nd (r.isSimplyConnected == rd.isAdjoint)
  .ok r

namespace RD

/-- `semisimple_rank` (rootdata.h L489) -/
def ssRank (rd : RD) : Nat := rd.rs.rk

/-- `radical_rank` (rootdata.h L490) -/
def radicalRank (rd : RD) : Nat := rd.radical.length

/-- `isSemisimple` (rootdata.h L532) -/
def isSemisimple (rd : RD) : Bool := decide (rd.rank = rd.ssRank)

/-- `root` (rootdata.h L534-535) -/
def root (nd : Bool) (rd : RD) (i : Nat) : Res (List Int) := do
  Res.assertIn nd (decide (i < rd.rs.numRoots))
  Vec.get rd.roots i

/-- `coroot` (rootdata.h L547-548) -/
def coroot (nd : Bool) (rd : RD) (i : Nat) : Res (List Int) := do
  Res.assertIn nd (decide (i < rd.rs.numRoots))
  Vec.get rd.coroots i

/-- `simpleRoot` (rootdata.h L537-538) -/
def simpleRoot (nd : Bool) (rd : RD) (i : Nat) : Res (List Int) := do
  Res.assertIn nd (decide (i < rd.ssRank))
  Vec.get rd.roots (rd.rs.numPos + i)

/-- `simpleCoroot` (rootdata.h L550-551) -/
def simpleCoroot (nd : Bool) (rd : RD) (i : Nat) : Res (List Int) := do
  Res.assertIn nd (decide (i < rd.ssRank))
  Vec.get rd.coroots (rd.rs.numPos + i)

/-- `posRoot` (rootdata.h L540-541) -/
def posRoot (nd : Bool) (rd : RD) (i : Nat) : Res (List Int) := do
  Res.assertIn nd (decide (i < rd.rs.numPos))
  Vec.get rd.roots (rd.rs.numPos + i)

/-- `posCoroot` (rootdata.h L553-554) -/
def posCoroot (nd : Bool) (rd : RD) (i : Nat) : Res (List Int) := do
  Res.assertIn nd (decide (i < rd.rs.numPos))
  Vec.get rd.coroots (rd.rs.numPos + i)

/-- `permutations::find_index` (utilities/permutations.h): the first position of a value, or the size if there is none -/
def findIndex (l : List (List Int)) (v : List Int) : Nat := l.idxOf v

/-- `root_index` (rootdata.h L543-544) -/
def rootIndex (rd : RD) (v : List Int) : Nat := findIndex rd.roots v

/-- `coroot_index` (rootdata.h L556-557) -/
def corootIndex (rd : RD) (v : List Int) : Nat := findIndex rd.coroots v

/-- `isRoot` (rootdata.h L529-530) -/
def isRoot (rd : RD) (v : List Int) : Bool := decide (findIndex rd.roots v ≠ rd.roots.length)

/-- `fundamental_weight` (rootdata.cpp L1012-1013): numerator and denominator -/
def fundamentalWeight (rd : RD) (i : Nat) : Res (List Int × Int) := do .ok (← Vec.get rd.weightNumer i, rd.denom)

/-- `fundamental_coweight` (rootdata.cpp L1015-1016) -/
def fundamentalCoweight (rd : RD) (i : Nat) : Res (List Int × Int) := do .ok (← Vec.get rd.coweightNumer i, rd.denom)

/-- `scalarProduct` (rootdata.h L594-595) -/
def scalarProduct (nd : Bool) (rd : RD) (v : List Int) (j : Nat) : Res Int := do dot nd v (← rd.coroot nd j)

/-- `cartan` (rootdata.h L601-602) -/
def cartan (nd : Bool) (rd : RD) (i j : Nat) : Res Int := do dot nd (← rd.simpleRoot nd i) (← rd.simpleCoroot nd j)

/-- `reflect` (rootdata.h L605-607); with the offset `d` (L614-616) -/
def reflect (nd : Bool) (rd : RD) (a : Nat) (v : List Int) (d : Int := 0) : Res (List Int) := do
  vecSubMul v (← rd.root nd a) ((← dot nd (← rd.coroot nd a) v) + d)

/-- `coreflect` (rootdata.h L609-611); with the offset `d` (L618-620) -/
def coreflect (nd : Bool) (rd : RD) (v : List Int) (a : Nat) (d : Int := 0) : Res (List Int) := do
  vecSubMul v (← rd.coroot nd a) ((← dot nd (← rd.root nd a) v) + d)

/-- `simple_reflect` (rootdata.h L632-634, L639-641) -/
def simpleReflect (nd : Bool) (rd : RD) (i : Nat) (v : List Int) (d : Int := 0) : Res (List Int) := do rd.reflect nd (← rd.rs.simpleNbr nd i) v d

/-- `simple_coreflect` (rootdata.h L635-637, L642-644) -/
def simpleCoreflect (nd : Bool) (rd : RD) (v : List Int) (i : Nat) (d : Int := 0) : Res (List Int) := do rd.coreflect nd v (← rd.rs.simpleNbr nd i) d

/-- `reflect` of a matrix from the left (rootdata.cpp L1029-1040) -/
def reflectLeft (nd : Bool) (rd : RD) (a : Nat) (M : Mat Int) : Res (Mat Int) := do
  Res.assertIn nd (decide (M.rows = rd.rank))
  forUp (fun j M => do
    let s ← forUp (fun i s => do .ok (s + (← Vec.get (← rd.coroot nd a) i) * (← M.get i j))) rd.rank 0 (0 : Int)
    forUp (fun i (M : Mat Int) => do M.set i j ((← M.get i j) - (← Vec.get (← rd.root nd a) i) * s)) rd.rank 0 M) M.cols 0 M

/-- `reflect` of a matrix from the right (rootdata.cpp L1042-1053) -/
def reflectRight (nd : Bool) (rd : RD) (M : Mat Int) (a : Nat) : Res (Mat Int) := do
  Res.assertIn nd (decide (M.cols = rd.rank))
  forUp (fun i M => do
    let s ← forUp (fun j s => do .ok (s + (← M.get i j) * (← Vec.get (← rd.root nd a) j))) rd.rank 0 (0 : Int)
    forUp (fun j (M : Mat Int) => do M.set i j ((← M.get i j) - s * (← Vec.get (← rd.coroot nd a) j))) rd.rank 0 M) M.rows 0 M

/-- `simple_reflect` of matrices (rootdata.h L754-757) -/
def simpleReflectLeft (nd : Bool) (rd : RD) (i : Nat) (M : Mat Int) : Res (Mat Int) := do rd.reflectLeft nd (← rd.rs.simpleNbr nd i) M

def simpleReflectRight (nd : Bool) (rd : RD) (M : Mat Int) (i : Nat) : Res (Mat Int) := do rd.reflectRight nd M (← rd.rs.simpleNbr nd i)

/-- `rootPermutation` (rootdata.cpp L1061-1072) -/
def rootPermutation (nd : Bool) (rd : RD) (q : Mat Int) : Res (List Nat) := do
  let im ← tab rd.ssRank fun s => do
    let i := rd.rootIndex (← Mat.apply nd q (← rd.simpleRoot nd s))
    Res.assertIn nd (decide (i < rd.rs.numRoots))
    .ok i
  rd.rs.extend nd im

/-- `root_reflection` (rootdata.cpp L1077-1090) -/
def rootReflection (rd : RD) (a : Nat) : Res (Mat Int) := do
  let M ← identity rd.rank
  let r ← Vec.get rd.roots a
  let c ← Vec.get rd.coroots a
  forUp (fun i M => forUp (fun j (M : Mat Int) => do M.set i j ((← M.get i j) - (← Vec.get r i) * (← Vec.get c j))) rd.rank 0 M) rd.rank 0 M

/-- `simple_reflection` as a matrix (rootdata.h L764-765) -/
def simpleReflection (nd : Bool) (rd : RD) (i : Nat) : Res (Mat Int) := do rd.rootReflection (← rd.rs.simpleNbr nd i)

/-- the loop of `action_matrix` -/
def actionLoop (nd : Bool) (rd : RD) : List Nat → Mat Int → Res (Mat Int)
  | [], M => .ok M
  | s :: ww, M => do actionLoop nd rd ww (← mul nd M (← rd.simpleReflection nd s))

/-- `action_matrix` (rootdata.cpp L1265-1271) -/
def actionMatrix (nd : Bool) (rd : RD) (ww : List Nat) : Res (Mat Int) := do actionLoop nd rd ww (← identity rd.rank)

/-- letters applied from left to right, as in `act_inverse` (rootdata.h L690-695); an offset may be given for each letter -/
def actInverse (nd : Bool) (rd : RD) (v : List Int) : List Nat → Res (List Int)
  | [] => .ok v
  | s :: ww => do actInverse nd rd (← rd.simpleReflect nd s v) ww

/-- `act` (rootdata.h L681-686): letters are applied from right to left -/
def act (nd : Bool) (rd : RD) (ww : List Nat) (v : List Int) : Res (List Int) := actInverse nd rd v ww.reverse

/-- the loop of `shifted_act`, for the reversed word -/
def shiftedLoop (nd : Bool) (rd : RD) (shift : List Int) (v : List Int) : List Nat → Res (List Int)
  | [] => .ok v
  | s :: ww => do shiftedLoop nd rd shift (← rd.simpleReflect nd s v (← Vec.get shift s)) ww

/-- `shifted_act` (rootdata.h L701-707) -/
def shiftedAct (nd : Bool) (rd : RD) (ww : List Nat) (v : List Int) (shift : List Int) : Res (List Int) := shiftedLoop nd rd shift v ww.reverse

/-- `dual_act` (rootdata.h L730-734) -/
def dualAct (nd : Bool) (rd : RD) (v : List Int) : List Nat → Res (List Int)
  | [] => .ok v
  | s :: ww => do dualAct nd rd (← rd.simpleCoreflect nd v s) ww

/-- `shifted_dual_act` (rootdata.h L736-743) -/
def shiftedDualAct (nd : Bool) (rd : RD) (shift : List Int) (v : List Int) : List Nat → Res (List Int)
  | [] => .ok v
  | s :: ww => do shiftedDualAct nd rd shift (← rd.simpleCoreflect nd v s (← Vec.get shift s)) ww

/-- the search for a generator in the loops of `factor_dominant` and `factor_codominant`: the first position in a list of (co)roots, counted from
`i`, where the (co)weight has a negative value -/
def findNeg (nd : Bool) (v : List Int) : List (List Int) → Nat → Res (Option Nat)
  | [], _ => .ok none
  | c :: cs, i => do
    if (← dot nd v c) < 0 then .ok (some i) else findNeg nd v cs (i + 1)

/-- the `do`-loop of `factor_dominant` for a list of generators (rootdata.cpp L1184-1196); result and modified vector.  Fuel replaces the
unbounded loop; in the call below it is the number of positive roots, plus one.
The coroots `cs` of the generators are looked up before the loop. -/
def factorLoop (nd : Bool) (rd : RD) (g : List Nat) (cs : List (List Int)) : Nat → List Int → List Nat → Res (List Nat × List Int)
  | 0, _, _ => .outOfFuel
  | fuel + 1, v, w => do
    match ← findNeg nd v cs 0 with
    | none => .ok (w, v)
    | some s => do factorLoop nd rd g cs fuel (← rd.reflect nd (← Vec.get g s) v) (w ++ [s])

/-- `factor_dominant` for a list of generators (rootdata.cpp L1175-1200) -/
def factorDominantG (nd : Bool) (rd : RD) (g : List Nat) (v : List Int) : Res (List Nat × List Int) := do
  factorLoop nd rd g (← tab g.length fun i => do rd.coroot nd (← Vec.get g i)) (rd.rs.numPos + 1) v []

/-- the `do`-loop of `factor_codominant` for a list of generators (rootdata.cpp L1212-1224) -/
def cofactorLoop (nd : Bool) (rd : RD) (g : List Nat) (cs : List (List Int)) : Nat → List Int → List Nat → Res (List Nat × List Int)
  | 0, _, _ => .outOfFuel
  | fuel + 1, v, w => do
    match ← findNeg nd v cs 0 with
    | none => .ok (w, v)
    | some s => do cofactorLoop nd rd g cs fuel (← rd.coreflect nd v (← Vec.get g s)) (s :: w)

/-- `factor_codominant` for a list of generators (rootdata.cpp L1203-1228) -/
def factorCodominantG (nd : Bool) (rd : RD) (g : List Nat) (v : List Int) : Res (List Nat × List Int) := do
  cofactorLoop nd rd g (← tab g.length fun i => do rd.root nd (← Vec.get g i)) (rd.rs.numPos + 1) v []

/-- `factor_dominant` (rootdata.cpp L1120-1139): the same loop for all simple reflections, whose root numbers are found by `simpleRootNbr` -/
def factorDominant (nd : Bool) (rd : RD) (v : List Int) : Res (List Nat × List Int) := do
  factorLoop nd rd (← tab rd.ssRank fun i => rd.rs.simpleNbr nd i) (← tab rd.ssRank fun i => rd.simpleCoroot nd i) (rd.rs.numPos + 1) v []

/-- `factor_codominant` (rootdata.cpp L1143-1162) -/
def factorCodominant (nd : Bool) (rd : RD) (v : List Int) : Res (List Nat × List Int) := do
  cofactorLoop nd rd (← tab rd.ssRank fun i => rd.rs.simpleNbr nd i) (← tab rd.ssRank fun i => rd.simpleRoot nd i) (rd.rs.numPos + 1) v []

/-- `to_dominant` (rootdata.cpp L1165-1172) -/
def toDominant (nd : Bool) (rd : RD) (v : List Int) : Res (List Nat) := do .ok (← rd.factorDominant nd v).1.reverse

/-- `to_codominant` (rootdata.cpp L1175-1182) -/
def toCodominant (nd : Bool) (rd : RD) (v : List Int) : Res (List Nat) := do .ok (← rd.factorCodominant nd v).1.reverse

/-- `to_dominant` for a list of generators (rootdata.cpp L1232-1240) -/
def toDominantG (nd : Bool) (rd : RD) (g : List Nat) (v : List Int) : Res (List Nat) := do .ok (← rd.factorDominantG nd g v).1.reverse

/-- `to_codominant` for a list of generators (rootdata.cpp L1243-1251) -/
def toCodominantG (nd : Bool) (rd : RD) (g : List Nat) (v : List Int) : Res (List Nat) := do .ok (← rd.factorCodominantG nd g v).1.reverse

/-- `make_dominant` (rootdata.h L649-651) -/
def makeDominant (nd : Bool) (rd : RD) (v : List Int) : Res (List Int) := do .ok (← rd.factorDominant nd v).2

/-- `make_codominant` (rootdata.h L658-660) -/
def makeCodominant (nd : Bool) (rd : RD) (v : List Int) : Res (List Int) := do .ok (← rd.factorCodominant nd v).2

/-- `make_dominant` for a list of generators (rootdata.h L668-670): the list is not used -/
def makeDominantG (nd : Bool) (rd : RD) (_ : List Nat) (v : List Int) : Res (List Int) := do .ok (← rd.factorDominant nd v).2

/-- `make_codominant` for a list of generators (rootdata.h L677-679): the list is not used -/
def makeCodominantG (nd : Bool) (rd : RD) (_ : List Nat) (v : List Int) : Res (List Int) := do .ok (← rd.factorCodominant nd v).2

/-- `reflection_word` (rootdata.cpp L1092-1095) -/
def reflectionWord (nd : Bool) (rd : RD) (a : Nat) : Res (List Nat) := do rd.toDominant nd (← rd.reflect nd a rd.twoRho)

/-- `word_of_inverse_matrix` (rootdata.cpp L1108-1112) -/
def wordOfInverse (nd : Bool) (rd : RD) (q : Mat Int) : Res (List Nat) := do rd.toDominant nd (← Mat.apply nd q rd.twoRho)

end RD

end Verif.Datum
