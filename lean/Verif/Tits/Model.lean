import Verif.Mat.Reduc2
import Verif.F2.SubModel
import Verif.Weyl.Twisted
/-
Model of the classes `TitsElt`, `TitsGroup` and `TitsCoset` (/repo/sources/structure/tits.h L315-816 and tits.cpp L372-733).
Elements of the Weyl group are arrays of 32 bytes, as in `Verif/Weyl`; torus parts are bit vectors of class `BitVector<32>`.  `nd` tells whether
assertions are disabled.  Not modelled: `dual_involution` and `dual_twisted`, `make_twist` (the twist of generators is an argument
of the constructors), the hash code of `TE_Entry`, the class `EnrichedTitsGroup`.
-/
namespace Verif.Tits
open Verif Verif.F2 Verif.Weyl

/-- `RANK_MAX` -/
def dim : Nat := 32

/-- loop of the constructor of `BitVector` from an integer vector (bitvector.h L166-167); `%` truncates -/
def bvLoop : List Int → Nat → Nat → Res Nat
  | [], _, d => .ok d
  | x :: l, j, d => do
    let d ← bsSet dim d j (decide (x.tmod 2 ≠ 0))
    bvLoop l (j + 1) d

/-- constructor of `BitVector` from an integer vector (bitvector.h L161-168) -/
def bvOfInts (nd : Bool) (v : List Int) : Res BV := do
  Res.assertIn nd (decide (v.length ≤ dim))
  let d ← bvLoop v 0 0
  pure ⟨d, v.length⟩

/-- constructor of `BitMatrix` from an integer matrix (bitvector.cpp L144-154); `&1` is the remainder modulo 2 -/
def bmOfMat (nd : Bool) (m : Mat.Mat Int) : Res BM := do
  Res.assertIn nd (decide (m.rows ≤ dim))
  let cols ← Mat.forUp (fun i d => Mat.forUp (fun j d => do
    let x ← m.get i j
    let c ← Vec.get d j
    let c ← bsSet dim c i (decide (x.emod 2 ≠ 0))
    Vec.put d j c) m.cols 0 d) m.rows 0 (List.replicate m.cols 0)
  pure ⟨cols, m.rows, m.cols⟩

/-- The data of a `TitsGroup` (tits.h L441-467): the twisted Weyl group from which the class is derived, `d_rank`, `d_simpleRoot`,
`d_simpleCoroot`, `d_involution`. -/
structure TG where
  tw : TWG
  rank : Nat
  roots : List BV
  coroots : List BV
  inv : BM

/-- A `TitsElt` (tits.h L317-334): `d_t` and `d_w`. -/
structure TE where
  t : BV
  w : List Nat
deriving DecidableEq

namespace TG

/-- loop of the constructor (tits.cpp L384-388), for one of the lists -/
def reduceAll (nd : Bool) : List (List Int) → Res (List BV)
  | [] => .ok []
  | v :: l => do
    let b ← bvOfInts nd v
    pure (b :: (← reduceAll nd l))

/-- constructor for an inner class (tits.cpp L372-396); the root datum is given by its rank, simple roots and simple coroots -/
def make (nd : Bool) (tw : TWG) (rank : Nat) (roots coroots : List (List Int)) (delta : Mat.Mat Int) : Res TG := do
  let inv ← bmOfMat nd (← Mat.transposed delta)
  let r ← reduceAll nd roots
  let c ← reduceAll nd coroots
  pure ⟨tw, rank, r, c, inv⟩

/-- loop of the constructor for an adjoint group (tits.cpp L414-421) -/
def adjointLoop (nd : Bool) (C : Mat.Mat Int) (twist : List Nat) (rank : Nat) : Nat → Nat → List BV × List BV × BM → Res (List BV × List BV × BM)
  | 0, _, s => .ok s
  | k + 1, i, s => do
    let r ← BV.unit nd dim rank i
    let c ← bvOfInts nd (← Mat.column nd C i)
    let m ← BM.set nd dim s.2.2 i (← Vec.get twist i) true
    adjointLoop nd C twist rank k (i + 1) (s.1 ++ [r], s.2.1 ++ [c], m)

/-- constructor for an adjoint group (tits.cpp L403-422) -/
def makeAdjoint (nd : Bool) (C : Mat.Mat Int) (tw : TWG) : Res TG := do
  let m ← BM.zero nd dim C.rows C.rows
  let (r, c, m) ← adjointLoop nd C tw.twist C.rows C.rows 0 ([], [], m)
  pure ⟨tw, C.rows, r, c, m⟩

/-- `dual_m_alpha` (tits.h L511) -/
def dualMAlpha (T : TG) (s : Nat) : Res BV := Vec.get T.roots s

/-- `m_alpha` (tits.h L508) -/
def mAlpha (T : TG) (s : Nat) : Res BV := Vec.get T.coroots s

/-- `reflect` (tits.h L523-526) -/
def reflect (nd : Bool) (T : TG) (x : BV) (s : Nat) : Res BV := do
  let r ← Vec.get T.roots s
  if r.dot x then x.add nd (← Vec.get T.coroots s) else pure x

/-- loops of `push_across` and `pull_across` (tits.cpp L438-439, L448-449) -/
def reflectAll (nd : Bool) (T : TG) : List Nat → BV → Res BV
  | [], x => .ok x
  | s :: l, x => do reflectAll nd T l (← T.reflect nd x s)

/-- `push_across` (tits.cpp L434-442) -/
def pushAcross (nd : Bool) (T : TG) (x : BV) (w : List Nat) : Res BV := do
  let ww ← T.tw.W.word nd w
  T.reflectAll nd ww x

/-- `pull_across` (tits.cpp L445-451) -/
def pullAcross (nd : Bool) (T : TG) (w : List Nat) (x : BV) : Res BV := do
  let ww ← T.tw.W.word nd w
  T.reflectAll nd ww.reverse x

/-- `twisted` for a torus part (tits.h L536) -/
def twisted (nd : Bool) (T : TG) (x : BV) : Res BV := T.inv.mulVec nd dim x

/-- loop of `involutionMatrix` (tits.cpp L534-541) -/
def invMatLoop (nd : Bool) (T : TG) (ww : List Nat) : Nat → Nat → BM → Res BM
  | 0, _, m => .ok m
  | k + 1, i, m => do
    let v ← BV.unit nd dim T.rank i
    let v ← T.reflectAll nd ww v
    let v ← T.twisted nd v
    invMatLoop nd T ww k (i + 1) (← m.addColumn nd v)

/-- `involutionMatrix` (tits.cpp L530-543) -/
def involutionMatrix (nd : Bool) (T : TG) (ww : List Nat) : Res BM := do
  let m ← BM.zero nd dim T.rank 0
  T.invMatLoop nd ww T.rank 0 m

/-- the identity (tits.h L611-613) -/
def one (T : TG) : TE := ⟨BV.zero T.rank, WG.one⟩

/-- canonical lift (tits.h L615-617) -/
def lift (T : TG) (w : List Nat) : TE := ⟨BV.zero T.rank, w⟩

/-- pure torus part (tits.h L349-351) -/
def torus (_ : TG) (t : BV) : TE := ⟨t, WG.one⟩

/-- torus part at the right (tits.h L619-622) -/
def liftRight (nd : Bool) (T : TG) (w : List Nat) (t : BV) : Res TE := do pure ⟨← T.pullAcross nd w t, w⟩

/-- torus part at the left (tits.h L355-357) -/
def liftLeft (_ : TG) (t : BV) (w : List Nat) : TE := ⟨t, w⟩

/-- `length` (tits.h L549-550) -/
def length (T : TG) (a : TE) : Res Nat := T.tw.W.length a.w

/-- `left_torus_part` (tits.h L552) -/
def leftTorusPart (_ : TG) (a : TE) : BV := a.t

/-- `right_torus_part` (tits.h L554-555) -/
def rightTorusPart (nd : Bool) (T : TG) (a : TE) : Res BV := T.pushAcross nd a.t a.w

/-- `left_add` (tits.h L571-572) -/
def leftAdd (nd : Bool) (_ : TG) (t : BV) (a : TE) : Res TE := do pure { a with t := ← a.t.add nd t }

/-- `right_add` (tits.h L569-570) -/
def rightAdd (nd : Bool) (T : TG) (a : TE) (t : BV) : Res TE := do
  let x ← T.pullAcross nd a.w t
  pure { a with t := ← a.t.add nd x }

/-- `sigma_mult` (tits.cpp L469-474) -/
def sigmaMult (nd : Bool) (T : TG) (s : Nat) (a : TE) : Res TE := do
  let t ← T.reflect nd a.t s
  let (w, d) ← T.tw.W.leftMultiplyGen nd a.w s
  if d < 0 then T.leftAdd nd (← Vec.get T.coroots s) ⟨t, w⟩ else pure ⟨t, w⟩

/-- `sigma_inv_mult` (tits.cpp L476-481) -/
def sigmaInvMult (nd : Bool) (T : TG) (s : Nat) (a : TE) : Res TE := do
  let t ← T.reflect nd a.t s
  let (w, d) ← T.tw.W.leftMultiplyGen nd a.w s
  if d > 0 then T.leftAdd nd (← Vec.get T.coroots s) ⟨t, w⟩ else pure ⟨t, w⟩

/-- `mult_sigma` (tits.cpp L492-497) -/
def multSigma (nd : Bool) (T : TG) (a : TE) (s : Nat) : Res TE := do
  let (w, d) ← T.tw.W.multGen nd a.w s
  if d < 0 then T.rightAdd nd ⟨a.t, w⟩ (← Vec.get T.coroots s) else pure ⟨a.t, w⟩

/-- `mult_sigma_inv` (tits.cpp L499-503) -/
def multSigmaInv (nd : Bool) (T : TG) (a : TE) (s : Nat) : Res TE := do
  let (w, d) ← T.tw.W.multGen nd a.w s
  if d > 0 then T.rightAdd nd ⟨a.t, w⟩ (← Vec.get T.coroots s) else pure ⟨a.t, w⟩

/-- loop of `prod` (tits.cpp L519-520), for the reversed word -/
def prodLoop (nd : Bool) (T : TG) : List Nat → TE → Res TE
  | [], b => .ok b
  | s :: l, b => do prodLoop nd T l (← T.sigmaMult nd s b)

/-- `prod` and `mult` (tits.cpp L514-525, tits.h L567) -/
def prod (nd : Bool) (T : TG) (a b : TE) : Res TE := do
  let ww ← T.tw.W.word nd a.w
  let b ← T.prodLoop nd ww.reverse b
  T.leftAdd nd a.t b

/-- `sigma_conjugate` (tits.h L575-578) -/
def sigmaConjugate (nd : Bool) (T : TG) (a : TE) (s : Nat) : Res TE := do T.multSigmaInv nd (← T.sigmaMult nd s a) s

/-- `sigma_inv_conjugate` (tits.h L580-583) -/
def sigmaInvConjugate (nd : Bool) (T : TG) (a : TE) (s : Nat) : Res TE := do T.multSigma nd (← T.sigmaInvMult nd s a) s

/-- `twistedConjugate` (tits.h L598-599) -/
def twistedConjugate (nd : Bool) (T : TG) (a : TE) (s : Nat) : Res TE := do
  let a ← T.sigmaMult nd s a
  T.multSigmaInv nd a (← T.tw.twistedGen s)

/-- `inverseTwistedConjugate` (tits.h L602-603) -/
def inverseTwistedConjugate (nd : Bool) (T : TG) (a : TE) (s : Nat) : Res TE := do
  let a ← T.sigmaInvMult nd s a
  T.multSigma nd a (← T.tw.twistedGen s)

end TG

/-- `operator==` (tits.h L377-378) -/
def TE.eq (nd : Bool) (a b : TE) : Res Bool := if a.w = b.w then a.t.eq nd b.t else .ok false

/-- `operator!=` (tits.h L380-381) -/
def TE.ne (nd : Bool) (a b : TE) : Res Bool := if a.w ≠ b.w then .ok true else do pure (!(← a.t.eq nd b.t))

/-- `reduce` (tits.h L392-393) -/
def TE.reduce (nd : Bool) (V : Sub) (a : TE) : Res TE := do pure { a with t := ← V.representative nd dim a.t }

/-- A `TitsCoset` (tits.h L655-673): the group and `grading_offset`, whose bits are the gradings of simple roots.  The reference to the
root system is not modelled. -/
structure TC where
  T : TG
  grading : Nat

namespace TC

/-- loop of the constructor for the adjoint group (tits.cpp L573-574, and L586-587 for the dual) -/
def adjointGrading (T : TG) : Nat → Nat → Nat → Res Nat
  | 0, _, g => .ok g
  | k + 1, i, g => do
    let t ← T.tw.twistedGen i
    let g ← bsSet dim g i (decide (t = i))
    adjointGrading T k (i + 1) g

/-- constructors for the adjoint group and for its dual (tits.cpp L565-588), the Cartan matrix and the twisted group given; the number of
simple roots is the semisimple rank -/
def makeAdjoint (nd : Bool) (C : Mat.Mat Int) (tw : TWG) (ssRank : Nat) : Res TC := do
  let T ← TG.makeAdjoint nd C tw
  let g ← adjointGrading T ssRank 0 0
  pure ⟨T, g⟩

/-- `simple_grading` (tits.h L785-789) -/
def simpleGrading (c : TC) (a : TE) (s : Nat) : Res Bool := do
  let g ← bsTest dim c.grading s
  let r ← c.T.dualMAlpha s
  pure (g != r.dot a.t)

/-- `basedTwistedConjugate` by a generator (tits.h L810-816) -/
def cross (nd : Bool) (c : TC) (a : TE) (s : Nat) : Res TE := do
  let a ← c.T.twistedConjugate nd a s
  if ← bsTest dim c.grading s then c.T.leftAdd nd (← c.T.mAlpha s) a else pure a

/-- `strict_based_twisted_conjugate` (tits.cpp L720-725) -/
def strictCross (nd : Bool) (c : TC) (a : TE) (s : Nat) : Res TE := do
  let a ← c.T.twistedConjugate nd a s
  if ← bsTest dim c.grading s then c.T.rightAdd nd a (← c.T.mAlpha (← c.T.tw.twistedGen s)) else pure a

/-- `basedTwistedConjugate(a,w)` by a word, letters from left to right (tits.cpp L590-595) -/
def crossWord (nd : Bool) (c : TC) : List Nat → TE → Res TE
  | [], a => .ok a
  | s :: l, a => do crossWord nd c l (← c.cross nd a s)

/-- `basedTwistedConjugate(w,a)` by a word, letters from right to left (tits.cpp L597-602) -/
def crossWordLeft (nd : Bool) (c : TC) (w : List Nat) (a : TE) : Res TE := c.crossWord nd w.reverse a

/-- `Cayley_transform` (tits.h L718-719) -/
def cayley (nd : Bool) (c : TC) (a : TE) (s : Nat) : Res TE := c.T.sigmaMult nd s a

/-- loop of `inverse_Cayley_transform` (tits.cpp L635-640) -/
def adjust (nd : Bool) (c : TC) (r : BV) : List BV → TE → Res TE
  | [], a => .ok a
  | b :: l, a => if r.dot b then c.T.leftAdd nd b a else adjust nd c r l a

/-- `inverse_Cayley_transform` (tits.cpp L627-644) -/
def inverseCayley (nd : Bool) (c : TC) (a : TE) (s : Nat) (V : Sub) : Res TE := do
  let a ← c.T.sigmaInvMult nd s a
  if ← c.simpleGrading a s then pure a
  else do
    let a ← c.adjust nd (← c.T.dualMAlpha s) V.basis a
    Res.assertIn nd (← (if nd then pure true else c.simpleGrading a s : Res Bool))
    pure a

/-- loop of `twisted` (tits.cpp L651-657) -/
def twistedLoop (nd : Bool) (c : TC) : List Nat → TE → Res TE
  | [], a => .ok a
  | s :: l, a => do
    let s ← c.T.tw.twistedGen s
    let a ← c.T.multSigma nd a s
    let a ← (if ← bsTest dim c.grading s then do c.T.rightAdd nd a (← c.T.mAlpha s) else pure a : Res TE)
    twistedLoop nd c l a

/-- `twisted` (tits.cpp L647-659) -/
def twisted (nd : Bool) (c : TC) (a : TE) : Res TE := do
  let r := c.T.torus (← c.T.twisted nd (c.T.leftTorusPart a))
  let ww ← c.T.tw.W.word nd a.w
  c.twistedLoop nd ww r

/-- `is_valid` (tits.cpp L728-733): `e` is the local variable of storage class `static`, initialised at the first call of the function in
the program; the result contains its value after the call -/
def isValid (nd : Bool) (c : TC) (e : Option TE) (a : TE) : Res (Bool × Option TE) := do
  let e := e.getD c.T.one
  let b ← c.twisted nd a
  let a ← c.T.prod nd a b
  pure (← a.eq nd e, some e)

end TC

/-- `fiber_denom` (tits.cpp L834-838) -/
def fiberDenom (nd : Bool) (theta : Mat.Mat Int) : Res Sub := do
  let A ← bmOfMat nd (← Mat.eigenLattice nd (← Mat.transposed theta) (-1))
  Sub.ofMatrix nd dim A

end Verif.Tits
