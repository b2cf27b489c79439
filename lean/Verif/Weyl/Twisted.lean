import Verif.Weyl.Extra
/-
Model of the class `TwistedWeylGroup` (/repo/sources/structure/weyl.h L484-596 and weyl.cpp L1190-1546), of `Twist` and of `ext_gen`.
-/
namespace Verif.Weyl
open Verif

/-- A `TwistedWeylGroup`: the group and the array `d_twist` (weyl.h L486-487). -/
structure TWG where
  W : WG
  twist : List Nat

/-- `enum { one, two, three }` of `ext_gen` (lietype.h L155) -/
inductive ExtTy
  | one | two | three
deriving DecidableEq

/-- `ext_gen` (lietype.h L153-170) -/
structure ExtGen where
  type : ExtTy
  s0 : Nat
  s1 : Nat
  wKappa : List Nat
deriving DecidableEq

/-- constructor for a fixed generator (lietype.h L159-160); `~0` becomes 255 in `unsigned char` -/
def ExtGen.single (s : Nat) : ExtGen := ⟨.one, s, undef, [s]⟩

/-- constructor for an orbit of two generators (lietype.h L162-167) -/
def ExtGen.pair (commute : Bool) (s t : Nat) : ExtGen :=
  ⟨if commute then .two else .three, s, t, if commute then [s, t] else [s, t, s]⟩

/-- `length` (lietype.h L169) -/
def ExtGen.length (e : ExtGen) : Nat := match e.type with | .one => 1 | .two => 2 | .three => 3

/-- loop of the constructor of `Twist` from orbits (weyl.cpp L1532-1539) -/
def twistOfLoop : List ExtGen → List Nat → Res (List Nat)
  | [], d => .ok d
  | e :: l, d => do
    if e.length = 1 then twistOfLoop l (← Vec.put d e.s0 e.s0)
    else do
      let d ← Vec.put d e.s0 e.s1
      let d ← Vec.put d e.s1 e.s0
      twistOfLoop l d

/-- constructor of `Twist` from orbits (weyl.cpp L1529-1540) -/
def twistOf (l : List ExtGen) : Res (List Nat) := twistOfLoop l (List.replicate rankMax undef)

namespace TWG

/-- `twisted` for a generator (weyl.h L525) -/
def twistedGen (T : TWG) (s : Nat) : Res Nat := Vec.get T.twist s

/-- `twisted` for an element (weyl.h L526) -/
def twisted (nd : Bool) (T : TWG) (w : List Nat) : Res (List Nat) := T.W.translation nd w T.twist

/-- `dual_twisted` for a generator (weyl.h L528-529) -/
def dualTwistedGen (nd : Bool) (T : TWG) (s : Nat) : Res Nat := do T.W.chevalleyDual nd (← Vec.get T.twist s)

/-- loop of `dual_twist` (weyl.cpp L1230-1231), and of `dual_twisted` (weyl.cpp L1203-1204) -/
def dualTwistLoop (nd : Bool) (T : TWG) : List Nat → List Nat → Res (List Nat)
  | [], d => .ok d
  | s :: l, d => do
    let t ← Vec.get T.twist s
    let t ← T.W.chevalleyDual nd t
    T.dualTwistLoop nd l (← Vec.put d s t)

/-- `dual_twist` (weyl.cpp L1227-1233) -/
def dualTwist (nd : Bool) (T : TWG) : Res (List Nat) :=
  T.dualTwistLoop nd (List.range T.W.rank) (List.replicate rankMax undef)

/-- `dual_twisted` for an element (weyl.cpp L1200-1206) -/
def dualTwisted (nd : Bool) (T : TWG) (w : List Nat) : Res (List Nat) := do
  let d ← T.dualTwist nd
  T.W.translation nd w d

/-- constructor of the dual twisted group (weyl.cpp L1239-1242) -/
def dual (nd : Bool) (T : TWG) : Res TWG := do
  let d ← T.dualTwist nd
  pure ⟨T.W, d⟩

/-- second loop of `twist_orbits` (weyl.cpp L1217-1221); the first loop computes a capacity to reserve -/
def orbitsLoop (nd : Bool) (T : TWG) : List Nat → Res (List ExtGen)
  | [] => .ok []
  | s :: l => do
    let t ← T.twistedGen s
    if t = s then do
      let r ← T.orbitsLoop nd l
      pure (ExtGen.single s :: r)
    else if s < t then do
      let b ← T.W.commutes nd s t
      let r ← T.orbitsLoop nd l
      pure (ExtGen.pair b s t :: r)
    else T.orbitsLoop nd l

/-- `twist_orbits` (weyl.cpp L1208-1224) -/
def twistOrbits (nd : Bool) (T : TWG) : Res (List ExtGen) := T.orbitsLoop nd (List.range T.W.rank)

/-- `twistedConjugate` by a generator (weyl.h L543-548) -/
def conjGen (nd : Bool) (T : TWG) (tw : List Nat) (s : Nat) : Res (List Nat × Int) := do
  let (w, d) ← T.W.leftMultiplyGen nd tw s
  let t ← Vec.get T.twist s
  let (w, d') ← T.W.multGen nd w t
  pure (w, d + d')

/-- loop of `inverseTwistedConjugate` (weyl.h L559-560) -/
def inverseConjLoop (nd : Bool) (T : TWG) : List Nat → List Nat → Int → Res (List Nat × Int)
  | [], tw, d => .ok (tw, d)
  | s :: l, tw, d => do
    let (tw, d') ← T.conjGen nd tw s
    T.inverseConjLoop nd l tw (d + d')

/-- `inverseTwistedConjugate` (weyl.h L556-562) -/
def inverseConjWord (nd : Bool) (T : TWG) (tw ww : List Nat) : Res (List Nat × Int) := T.inverseConjLoop nd ww tw 0

/-- `twistedConjugate` by a word (weyl.h L549-555): the letters are used from the last to the first -/
def conjWord (nd : Bool) (T : TWG) (ww tw : List Nat) : Res (List Nat × Int) := T.inverseConjLoop nd ww.reverse tw 0

/-- `twistedConjugate` by an element (weyl.cpp L1244-1250) -/
def conjElt (nd : Bool) (T : TWG) (tw w : List Nat) : Res (List Nat) := do
  let x ← T.W.mult nd w tw
  let r ← T.W.reverseTranslation nd w T.twist
  T.W.mult nd x r

/-- inner loop of `twistedConjugacyClass` (weyl.cpp L1272-1277): variable `v`, the set `found` (in order of insertion) and the queue -/
def classInner (nd : Bool) (T : TWG) : List Nat → List Nat → List (List Nat) → List (List Nat) → Res (List (List Nat) × List (List Nat))
  | [], _, found, queue => .ok (found, queue)
  | s :: l, v, found, queue => do
    let (v, _) ← T.conjGen nd v s
    if v ∈ found then T.classInner nd l v found queue else T.classInner nd l v (v :: found) (queue ++ [v])

/-- outer loop (weyl.cpp L1267-1278) -/
def classLoop (nd : Bool) (T : TWG) : Nat → List (List Nat) → List (List Nat) → Res (List (List Nat))
  | 0, _, _ => .outOfFuel
  | _ + 1, found, [] => .ok found
  | f + 1, found, v :: queue => do
    let (found, queue) ← T.classInner nd (List.range T.W.rank) v found queue
    T.classLoop nd f found queue

/-- `operator<` of `WeylElt` (weyl.h L132), negated with arguments exchanged: lexicographic comparison of arrays -/
def lexLe : List Nat → List Nat → Bool
  | [], _ => true
  | _ :: _, [] => false
  | a :: l, b :: m => if a = b then lexLe l m else decide (a < b)

/-- `twistedConjugacyClass` (weyl.cpp L1260-1283); a `std::set` is traversed in the order of its elements -/
def twistedClass (nd : Bool) (T : TWG) (fuel : Nat) (tw : List Nat) : Res (List (List Nat)) := do
  let found ← T.classLoop nd fuel [tw] [tw]
  pure (found.mergeSort lexLe)

/-- `hasTwistedCommutation` (weyl.cpp L1306-1313) -/
def hasTwistedCommutation (nd : Bool) (T : TWG) (s : Nat) (tw : List Nat) : Res Bool := do
  let t ← Vec.get T.twist s
  let (x, m) ← T.W.multGen nd tw t
  let d ← T.W.hasDescent nd s x
  pure (decide (m > 0) == d)

/-- `involutionLength` (weyl.cpp L1481-1495) -/
def involutionLengthLoop (nd : Bool) (T : TWG) : Nat → List Nat → Nat → Res Nat
  | 0, _, _ => .outOfFuel
  | f + 1, x, len => do
    let s ← T.W.leftDescent x
    if s = undef then pure len
    else do
      if ← T.hasTwistedCommutation nd s x then do
        let (x, _) ← T.W.leftMultiplyGen nd x s
        T.involutionLengthLoop nd f x (len + 1)
      else do
        let (x, _) ← T.conjGen nd x s
        T.involutionLengthLoop nd f x (len + 1)

def involutionLength (nd : Bool) (T : TWG) (fuel : Nat) (tw : List Nat) : Res Nat := T.involutionLengthLoop nd fuel tw 0

/-- `involution_expr` (weyl.cpp L1338-1356); letters are `signed char`, `~s` is `-1-s` -/
def involutionExprLoop (nd : Bool) (T : TWG) : Nat → List Nat → List Int → Res (List Int)
  | 0, _, _ => .outOfFuel
  | f + 1, tw, result => do
    let s ← T.W.leftDescent tw
    if s = undef then pure result
    else do
      if ← T.hasTwistedCommutation nd s tw then do
        let (x, _) ← T.W.leftMultiplyGen nd tw s
        T.involutionExprLoop nd f x (result ++ [(s : Int)])
      else do
        let (x, _) ← T.conjGen nd tw s
        T.involutionExprLoop nd f x (result ++ [-1 - (s : Int)])

def involutionExpr (nd : Bool) (T : TWG) (fuel : Nat) (tw : List Nat) : Res (List Int) := do
  let _ ← T.involutionLength nd fuel tw
  T.involutionExprLoop nd fuel tw []

/-- inner loop of `canonical_involution_expr` (weyl.cpp L1367-1369): the first descent; beyond the rank behaviour is undefined -/
def firstDescent (nd : Bool) (T : TWG) (tw : List Nat) : List Nat → Res Nat
  | [] => .undefined
  | s :: l => do
    if ← T.W.hasDescent nd s tw then pure s else T.firstDescent nd tw l

/-- `canonical_involution_expr` (weyl.cpp L1359-1385) -/
def canonicalExprLoop (nd : Bool) (T : TWG) : Nat → List Nat → List Int → Res (List Int)
  | 0, _, _ => .outOfFuel
  | f + 1, tw, result =>
    if tw ≠ WG.one then do
      let s ← T.firstDescent nd tw (List.range T.W.rank)
      if ← T.hasTwistedCommutation nd s tw then do
        let (x, _) ← T.W.leftMultiplyGen nd tw s
        T.canonicalExprLoop nd f x (result ++ [(s : Int)])
      else do
        let (x, _) ← T.conjGen nd tw s
        T.canonicalExprLoop nd f x (result ++ [-1 - (s : Int)])
    else pure result

def canonicalInvolutionExpr (nd : Bool) (T : TWG) (fuel : Nat) (tw : List Nat) : Res (List Int) := do
  let _ ← T.involutionLength nd fuel tw
  T.canonicalExprLoop nd fuel tw []

/-- search of a descent in `extended_involution_expr` (weyl.cpp L1400-1405): position and orbit found; the loop asserts that it does not
run past the end, without assertions behaviour is undefined there -/
def firstOrbit (nd : Bool) (T : TWG) (tw : List Nat) : Nat → List ExtGen → Res (Nat × ExtGen)
  | _, [] => if nd then .undefined else .assertFail
  | i, e :: l => do
    if ← T.W.hasDescent nd e.s0 tw then pure (i, e) else T.firstOrbit nd tw (i + 1) l

/-- the `switch` statement of `extended_involution_expr` (weyl.cpp L1408-1466): the new involution and the letter recorded -/
def extStep (nd : Bool) (T : TWG) (tw : List Nat) (i : Nat) (e : ExtGen) : Res (List Nat × Int) :=
  match e.type with
  | .one => do
    if ← T.hasTwistedCommutation nd e.s0 tw then do
      let (x, _) ← T.W.leftMultiplyGen nd tw e.s0
      pure (x, (i : Int))
    else do
      let (x, _) ← T.conjGen nd tw e.s0
      pure (x, -1 - (i : Int))
  | .two => do
    if ← T.hasTwistedCommutation nd e.s0 tw then do
      let (x, _) ← T.W.leftMultiplyGen nd tw e.s0
      let (x, _) ← T.W.leftMultiplyGen nd x e.s1
      pure (x, (i : Int))
    else do
      let (x, _) ← T.conjGen nd tw e.s0
      if ← T.W.hasDescent nd e.s1 x then do
        let (x, _) ← T.conjGen nd x e.s1
        pure (x, -1 - (i : Int))
      else pure (x, (i : Int))
  | .three => do
    if ← T.hasTwistedCommutation nd e.s0 tw then do
      let (x, _) ← T.W.leftMultiplyGen nd tw e.s0
      let (x, _) ← T.conjGen nd x e.s1
      pure (x, (i : Int))
    else do
      let (x, _) ← T.conjGen nd tw e.s0
      if ← T.hasTwistedCommutation nd e.s1 x then do
        let (x, _) ← T.W.leftMultiplyGen nd x e.s1
        pure (x, (i : Int))
      else do
        let (x, _) ← T.conjGen nd x e.s1
        let (x, _) ← T.conjGen nd x e.s0
        pure (x, (i : Int))

/-- loop of `extended_involution_expr` (weyl.cpp L1398-1468) -/
def extendedExprLoop (nd : Bool) (T : TWG) (orbits : List ExtGen) : Nat → List Nat → List Int → Res (List Int)
  | 0, _, _ => .outOfFuel
  | f + 1, tw, result =>
    if tw ≠ WG.one then do
      let (i, e) ← T.firstOrbit nd tw 0 orbits
      let (x, c) ← T.extStep nd tw i e
      let y ← T.twisted nd x
      Res.assertIn nd (decide (y = x))
      T.extendedExprLoop nd orbits f x (result ++ [c])
    else pure result

/-- `extended_involution_expr` (weyl.cpp L1389-1470) -/
def extendedInvolutionExpr (nd : Bool) (T : TWG) (fuel : Nat) (tw : List Nat) : Res (List Int) := do
  let y ← T.twisted nd tw
  Res.assertIn nd (decide (y = tw))
  let orbits ← T.twistOrbits nd
  let _ ← T.involutionLength nd fuel tw
  T.extendedExprLoop nd orbits fuel tw []

end TWG
end Verif.Weyl
