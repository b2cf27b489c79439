import Verif.Canon.Model
import Verif.Poset.Model
/-
Model of the generation of the Cartan classes of an inner class: the part of `InnerClass::construct` that fills `Cartan[i].tw` and `Cartan[i].below`, and
`Cartan_poset` (/repo/sources/structure/innerclass.cpp L197-293), and the check on the last class (L300-302).
Left out: real forms (`real_forms`, `rep`, `d_mostSplit`, and with them the torus parts of elements of the Tits group), the `CartanClass` member of `C_info`, and the
resizing of `C_orb` (see C72).  Of a `TitsElt` only the twisted involution is modelled.
A `CartanNbr` is an `unsigned short`: `ii` and `i` are counted modulo 65536.  `nd` tells whether assertions are disabled; `fuel` bounds the number of passes of loops.
-/
namespace Verif.Canon
open Verif Verif.Root Verif.Mat Verif.Datum Verif.Inv Verif.BitMap

/-- the members `tw` and `below` of `C_info` (innerclass.h L195-207) -/
structure CInfo where
  tw : List Nat
  below : BitMap

/-- the loop that makes the root simple (innerclass.cpp L240-247): the twisted involution of `a` (`basedTwistedConjugate`, tits.cpp) and the last value of `s` -/
def descLoop (nd : Bool) (rd : RD) (T : Weyl.TWG) : Nat → Nat → List Nat → Res (List Nat × Nat)
  | 0, _, _ => .outOfFuel
  | fuel + 1, alpha, tw => do
    let s ← rd.rs.findDescent alpha
    if alpha ≠ (← rd.rs.simpleNbr nd s) then do
      let (tw, _) ← T.conjGen nd tw s
      descLoop nd rd T fuel (← rd.rs.simpleReflected s alpha) tw
    else .ok (tw, s)

/-- the search for `sigma` (innerclass.cpp L257-260); if it is absent and there are more than 65535 classes then `ii` never equals their number -/
def search (L : List CInfo) (sigma : List Nat) : Res Nat :=
  let ii := L.findIdx fun c => c.tw == sigma
  if ii = L.length ∧ 65535 < L.length then .outOfFuel else .ok ii

/-- the body of the loop over `alpha` (innerclass.cpp L229-265) -/
def alphaStep (nd : Bool) (fuel : Nat) (rd : RD) (T : Weyl.TWG) (i alpha : Nat) (L : List CInfo) : Res (List CInfo) := do
  let C ← Vec.get L i
  let (tw, s) ← descLoop nd rd T fuel alpha C.tw
  let (sigma, _) ← T.W.leftMultiplyGen nd tw s
  let (_, sigma) ← canonicalizeAll nd fuel rd T sigma
  let ii ← search L sigma
  let L := if ii = L.length then L ++ [⟨sigma, BitMap.make ii⟩] else L
  let D ← Vec.get L ii
  Vec.put L ii { D with below := ← BitMap.insert nd D.below i }

/-- the loop over `alpha` (innerclass.cpp L229) -/
def alphaLoop (nd : Bool) (fuel : Nat) (rd : RD) (T : Weyl.TWG) (i : Nat) : List Nat → List CInfo → Res (List CInfo)
  | [], L => .ok L
  | alpha :: l, L => do alphaLoop nd fuel rd T i l (← alphaStep nd fuel rd T i alpha L)

/-- the loop over `i` (innerclass.cpp L218-289) -/
def genLoop (nd : Bool) (fuel : Nat) (rd : RD) (T : Weyl.TWG) : Nat → Nat → List CInfo → List BitMap → Res (List CInfo × List BitMap)
  | 0, _, _, _ => .outOfFuel
  | k + 1, i, L, P =>
    if i < L.length then do
      let C ← Vec.get L i
      let P ← Poset.newMax nd P (← BitMap.elements C.below)
      let id ← build nd rd T C.tw
      let L ← alphaLoop nd fuel rd T i (Root.members (List.zipWith (· && ·) rd.rs.posSet id.im)) L
      genLoop nd fuel rd T k ((i + 1) % 65536) L P
    else .ok (L, P)

/-- generation of Cartan classes and their poset, from `Cartan(1,C_info(*this,TwistedInvolution(),0))` (innerclass.cpp L145, L218-289) -/
def generate (nd : Bool) (fuel : Nat) (rd : RD) (T : Weyl.TWG) : Res (List CInfo × List BitMap) := genLoop nd fuel rd T fuel 0 [⟨Weyl.WG.one, BitMap.make 0⟩] []

/-- the check of the last class (innerclass.cpp L300-302) -/
def checkLast (nd : Bool) (fuel : Nat) (rd : RD) (T : Weyl.TWG) (L : List CInfo) : Res Unit := do
  let w0 ← T.W.longest
  let (_, w0) ← canonicalizeAll nd fuel rd T w0
  let C ← Vec.get L (L.length - 1)
  Res.assertIn nd (w0 == C.tw)

end Verif.Canon
