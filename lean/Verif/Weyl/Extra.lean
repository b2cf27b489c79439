import Verif.Weyl.Group
import Verif.BigInt.Model
import Verif.Size.Model
/-
Model of more functions of the class `WeylGroup` (/repo/sources/structure/weyl.h and weyl.cpp).
-/
namespace Verif.Weyl
open Verif
namespace WG

/-- `conjugate` (weyl.h L362-363) -/
def conjugate (nd : Bool) (W : WG) (w : List Nat) (s : Nat) : Res (List Nat) := do
  let (w, _) ← W.leftMultiplyGen nd w s
  let (w, _) ← W.multGen nd w s
  pure w

/-- `length_change` on the right (weyl.h L350-353) -/
def lengthChange (nd : Bool) (W : WG) (w : List Nat) (s : Nat) : Res Int := do
  let (_, d) ← W.multGen nd w s
  pure d

/-- `length_change` on the left (weyl.h L356-359) -/
def lengthChangeLeft (nd : Bool) (W : WG) (s : Nat) (w : List Nat) : Res Int := do
  if ← W.hasDescent nd s w then pure (-1) else pure 1

/-- loop of `order` (weyl.cpp L787-788); the multiplication by a number constructs a `Size` from it -/
def orderLoop (W : WG) : List Nat → Size.Sz → Res Size.Sz
  | [], r => .ok r
  | i :: l, r => do
    let tr ← Vec.get W.tr i
    let (s, _) ← Size.make 65 tr.T.n
    W.orderLoop l (Size.mul r s)

/-- `order` (weyl.cpp L782-791) -/
def order (W : WG) : Res Size.Sz := W.orderLoop (List.range W.rank) Size.one

/-- loop of `to_big_int` (weyl.cpp L972-973) -/
def bigLoop (W : WG) (w : List Nat) : List Nat → BigInt.Digits → Res BigInt.Digits
  | [], u => .ok u
  | i :: l, u => do
    let tr ← Vec.get W.tr i
    let x ← Vec.get w i
    W.bigLoop w l (BigInt.addDigit (BigInt.mulInt u tr.T.n) x)

/-- `to_big_int` (weyl.cpp L968-976) -/
def toBigInt (W : WG) (w : List Nat) : Res BigInt.Digits := W.bigLoop w (List.range W.rank).reverse (BigInt.ofInt32 0)

/-- loop of `to_WeylElt` (weyl.cpp L988-989); pieces are `unsigned char` -/
def eltLoop (W : WG) : List Nat → BigInt.Digits → List Nat → Res (List Nat)
  | [], _, w => .ok w
  | i :: l, u, w => do
    let tr ← Vec.get W.tr i
    let (u, x) := BigInt.shiftModulo u tr.T.n
    W.eltLoop l u (← Vec.put w i (x % 256))

/-- `to_WeylElt` (weyl.cpp L984-992) -/
def toWeylElt (W : WG) (u : BigInt.Digits) : Res (List Nat) := W.eltLoop (List.range W.rank) u one

/-- first loop of `translation` (weyl.cpp L1014-1015) and of `reverse_translation` (weyl.cpp L1038-1039) -/
def innerLoop (W : WG) (f : List Nat) : List Nat → List Nat → Res (List Nat)
  | [], v => .ok v
  | i :: l, v => do
    let g ← Vec.get W.din (← Vec.get f (← Vec.get W.dout i))
    W.innerLoop f l (← Vec.put v i g)

/-- `inner_f` -/
def innerF (W : WG) (f : List Nat) : Res (List Nat) := W.innerLoop f (List.range W.rank) (List.replicate rankMax undef)

/-- `while (k-->0) inner_mult(result,stack[k]);` (weyl.cpp L1026-1027), with `inner_f` applied to the entries of `stack` here
rather than when they are stored -/
def translateAll (nd : Bool) (W : WG) (inner : List Nat) (off : Nat) : List Nat → List Nat → Res (List Nat)
  | [], w => .ok w
  | s :: l, w => do
    let (w, _) ← W.innerMult nd w (← Vec.get inner (s + off))
    W.translateAll nd inner off l w

/-- second loop of `translation` (weyl.cpp L1018-1028) -/
def translateLoop (nd : Bool) (W : WG) (inner w : List Nat) : List Nat → List Nat → Res (List Nat)
  | [], result => .ok result
  | i :: l, result => do
    let x ← Vec.get w i
    let tr ← Vec.get W.tr i
    let stack ← tr.T.letters nd x
    W.translateLoop nd inner w l (← W.translateAll nd inner tr.offset stack result)

/-- `translation` (weyl.cpp L1008-1031) -/
def translation (nd : Bool) (W : WG) (w f : List Nat) : Res (List Nat) := do
  W.translateLoop nd (← W.innerF f) w (List.range W.rank) one

/-- second loop of `reverse_translation` (weyl.cpp L1042-1049) -/
def reverseLoop (nd : Bool) (W : WG) (inner w : List Nat) : List Nat → List Nat → Res (List Nat)
  | [], result => .ok result
  | i :: l, result => do
    let x ← Vec.get w i
    let tr ← Vec.get W.tr i
    let result ← tr.T.unwind nd (fun v s => do pure (← W.innerMult nd v (← Vec.get inner (s + tr.offset))).1) 256 x result
    W.reverseLoop nd inner w l result

/-- `reverse_translation` (weyl.cpp L1034-1052) -/
def reverseTranslation (nd : Bool) (W : WG) (w f : List Nat) : Res (List Nat) := do
  W.reverseLoop nd (← W.innerF f) w (List.range W.rank).reverse one

/-- loop of `Chevalley_dual` (weyl.cpp L813-815) -/
def dualLoop (nd : Bool) (W : WG) (w : List Nat) : List Nat → Res Nat
  | [] => do
    Res.assertIn nd false
    pure undef
  | t :: l => do if w = (← W.generator t) then pure t else W.dualLoop nd w l

/-- `Chevalley_dual` (weyl.cpp L805-818) -/
def chevalleyDual (nd : Bool) (W : WG) (s : Nat) : Res Nat := do
  let w0 ← W.longest
  let (w, _) ← W.multGen nd w0 s
  let w ← W.mult nd w w0
  W.dualLoop nd w (List.range W.rank)

/-- loop of `Chevalley_twist` (weyl.cpp L824-825) -/
def twistLoop (nd : Bool) (W : WG) : List Nat → List Nat → Res (List Nat)
  | [], r => .ok r
  | s :: l, r => do W.twistLoop nd l (← Vec.put r s (← W.chevalleyDual nd s))

/-- `Chevalley_twist` (weyl.cpp L820-827); entries from the rank onward keep the value set by the constructor of `Twist`
(weyl.h L51-52) -/
def chevalleyTwist (nd : Bool) (W : WG) : Res (List Nat) := W.twistLoop nd (List.range W.rank) (List.replicate rankMax undef)

/-- the loops of the functions `act` (weyl.cpp L1058-1067 for roots, L1070-1080 for weights, L1101-1111 for the columns of a
matrix, L1114-1125 for weights and a `PreRootDatum`, L1131-1141 for the columns of a matrix and a `PreRootDatum`); `f` is the effect of a simple reflection -/
def actLoop {α : Type} (nd : Bool) (W : WG) (f : Nat → α → Res α) (w : List Nat) : List Nat → α → Res α
  | [], a => .ok a
  | i :: l, a => do
    let x ← Vec.get w i
    let tr ← Vec.get W.tr i
    W.actLoop nd f w l (← tr.T.unwind nd (fun a s => do f (← Vec.get W.dout (s + tr.offset)) a) 256 x a)

/-- the functions `act` -/
def act {α : Type} (nd : Bool) (W : WG) (f : Nat → α → Res α) (w : List Nat) (a : α) : Res α :=
  W.actLoop nd f w (List.range W.rank).reverse a

/-- inner loop of `co_act` (weyl.cpp L1096-1097) and `inverse_act` (L1159-1160) -/
def coActAll {α : Type} (W : WG) (f : Nat → α → Res α) (off : Nat) : List Nat → α → Res α
  | [], a => .ok a
  | s :: l, a => do W.coActAll f off l (← f (← Vec.get W.dout (s + off)) a)

/-- loop of `co_act` (weyl.cpp L1089-1098) and `inverse_act` (L1152-1161) -/
def coActLoop {α : Type} (nd : Bool) (W : WG) (f : Nat → α → Res α) (w : List Nat) : List Nat → α → Res α
  | [], a => .ok a
  | i :: l, a => do
    let x ← Vec.get w i
    let tr ← Vec.get W.tr i
    let stack ← tr.T.letters nd x
    W.coActLoop nd f w l (← W.coActAll f tr.offset stack a)

/-- `co_act` (weyl.cpp L1083-1099) and `inverse_act` (L1147-1162) -/
def coAct {α : Type} (nd : Bool) (W : WG) (f : Nat → α → Res α) (w : List Nat) (a : α) : Res α :=
  W.coActLoop nd f w (List.range W.rank) a

end WG

/-- inner loop of `conjugacy_class` (weyl.cpp L847-852): the variable `v`, the set `found` (in any order) and the queue -/
def classInner (nd : Bool) (W : WG) : List Nat → List Nat → List (List Nat) → List (List Nat) → Res (List (List Nat) × List (List Nat))
  | [], _, found, queue => .ok (found, queue)
  | s :: l, v, found, queue => do
    let v ← W.conjugate nd v s
    if v ∈ found then classInner nd W l v found queue else classInner nd W l v (v :: found) (queue ++ [v])

/-- outer loop of `conjugacy_class` (weyl.cpp L843-853) -/
def classLoop (nd : Bool) (W : WG) : Nat → List (List Nat) → List (List Nat) → Res (List (List Nat))
  | 0, _, _ => .outOfFuel
  | _ + 1, found, [] => .ok found
  | f + 1, found, v :: queue => do
    let (found, queue) ← classInner nd W (List.range W.rank) v found queue
    classLoop nd W f found queue

/-- `conjugacy_class` (weyl.cpp L838-857), without the final sort -/
def conjugacyClass (nd : Bool) (W : WG) (fuel : Nat) (w : List Nat) : Res (List (List Nat)) := classLoop nd W fuel [w] [w]

end Verif.Weyl
