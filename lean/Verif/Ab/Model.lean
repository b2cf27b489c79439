import Verif.Arith.Model
import Verif.BitMap.Model
import Verif.Mat.Reduc2
/-
Model of finite abelian groups (sources/utilities/abelian.h and abelian.cpp).

`unsigned long` and `unsigned long long` values are naturals, computed with modulo `2^64`; the calls to `arithmetic` are those of the model
of that namespace.  A division by zero is undefined behaviour.  Sets of group elements are bitmaps, as modelled in `Verif.BitMap`.  Loops
over a bitmap that changes meanwhile use the model of its iterator, which reads the current bits.
-/
namespace Verif.Ab

open Verif.Mat (forUp forDown tab Mat)
open Verif.Arith (modAdd)
open Verif.BitMap (BitMap)

/-- number of values of a 64-bit type -/
scoped notation "𝐌" => (18446744073709551616 : Nat)

/-- data of `FiniteAbelianGroup` (abelian.h L78-92) -/
structure Grp where
  size : Nat
  type : List Nat
  cotype : List Nat
  deriving DecidableEq, Repr

/-- body of the loop of the constructor (abelian.cpp L45-50) -/
def makeStep (nd : Bool) (t : List Nat) (i : Nat) (s : Nat × List Nat) : Res (Nat × List Nat) := do
  let ti ← Vec.get t i
  if ti = 0 then .undefined
  else
    Res.assertIn nd (decide (i + 1 = t.length) || decide ((t[i + 1]?.getD 0) % ti = 0))
    let b ← Vec.get t (t.length - 1)
    return (s.1 * ti % 𝐌, ← Vec.put s.2 i (b / ti))

/-- `FiniteAbelianGroup(t)` (abelian.cpp L40-51) -/
def make (nd : Bool) (t : List Nat) : Res Grp := do
  let s ← forUp (makeStep nd t) t.length 0 (1, List.replicate t.length 0)
  return ⟨s.1, t, s.2⟩

/-! ### conversions -/

/-- `to_array(a,x,t)` (abelian.cpp L586-593) -/
def toArrayInto (a : List Nat) (x : Nat) (t : List Nat) : Res (List Nat) := do
  let s ← forUp (fun i (s : List Nat × Nat) => do
    let ti ← Vec.get t i
    if ti = 0 then .undefined else return (← Vec.put s.1 i (s.2 % ti), s.2 / ti)) a.length 0 (a, x)
  return s.1

/-- `toArray(x)` (abelian.h L120-121) -/
def toArray (A : Grp) (x : Nat) : Res (List Nat) := toArrayInto (List.replicate A.type.length 0) x A.type

/-- `to_array(a,v,t)` (abelian.cpp L604-608); the result of `remainder<long int>` is converted to `unsigned long` -/
def weightArray (nd : Bool) (a : List Nat) (v : List Int) (t : List Nat) : Res (List Nat) :=
  forUp (fun i (a : List Nat) => do
    let x ← Arith.remainder nd 64 (← Vec.get v i) (Arith.toS 64 (← Vec.get t i : Nat))
    Vec.put a i (Arith.toU 64 x)) v.length 0 a

/-- `toArray(v)` (abelian.h L123-124) -/
def ofWeight (nd : Bool) (A : Grp) (v : List Int) : Res (List Nat) := weightArray nd (List.replicate A.type.length 0) v A.type

/-- `to_GrpNbr` (abelian.cpp L633-641) -/
def toNbr (a t : List Nat) : Res Nat :=
  forDown (fun i (x : Nat) => do return (x * (← Vec.get t i) % 𝐌 + (← Vec.get a i)) % 𝐌) a.length 0

/-- `toWeight(v,x)` (abelian.cpp L73-82); conversion to `int` -/
def toWeight (A : Grp) (v : List Int) (x : Nat) : Res (List Int) := do
  let s ← forUp (fun i (s : List Int × Nat) => do
    let ti ← Vec.get A.type i
    if ti = 0 then .undefined else return (← Vec.put s.1 i (Arith.toS 32 (s.2 % ti : Nat)), s.2 / ti)) A.type.length 0 (v, x)
  return s.1

/-! ### arithmetic -/

/-- `add(a,b)` for arrays (abelian.cpp L94-103) -/
def addArr (A : Grp) (a b : List Nat) : Res (List Nat) :=
  forUp (fun i (a : List Nat) => do
    let x ← Vec.get a i
    let y ← Vec.get b i
    let d := ((← Vec.get A.type i) + (𝐌 - y)) % 𝐌
    Vec.put a i (if x < d then (x + y) % 𝐌 else (x + (𝐌 - d)) % 𝐌)) a.length 0 a

/-- `subtract(a,b)` for arrays (abelian.cpp L106-115) -/
def subArr (A : Grp) (a b : List Nat) : Res (List Nat) :=
  forUp (fun i (a : List Nat) => do
    let x ← Vec.get a i
    let y ← Vec.get b i
    if y ≤ x then Vec.put a i (x - y)
    else Vec.put a i ((x + ((← Vec.get A.type i) + (𝐌 - y)) % 𝐌) % 𝐌)) a.length 0 a

/-- `add(a,x)` (abelian.cpp L118-121) -/
def addArrNbr (A : Grp) (a : List Nat) (x : Nat) : Res (List Nat) := do addArr A a (← toArray A x)

/-- `add(x,b)` (abelian.cpp L125-129) -/
def addNbrArr (A : Grp) (x : Nat) (b : List Nat) : Res Nat := do toNbr (← addArr A (← toArray A x) b) A.type

/-- `add(x,y)` (abelian.cpp L137-140) -/
def add (A : Grp) (x y : Nat) : Res Nat := do addNbrArr A x (← toArray A y)

/-- `annihilator` (abelian.cpp L144-147) -/
def annihilator (A : Grp) : Res Nat := if A.type.length = 0 then .ok 1 else Vec.get A.type (A.type.length - 1)

/-- body of the inner loop of `leftApply` (abelian.cpp L178-180); messages of `modProd` are left out -/
def leftStep (A : Grp) (tmp : List Nat) (q : Mat Nat) (i j r : Nat) : Res Nat := do
  let ti ← Vec.get A.type i
  let p ← Arith.modProd (← Vec.get tmp j) (← q.get i j) ti
  return modAdd r p.2 ti

/-- `leftApply` for an array (abelian.cpp L171-185) -/
def leftArr (A : Grp) (a : List Nat) (q : Mat Nat) : Res (List Nat) :=
  forUp (fun i (b : List Nat) => do Vec.put b i (← forUp (leftStep A a q i) q.cols 0 0)) q.rows 0 a

/-- `leftApply` for a number (abelian.cpp L156-162) -/
def leftNbr (A : Grp) (x : Nat) (q : Mat Nat) : Res Nat := do toNbr (← leftArr A (← toArray A x) q) A.type

/-- `order(x)` (abelian.cpp L189-199) -/
def order (A : Grp) (x : Nat) : Res Nat := do
  let v ← toArray A x
  forUp (fun i (n : Nat) => do
    let l ← Arith.lcm n (← Arith.divGcd (← Vec.get A.type i) (← Vec.get v i))
    return l.1) A.type.length 0 1

/-- the loop of `order(B,x)` (abelian.cpp L215-217), with at most `fuel` passes -/
def orderLoop (A : Grp) (B : BitMap) (b : List Nat) : Nat → Nat → List Nat → Res Nat
  | 0, _, _ => .outOfFuel
  | k + 1, n, a => do
    let a ← addArr A a b
    if ← Verif.BitMap.isMember B (← toNbr a A.type) then return n else orderLoop A B b k (n + 1) a

/-- `order(B,x)` (abelian.cpp L208-218); the number of multiples that is tried is limited to the order of the group, beyond which they repeat -/
def orderMod (A : Grp) (B : BitMap) (x : Nat) : Res Nat := do
  if ← Verif.BitMap.isMember B x then return 1
  else
    let a ← toArray A x
    orderLoop A B a A.size 2 a

/-- `pairing(a,b)` (abelian.cpp L228-238) -/
def pairing (A : Grp) (a b : List Nat) : Res Nat := do
  let n ← annihilator A
  forUp (fun i (m : Nat) => do
    let p ← Arith.modProd (← Vec.get a i) ((← Vec.get b i) * (← Vec.get A.cotype i) % 𝐌) n
    return modAdd m p.2 n) A.type.length 0 0

/-- `pairing(a,b,t)` (abelian.cpp L255-264) -/
def pairingTorsion (nd : Bool) (A : Grp) (a b : List Nat) (t : Nat) : Res Nat := do
  let n ← annihilator A
  let r := (← pairing A a b) * t % 𝐌
  if n = 0 then .undefined
  else
    Res.assertIn nd (decide (r % n = 0))
    return r / n

/-- `prod` (abelian.cpp L268-275) -/
def prod (A : Grp) (x n : Nat) : Res Nat := do
  let a ← toArray A x
  let a ← forUp (fun i (a : List Nat) => do
    let p ← Arith.modProd (← Vec.get a i) n (← Vec.get A.type i)
    Vec.put a i p.2) A.type.length 0 a
  toNbr a A.type

/-! ### `Homomorphism` -/

/-- data of `Homomorphism` (abelian.h L199-204) -/
structure Hom where
  source : List Nat
  dest : List Nat
  cosource : List Nat
  codest : List Nat
  ann : Nat
  mat : Mat Nat
  deriving DecidableEq, Repr

/-- the loops of the constructor that set cotypes (abelian.cpp L336-340) -/
def cotypes (M : Nat) (t : List Nat) : Res (List Nat) :=
  tab t.length fun i => do
    let ti ← Vec.get t i
    if ti = 0 then .undefined else return M / ti

/-- the constructor (abelian.cpp L322-341) -/
def Hom.make (al : List (List Nat)) (source dest : Grp) : Res Hom := do
  let l ← Arith.lcm (← annihilator source) (← annihilator dest)
  let m ← forUp (fun i (m : Mat Nat) => forUp (fun j (m : Mat Nat) => do m.set i j (← Vec.get (← Vec.get al i) j)) source.type.length 0 m)
    dest.type.length 0 (Mat.blank dest.type.length source.type.length)
  return ⟨source.type, dest.type, ← cotypes l.1 source.type, ← cotypes l.1 dest.type, l.1, m⟩

/-- body of the inner loop of `operator*` (abelian.cpp L357-361) -/
def Hom.step (h : Hom) (a : List Nat) (i j d : Nat) : Res Nat := do
  let p ← Arith.modProd (← h.mat.get i j) ((← Vec.get h.cosource j) * (← Vec.get a j) % 𝐌) h.ann
  return modAdd d p.2 h.ann

/-- `operator*` for an array (abelian.cpp L351-368) -/
def Hom.apply (nd : Bool) (h : Hom) (a : List Nat) : Res (List Nat) :=
  tab h.dest.length fun i => do
    let d ← forUp (h.step a i) a.length 0 0
    let c ← Vec.get h.codest i
    if c = 0 then .undefined
    else
      Res.assertIn nd (decide (d % c = 0))
      return d / c

/-- `operator*` for a number (abelian.cpp L378-382): the array passed to `to_array` is empty -/
def Hom.applyNbr (nd : Bool) (h : Hom) (x : Nat) : Res Nat := do
  toNbr (← h.apply nd (← toArrayInto [] x h.source)) h.dest

/-! ### functions -/

/-- `generators` (abelian.cpp L533-537) -/
def generators (B : BitMap) : Res (List Nat) := Verif.BitMap.elements B

/-- `basis` (abelian.cpp L410-440) -/
def basis (nd : Bool) (B : BitMap) (A : Grp) : Res (List (List Int)) := do
  let gen ← generators B
  let r := A.type.length
  let M ← forUp (fun i (M : Mat Int) => do M.set i i (Arith.toS 32 (← Vec.get A.type i : Nat))) r 0 (Mat.blank r (r + gen.length))
  let M ← forUp (fun i (M : Mat Int) => do
    Mat.setColumn nd M (r + i) (← toWeight A (List.replicate r 0) (← Vec.get gen i))) gen.length 0 M
  let s ← Mat.smithBasis nd M
  tab s.2.length fun j => do return (← Mat.column nd s.1 j).map (· * (← Vec.get s.2 j))

/-- the loop of `coset` (abelian.cpp L456-460), over the list of elements of `B` -/
def cosetLoop (nd : Bool) (A : Grp) (x : Nat) : List Nat → BitMap → Res BitMap
  | [], C => .ok C
  | y :: l, C => do cosetLoop nd A x l (← Verif.BitMap.insert nd C (← add A y x))

/-- `coset` (abelian.cpp L451-461) -/
def coset (nd : Bool) (C B : BitMap) (x : Nat) (A : Grp) : Res BitMap := do cosetLoop nd A x (← Verif.BitMap.elements B) (Verif.BitMap.reset C)

/-- the inner loop of `cycGenerators` (abelian.cpp L493-497) -/
def cycInner (nd : Bool) (A : Grp) (x n i : Nat) (cyc : BitMap) : Res BitMap := do
  if (← Arith.unsignedGcd n i) = 1 then Verif.BitMap.remove nd cyc (← prod A x i) else return cyc

/-- the loop of `cycGenerators` (abelian.cpp L488-498), with at most `fuel` passes -/
def cycLoop (nd : Bool) (A : Grp) : Nat → BitMap → Verif.BitMap.Iter → Res BitMap
  | 0, _, _ => .outOfFuel
  | k + 1, cyc, it =>
    if it.addr = it.cap then .ok cyc
    else do
      let n ← order A it.addr
      let cyc ← forUp (cycInner nd A it.addr n) (n - 2) 2 cyc
      cycLoop nd A k cyc (← Verif.BitMap.next cyc it)

/-- `cycGenerators` (abelian.cpp L478-505): from the type of `Astat` and `cyc` to their new values -/
def cycGenerators (nd : Bool) (s : List Nat × BitMap) (A : Grp) : Res (List Nat × BitMap) :=
  if s.1 ≠ A.type then do
    let cyc ← Verif.BitMap.setCapacity s.2 A.size
    let cyc ← Verif.BitMap.fillAll cyc
    let cyc ← cycLoop nd A (A.size + 1) cyc (← Verif.BitMap.next cyc (Verif.BitMap.begin cyc))
    return (A.type, cyc)
  else .ok s

/-- the static variables before the first call (abelian.cpp L480-481; `BitMap()`, bitmap.h L77) -/
def cycInit : List Nat × BitMap := ([], ⟨0, []⟩)

/-- body of the loop of `generateSubgroup` (abelian.cpp L519-524) -/
def genStep (nd : Bool) (A : Grp) (B : BitMap) (x i : Nat) (s : BitMap × BitMap) : Res (BitMap × BitMap) := do
  let xj ← prod A x i
  let c ← coset nd s.2 B xj A
  return (← Verif.BitMap.orAssign nd s.1 c, c)

/-- `generateSubgroup` (abelian.cpp L513-527) -/
def generateSubgroup (nd : Bool) (B : BitMap) (x : Nat) (A : Grp) : Res BitMap := do
  let n ← order A x
  let s ← forUp (genStep nd A B x) (n - 1) 1 (B, Verif.BitMap.make A.size)
  return s.1

/-- `isElementaryAbelian` (abelian.cpp L541-548) -/
def isElementaryAbelian : List Nat → Bool
  | [] => true
  | c :: l => if c ≠ 2 then false else isElementaryAbelian l

/-- the loop of `quotReps` (abelian.cpp L566-572), with at most `fuel` passes -/
def quotLoop (nd : Bool) (B : BitMap) (A : Grp) : Nat → BitMap → Verif.BitMap.Iter → Res BitMap
  | 0, _, _ => .outOfFuel
  | k + 1, qr, it =>
    if it.addr = it.cap then .ok qr
    else do
      let c ← coset nd (Verif.BitMap.make A.size) B it.addr A
      let c ← Verif.BitMap.remove nd c it.addr
      let qr ← Verif.BitMap.andnot nd qr c
      quotLoop nd B A k qr (← Verif.BitMap.next qr it)

/-- `quotReps` (abelian.cpp L561-574) -/
def quotReps (nd : Bool) (B : BitMap) (A : Grp) : Res BitMap := do
  let qr ← Verif.BitMap.fillAll (Verif.BitMap.make A.size)
  quotLoop nd B A (A.size + 1) qr (Verif.BitMap.begin qr)

/-- `toEndomorphism` (abelian.cpp L617-625) -/
def toEndomorphism (nd : Bool) (q : Mat Int) (A : Grp) : Res (Mat Nat) :=
  forUp (fun j (e : Mat Nat) => forUp (fun i (e : Mat Nat) => do
    let x ← Arith.remainder nd 64 (← q.get i j) (Arith.toS 64 (← Vec.get A.type i : Nat))
    e.set i j (Arith.toU 64 x)) q.rows 0 e) q.cols 0 (Mat.blank q.rows q.cols)

/-- `transpose` (abelian.cpp L657-673) -/
def transpose (e : Mat Nat) (A : Grp) : Res (Mat Nat) :=
  forUp (fun i (tr : Mat Nat) => forUp (fun j (tr : Mat Nat) => do
    let ti ← Vec.get A.type i
    let tj ← Vec.get A.type j
    let d ← Arith.unsignedGcd ti tj
    let ni := ti / d
    let nj := tj / d
    if ni = 0 then .undefined
    else tr.set j i (nj * ((← e.get i j) / ni) % 𝐌)) e.cols 0 tr) e.rows 0 (Mat.blank e.cols e.rows)

end Verif.Ab
