import Verif.Arith.Model
import Verif.BigInt.Model
import Verif.Mat.Model
/-
Model of class `RationalVector<Numer_t>` (/repo/sources/utilities/ratvec.h, ratvec.cpp).

Numerators are 64-bit signed, the denominator 64-bit unsigned.  Signed arithmetic that leaves its
range is undefined behaviour (`Arith.sgn`), unsigned arithmetic wraps around modulo `2^64`.
Loops over the entries are run from first to last; where the code goes from last to first the
entries do not influence each other.  `nd` says whether `NDEBUG` is defined.  The operators that
return a new value (`+`, `-`, `*`, `/`, `%` of ratvec.h L97-142, L207-212) call the assignment
operators modelled here on a copy, for each combination of value categories of the operands; the
version `a - std::move(b)` calls `negate_add`.
-/
namespace Verif.RatVec

open Verif.Arith (sgn toS toU fits)

/-- number of values of a 64-bit type -/
scoped notation "𝐌" => (18446744073709551616 : Nat)

/-- data of `RationalVector` (ratvec.h L39-40) -/
structure RatVec where
  num : List Int
  den : Nat
  deriving DecidableEq, Repr

/-- a loop that replaces every entry (as in matrix.cpp L78-84, ratvec.cpp L142-143) -/
def each (f : Int → Res Int) : List Int → Res (List Int)
  | [] => .ok []
  | x :: l => do
    let y ← f x
    let r ← each f l
    pure (y :: r)

/-- a loop that combines every entry with the corresponding one of a second vector, which may
not be shorter (as in matrix.h L115-121, ratvec.cpp L70-71) -/
def each2 (f : Int → Int → Res Int) : List Int → List Int → Res (List Int)
  | [], _ => .ok []
  | _ :: _, [] => .undefined
  | x :: l, y :: m => do
    let z ← f x y
    let r ← each2 f l m
    pure (z :: r)

/-- `Vector::negate` (matrix.cpp L129-136) -/
def negVec (v : List Int) : Res (List Int) := each (fun x => sgn 64 (-x)) v

/-- `Vector::operator*=` (matrix.cpp L78-85) -/
def scaleVec (v : List Int) (c : Int) : Res (List Int) := each (fun x => sgn 64 (x * c)) v

/-- zero vector (ratvec.h L45); for `r = 0` also the default constructor (L69) -/
def zero (r : Nat) : RatVec := ⟨List.replicate r 0, 1⟩

/-- constructors from numerator and denominator (ratvec.h L48-53, L62-66) -/
def make (v : List Int) (d : Int) : Res RatVec := do
  let a ← sgn 64 (d.natAbs : Int)
  let n ← (if d < 0 then negVec v else pure v : Res (List Int))
  pure ⟨n, toU 64 a⟩

/-- constructor from a vector and a rational factor (ratvec.h L55-60) -/
def makeQ (v : List Int) (r : Arith.Rational) : Res RatVec := do
  pure ⟨← scaleVec v r.num, r.den⟩

/-- `denominator()` (ratvec.h L78) -/
def denominator (v : RatVec) : Int := toS 64 v.den

/-- `is_zero` (ratvec.h L81, matrix.cpp L138-145) -/
def isZero (v : RatVec) : Bool := v.num.all (· == 0)

/-- the loop of `normalize` (ratvec.cpp L180-185); `none` for the early return -/
def gcdLoop : List Int → Nat → Res (Option Nat)
  | [], d => .ok (some d)
  | x :: l, d => do
    let d ← Arith.gcd x d
    if d = 1 then pure none else gcdLoop l d

/-- exact division of all entries, `Vector::operator/=` (matrix.cpp L90-101) -/
def divExact (v : List Int) (c : Int) : Res (List Int) :=
  if c = 0 then .throw
  else each (fun x => if x.tmod c = 0 then sgn 64 (x.tdiv c) else .throw) v

/-- `normalize` (ratvec.cpp L172-192) -/
def normalize (v : RatVec) : Res RatVec := do
  if v.den = 0 then .throw
  else
    match ← gcdLoop v.num v.den with
    | none => pure v
    | some d => pure ⟨← divExact v.num (toS 64 d), v.den / d⟩

/-- the loop of `operator==` (ratvec.cpp L38-42) on the numerators, for denominators (already
converted to `big_int`) `dv` of the second and `dthis` of the first vector -/
def eqLoop (dv dthis : BigInt.Digits) : List Int → List Int → Bool
  | x :: l, y :: m =>
    if BigInt.beq (BigInt.mul (BigInt.fromSigned x) dv) (BigInt.mul (BigInt.fromSigned y) dthis)
    then eqLoop dv dthis l m else false
  | _, _ => true

/-- `operator==` (ratvec.cpp L31-43) -/
def eq (a v : RatVec) : Bool :=
  if a.num.length ≠ v.num.length then false
  else eqLoop (BigInt.fromUnsigned v.den) (BigInt.fromUnsigned a.den) a.num v.num

/-- the loop of `operator<` (ratvec.cpp L53-60); the operands of the subtraction are temporaries -/
def ltLoop (dv dthis : BigInt.Digits) : List Int → List Int → Bool
  | x :: l, y :: m =>
    let d := BigInt.minusRR (BigInt.mul (BigInt.fromSigned x) dv) (BigInt.mul (BigInt.fromSigned y) dthis)
    if BigInt.isZero d then ltLoop dv dthis l m else BigInt.isNegative d
  | _, _ => false

/-- `operator<` (ratvec.cpp L45-61) -/
def lt (a v : RatVec) : Bool :=
  if a.num.length ≠ v.num.length then decide (a.num.length < v.num.length)
  else ltLoop (BigInt.fromUnsigned v.den) (BigInt.fromUnsigned a.den) a.num v.num

/-- what `+=`, `-=` and `negate_add` have in common (ratvec.cpp L66-74, L79-87, L92-100); `f`
combines the two products, in unsigned arithmetic -/
def combine (nd : Bool) (f : Nat → Nat → Nat) (a v : RatVec) : Res RatVec := do
  Res.assertIn nd (decide (a.num.length = v.num.length))
  let (m, g, _) ← Arith.lcm a.den v.den
  if g = 0 then .undefined
  else
    let f0 := v.den / g
    let f1 := a.den / g
    if nd = false ∧ v.den = 0 then .undefined
    else
      Res.assertIn nd (decide (f0 = m / a.den ∧ f1 = m / v.den))
      let n ← each2 (fun x y => pure (toS 64 (f (toU 64 x * f0 % 𝐌) (toU 64 y * f1 % 𝐌) : Nat))) a.num v.num
      normalize ⟨n, m⟩

/-- `+=` (ratvec.cpp L63-74) -/
def add (nd : Bool) (a v : RatVec) : Res RatVec := combine nd (fun x y => (x + y) % 𝐌) a v

/-- `-=` (ratvec.cpp L76-87) -/
def sub (nd : Bool) (a v : RatVec) : Res RatVec := combine nd (fun x y => (x + (𝐌 - y)) % 𝐌) a v

/-- `negate_add` (ratvec.cpp L89-100) -/
def negateAdd (nd : Bool) (a v : RatVec) : Res RatVec := combine nd (fun x y => (y + (𝐌 - x)) % 𝐌) a v

/-- `negate` (ratvec.h L90) -/
def neg (a : RatVec) : Res RatVec := do pure ⟨← negVec a.num, a.den⟩

/-- `*=` by an integer (ratvec.cpp L104-118); `INT64_MIN % -1` is undefined -/
def mulInt (a : RatVec) (n : Int) : Res RatVec := do
  if n ≠ 0 then
    if toS 64 a.den = -2 ^ 63 ∧ n = -1 then .undefined
    else if (toS 64 a.den).tmod n = 0 then
      if 0 < n then pure ⟨a.num, a.den / toU 64 n⟩
      else
        let v ← negVec a.num
        let m ← sgn 64 (-n)
        pure ⟨v, a.den / toU 64 m⟩
    else pure ⟨← scaleVec a.num n, a.den⟩
  else pure ⟨← scaleVec a.num n, a.den⟩

/-- `/=` by an integer (ratvec.cpp L123-135) -/
def divInt (nd : Bool) (a : RatVec) (n : Int) : Res RatVec := do
  Res.assertIn nd (decide (n ≠ 0))
  if 0 < n then pure ⟨a.num, a.den * toU 64 n % 𝐌⟩
  else
    let v ← negVec a.num
    pure ⟨v, a.den * ((𝐌 - toU 64 n) % 𝐌) % 𝐌⟩

/-- `%=` by an integer (ratvec.cpp L137-145) -/
def modInt (nd : Bool) (a : RatVec) (n : Int) : Res RatVec := do
  Res.assertIn nd (decide (n ≠ 0))
  let b ← sgn 64 (n.natAbs : Int)
  let modulus := toS 64 (a.den * toU 64 b % 𝐌 : Nat)
  pure ⟨← each (fun x => Arith.remainder nd 64 x modulus) a.num, a.den⟩

/-- `*=` by a rational number (ratvec.cpp L147-150) -/
def mulAssignQ (nd : Bool) (a : RatVec) (r : Arith.Rational) : Res RatVec := do
  mulInt (← divInt nd a r.denominator) r.num

/-- `*` by a rational number (ratvec.cpp L152-157) -/
def mulQ (a : RatVec) (r : Arith.Rational) : Res RatVec := do
  make (← scaleVec a.num r.num) (toS 64 (a.den * toU 64 r.denominator % 𝐌 : Nat))

/-- `/=` by a rational number (ratvec.cpp L159-163) -/
def divAssignQ (nd : Bool) (a : RatVec) (r : Arith.Rational) : Res RatVec := do
  Res.assertIn nd (decide (r.num ≠ 0))
  mulInt (← divInt nd a r.num) r.denominator

/-- `/` by a rational number (ratvec.cpp L165-170) -/
def divQ (a : RatVec) (r : Arith.Rational) : Res RatVec := do
  make (← scaleVec a.num r.denominator) (toS 64 (a.den * toU 64 r.num % 𝐌 : Nat))

/-- `Vector::add` (matrix.h L115-121): add `c` times the vector `w` -/
def addMul (v w : List Int) (c : Int) : Res (List Int) :=
  if c ≠ 0 then each2 (fun x y => do sgn 64 (x + (← sgn 64 (y * c)))) v w else .ok v

/-- `+=` an integral vector (ratvec.h L118-120) -/
def addVec (a : RatVec) (w : List Int) : Res RatVec := do pure ⟨← addMul a.num w (denominator a), a.den⟩

/-- `-=` an integral vector (ratvec.h L121-123, matrix.h L122) -/
def subVec (a : RatVec) (w : List Int) : Res RatVec := do
  pure ⟨← addMul a.num w (← sgn 64 (-denominator a)), a.den⟩

/-- `subtract_from` an integral vector (ratvec.h L131-133, L140-142) -/
def subtractFrom (a : RatVec) (w : List Int) : Res RatVec := do addVec (← neg a) w

/-- the loop of `Vector::dot` (matrix.h L128-130) -/
def dotLoop : List Int → List Int → Int → Res Int
  | [], _, c => .ok c
  | _ :: _, [], _ => .undefined
  | x :: l, y :: m, c => do
    let p ← sgn 64 (x * y)
    let c ← sgn 64 (c + p)
    dotLoop l m c

/-- `Vector::dot` (matrix.h L125-132) -/
def dotVec (nd : Bool) (w v : List Int) : Res Int := do
  Res.assertIn nd (decide (w.length = v.length))
  dotLoop w v 0

/-- `dot` (ratvec.h L160-166); division by zero, and of `INT64_MIN` by `-1`, is undefined -/
def dot (nd : Bool) (a : RatVec) (w : List Int) : Res Int := do
  let num ← dotVec nd w a.num
  let d := denominator a
  if d = 0 then .undefined
  else
    Res.assertIn nd (decide (num.tmod d = 0))
    sgn 64 (num.tdiv d)

/-- `dot_Q` (ratvec.h L169-174) -/
def dotQ (nd : Bool) (a : RatVec) (w : List Int) : Res Arith.Rational := do
  let num ← dotVec nd w a.num
  Arith.Rational.make num a.den

/-- `integer_diff` (ratvec.h L178-191), for a result type of `w` bits -/
def integerDiff (nd : Bool) (w : Nat) (a v : RatVec) : Res (List Int) := do
  Res.assertIn nd (decide (a.num.length = v.num.length))
  let a ← normalize a
  let v ← normalize v
  Res.assertIn nd (decide (a.den = v.den))
  let d := denominator a
  if d = 0 then .undefined
  else
    each2 (fun x y => do
      let z ← sgn 64 (x - y)
      Res.assertIn nd (decide (z.tmod d = 0))
      let q ← sgn 64 (z.tdiv d)
      pure (toS w q)) a.num v.num

/-- product of a matrix and a vector (matrix.h L434-454) in 64-bit arithmetic -/
def apply (nd : Bool) (A : Mat.Mat Int) (w : List Int) : Res (List Int) := do
  Res.assertIn nd (decide (A.cols = w.length))
  Mat.tab A.rows fun i => Mat.forUp (fun j c => do
    let p ← sgn 64 ((← A.get i j) * (← Vec.get w j))
    sgn 64 (c + p)) A.cols 0 (0 : Int)

/-- product of a vector and a matrix (matrix.h L456-476) in 64-bit arithmetic -/
def rightProd (nd : Bool) (A : Mat.Mat Int) (w : List Int) : Res (List Int) := do
  Res.assertIn nd (decide (A.rows = w.length))
  Mat.tab A.cols fun j => Mat.forUp (fun i c => do
    let p ← sgn 64 ((← Vec.get w i) * (← A.get i j))
    sgn 64 (c + p)) A.rows 0 (0 : Int)

/-- `M*v` (ratvec.cpp L195-200) -/
def mulMat (nd : Bool) (A : Mat.Mat Int) (v : RatVec) : Res RatVec := do
  make (← apply nd A v.num) (denominator v)

/-- `v*M` (ratvec.cpp L202-207) -/
def vecMulMat (nd : Bool) (v : RatVec) (A : Mat.Mat Int) : Res RatVec := do
  make (← rightProd nd A v.num) (denominator v)

/-- `Vector::operator+=` (matrix.cpp L46-54) in 64-bit arithmetic -/
def addNum (nd : Bool) (v w : List Int) : Res (List Int) := do
  Res.assertIn nd (decide (v.length = w.length))
  each2 (fun x y => sgn 64 (x + y)) v w

/-- `symmetrise(M,v)` (ratvec.h L225-231) -/
def symmetrise (nd : Bool) (A : Mat.Mat Int) (v : RatVec) : Res RatVec := do
  let n ← addNum nd v.num (← apply nd A v.num)
  normalize (← divInt nd ⟨n, v.den⟩ 2)

/-- `symmetrise(v,M)` (ratvec.h L234-240) -/
def symmetriseDual (nd : Bool) (v : RatVec) (A : Mat.Mat Int) : Res RatVec := do
  let n ← addNum nd v.num (← rightProd nd A v.num)
  normalize (← divInt nd ⟨n, v.den⟩ 2)

end Verif.RatVec
