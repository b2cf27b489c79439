import Verif.Common
import Verif.Bits.Model
/-
Model of namespace `arithmetic` (/repo/sources/utilities/arithmetic.h, arithmetic.cpp).

Signed values are integers, unsigned values are naturals.  `Numer_t` is a 64-bit signed and
`Denom_t` a 64-bit unsigned type (arithmetic_fwd.h L21-22).  Signed arithmetic whose result
does not fit is undefined behaviour; unsigned arithmetic wraps around.  Conversion of unsigned
to signed wraps around (as all compilers do, and as C++20 demands).
-/
namespace Verif.Arith

/-- number of values of a 64-bit type -/
scoped notation "𝐌" => (18446744073709551616 : Nat)

/-- a signed type of `w` bits can hold `x` -/
def fits (w : Nat) (x : Int) : Prop := -2 ^ (w - 1) ≤ x ∧ x < 2 ^ (w - 1)

instance (w : Nat) (x : Int) : Decidable (fits w x) := inferInstanceAs (Decidable (_ ∧ _))

/-- the result `x` of a computation in a signed type of `w` bits -/
def sgn (w : Nat) (x : Int) : Res Int := if fits w x then .ok x else .undefined

/-- conversion of signed to unsigned -/
def toU (w : Nat) (x : Int) : Nat := (x % 2 ^ w).toNat

/-- conversion of unsigned (or of a wider signed value) to signed -/
def toS (w : Nat) (x : Int) : Int :=
  if x % 2 ^ w < 2 ^ (w - 1) then x % 2 ^ w else x % 2 ^ w - 2 ^ w

/-- `divide<I>` (arithmetic.h L248-254) for a signed type `I` of `w ≥ 32` bits -/
def divide (w : Nat) (a b : Int) : Res Int :=
  let ub := toU w b
  if ub = 0 then .undefined
  else if 0 ≤ a then .ok (toS w (toU w a / ub : Nat))
  else do
    let c ← sgn w (-1 - a)
    sgn w (-1 - toS w (toU w c / ub : Nat))

/-- `divide<Denom_t>` (arithmetic.h L257-259) -/
def divideU (a b : Nat) : Res Nat := if b = 0 then .undefined else .ok (a / b)

/-- `remainder<I>` (arithmetic.h L273-280): in a build with `NDEBUG` the assertion is absent -/
def remainder (ndebug : Bool) (w : Nat) (a b : Int) : Res Int := do
  Res.assertIn ndebug (decide (0 < b))
  let ub := toU w b
  if ub = 0 then .undefined
  else if 0 ≤ a then return toS w (toU w a % ub : Nat)
  else
    let c ← sgn w (-1 - a)
    return toS w ((2 ^ w - 1 - toU w c % ub + ub : Nat) % (2 ^ w : Nat) : Nat)

/-- the loop of `unsigned_gcd` (arithmetic.cpp L41-48), with at most `fuel` passes -/
def ugcdLoop : Nat → Nat → Nat → Res Nat
  | 0, _, _ => .outOfFuel
  | n + 1, a, b =>
    let a := a % b
    if a = 0 then .ok b
    else
      let b := b % a
      if b ≠ 0 then ugcdLoop n a b else .ok a

/-- `unsigned_gcd` (arithmetic.cpp L41-48) -/
def unsignedGcd (a b : Nat) : Res Nat := if b = 0 then .undefined else ugcdLoop b a b

/-- `div_gcd` (arithmetic.h L282) -/
def divGcd (d a : Nat) : Res Nat := do return d / (← unsignedGcd a d)

/-- `gcd` (arithmetic.h L284-291) -/
def gcd (a : Int) (b : Nat) : Res Nat :=
  if 0 < a then unsignedGcd (toU 64 a) b
  else if a = 0 then .ok b
  else do
    let c ← sgn 64 (-a)
    unsignedGcd (toU 64 c) b

/-- the loop of `lcm` (arithmetic.cpp L65-71) and what follows; the result is the triple of the
returned value, `gcd` and `mult_a` -/
def lcmLoop : Nat → Nat → Nat → Nat → Nat → Res (Nat × Nat × Nat)
  | 0, _, _, _, _ => .outOfFuel
  | n + 1, c, d, mc, md =>
    let md := (md + d / c * mc) % 𝐌
    let d := d % c
    if d = 0 then .ok (md, c, mc)
    else
      let mc := (mc + c / d * md) % 𝐌
      let c := c % d
      if 0 < c then lcmLoop n c d mc md
      else .ok (mc, d, if md = 0 then 0 else (mc + (𝐌 - md)) % 𝐌)

/-- `lcm` (arithmetic.cpp L60-75): returned value, `gcd`, `mult_a` -/
def lcm (a b : Nat) : Res (Nat × Nat × Nat) :=
  if a = 0 then .undefined else lcmLoop a a b a 0

/-- `modAdd` (arithmetic.h L294-300) -/
def modAdd (a b n : Nat) : Nat :=
  let nb := (n + (𝐌 - b)) % 𝐌
  if a < nb then (a + b) % 𝐌 else (a + (𝐌 - nb)) % 𝐌

/-- `modProd` (arithmetic.cpp L87-93): whether the message was printed (`NumericOverflow` only
prints, error.cpp L45-53) and the value returned -/
def modProd (a b n : Nat) : Res (Bool × Nat) :=
  if n = 0 then .undefined else .ok (decide (2 ^ 32 < n), a * b % 𝐌 % n)

/-- the loop of `power` (arithmetic.cpp L102-106), `l` passes left -/
def powerLoop (x n : Nat) : Nat → Nat → Nat
  | 0, r => r
  | l + 1, r =>
    let r := r * r % 𝐌
    powerLoop x n l (if (n >>> l) &&& 1 ≠ 0 then r * x % 𝐌 else r)

/-- `power` (arithmetic.cpp L95-108) -/
def power (x n : Nat) : Nat :=
  if n = 0 then 1 else if x ≤ 1 then x else powerLoop x n (Bits.lastBit n) 1

/-- `exp_minus_1` (arithmetic.h L46) for a signed value -/
def expMinus1 (n : Int) : Int := if n.tmod 2 = 0 then 1 else -1

/-- `exp_i` (arithmetic.h L47-48) -/
def expI (n : Int) : Res Int := do
  Res.assert (decide (n.tmod 2 = 0))
  return if n.tmod 4 = 0 then 1 else -1

/-! ### class `Rational<Numer_t>` -/

/-- data of `Rational<I>` (arithmetic.h L60-64), `I` = `Numer_t` -/
structure Rational where
  num : Int
  den : Nat
  deriving DecidableEq, Repr

namespace Rational

/-- `normalize` (arithmetic.h L302-312) -/
def normalize (r : Rational) : Res Rational := do
  let d ← Arith.gcd r.num r.den
  if 1 < d then
    let sd := toS 64 d
    if sd = 0 then .undefined
    else return ⟨← sgn 64 (r.num.tdiv sd), r.den / d⟩
  else return r

/-- constructor (arithmetic.h L67-68) -/
def make (n : Int) (d : Nat) : Res Rational := normalize ⟨n, d⟩

/-- `denominator` (arithmetic.h L79) -/
def denominator (r : Rational) : Int := toS 64 r.den

/-- `operator=` (arithmetic.h L99-100) -/
def assign (q : Rational) : Res Rational := normalize q

/-- `operator+` (arithmetic.cpp L154-162) -/
def add (r q : Rational) : Res Rational := do
  let r ← normalize r
  let (l, _, _) ← lcm r.den q.den
  if q.den = 0 then .undefined
  let x ← sgn 64 (r.num * toS 64 (l / r.den : Nat))
  let y ← sgn 64 (q.num * toS 64 (l / q.den : Nat))
  make (← sgn 64 (x + y)) l

/-- `operator-` (arithmetic.cpp L163-171) -/
def sub (r q : Rational) : Res Rational := do
  let r ← normalize r
  let (l, _, _) ← lcm r.den q.den
  if q.den = 0 then .undefined
  let x ← sgn 64 (r.num * toS 64 (l / r.den : Nat))
  let y ← sgn 64 (q.num * toS 64 (l / q.den : Nat))
  make (← sgn 64 (x - y)) l

/-- `operator*` (arithmetic.cpp L173-181).  In `num/d` and `q.num/=d` the signed operand is
converted to unsigned, as `d` is unsigned. -/
def mul (r q : Rational) : Res Rational := do
  let r ← normalize r
  let q ← normalize q
  let d ← Arith.gcd r.num q.den
  if d = 0 then .undefined
  let (newNum, qden) := if d = 1 then (r.num, q.den) else (toS 64 (toU 64 r.num / d : Nat), q.den / d)
  let d ← Arith.gcd q.num r.den
  if d = 0 then .undefined
  let (newDen, qnum) := if d = 1 then (r.den, q.num) else (r.den / d, toS 64 (toU 64 q.num / d : Nat))
  make (← sgn 64 (newNum * qnum)) (newDen * qden % 𝐌)

/-- `operator/` (arithmetic.cpp L183-196) -/
def div (ndebug : Bool) (r q : Rational) : Res Rational := do
  Res.assertIn ndebug (decide (q.num ≠ 0))
  let r ← normalize r
  let q ← normalize q
  let d ← unsignedGcd r.den q.den
  let (newDen, qden) := if d = 1 then (r.den, q.den) else (r.den / d, q.den / d)
  let aq ← sgn 64 (q.num.natAbs : Int)
  let sd := toS 64 (← Arith.gcd r.num (toU 64 aq))
  if sd = 0 then .undefined
  let (newNum, qnum) ← (if sd = 1 then pure (r.num, q.num)
    else do pure (← sgn 64 (r.num.tdiv sd), ← sgn 64 (q.num.tdiv sd)) : Res (Int × Int))
  if 0 < qnum then make (← sgn 64 (newNum * toS 64 qden)) (newDen * toU 64 qnum % 𝐌)
  else
    let nn ← sgn 64 (-newNum)
    let nq ← sgn 64 (-qnum)
    make (← sgn 64 (nn * toS 64 qden)) (newDen * toU 64 nq % 𝐌)

/-- `operator%` (arithmetic.cpp L198-216).  The two branches of the code are the same
computation, as division by `d = 1` changes nothing; the model has only the second. -/
def mod (ndebug : Bool) (r q : Rational) : Res Rational := do
  Res.assertIn ndebug (decide (q.num ≠ 0))
  let d ← unsignedGcd r.den q.den
  let qden := q.den / d
  let aq ← sgn 64 (q.num.natAbs : Int)
  let x ← sgn 64 (r.num * toS 64 qden)
  let rem ← remainder ndebug 64 x (toS 64 (r.den / d * toU 64 aq % 𝐌 : Nat))
  let s ← make rem (r.den * qden % 𝐌)
  normalize s

/-- unary `operator-` (arithmetic.h L95) -/
def neg (r : Rational) : Res Rational := do make (← sgn 64 (-r.num)) r.den

/-- `inverse` (arithmetic.h L96-97) -/
def inverse (r : Rational) : Res Rational := do
  if 0 < r.num then make (toS 64 r.den) (toU 64 r.num)
  else
    let n ← sgn 64 (-r.num)
    make (toS 64 ((𝐌 - r.den) % 𝐌 : Nat)) (toU 64 n)

/-- `operator+=(I)` (arithmetic.h L109): `n*denom` and the sum are computed unsigned -/
def addInt (r : Rational) (n : Int) : Rational :=
  ⟨toS 64 ((toU 64 r.num + toU 64 n * r.den : Nat) % (𝐌 : Nat) : Nat), r.den⟩

/-- `operator-=(I)` (arithmetic.h L110) -/
def subInt (r : Rational) (n : Int) : Rational :=
  ⟨toS 64 ((toU 64 r.num + (𝐌 - toU 64 n * r.den % 𝐌) : Nat) % (𝐌 : Nat) : Nat), r.den⟩

/-- `operator*=(I)` (arithmetic.cpp L110-126) -/
def mulInt (ndebug : Bool) (r : Rational) (n : Int) : Res Rational := do
  if n = 0 then return ⟨0, 1⟩
  else
    let r ← normalize r
    let (n, num) ← (if n < 0 then do pure (← sgn 64 (-n), ← sgn 64 (-r.num)) else pure (n, r.num) : Res (Int × Int))
    let d ← unsignedGcd r.den (toU 64 n)
    let f := toS 64 (toU 64 n / d : Nat)
    if f = 0 then .undefined
    Res.assertIn ndebug (decide (num < (2 ^ 63 - 1 : Int).tdiv f))
    return ⟨← sgn 64 (num * f), r.den / d⟩

/-- `operator/=(I)` (arithmetic.cpp L128-143) -/
def divInt (ndebug : Bool) (r : Rational) (n : Int) : Res Rational := do
  Res.assertIn ndebug (decide (n ≠ 0))
  let r ← normalize r
  let (n, num) ← (if n < 0 then do pure (← sgn 64 (-n), ← sgn 64 (-r.num)) else pure (n, r.num) : Res (Int × Int))
  let a ← sgn 64 (num.natAbs : Int)
  let d := toS 64 (← unsignedGcd (toU 64 a) (toU 64 n))
  if d = 0 then .undefined
  let num ← sgn 64 (num.tdiv d)
  let f ← sgn 64 (n.tdiv d)
  if f = 0 then .undefined
  Res.assertIn ndebug (decide (toU 64 num < (𝐌 - 1) / toU 64 f))
  return ⟨num, r.den * toU 64 f % 𝐌⟩

/-- `operator%=(I)` (arithmetic.cpp L145-151) -/
def modInt (ndebug : Bool) (r : Rational) (n : Int) : Res Rational := do
  Res.assertIn ndebug (decide (n ≠ 0))
  let r ← normalize r
  let a ← sgn 64 (n.natAbs : Int)
  return ⟨← remainder ndebug 64 r.num (toS 64 (r.den * toU 64 a % 𝐌 : Nat)), r.den⟩

/-- `mod1` (arithmetic.h L114) -/
def mod1 (ndebug : Bool) (r : Rational) : Res Rational := do
  return ⟨← remainder ndebug 64 r.num r.denominator, r.den⟩

/-- `floor` (arithmetic.h L116) -/
def floor (r : Rational) : Res Int := divide 64 r.num (toS 64 r.den)

/-- `ceil` (arithmetic.h L117) -/
def ceil (r : Rational) : Res Int := do
  sgn 64 (-(← divide 64 (← sgn 64 (-r.num)) (toS 64 r.den)))

/-- `quotient` (arithmetic.h L118-119) -/
def quotient (r : Rational) (n : Nat) : Res Int := divide 64 r.num (toS 64 (n * r.den % 𝐌 : Nat))

/-- `operator==` (arithmetic.h L122-123) -/
def beq (r q : Rational) : Res Bool := do
  return decide ((← sgn 64 (r.num * q.denominator)) = (← sgn 64 (r.denominator * q.num)))

/-- `operator<` (arithmetic.h L126-127) -/
def lt (r q : Rational) : Res Bool := do
  return decide ((← sgn 64 (r.num * q.denominator)) < (← sgn 64 (r.denominator * q.num)))

/-- `operator<=` (arithmetic.h L128-129) -/
def le (r q : Rational) : Res Bool := do
  return decide ((← sgn 64 (r.num * q.denominator)) ≤ (← sgn 64 (r.denominator * q.num)))

/-- `power` (arithmetic.cpp L218-231) -/
def power (r : Rational) (n : Int) : Res Rational := do
  let r ← normalize r
  let numer := toU 64 (← sgn 64 (r.num.natAbs : Int))
  if n < 0 then
    if r.num = 0 then .throw
    else
      let n ← sgn 32 (-n)
      let nn := Arith.power r.den (toU 32 n)
      let dd := Arith.power numer (toU 32 n)
      let num ← (if 0 ≤ r.num ∨ n.tmod 2 = 0 then pure (toS 64 nn) else sgn 64 (-toS 64 nn) : Res Int)
      return ⟨num, dd⟩
  else
    let nn := Arith.power numer (toU 32 n)
    let dd := Arith.power r.den (toU 32 n)
    let num ← (if 0 ≤ r.num ∨ n.tmod 2 = 0 then pure (toS 64 nn) else sgn 64 (-toS 64 nn) : Res Int)
    return ⟨num, dd⟩

end Rational

/-! ### class `Split_integer` -/

/-- data of `Split_integer` (arithmetic.h L152-154) -/
structure SplitInt where
  ev1 : Int
  evm1 : Int
  deriving DecidableEq, Repr

namespace SplitInt

/-- private constructor (arithmetic.h L157-159), with components computed in type `int` -/
def raw (x y : Int) : Res SplitInt := do return ⟨← sgn 32 x, ← sgn 32 y⟩

/-- constructor (arithmetic.h L161-162) -/
def make (a b : Int) : Res SplitInt := raw (a + b) (a - b)

/-- `e` (arithmetic.h L164) -/
def e (x : SplitInt) : Int := toS 32 ((x.ev1 + x.evm1).tdiv 2)
/-- `s` (arithmetic.h L165) -/
def s (x : SplitInt) : Int := toS 32 ((x.ev1 - x.evm1).tdiv 2)

/-- `operator==` (arithmetic.h L167-168) -/
def beq (x y : SplitInt) : Bool := x.ev1 == y.ev1 && x.evm1 == y.evm1
/-- `is_zero` (arithmetic.h L170) -/
def isZero (x : SplitInt) : Bool := x.ev1 == 0 && x.evm1 == 0

/-- `operator+=(int)` (arithmetic.h L172) -/
def addInt (x : SplitInt) (n : Int) : Res SplitInt := raw (x.ev1 + n) (x.evm1 + n)
/-- `operator-=(int)` (arithmetic.h L173) -/
def subInt (x : SplitInt) (n : Int) : Res SplitInt := raw (x.ev1 - n) (x.evm1 - n)
/-- `operator+=`, `operator+` (arithmetic.h L174-175, L179-180) -/
def add (x y : SplitInt) : Res SplitInt := raw (x.ev1 + y.ev1) (x.evm1 + y.evm1)
/-- `operator-=`, `operator-` (arithmetic.h L176-177, L181-182) -/
def sub (x y : SplitInt) : Res SplitInt := raw (x.ev1 - y.ev1) (x.evm1 - y.evm1)
/-- unary `operator-`, `negate` (arithmetic.h L183-184, L195) -/
def neg (x : SplitInt) : Res SplitInt := raw (-x.ev1) (-x.evm1)
/-- multiplication by `int` (arithmetic.h L187, L190-191) -/
def mulInt (x : SplitInt) (n : Int) : Res SplitInt := raw (x.ev1 * n) (x.evm1 * n)
/-- multiplication (arithmetic.h L188-189, L192-193) -/
def mul (x y : SplitInt) : Res SplitInt := raw (x.ev1 * y.ev1) (x.evm1 * y.evm1)
/-- `times_s` (arithmetic.h L197-199) -/
def timesS (x : SplitInt) : Res SplitInt := raw x.ev1 (-x.evm1)
/-- `times_1_s` (arithmetic.h L200-204) -/
def times1S (x : SplitInt) : Res SplitInt := raw 0 (2 * x.evm1)
/-- `times_1_plus_s` (arithmetic.h L206-209) -/
def times1PlusS (x : SplitInt) : Res SplitInt := raw (2 * x.ev1) 0
/-- `s_to_1` (arithmetic.h L211) -/
def sTo1 (x : SplitInt) : Int := x.ev1
/-- `s_to_minus_1` (arithmetic.h L212) -/
def sToMinus1 (x : SplitInt) : Int := x.evm1

end SplitInt
end Verif.Arith
