import Verif.BigInt.Model
/-
Model of `gcd`, `lcm`, decimal output and class `big_rat`
(/repo/sources/utilities/bigint.cpp L525-550, L979-1050, bigint.h L205-390).
-/
namespace Verif.BigInt

/-- sequencing of calls: an exception or failed assertion ends the whole computation -/
def Outcome.bind {α β : Type} (x : Outcome α) (f : α → Outcome β) : Outcome β :=
  match x with
  | .ok a => f a
  | .throw => .throw
  | .assertFail => .assertFail

instance : Monad Outcome where
  pure := .ok
  bind := Outcome.bind

/-- the loop of `gcd` (bigint.cpp L989-992).  The number of iterations is bounded by the first
argument, which the model takes large enough; running out is represented by
`assertFail` (the theorems show that it does not happen). -/
def gcdLoop : Nat → Digits → Digits → Outcome Digits
  | 0, _, _ => .assertFail
  | n + 1, a, b => do
    let b ← modAssign b a
    if isZero b then return a
    let a ← modAssign a b
    if isZero a then return b
    gcdLoop n a b

/-- the magnitude of the digit vector, used as bound on the number of iterations only -/
def fuelOf : Digits → Nat
  | [] => 1
  | x :: l => x + 1 + 𝐁 * fuelOf l

/-- `gcd` (bigint.cpp L979-993) -/
def gcd (a b : Digits) : Outcome Digits :=
  if isZero a then .ok (if isNegative b then negate b else b)
  else
    let a := if isNegative a then negate a else a
    gcdLoop (fuelOf a) a b

/-- `lcm` (bigint.cpp L995-1002) -/
def lcm (a b : Digits) : Outcome Digits := do
  let d ← gcd a b
  if eqInt d 1 then return mul a b
  else if a.length ≤ b.length then return mul (← divAssign a d) b
  else return mul a (← divAssign b d)

/-! ### decimal output -/

/-- `out << std::setw(9) << last` with fill character `'0'` (bigint.cpp L536-537) -/
def pad9 (n : Nat) : List Char :=
  let s := Nat.toDigits 10 n
  List.replicate (9 - s.length) '0' ++ s

/-- the recursive auxiliary `print` (bigint.cpp L525-540), for a stream without width set
(fill character and width are restored).  Output of a value of type `int` is modelled by
`Int.repr`.  Recursion depth is bounded by the first argument; `none` stands for running
out of it, or for an exception thrown by `int_val`. -/
def print : Nat → Digits → Bool → Option (List Char)
  | 0, _, _ => none
  | n + 1, d, minus =>
    if d.length = 1 then (intVal d).map fun v => (Int.repr (if minus then -v else v)).toList
    else
      let r := shiftModulo d 1000000000
      (print n r.1 minus).map (· ++ pad9 r.2)

/-- `operator<<` (bigint.cpp L542-549) -/
def output (d : Digits) : Option (List Char) :=
  let neg := isNegative d
  let d := if neg then negate d else d
  print (fuelOf d) d neg

/-! ### rational numbers -/

/-- class `big_rat` (bigint.h L211-212) -/
structure BigRat where
  num : Digits
  den : Digits
  deriving DecidableEq

namespace BigRat

/-- `big_rat(const big_int&)` (bigint.h L214-215) -/
def ofInt (n : Digits) : BigRat := ⟨n, ofInt32 1⟩

/-- private constructor (bigint.h L217-221) -/
def make (numer denom : Digits) : Outcome BigRat :=
  if isZero denom then .throw else .ok ⟨numer, denom⟩

/-- `normalise` (bigint.h L365-378) -/
def normalise (r : BigRat) : Outcome BigRat := do
  let r : BigRat := if isNegative r.den then ⟨negate r.num, negate r.den⟩ else r
  let d ← gcd r.den r.num
  if eqInt d 1 then return r
  else return ⟨← divAssign r.num d, ← divAssign r.den d⟩

/-- `from_fraction` (bigint.h L223-224) -/
def fromFraction (numer denom : Digits) : Outcome BigRat := do
  normalise (← make numer denom)

/-- `operator<` (bigint.h L246) -/
def lt (r x : BigRat) : Bool := BigInt.lt (mul r.num x.den) (mul x.num r.den)
/-- `operator==` (bigint.h L250) -/
def beq (r x : BigRat) : Bool := BigInt.beq r.num x.num && BigInt.beq r.den x.den
/-- `operator==` with `int` (bigint.h L244) -/
def eqInt (r : BigRat) (v : Int) : Bool := BigInt.eqInt r.den 1 && BigInt.eqInt r.num v

/-- `operator+` with `big_int` (bigint.h L253-255); `num + x*den` has lvalue left and rvalue
right operand (and `r.num+x*r.den` likewise) -/
def addInt (r : BigRat) (x : Digits) : Outcome BigRat := make (plusLR r.num (mul x r.den)) r.den
/-- `operator-` with `big_int` (bigint.h L256) -/
def subInt (r : BigRat) (x : Digits) : Outcome BigRat := make (minusLR r.num (mul x r.den)) r.den
/-- `operator-` from `big_int` (bigint.h L257-258) -/
def intSub (x : Digits) (r : BigRat) : Outcome BigRat := make (minusRL (mul x r.den) r.num) r.den
/-- `operator*` with `big_int` (bigint.h L259-266) -/
def mulInt (r : BigRat) (x : Digits) : Outcome BigRat := do
  let d ← gcd r.den x
  if BigInt.eqInt d 1 then make (mul r.num x) r.den
  else make (mul r.num (← divAssign x d)) (← divAssign r.den d)
/-- `operator/` by `big_int` (bigint.h L272-279) -/
def divInt (r : BigRat) (x : Digits) : Outcome BigRat := do
  if isZero x then .throw
  let d ← gcd r.num x
  if isNegative x then
    if BigInt.eqInt d 1 then make (negate r.num) (mul r.den (negate x))
    else make (← divAssign (negate r.num) d) (mul r.den (← divAssign (negate x) d))
  else
    if BigInt.eqInt d 1 then make r.num (mul r.den x)
    else make (← divAssign r.num d) (mul r.den (← divAssign x d))
/-- `operator/` of `big_int` by `big_rat` (bigint.h L280-288) -/
def intDiv (x : Digits) (r : BigRat) : Outcome BigRat := do
  if isZero r.num then .throw
  let d ← gcd r.num x
  if isNegative r.num then
    if BigInt.eqInt d 1 then make (mul (negate x) r.den) (negate r.num)
    else make (mul (← divAssign (negate x) d) r.den) (← divAssign (negate r.num) d)
  else
    if BigInt.eqInt d 1 then make (mul x r.den) r.num
    else make (mul (← divAssign x d) r.den) (← divAssign r.num d)
/-- `operator/=` by `big_int` (bigint.h L289-296) -/
def divIntAssign (r : BigRat) (x : Digits) : Outcome BigRat := do
  if isZero x then .throw
  let d ← gcd r.num x
  let r : BigRat ← if BigInt.eqInt d 1 then Outcome.ok ⟨r.num, mul r.den x⟩
    else do pure ⟨← divAssign r.num d, mul r.den (← divAssign x d)⟩
  if isNegative r.den then return ⟨negate r.num, negate r.den⟩ else return r

/-- `operator*=` by `big_int` (bigint.h L267-271) -/
def mulIntAssign (r : BigRat) (x : Digits) : Outcome BigRat := do
  let d ← gcd r.den x
  if BigInt.eqInt d 1 then return ⟨mul r.num x, r.den⟩
  else return ⟨mul r.num (← divAssign x d), ← divAssign r.den d⟩
/-- `operator+=` with `big_int` (bigint.h L298) -/
def addIntAssign (r : BigRat) (x : Digits) : BigRat := ⟨addAssignMove r.num (mul x r.den), r.den⟩
/-- `operator-=` with `big_int` (bigint.h L299) -/
def subIntAssign (r : BigRat) (x : Digits) : BigRat := ⟨subAssignMove r.num (mul x r.den), r.den⟩
/-- `subtract_from` (bigint.h L300-301) -/
def subtractFromInt (r : BigRat) (x : Digits) : BigRat := ⟨subtractFromMove r.num (mul x r.den), r.den⟩

/-- `operator+` (bigint.cpp L1004-1012) -/
def add (r x : BigRat) : Outcome BigRat := do
  let d ← gcd r.den x.den
  if BigInt.eqInt d 1 then
    make (plusRR (mul r.num x.den) (mul x.num r.den)) (mul r.den x.den)
  else
    let q ← divAssign x.den d
    let numer := plusRR (mul r.num q) (mul x.num (← divAssign r.den d))
    let dd ← gcd numer d
    if BigInt.eqInt dd 1 then make numer (mul r.den q)
    else make (← divAssign numer dd) (← divAssign (mul r.den q) dd)

/-- `operator-` (bigint.cpp L1014-1022) -/
def sub (r x : BigRat) : Outcome BigRat := do
  let d ← gcd r.den x.den
  if BigInt.eqInt d 1 then
    make (minusRR (mul r.num x.den) (mul x.num r.den)) (mul r.den x.den)
  else
    let q ← divAssign x.den d
    let numer := minusRR (mul r.num q) (mul x.num (← divAssign r.den d))
    let dd ← gcd numer d
    if BigInt.eqInt dd 1 then make numer (mul r.den q)
    else make (← divAssign numer dd) (← divAssign (mul r.den q) dd)

/-- unary `operator-` (bigint.h L305), also `negate` (bigint.h L318) -/
def neg (r : BigRat) : Outcome BigRat := make (negate r.num) r.den

/-- `operator*` and `operator*=` (bigint.h L307-316) -/
def mul (r x : BigRat) : Outcome BigRat := do
  let d0 ← gcd r.num x.den
  let d1 ← gcd r.den x.num
  make (BigInt.mul (← divAssign r.num d0) (← divAssign x.num d1))
    (BigInt.mul (← divAssign r.den d1) (← divAssign x.den d0))

/-- `invert`, `inverse` (bigint.h L319-331) -/
def invert (r : BigRat) : Outcome BigRat :=
  if isZero r.num then .throw
  else if isNegative r.num then .ok ⟨negate r.den, negate r.num⟩
  else .ok ⟨r.den, r.num⟩

/-- `operator/` (bigint.h L333-342) -/
def div (r x : BigRat) : Outcome BigRat := do
  if isZero x.num then .throw
  let d0 ← gcd r.num x.num
  let d1 ← gcd r.den x.den
  let x : BigRat := if isNegative x.num then ⟨negate x.num, negate x.den⟩ else x
  make (BigInt.mul (← divAssign r.num d0) (← divAssign x.den d1))
    (BigInt.mul (← divAssign r.den d1) (← divAssign x.num d0))

/-- `operator/=` (bigint.h L343-350) -/
def divAssignRat (r x : BigRat) : Outcome BigRat := do
  if isZero x.num then .throw
  let d0 ← gcd r.num x.num
  let d1 ← gcd r.den x.den
  let xnum := if isNegative x.num then negate x.num else x.num
  let rnum := if isNegative x.num then negate r.num else r.num
  let rnum ← divAssign rnum d0
  let rden ← divAssign r.den d1
  let xnum ← divAssign xnum d0
  let xden ← divAssign x.den d1
  return ⟨BigInt.mul rnum xden, BigInt.mul rden xnum⟩

/-- `floor` (bigint.cpp L1024) -/
def floor (r : BigRat) : Outcome Digits := divAssign r.num r.den
/-- `ceil` (bigint.cpp L1025) -/
def ceil (r : BigRat) : Outcome Digits := do return negate (← divAssign (negate r.num) r.den)
/-- `frac` (bigint.h L354-355) -/
def frac (r : BigRat) : Outcome BigRat := do return ⟨← modAssign r.num r.den, r.den⟩
/-- `quotient` by `big_int` (bigint.cpp L1026) -/
def quotientInt (r : BigRat) (n : Digits) : Outcome Digits := divAssign r.num (BigInt.mul n r.den)
/-- `operator%` by `big_int` (bigint.h L357-358) -/
def modInt (r : BigRat) (n : Digits) : Outcome BigRat := do
  return ⟨← modAssign r.num (BigInt.mul n r.den), r.den⟩
/-- `quotient` by `big_rat` (bigint.cpp L1027-1028) -/
def quotient (r x : BigRat) : Outcome Digits :=
  divAssign (BigInt.mul r.num x.den) (BigInt.mul r.den x.num)
/-- `operator%` by `big_rat` (bigint.cpp L1029-1035) -/
def mod (r x : BigRat) : Outcome BigRat := do
  let d ← gcd r.den x.den
  if BigInt.eqInt d 1 then
    fromFraction (← modAssign (BigInt.mul r.num x.den) (BigInt.mul r.den x.num)) (BigInt.mul r.den x.den)
  else
    let q ← divAssign r.den d
    fromFraction (← modAssign (BigInt.mul r.num (← divAssign x.den d)) (BigInt.mul q x.num))
      (BigInt.mul q x.den)

/-- the loop of `power` (bigint.cpp L1047-1048): `result.num*=num, result.den*=den` repeated -/
def powerLoop (r : BigRat) : Nat → BigRat → BigRat
  | 0, s => s
  | e + 1, s => powerLoop r e ⟨BigInt.mul s.num r.num, BigInt.mul s.den r.den⟩

/-- `power` (bigint.cpp L1037-1052); `e` ranges over the values of type `int` except
`INT_MIN`, whose absolute value is not representable. -/
def power (r : BigRat) (e : Int) : Outcome BigRat :=
  if e = 0 then .ok (ofInt (ofInt32 1))
  else
    let s := powerLoop r (e.natAbs - 1) r
    if e < 0 then invert s else .ok s

end BigRat

end Verif.BigInt
