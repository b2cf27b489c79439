/-
Model of class `big_int` (/repo/sources/utilities/bigint.h, bigint.cpp).

A `big_int` holds `std::vector<digit> d` with `digit = std::uint32_t`,
little-endian, whose top digit carries the sign (bigint.h L27-30).  The model
value is the list of digits, least significant first; digits are naturals and
every operation on the 32-bit type `digit` is reduced modulo `𝐁 = 2^32` (and
every one on `two_digits` modulo `2^64`) at the place where the C++ type does
so.  An iterator `it` into `d` is modelled by recursion on the suffix starting
at `it`.
-/

namespace Verif.BigInt

/-- `2^32`, the modulus of type `digit` (bigint.h L27). A notation for the
literal, so that arithmetic tactics see a numeral. -/
scoped notation "𝐁" => (4294967296 : Nat)
/-- `neg_flag` (bigint.h L41). -/
scoped notation "𝐇" => (2147483648 : Nat)
/-- `2^64`, the modulus of type `two_digits` (bigint.h L28). -/
scoped notation "𝐖" => (18446744073709551616 : Nat)

/-- the vector `d` (bigint.h L30) -/
abbrev Digits := List Nat

/-- `~x` on type `digit` -/
def dnot (x : Nat) : Nat := 𝐁 - 1 - x
/-- `x+y` on type `digit` -/
def dadd (x y : Nat) : Nat := (x + y) % 𝐁
/-- `-x` on type `digit` -/
def dneg (x : Nat) : Nat := (𝐁 - x) % 𝐁
/-- `--x` on type `digit` -/
def ddec (x : Nat) : Nat := (x + (𝐁 - 1)) % 𝐁

/-- `d.back()`; the C++ class invariant is that `d` is non-empty (bigint.h L30),
the value for the empty list is irrelevant. -/
def back (d : Digits) : Nat := d.getLastD 0

/-- `is_negative` (bigint.h L158) -/
def isNegative (d : Digits) : Bool := decide (𝐇 ≤ back d)

/-- `is_zero` (bigint.h L159) -/
def isZero (d : Digits) : Bool := d == [0]

/-- `is_positive` (bigint.h L160) -/
def isPositive (d : Digits) : Bool := !(isNegative d || isZero d)

/-- `is_odd` (bigint.h L161) -/
def isOdd (d : Digits) : Bool := d.headD 0 % 2 != 0

/-- constructor from `int` (bigint.h L42): two's complement conversion to a
32-bit digit -/
def ofInt32 (n : Int) : Digits := [(n % (𝐁 : Int)).toNat]

/-- `from_signed` (bigint.cpp L24-31); `n` ranges over 64-bit signed values,
`n>>32` is the arithmetic shift (floor division). -/
def fromSigned (n : Int) : Digits :=
  let high := (n / (𝐁 : Int) % (𝐁 : Int)).toNat
  let low := (n % (𝐁 : Int)).toNat
  if (if low < 𝐇 then high == 0 else high == 𝐁 - 1) then [low] else [low, high]

/-- `from_unsigned` (bigint.cpp L33-42), `n < 2^64` -/
def fromUnsigned (n : Nat) : Digits :=
  let high := n / 𝐁 % 𝐁
  let low := n % 𝐁
  if 𝐇 ≤ high then [low, high, 0]
  else if high ≠ 0 ∨ 𝐇 ≤ low then [low, high]
  else [low]

/-- `carry(it)` (bigint.cpp L55-68), on the suffix of `d` starting at `it` -/
def carry : Digits → Digits
  | [] => []
  | [t] => let t' := dadd t 1
           if t' = 𝐇 then [t', 0] else [t']
  | x :: y :: l =>
    let x' := dadd x 1
    if x' ≠ 0 then
      if x' = 𝐇 ∧ l = [] ∧ dnot y = 0 then [x'] else x' :: y :: l
    else x' :: carry (y :: l)

/-- `borrow(it)` (bigint.cpp L71-84), on the suffix of `d` starting at `it` -/
def borrow : Digits → Digits
  | [] => []
  | [t] => let t' := ddec t
           if t' = dnot 𝐇 then [t', 𝐁 - 1] else [t']
  | x :: y :: l =>
    let x' := ddec x
    if dnot x' ≠ 0 then
      if x' = dnot 𝐇 ∧ l = [] ∧ y = 0 then [x'] else x' :: y :: l
    else x' :: borrow (y :: l)

/-- loop of `shrink_pos` (bigint.cpp L98-102), on the reversed vector -/
def shrinkPosRev : Digits → Digits
  | x :: y :: l => if x = 0 ∧ y < 𝐇 then shrinkPosRev (y :: l) else x :: y :: l
  | l => l

/-- `shrink_pos` (bigint.cpp L98-102) -/
def shrinkPos (d : Digits) : Digits := (shrinkPosRev d.reverse).reverse

/-- loop of `shrink_neg` (bigint.cpp L104-108), on the reversed vector -/
def shrinkNegRev : Digits → Digits
  | x :: y :: l =>
    if dnot x = 0 ∧ 𝐇 ≤ y then shrinkNegRev (y :: l) else x :: y :: l
  | l => l

/-- `shrink_neg` (bigint.cpp L104-108) -/
def shrinkNeg (d : Digits) : Digits := (shrinkNegRev d.reverse).reverse

/-- `shrink` (bigint.h L183) -/
def shrink (d : Digits) : Digits :=
  if isNegative d then shrinkNeg d else shrinkPos d

/-- `sign_extend(s)` (bigint.h L184), `s ≥ d.size()` -/
def signExtend (d : Digits) (s : Nat) : Digits :=
  d ++ List.replicate (s - d.length) (if isNegative d then 𝐁 - 1 else 0)

/-- What a member function does to the whole vector after a digit loop has
produced the new digits: nothing, or one of the shrinking functions. -/
inductive Post where
  | keep | shrink | shrinkPos | shrinkNeg
  deriving DecidableEq, Repr

/-- perform the final shrinking step on the whole vector -/
def Post.apply : Post → Digits → Digits
  | .keep, d => d
  | .shrink, d => BigInt.shrink d
  | .shrinkPos, d => BigInt.shrinkPos d
  | .shrinkNeg, d => BigInt.shrinkNeg d

/-- prepend an already final lower digit -/
def consPost (x : Nat) (r : Digits × Post) : Digits × Post := (x :: r.1, r.2)

/-- loop of `compl_neg(it,negate)` (bigint.cpp L87-96), on the suffix -/
def complNegLoop : Digits → Bool → Digits × Post
  | [], _ => ([], .keep)
  | [t], neg =>
    let t' := dadd (dnot t) (if neg then 1 else 0)
    if neg ∧ t' = 𝐇 then ([t', 0], .keep) else ([t'], .shrink)
  | x :: y :: l, neg =>
    let x' := dadd (dnot x) (if neg then 1 else 0)
    consPost x' (complNegLoop (y :: l) (neg && x' == 0))

/-- `negate` (bigint.h L68) -/
def negate (d : Digits) : Digits :=
  let r := complNegLoop d true; r.2.apply r.1

/-- `complement` (bigint.h L69) -/
def complement (d : Digits) : Digits :=
  let r := complNegLoop d false; r.2.apply r.1

/-- comparison loop of `operator<` (bigint.cpp L115-118), on reversed vectors -/
def ltRev : Digits → Digits → Bool
  | x :: l, y :: m => if x ≠ y then decide (x < y) else ltRev l m
  | _, _ => false

/-- `operator<` (bigint.cpp L110-119) -/
def lt (d x : Digits) : Bool :=
  if isNegative d ≠ isNegative x then isNegative d
  else if d.length ≠ x.length then
    if isNegative d then decide (x.length < d.length)
    else decide (d.length < x.length)
  else ltRev d.reverse x.reverse

/-- loop of `operator==` (bigint.cpp L125-128) -/
def eqLoop : Digits → Digits → Bool
  | x :: l, y :: m => if x ≠ y then false else eqLoop l m
  | _, _ => true

/-- `operator==` (bigint.cpp L121-129) -/
def beq (d x : Digits) : Bool :=
  if d.length ≠ x.length then false else eqLoop d x

/-- signed interpretation of a 32-bit digit, `static_cast<int>(x)` -/
def toS32 (x : Nat) : Int := if x < 𝐇 then (x : Int) else (x : Int) - 𝐁

/-- `operator==(int)` (bigint.h L162-163) -/
def eqInt (d : Digits) (v : Int) : Bool :=
  d.length == 1 && toS32 (d.headD 0) == v

/-- `int_val` (bigint.cpp L142-146); `none` is the thrown `runtime_error` -/
def intVal (d : Digits) : Option Int :=
  if 1 < d.length then none else some (toS32 (d.headD 0))

/-- `uint_val` (bigint.cpp L148-154); `none` is a thrown `runtime_error` -/
def uintVal (d : Digits) : Option Nat :=
  if isNegative d then none
  else if ¬ (d.length < 2 ∨ (d.length = 2 ∧ d.getD 1 0 = 0)) then none
  else some (d.headD 0)

/-- `long_val` (bigint.cpp L156-162); `none` is a thrown `runtime_error`.  The
final conversion of a 64-bit unsigned value to signed is two's complement. -/
def longVal (d : Digits) : Option Int :=
  if 2 < d.length then none
  else if d.length = 1 then some (toS32 (d.headD 0))
  else
    let u := d.headD 0 + d.getD 1 0 * 𝐁
    some (if u < 𝐖 / 2 then (u : Int) else (u : Int) - 𝐖)

/-- `ulong_val` (bigint.cpp L164-170); `none` is a thrown `runtime_error` -/
def ulongVal (d : Digits) : Option Nat :=
  if isNegative d then none
  else if ¬ (d.length < 3 ∨ (d.length = 3 ∧ d.getD 2 0 = 0)) then none
  else some (if d.length = 1 then d.headD 0 else d.headD 0 + d.getD 1 0 * 𝐁)

/-- `convert<C>` for a signed type `C` with `k = numeric_limits<C>::digits < 32`
(bigint.cpp L131-140, instantiated for `short`, k = 15); `none` is a thrown
`runtime_error`, the result is the signed value of the digit (which fits). -/
def convert (k : Nat) (d : Digits) : Option Int :=
  let bound := 2 ^ k
  let d0 := d.headD 0
  if 1 < d.length ∨ (bound ≤ d0 ∧ d0 < dneg bound) then none
  else some (toS32 d0)

/-- `operator+=(digit)` (bigint.cpp L173-193); the digit is read as signed.
`xor` of two digits being `≥ neg_flag` is written with `Nat.xor`. -/
def addDigit (d : Digits) (x : Nat) : Digits :=
  match d with
  | [] => []
  | [a] =>
    if 𝐇 ≤ a ^^^ x then [dadd a x]
    else
      let a' := dadd a x
      if 𝐇 ≤ a' ^^^ x then [a', if x < 𝐇 then 0 else 𝐁 - 1] else [a']
  | a :: b :: l =>
    let a' := dadd a x
    if x < 𝐇 then
      if a' < x then a' :: carry (b :: l) else shrinkNeg (a' :: b :: l)
    else
      if x ≤ a' then a' :: borrow (b :: l) else shrinkPos (a' :: b :: l)

/-- `operator++` (bigint.h L57) -/
def incr (d : Digits) : Digits := carry d
/-- `operator--` (bigint.h L58) -/
def decr (d : Digits) : Digits := borrow d

/-- `operator-=(digit)` (bigint.h L64-65) -/
def subDigit (d : Digits) (x : Nat) : Digits :=
  if x ≠ 𝐇 then addDigit d (dneg x) else addDigit (incr d) (dnot 𝐇)

/-- Final part of `add` (bigint.cpp L203-226): `d` is the suffix from `it`,
`xt = x.d.back()`, `c` the carry. -/
def addTop (d : Digits) (xt c : Nat) : Digits × Post :=
  match d with
  | [] => ([], .keep)
  | [a] =>
    let a' := dadd a (dadd xt c)
    if 𝐇 ≤ a ^^^ xt then ([a'], .shrink)
    else if 𝐇 ≤ a' ^^^ xt then ([a', if 𝐇 ≤ a' then 0 else 𝐁 - 1], .keep)
    else ([a'], .keep)
  | a :: b :: l =>
    let s := dadd xt c
    let a' := dadd a s
    if xt < 𝐇 then
      if a' < s then (a' :: carry (b :: l), .keep)
      else (a' :: b :: l, .shrinkNeg)
    else if s ≠ 0 then
      if s ≤ a' then (a' :: borrow (b :: l), .keep)
      else (a' :: b :: l, .shrinkPos)
    else (a :: b :: l, .keep)

/-- Loop of `add` (bigint.cpp L198-201) followed by its final part. `x` is a
different object than `*this`. -/
def addLoop : Digits → Digits → Nat → Digits × Post
  | d, [xt], c => addTop d xt c
  | a :: d, b :: x, c =>
    let s := dadd b c
    if s ≠ 0 then
      let a' := dadd a s
      consPost a' (addLoop d x (if a' < s then 1 else 0))
    else consPost a (addLoop d x c)
  | d, [], _ => (d, .keep)
  | [], _, _ => ([], .keep)

/-- `add` (bigint.cpp L195-228), precondition `x.size() ≤ d.size()` -/
def add (d x : Digits) : Digits :=
  let r := addLoop d x 0; r.2.apply r.1

/-- `operator+=(const big_int&)` (bigint.cpp L230-236) -/
def addAssign (d x : Digits) : Digits :=
  add (if d.length < x.length then signExtend d x.length else d) x

/-- `operator+=(big_int&&)` (bigint.cpp L238-244) -/
def addAssignMove (d x : Digits) : Digits :=
  if d.length < x.length then add x d else add d x

/-- Final part of `sub` (bigint.cpp L254-277) -/
def subTop (d : Digits) (xt c : Nat) : Digits × Post :=
  match d with
  | [] => ([], .keep)
  | [a] =>
    let a' := dadd a (dadd (dnot xt) c)
    if a ^^^ xt < 𝐇 then ([a'], .shrink)
    else if a' ^^^ xt < 𝐇 then ([a', if 𝐇 ≤ a' then 0 else 𝐁 - 1], .keep)
    else ([a'], .keep)
  | a :: b :: l =>
    let s := dadd (dnot xt) c
    let a' := dadd a s
    if 𝐇 ≤ xt then
      if a' < s then (a' :: carry (b :: l), .keep)
      else (a' :: b :: l, .shrinkNeg)
    else if s ≠ 0 then
      if s ≤ a' then (a' :: borrow (b :: l), .keep)
      else (a' :: b :: l, .shrinkPos)
    else (a :: b :: l, .keep)

/-- Loop of `sub` (bigint.cpp L248-252) followed by its final part -/
def subLoop : Digits → Digits → Nat → Digits × Post
  | d, [xt], c => subTop d xt c
  | a :: d, b :: x, c =>
    let s := dadd (dnot b) c
    if s ≠ 0 then
      let a' := dadd a s
      consPost a' (subLoop d x (if a' < s then 1 else 0))
    else consPost a (subLoop d x c)
  | d, [], _ => (d, .keep)
  | [], _, _ => ([], .keep)

/-- `sub` (bigint.cpp L246-279), precondition `x.size() ≤ d.size()` -/
def sub (d x : Digits) : Digits :=
  let r := subLoop d x 1; r.2.apply r.1

/-- `operator-=(const big_int&)` (bigint.cpp L320-326) -/
def subAssign (d x : Digits) : Digits :=
  sub (if d.length < x.length then signExtend d x.length else d) x

/-- The digit loop in the last branch of `sub_from` (bigint.cpp L307-314), on
the suffix after `++it`; note that `borrow` is recomputed from `*it==0`. -/
def subFromBorrow : Digits → Bool → Digits × Post
  | [], _ => ([], .keep)
  | [t], bw =>
    let t' := if bw then ddec (dnot t) else dnot t
    if bw ∧ t' = dnot 𝐇 then ([t', 𝐁 - 1], .keep) else ([t'], .shrink)
  | x :: y :: l, bw =>
    let x' := if bw then ddec (dnot x) else dnot x
    consPost x' (subFromBorrow (y :: l) (bw && x' == 0))

/-- Final part of `sub_from` (bigint.cpp L289-316) -/
def subFromTop (d : Digits) (xt c : Nat) : Digits × Post :=
  match d with
  | [] => ([], .keep)
  | [a] =>
    let a' := dadd (dadd xt (dnot a)) c
    if a ^^^ xt < 𝐇 then ([a'], .shrink)
    else if 𝐇 ≤ a' ^^^ xt then ([a', if 𝐇 ≤ a' then 0 else 𝐁 - 1], .keep)
    else ([a'], .keep)
  | a :: b :: l =>
    let s := dadd xt c
    let a' := dadd (dnot a) s
    if xt < 𝐇 then consPost a' (complNegLoop (b :: l) (decide (a' < s)))
    else if s = 0 then complNegLoop (a :: b :: l) false
    else consPost a' (subFromBorrow (b :: l) (decide (s ≤ a')))

/-- Loop of `sub_from` (bigint.cpp L283-287) followed by its final part -/
def subFromLoop : Digits → Digits → Nat → Digits × Post
  | d, [xt], c => subFromTop d xt c
  | a :: d, b :: x, c =>
    let s := dadd (dnot a) c
    if s ≠ 0 then
      let a' := dadd b s
      consPost a' (subFromLoop d x (if a' < s then 1 else 0))
    else consPost b (subFromLoop d x c)
  | d, [], _ => (d, .keep)
  | [], _, _ => ([], .keep)

/-- `sub_from` (bigint.cpp L281-318), precondition `x.size() ≤ d.size()` -/
def subFrom (d x : Digits) : Digits :=
  let r := subFromLoop d x 1; r.2.apply r.1

/-- `operator-=(big_int&&)` (bigint.cpp L328-338) -/
def subAssignMove (d x : Digits) : Digits :=
  if x.length ≤ d.length then sub d x else subFrom x d

/-- `subtract_from(const big_int&)` (bigint.cpp L340-346): becomes `x - *this` -/
def subtractFrom (d x : Digits) : Digits :=
  subFrom (if d.length < x.length then signExtend d x.length else d) x

/-- `subtract_from(big_int&&)` (bigint.cpp L348-358) -/
def subtractFromMove (d x : Digits) : Digits :=
  if x.length ≤ d.length then subFrom d x else sub x d

/-- `a + b`, `a` and `b` lvalues (bigint.h L90): `big_int(*this)+=x` -/
def plusLL (d x : Digits) : Digits := addAssign d x
/-- `a + std::move(b)` (bigint.h L92): `x += *this` -/
def plusLR (d x : Digits) : Digits := addAssign x d
/-- `std::move(a) + b` (bigint.h L94) -/
def plusRL (d x : Digits) : Digits := addAssign d x
/-- `std::move(a) + std::move(b)` (bigint.h L96-97); inside the function both
operands are lvalues, so the `const&` version of `+=` is selected -/
def plusRR (d x : Digits) : Digits :=
  if d.length < x.length then addAssign x d else addAssign d x

/-- `a - b`, `a` and `b` lvalues (bigint.h L91): `big_int(*this)-=x` -/
def minusLL (d x : Digits) : Digits := subAssign d x
/-- `a - std::move(b)` (bigint.h L93): `x.subtract_from(*this)` -/
def minusLR (d x : Digits) : Digits := subtractFrom x d
/-- `std::move(a) - b` (bigint.h L95) -/
def minusRL (d x : Digits) : Digits := subAssign d x
/-- `std::move(a) - std::move(b)` (bigint.h L98-99) -/
def minusRR (d x : Digits) : Digits :=
  if d.length < x.length then subtractFrom x d else subAssign d x

/-- `abs` (bigint.h L204) -/
def abs (d : Digits) : Digits := if isNegative d then negate d else d

/-- loop of `mult_add` (bigint.cpp L362-368); returns digits and final `acc` -/
def multAddLoop : Digits → Nat → Nat → Digits × Nat
  | [], _, acc => ([], acc)
  | a :: l, x, acc =>
    let acc := (acc + a * x) % 𝐖
    let r := multAddLoop l x (acc / 𝐁)
    (acc % 𝐁 :: r.1, r.2)

/-- `mult_add` (bigint.cpp L361-373) -/
def multAdd (d : Digits) (x a : Nat) : Digits :=
  let r := multAddLoop d x a
  if r.2 ≠ 0 then r.1 ++ [r.2 % 𝐁]
  else if isNegative r.1 then r.1 ++ [0]
  else r.1

/-- `operator*=(digit)` (bigint.cpp L375-385) -/
def mulDigit (d : Digits) (x : Nat) : Digits :=
  if isNegative d then negate (multAdd (negate d) x 0) else multAdd d x 0

/-- `operator*=(int)` (bigint.cpp L387-396), `x0` a 32-bit signed value -/
def mulInt (d : Digits) (x0 : Int) : Digits :=
  let neg := (decide (x0 < 0)) ^^ isNegative d
  let x := if x0 < 0 then dneg (x0 % (𝐁 : Int)).toNat else (x0 % (𝐁 : Int)).toNat
  let d1 := if isNegative d then negate d else d
  let d2 := multAdd d1 x 0
  if neg then negate d2 else d2

/-- The string constructor (bigint.cpp L399-409), applied to the list of
values `convert(*p)` of the characters. -/
def ofDigitValues (base : Nat) (vals : List Nat) : Digits :=
  vals.foldl (fun d v => multAdd d base v) [0]

/-- `char_val` (bigint.h L32-33), as written: the middle branch is an
assignment `c='A'` whose value is 65.  The subtraction for characters below `'0'` yields
a wrapped unsigned value. -/
def charVal (c : Char) : Nat :=
  if c.toNat ≤ '9'.toNat then dadd c.toNat (dneg '0'.toNat)
  else if c.toNat ≤ 'Z'.toNat then 'A'.toNat
  else dadd c.toNat (dneg 'a'.toNat)

/-- constructor from decimal text with default arguments (bigint.h L46-48) -/
def ofString (s : String) : Digits := ofDigitValues 10 (s.toList.map charVal)

/-- inner loop of `operator*` (bigint.cpp L434-441): `r` is the suffix of
`result` from `r_it`; one digit beyond the length of `x` is overwritten by
the final `acc`. -/
def mulRow : Nat → Digits → Digits → Nat → Digits
  | _, [], _ :: r, acc => acc % 𝐁 :: r
  | _, [], [], _ => []
  | f, x :: xs, r :: rs, acc =>
    let acc := (acc + (f * x + r)) % 𝐖
    acc % 𝐁 :: mulRow f xs rs (acc / 𝐁)
  | _, _ :: _, [], _ => []

/-- outer loop of `operator*` (bigint.cpp L432-442): `r` is the suffix of
`result` starting at the position of the current digit -/
def mulLoop : Digits → Digits → Digits → Digits
  | [], _, r => r
  | f :: d, x, r =>
    match mulRow f x r 0 with
    | [] => []
    | r0 :: r' => r0 :: mulLoop d x r'

/-- the correction loops of `operator*` (bigint.cpp L444-448, L451-455):
subtract `x` from `r` (of the same length), dropping the final borrow -/
def mulCorr : Digits → Digits → Nat → Digits
  | r :: rs, x :: xs, c =>
    let s := dadd (dnot x) c
    if s ≠ 0 then
      let r' := dadd r s
      r' :: mulCorr rs xs (if r' < s then 1 else 0)
    else r :: mulCorr rs xs c
  | r, _, _ => r

/-- `operator*` (bigint.cpp L428-459) -/
def mul (d x : Digits) : Digits :=
  let r0 := mulLoop d x (List.replicate (d.length + x.length) 0)
  let r1 := if isNegative d then
      r0.take (r0.length - x.length) ++ mulCorr (r0.drop (r0.length - x.length)) x 1
    else r0
  let r2 := if isNegative x then
      r1.take (r1.length - d.length) ++ mulCorr (r1.drop (r1.length - d.length)) d 1
    else r1
  shrink r2

/-- the do-while loop of `power` (bigint.cpp L469-470), `n` further times -/
def powerLoop (d : Digits) : Nat → Digits → Digits
  | 0, r => r
  | n + 1, r => powerLoop d n (mul r d)

/-- `power` (bigint.cpp L461-472) -/
def power (d : Digits) (e : Nat) : Digits :=
  if e ≤ 1 then (if e = 0 then ofInt32 1 else d) else powerLoop d (e - 1) d

/-- loop of `shift_modulo`, nonnegative case (bigint.cpp L505-509), on the
reversed vector; returns quotient digits (reversed) and the final `acc` -/
def shiftModPos : Digits → Nat → Nat → Digits × Nat
  | [], _, acc => ([], acc)
  | a :: l, base, acc =>
    let acc := acc * 𝐁 % 𝐖 ||| a
    let r := shiftModPos l base (acc % base)
    (acc / base % 𝐁 :: r.1, r.2)

/-- loop of `shift_modulo`, negative case (bigint.cpp L514-518) -/
def shiftModNeg : Digits → Nat → Nat → Digits × Nat
  | [], _, acc => ([], acc)
  | a :: l, base, acc =>
    let acc := acc * 𝐁 % 𝐖 ||| dnot a
    let r := shiftModNeg l base (acc % base)
    (dnot (acc / base % 𝐁) :: r.1, r.2)

/-- `shift_modulo` (bigint.cpp L501-522): new value and remainder; `base ≠ 0`
is a precondition (division by zero is undefined behaviour) -/
def shiftModulo (d : Digits) (base : Nat) : Digits × Nat :=
  if isNegative d then
    let r := shiftModNeg d.reverse base 0
    (shrinkNeg r.1.reverse, (base + (𝐖 - 1 - r.2)) % 𝐁)
  else
    let r := shiftModPos d.reverse base 0
    (shrinkPos r.1.reverse, r.2 % 𝐁)

/-- The three ways in which a call can end: normally, by an exception, or by
failure of an `assert`. -/
inductive Outcome (α : Type) where
  | ok (a : α)
  | throw
  | assertFail
  deriving DecidableEq, Repr

/-- `bits::lastBit` (bits.cpp), as used in `reduce_mod`: one more than the
position of the highest set bit, `0` for `0`.  The table driven implementation
is modelled in `Verif.Bits`. -/
def lastBit (x : Nat) : Nat := if x = 0 then 0 else Nat.log2 x + 1

/-- `LSL(n)` (bigint.cpp L955-965), on the vector from lowest digit; `prev` is
the digit below (the lowest digit gets zero bits shifted in) -/
def lslLoop (n : Nat) : Nat → Digits → Digits
  | _, [] => []
  | prev, a :: l => ((a * 2 ^ n) % 𝐁 ||| prev / 2 ^ (32 - n)) :: lslLoop n a l

/-- `LSL(n)` (bigint.cpp L955-965) -/
def lsl (d : Digits) (n : Nat) : Digits :=
  match d with
  | [] => []
  | a :: l => (a * 2 ^ n) % 𝐁 :: lslLoop n a l

/-- The borrow loop (bigint.cpp L693-695 and L704-706) on the quotient digits
already stored -/
def qBorrow : Digits → Digits
  | [] => []
  | q :: l => let q' := ddec q
              if dnot q' ≠ 0 then q' :: l else q' :: qBorrow l

/-- multiply-and-subtract loop, complemented (bigint.cpp L668-672); `w` holds
the digits under `r_it` from the low end, the remaining `w` after `div` is
exhausted is returned unchanged together with `acc` -/
def mulSubC (qh : Nat) : Digits → Digits → Nat → Digits × Nat
  | r :: w, v :: div, acc =>
    let acc := (acc + (dnot r + qh * v)) % 𝐖
    let t := mulSubC qh w div (acc / 𝐁)
    (dnot (acc % 𝐁) :: t.1, t.2)
  | _, _, acc => ([], acc)

/-- multiply-and-add loop (bigint.cpp L683-687) -/
def mulAddC (qh : Nat) : Digits → Digits → Nat → Digits × Nat
  | r :: w, v :: div, acc =>
    let acc := (acc + (r + qh * v)) % 𝐖
    let t := mulAddC qh w div (acc / 𝐁)
    (acc % 𝐁 :: t.1, t.2)
  | _, _, acc => ([], acc)

/-- The estimate `q_hat` (bigint.cpp L636-650).  `w` is the window of
`div.size()+1` digits of `d` under consideration, lowest first, so that its
last three digits are `*(it-1)`, `it[0]`, `it[1]` from the top. -/
def qHat (below0 : Bool) (shift lead subLead : Nat) (w : Digits) : Nat :=
  let c := fun x => if below0 then dnot x else x
  let n := w.length
  let t0 := c (w.getD (n - 1) 0)
  let t1 := c (w.getD (n - 2) 0)
  let t2 := c (w.getD (n - 3) 0)
  let acc := t0 * 𝐁 % 𝐖 ||| t1
  let acc := if shift ≠ 0 then (acc * 2 ^ shift) % 𝐖 ||| t2 / 2 ^ (32 - shift) else acc
  let q := acc / lead
  if 𝐁 ≤ q then 𝐁 - 1
  else if acc % lead < q * subLead % 𝐖 / 𝐁 then q - 1
  else q

/-- One pass of the main loop (bigint.cpp L635-699).  State: the window `w`
(`div.size()+1` digits), the quotient digits stored above it (lowest first),
and `below_0`.  Result: the `div.size()` remaining digits of the window, the
extended list of quotient digits, and `below_0`. -/
def divStep (div : Digits) (shift lead subLead : Nat)
    (w q : Digits) (below0 : Bool) : Outcome (Digits × Digits × Bool) :=
  let qh := qHat below0 shift lead subLead w
  if qh = 0 then .ok (w.dropLast, 0 :: q, below0)
  else if below0 = false then
    let t := mulSubC qh w div 0
    let acc := (t.2 + dnot (back w)) % 𝐖
    if dadd (acc % 𝐁) 1 < 2 then .ok (t.1, qh % 𝐁 :: q, acc % 𝐁 == 0)
    else .assertFail
  else
    let t := mulAddC qh w div 0
    let acc := (t.2 + back w) % 𝐖
    if dadd (acc % 𝐁) 1 < 2 then .ok (t.1, dneg (qh % 𝐁) :: qBorrow q, acc % 𝐁 != 0)
    else .assertFail

/-- The do-while loop (bigint.cpp L633-700).  `rest` holds the digits of `d`
below the window, from the top down; the vector `d` of the C++ code is
`rest.reverse ++ w ++ q`. -/
def divLoop (div : Digits) (shift lead subLead : Nat) :
    Digits → Digits → Digits → Bool → Outcome (Digits × Digits × Bool)
  | rest, w, q, below0 =>
    match divStep div shift lead subLead w q below0 with
    | .ok (w', q', b') =>
      match rest with
      | [] => .ok (w', q', b')
      | r :: rest' => divLoop div shift lead subLead rest' (r :: w') q' b'
    | .throw => .throw
    | .assertFail => .assertFail

/-- addition loop at the end (bigint.cpp L708-712); returns digits and `c` -/
def addBack : Digits → Digits → Nat → Digits × Nat
  | a :: w, v :: div, c =>
    let s := dadd v c
    if s ≠ 0 then
      let a' := dadd a s
      let t := addBack w div (if a' < s then 1 else 0)
      (a' :: t.1, t.2)
    else
      let t := addBack w div c
      (a :: t.1, t.2)
  | w, _, c => (w, c)

/-- The long division part of `reduce_mod` (bigint.cpp L614-728) for
nonnegative divisor digits `div` (no leading zero digit, at least 2 digits) and
dividend `d`; result is quotient and remainder digits. -/
def longDiv (d div : Digits) (negDiv : Bool) : Outcome (Digits × Digits) :=
  let below0 := isNegative d
  let halfTop := back div / 2
  let d := if d.length = div.length ∨
      (if below0 then back d ≤ dnot halfTop else halfTop ≤ back d)
    then signExtend d (d.length + 1) else d
  let shift := 32 - lastBit (back div)
  let work := div.drop (div.length - (if shift = 0 ∨ div.length = 2 then 2 else 3))
  let work := if 0 < shift then lsl work shift else work
  let lead := work.getD (work.length - 1) 0
  let subLead := work.getD (work.length - 2) 0
  let k := d.length - (div.length + 1)
  match divLoop div shift lead subLead (d.take k).reverse (d.drop k) [] below0 with
  | .ok (w, q, b) =>
    let fin : Outcome (Digits × Digits) :=
      if b then
        let t := addBack w div 0
        if t.2 = 1 then .ok (t.1, qBorrow q) else .assertFail
      else .ok (w, q)
    match fin with
    | .ok (w, q) =>
      let w := if isNegative w then w ++ [0] else w
      let w := shrinkPos w
      .ok (shrink q, if negDiv then negate w else w)
    | .throw => .throw
    | .assertFail => .assertFail
  | .throw => .throw
  | .assertFail => .assertFail

/-- `reduce_mod` (bigint.cpp L552-729): the pair (returned quotient, new value
of `*this`). -/
def reduceMod (d divisor : Digits) : Outcome (Digits × Digits) :=
  let negDiv := isNegative divisor
  if d.length ≤ divisor.length ∧
      (d.length < divisor.length ∨
       (if isNegative d then dneg (back d) else back d) <
       (if negDiv then dneg (back divisor) else back divisor)) then
    if isNegative d = negDiv ∨ isZero d then .ok (ofInt32 0, d)
    else .ok (ofInt32 (-1), addAssign d divisor)
  else if divisor.length = 1 then
    let d0 := divisor.headD 0
    if dadd d0 1 < 3 then
      if d0 = 0 then .throw
      else .ok (if negDiv then negate d else d, [0])
    else
      let div := if negDiv then dneg d0 else d0
      let d := if negDiv then negate d else d
      let r := shiftModulo d div
      if r.2 < 𝐇 then .ok (r.1, [if negDiv then dneg r.2 else r.2])
      else .assertFail
  else
    let div := if negDiv then negate divisor else divisor
    let d := if negDiv then negate d else d
    if back div = 0 then
      let div := div.dropLast
      if div.length = 1 then
        let r := shiftModulo d (div.headD 0)
        let rem := fromUnsigned r.2
        .ok (r.1, if negDiv then negate rem else rem)
      else longDiv d div negDiv
    else longDiv d div negDiv

/-- `operator/=` (bigint.h L105-109), also `operator/` (bigint.h L81) -/
def divAssign (d divisor : Digits) : Outcome Digits :=
  if eqInt divisor 1 then .ok d
  else match reduceMod d divisor with
    | .ok (q, _) => .ok q
    | .throw => .throw
    | .assertFail => .assertFail

/-- `operator%=` (bigint.h L103-104), also `operator%` (bigint.h L82) -/
def modAssign (d divisor : Digits) : Outcome Digits :=
  match reduceMod d divisor with
  | .ok (_, r) => .ok r
  | .throw => .throw
  | .assertFail => .assertFail

end Verif.BigInt
