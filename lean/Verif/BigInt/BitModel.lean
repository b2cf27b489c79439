import Verif.BigInt.Model
import Verif.Bits.Model
/-
Model of the bitwise operations of class `big_int`
(/repo/sources/utilities/bigint.cpp L731-955, bigint.h L112-156).
-/
namespace Verif.BigInt

/-- `while (i-->0) d[i] = f(d[i],x.d[i])` with `i` the shorter of the two lengths: digits of
`d` beyond are kept (e.g. bigint.cpp L746-747) -/
def zipLow (f : Nat → Nat → Nat) : Digits → Digits → Digits
  | a :: d, b :: x => f a b :: zipLow f d x
  | d, _ => d

/-- The shrinking loop `while (--i,(d[i]=...)==z) if (i==0) break;` followed by the call of
`erase` (bigint.cpp L768-771), on the reversed list of the combined digits; `above` is the digit
`d[i+1]`.  The result `none` stands for a call of `erase` beyond the end, undefined
behaviour. -/
def trimRev (z : Nat → Bool) (ok : Nat → Bool) : Option Nat → Digits → Option Digits
  | _, [] => none
  | above, t :: r =>
    if z t && r != [] then trimRev z ok (some t) r
    else if ok t then some (t :: r)
    else match above with
      | some a => some (a :: t :: r)
      | none => none

/-- the final branches of `operator&=` and its variants (bigint.cpp L764-774, L809-819,
L890-900): combine the lower `i` digits, stripping leading digits -/
def trimCombine (f : Nat → Nat → Nat) (z ok : Nat → Bool) (d x : Digits) (i : Nat) :
    Option Digits :=
  (trimRev z ok d[i]? (List.zipWith f (d.take i) (x.take i)).reverse).map List.reverse

/-- `operator&=` (bigint.cpp L731-775) -/
def andAssign (d x : Digits) : Option Digits :=
  let neg := isNegative d
  let xneg := isNegative x
  if neg && xneg then
    if d.length < x.length then some (zipLow (· &&& ·) d x ++ x.drop d.length)
    else some (zipLow (· &&& ·) d x)
  else if neg != xneg && (if neg then decide (d.length < x.length) else decide (x.length < d.length)) then
    if neg then some (zipLow (· &&& ·) d x ++ x.drop d.length)
    else some (zipLow (· &&& ·) d x)
  else
    let i := if neg then x.length else if xneg then d.length else min d.length x.length
    trimCombine (· &&& ·) (· == 0) (fun t => decide (t < 𝐇)) d x i

/-- `operator|=` (bigint.cpp L776-820) -/
def orAssign (d x : Digits) : Option Digits :=
  let neg := isNegative d
  let xneg := isNegative x
  if !neg && !xneg then
    if d.length < x.length then some (zipLow (· ||| ·) d x ++ x.drop d.length)
    else some (zipLow (· ||| ·) d x)
  else if neg != xneg && (if neg then decide (x.length < d.length) else decide (d.length < x.length)) then
    if xneg then some (zipLow (· ||| ·) d x ++ x.drop d.length)
    else some (zipLow (· ||| ·) d x)
  else
    let i := if neg then (if xneg then min d.length x.length else d.length) else x.length
    trimCombine (· ||| ·) (· == 𝐁 - 1) (fun t => decide (𝐇 ≤ t)) d x i

/-- `operator^=` (bigint.cpp L821-852) -/
def xorAssign (d x : Digits) : Digits :=
  if d.length = x.length then shrink (List.zipWith (· ^^^ ·) d x)
  else if d.length < x.length then
    if isNegative d then zipLow (· ^^^ ·) d x ++ (x.drop d.length).map dnot
    else zipLow (· ^^^ ·) d x ++ x.drop d.length
  else
    if isNegative x then zipLow (· ^^^ ·) (d.take x.length) x ++ (d.drop x.length).map dnot
    else zipLow (· ^^^ ·) d x

/-- `d & ~x` on digits -/
def dandnot (a b : Nat) : Nat := a &&& dnot b

/-- `bitwise_subtract`, destructive version (bigint.cpp L854-901) -/
def bitwiseSubtract (d x : Digits) : Option Digits :=
  let neg := isNegative d
  let xneg := isNegative x
  if neg && !xneg then
    if d.length < x.length then some (zipLow dandnot d x ++ (x.drop d.length).map dnot)
    else some (zipLow dandnot d x)
  else if neg == xneg && (if neg then decide (d.length < x.length) else decide (x.length < d.length)) then
    if neg then some (zipLow dandnot d x ++ (x.drop d.length).map dnot)
    else some (zipLow dandnot d x)
  else
    let i := if neg then x.length else if xneg then min d.length x.length else d.length
    trimCombine dandnot (· == 0) (fun t => decide (t < 𝐇)) d x i

/-- `operator&` (bigint.h L118-126) -/
def bitAnd (d x : Digits) : Option Digits :=
  if (if isNegative d then isNegative x && decide (x.length ≤ d.length)
      else isNegative x || decide (d.length ≤ x.length))
  then andAssign d x else andAssign x d

/-- `operator|` (bigint.h L127-135) -/
def bitOr (d x : Digits) : Option Digits :=
  if (if isNegative d then !isNegative x || decide (d.length ≤ x.length)
      else !isNegative x && decide (x.length ≤ d.length))
  then orAssign d x else orAssign x d

/-- `bitwise_subtract`, non destructive version (bigint.h L143-152) -/
def bitSub (d x : Digits) : Option Digits :=
  if (if isNegative d then !isNegative x && decide (x.length ≤ d.length)
      else !isNegative x || decide (d.length ≤ x.length))
  then bitwiseSubtract d x else andAssign (complement x) d

/-- `bitwise_subset` (bigint.cpp L903-921) -/
def bitwiseSubset (d x : Digits) : Bool :=
  let neg := isNegative d
  let xneg := isNegative x
  if neg && !xneg then false
  else if neg == xneg && (if neg then decide (d.length < x.length) else decide (x.length < d.length)) then
    false
  else
    let i := if neg then x.length else if xneg then min d.length x.length else d.length
    (List.zipWith dandnot (d.take i) (x.take i)).all (· == 0)

/-- `while (n-->0) dig &= dig-1;` (bigint.cpp L932-933) -/
def clearLow : Nat → Nat → Nat
  | 0, dig => dig
  | n + 1, dig => clearLow n (dig &&& ddec dig)

/-- the loop of `index_of_set_bit` (bigint.cpp L925-939): `inl` for a value returned from
within the loop, `inr` for `n` after the loop.  The return type `int` is modelled without
overflow (numbers of fewer than `2^31` bits). -/
def setBitLoop : Digits → Nat → Nat → Nat ⊕ Nat
  | [], _, n => .inr n
  | dig :: d, i, n =>
    let count := Bits.bitCount dig
    if n < count then .inl (32 * i + Bits.firstBit (clearLow n dig))
    else setBitLoop d (i + 1) (n - count)

/-- `index_of_set_bit` (bigint.cpp L923-944) -/
def indexOfSetBit (d : Digits) (n : Nat) : Int :=
  match setBitLoop d 0 n with
  | .inl p => p
  | .inr n => if isNegative d then 32 * d.length + n else -1

/-- `bit_length` (bigint.cpp L946-952), without overflow of the return type -/
def bitLength (d : Digits) : Int :=
  if isNegative d then -1 - (32 * (d.length - 1 : Nat) + Bits.lastBit (dnot (back d)) : Nat)
  else (32 * (d.length - 1 : Nat) + Bits.lastBit (back d) : Nat)

end Verif.BigInt
