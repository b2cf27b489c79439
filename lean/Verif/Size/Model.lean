import Verif.Common
import Verif.BitSet.Model
/-
Model of `size::SizeType<signed char>` (/repo/sources/utilities/size.h, size.cpp, size_fwd.h) and
of `weylsize::weylSize` (/repo/sources/structure/weylsize.cpp).
-/
namespace Verif.Size
open Verif.BitSet

/-- conversion to `signed char` (size_fwd.h L21), which wraps around -/
def s8 (x : Int) : Int := (x + 128) % 256 - 128

/-- unsigned long -/
def u64 (x : Nat) : Nat := x % 18446744073709551616

/-- inner loop of `PrimeHelper::PrimeHelper` (size.cpp L182-190): whether it ends with `i==count` -/
def isNext (j : Nat) : List Nat → Bool
  | [] => true
  | p :: ps => if u64 (p * p) > j then true else if j % p = 0 then false else isNext j ps

/-- outer loop of `PrimeHelper::PrimeHelper` (size.cpp L180-199), with `k` passes to go, candidate
`j`, primes `ps` found; `K` is `PRIMES_MAX`.  Writing beyond the array (after printing the message
about `PRIMES_MAX`, L194-195) is undefined. -/
def primesLoop (K : Nat) : Nat → Nat → List Nat → Res (List Nat)
  | 0, _, ps => .ok ps
  | k + 1, j, ps =>
    if isNext j ps then
      if ps.length = K then .undefined else primesLoop K k (j + 1) (ps ++ [j])
    else primesLoop K k (j + 1) ps

/-- `PrimeHelper(n)` (size.cpp L176-200) -/
def primeHelper (K n : Nat) : Res (List Nat) := primesLoop K (n - 1) 2 []

/-- the primes used by `SizeType`: `PrimeHelper(constants::RANK_MAX+1)` with `RANK_MAX=32` and
`PRIMES_MAX=11` (size.h L72-75, L94, size.cpp L143-147) -/
def primes : List Nat :=
  match primeHelper 11 33 with
  | .ok ps => ps
  | _ => []

/-- `prime(j)` (size.cpp L143-147) -/
def prime (j : Nat) : Nat := primes.getD j 0

/-- the array `d_exp` (size.h L124) -/
abbrev Sz := List Int

/-- default constructor: the number 1 (size.h L128) -/
def one : Sz := List.replicate 11 0

/-- the loop `for (d_exp[n]=0; a%prime(n)==0; ++d_exp[n]) a/=prime(n);` (size.cpp L60-61) with a
bound on the number of passes -/
def extract (p : Nat) : Nat → Nat → Int → Res (Nat × Int)
  | 0, _, _ => .outOfFuel
  | k + 1, a, e => if a % p = 0 then extract p k (a / p) (s8 (e + 1)) else .ok (a, e)

/-- the outer loop of the constructor (size.cpp L59-61): what is left of `a`, and the exponents -/
def extractAll (fuel : Nat) : List Nat → Nat → Res (Nat × Sz)
  | [], a => .ok (a, [])
  | p :: ps, a => do
    let x ← extract p fuel a 0
    let r ← extractAll fuel ps x.1
    pure (r.1, x.2 :: r.2)

/-- constructor from an integer (size.cpp L54-66).  The flag tells whether one of the messages of
L57 and L65 was printed; `error::NumericOverflow` prints and returns (error/error.cpp L48-52). -/
def make (fuel : Nat) (a : Nat) : Res (Sz × Bool) := do
  let r ← extractAll fuel primes a
  pure (r.2, decide (a = 0 ∨ r.1 > 1))

/-- `operator==` (size.h L137-138) -/
def beq (a b : Sz) : Bool := a == b

/-- loop of `piece` (size.cpp L83-88), with `i` more positions to go -/
def pieceLoop (p : Nat) (r : B2) : Nat → Nat → Res Nat
  | 0, c => .ok c
  | i + 1, c => do
    let c := u64 (c * c)
    let b ← r.test i
    pieceLoop p r i (if b then u64 (c * p) else c)

/-- `piece` (size.cpp L75-91); the exponent is converted to `unsigned long` for `BitSet<64>` -/
def piece (s : Sz) (k : Nat) : Res Nat :=
  let r := B2.ofWide (s.getD k 0 % 18446744073709551616).toNat
  pieceLoop (prime k) r r.last 1

/-- loop of `toUlong` (size.cpp L104-105), from the end -/
def ulongLoop (s : Sz) : Nat → Res Nat
  | 0 => .ok 1
  | i + 1 => do
    let c ← ulongLoop s i
    let q ← piece s i
    pure (u64 (c * q))

/-- `toUlong` (size.cpp L99-108) -/
def toUlong (s : Sz) : Res Nat := ulongLoop s 11

/-- `operator*=` (size.cpp L111-118) -/
def mul (a b : Sz) : Sz := List.zipWith (fun x y => s8 (x + y)) a b

/-- `operator/=` (size.cpp L122-129) -/
def div (a b : Sz) : Sz := List.zipWith (fun x y => s8 (x - y)) a b

/-- adding to `d_exp[0]`: `twoShift` (size.h L156-157), `c[0] += r` (weylsize.cpp L65, L71); the
number `n` is of type `unsigned long`, and what counts of the sum is its lowest byte -/
def twoShift (s : Sz) (n : Nat) : Sz := s.set 0 (s8 (s.getD 0 0 + n))

/-- loop of `factorial` (size.cpp L154-155) -/
def factLoop : Nat → Sz → Res Sz
  | 0, r => .ok r
  | 1, r => .ok r
  | n + 2, r => do
    let f ← make 65 (n + 2)
    factLoop (n + 1) (mul r f.1)

/-- `factorial` (size.cpp L150-158) -/
def factorial (n : Nat) : Res Sz := do
  let f ← make 65 1
  factLoop n f.1

/-- `weylSize(SimpleLieType)` (weylsize.cpp L52-109) -/
def weylSimple (nd : Bool) (type : Char) (r : Nat) : Res Sz :=
  match type with
  | 'A' => factorial (r + 1)
  | 'B' | 'C' => do pure (twoShift (← factorial r) r)
  | 'D' => do pure (twoShift (← factorial r) (u64 (r + 18446744073709551615)))
  | 'E' => do
    let c ← make 65 1
    match r with
    | 6 => pure (((c.1.set 0 7).set 1 4).set 2 1)
    | 7 => pure ((((c.1.set 0 10).set 1 4).set 2 1).set 3 1)
    | 8 => pure ((((c.1.set 0 14).set 1 5).set 2 2).set 3 1)
    | _ => pure c.1
  | 'F' | 'f' => do pure (← make 65 1152).1
  | 'G' | 'g' => do pure (← make 65 12).1
  | _ => do
    Res.assertIn nd false
    pure (← make 65 1).1

/-- loop of `weylSize(LieType)` (weylsize.cpp L39-40) -/
def weylLoop (nd : Bool) : List (Char × Nat) → Sz → Res Sz
  | [], c => .ok c
  | (t, r) :: lt, c => do
    let w ← weylSimple nd t r
    weylLoop nd lt (mul c w)

/-- `weylSize(LieType)` (weylsize.cpp L35-43) -/
def weylSize (nd : Bool) (lt : List (Char × Nat)) : Res Sz := do
  let c ← make 65 1
  weylLoop nd lt c.1

end Verif.Size
