/-
Model of namespace `bits` (/repo/sources/utilities/bits.cpp) and of the tables
of `constants` it uses (/repo/sources/utilities/constants.cpp), for the usual
platform parameters `charBits = 8`, `longBits = 64`.  Words are naturals below
`2^64`; each operation that could leave that range is reduced modulo `2^64`.
-/
namespace Verif.Bits

/-- modulus of `unsigned long long` -/
scoped notation "𝐌" => (18446744073709551616 : Nat)

/-- `constants::longBits` (constants.h L36) -/
def longBits : Nat := 64
/-- `constants::charBits` (constants.h L33) -/
def charBits : Nat := 8

/-- one pass of the loop of `constants::init` filling the byte tables
(constants.cpp L77-82); the state is the pair `(firstbit, lastbit)` -/
def tableStep (t : List Nat × List Nat) (j : Nat) : List Nat × List Nat :=
  ((t.1.set (2 * j) (t.1.getD j 0 + 1)).set (2 * j + 1) 0,
   (t.2.set (2 * j + 1) (t.2.getD j 0 + 1)).set (2 * j) (t.2.getD j 0 + 1))

/-- the byte tables as left by `constants::init` (constants.cpp L70-82) -/
def tables : List Nat × List Nat :=
  ((List.range 127).map (· + 1)).foldl tableStep
    (((List.replicate 256 0).set 0 charBits).set 1 0, ((List.replicate 256 0).set 0 0).set 1 1)

/-- `constants::firstbit` (constants.h L49) -/
def firstbit (b : Nat) : Nat := tables.1.getD b 0
/-- `constants::lastbit` (constants.h L50) -/
def lastbit (b : Nat) : Nat := tables.2.getD b 0

/-- `constants::eq_mask[j]` (constants.cpp L66) -/
def eqMask (j : Nat) : Nat := 1 <<< j

/-- `constants::lt_mask[j]` (constants.cpp L61, L67, via `leq_base[j-1]`) -/
def ltMask : Nat → Nat
  | 0 => 0
  | j + 1 => ltMask j ||| eqMask j

/-- `constants::leq_mask[j]` (constants.cpp L62-67): `&lt_mask[1]` -/
def leqMask (j : Nat) : Nat := ltMask (j + 1)

/-- `~x` on 64-bit words -/
def lnot (x : Nat) : Nat := 𝐌 - 1 - x

/-- `bitCount` (bits.cpp L29-61) -/
def bitCount (x : Nat) : Nat :=
  let b0 := lnot ((𝐌 - 1) / 0x3)
  let b1 := lnot ((𝐌 - 1) / 0x5)
  let b2 := lnot ((𝐌 - 1) / 0x11)
  let ones := (𝐌 - 1) / 0xFF
  let x := (x + (𝐌 - (x &&& b0) / 2)) % 𝐌
  let x := ((x &&& lnot b1) + (x &&& b1) / 4) % 𝐌
  let x := (x + x / 16) % 𝐌
  ((x &&& lnot b2) * ones) % 𝐌 / 2 ^ 56

/-- the loop of `firstBit` (bits.cpp L72-77), with the number of remaining bytes
as fuel (at most 8 passes can happen on a nonzero 64-bit word) -/
def firstBitLoop : Nat → Nat → Nat → Nat
  | 0, _, fb => fb
  | n + 1, f, fb =>
    if f &&& 0xFF = 0 then firstBitLoop n (f / 256) (fb + charBits)
    else fb + firstbit (f &&& 0xFF)

/-- `firstBit` (bits.cpp L67-78) -/
def firstBit (f : Nat) : Nat := if f = 0 then longBits else firstBitLoop 8 f 0

/-- the loop of `lastBit` (bits.cpp L90-94), fuel as above -/
def lastBitLoop : Nat → Nat → Nat → Nat
  | 0, f, lb => lb + lastbit f
  | n + 1, f, lb =>
    if f &&& lnot 0xFF ≠ 0 then lastBitLoop n (f / 256) (lb + charBits)
    else lb + lastbit f

/-- `lastBit` (bits.cpp L85-95) -/
def lastBit (f : Nat) : Nat := if f = 0 then 0 else lastBitLoop 8 f 0

end Verif.Bits
