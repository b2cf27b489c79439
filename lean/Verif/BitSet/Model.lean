import Verif.Common
import Verif.Bits.Model
/-
Model of `BitSet<n>` (/repo/sources/utilities/bitset.h, bitset.cpp) for the instances the
program makes: `BitSetBase<1>` (one chunk of 32 bits, used for `n = RANK_MAX = 32`) and
`BitSetBase<2>` (two chunks, used for `n = 33` and `n = 64`).  Chunks are naturals below
`2^32`; results that could leave that range are truncated as assignment to
`uint_least32_t` does.  `nd` says whether assertions are compiled out.
-/
namespace Verif.BitSet
open Verif.Bits

/-- assignment of a wider unsigned value to a `bitset_chunk` (bitset.h L72) -/
def u32 (x : Nat) : Nat := x % 4294967296

/-- `~x` on a `bitset_chunk` -/
def not32 (x : Nat) : Nat := 4294967295 - x

/-- `constants::eq_mask[j]`, an array of 64 entries (constants.h L51) -/
def eqM (j : Nat) : Res Nat := if j < 64 then .ok (eqMask j) else .undefined

/-- `constants::lt_mask[j]`, an array of 65 entries (constants.h L52) -/
def ltM (j : Nat) : Res Nat := if j < 65 then .ok (ltMask j) else .undefined

/-! ### iteration, shared by both classes -/

/-- `iterator::operator++` (bitset.h L409, L432) -/
def iterNext (d : Nat) : Nat := d &&& (d - 1)

/-- values seen by a loop `for (it=begin(); it(); ++it)` from iterator state `d`
(bitset.h L403-409, L426-432) -/
def iterAll : Nat → Nat → Res (List Nat)
  | 0, _ => .outOfFuel
  | k + 1, d =>
    if d = 0 then .ok []
    else do
      let l ← iterAll k (iterNext d)
      return firstBit d :: l

/-- the loop of `slice` (bitset.cpp L51-54 and L241-244, same text), for either class, given
its `test` and `set` -/
def sliceLoop {α : Type} (test : α → Nat → Res Bool) (set : α → Nat → Res α) (val : α) :
    Nat → Nat → Nat → α → Res α
  | 0, _, _, _ => .outOfFuel
  | k + 1, it, count, acc =>
    if it = 0 then .ok acc
    else do
      let t ← test val (firstBit it)
      let acc ← (if t then set acc count else pure acc : Res α)
      sliceLoop test set val k (iterNext it) (count + 1) acc

/-- the loop of `unslice` (bitset.cpp L66-69 and L252-255) -/
def unsliceLoop {α : Type} (test : α → Nat → Res Bool) (set : α → Nat → Res α) (val : α) :
    Nat → Nat → Nat → α → Res α
  | 0, _, _, _ => .outOfFuel
  | k + 1, it, count, acc =>
    if it = 0 then .ok acc
    else do
      let t ← test val count
      let acc ← (if t then set acc (firstBit it) else pure acc : Res α)
      unsliceLoop test set val k (iterNext it) (count + 1) acc

/-- the loop of `n_th_bit` (bitset.cpp L32) -/
def nthLoop : Nat → Nat → Nat
  | 0, d => firstBit d
  | k + 1, d => nthLoop k (iterNext d)

/-! ### one chunk -/

/-- `BitSetBase<1>` (bitset.h L92-94) -/
structure B1 where
  bits : Nat
  deriving DecidableEq, Repr

namespace B1

/-- constructor from `wide_uint` (bitset.h L103) -/
def ofWide (b : Nat) : B1 := ⟨u32 b⟩
/-- `operator==` (bitset.h L108) -/
def beq (a b : B1) : Bool := a.bits == b.bits
/-- `operator<` (bitset.h L110) -/
def lt (a b : B1) : Bool := a.bits < b.bits
/-- `any()` (bitset.h L112) -/
def any (a : B1) : Bool := a.bits ≠ 0
/-- `any(b)` (bitset.h L115) -/
def anyOf (a b : B1) : Bool := a.bits &&& b.bits ≠ 0
/-- `contains` (bitset.h L117) -/
def contains (a b : B1) : Bool := not32 a.bits &&& b.bits = 0
/-- `count` (bitset.h L120) -/
def count (a : B1) : Nat := bitCount a.bits
/-- `firstBit` (bitset.h L121) -/
def first (a : B1) : Nat := firstBit a.bits
/-- `lastBit` (bitset.h L123) -/
def last (a : B1) : Nat := lastBit a.bits
/-- `test` (bitset.h L126) -/
def test (nd : Bool) (a : B1) (j : Nat) : Res Bool := do
  Res.assertIn nd (j < 32)
  let m ← eqM j
  return a.bits &&& m ≠ 0
/-- `position` (bitset.h L129) -/
def position (nd : Bool) (a : B1) (j : Nat) : Res Nat := do
  Res.assertIn nd (j < 32)
  let m ← ltM j
  return bitCount (a.bits &&& m)
/-- `scalarProduct` (bitset.h L132) -/
def scalarProduct (a b : B1) : Bool := bitCount (a.bits &&& b.bits) % 2 ≠ 0
/-- `to_ulong` (bitset.h L135) -/
def toWide (a : B1) : Nat := a.bits
/-- `operator^=` (bitset.h L142) -/
def xor (a b : B1) : B1 := ⟨a.bits ^^^ b.bits⟩
/-- `operator|=` (bitset.h L143) -/
def or (a b : B1) : B1 := ⟨a.bits ||| b.bits⟩
/-- `operator&=` (bitset.h L144) -/
def and (a b : B1) : B1 := ⟨a.bits &&& b.bits⟩
/-- `andnot` (bitset.h L145) -/
def andnot (a b : B1) : B1 := ⟨a.bits &&& not32 b.bits⟩
/-- `operator<<=` (bitset.h L148-154) -/
def shl (a : B1) (c : Nat) : B1 := if c < 32 then ⟨u32 (a.bits <<< c)⟩ else ⟨0⟩
/-- `operator>>=` (bitset.h L155-161) -/
def shr (a : B1) (c : Nat) : B1 := if c < 32 then ⟨a.bits >>> c⟩ else ⟨0⟩
/-- `flip` (bitset.h L163) -/
def flip (a : B1) (j : Nat) : Res B1 := do return ⟨u32 (a.bits ^^^ (← eqM j))⟩
/-- `reset()` (bitset.h L164) -/
def reset (_ : B1) : B1 := ⟨0⟩
/-- `reset(j)` (bitset.h L165) -/
def resetBit (a : B1) (j : Nat) : Res B1 := do return ⟨u32 (a.bits &&& lnot (← eqM j))⟩
/-- `set(j)` (bitset.h L166) -/
def set (a : B1) (j : Nat) : Res B1 := do return ⟨u32 (a.bits ||| (← eqM j))⟩
/-- `set(j,b)` of the derived class (bitset.h L345-346) -/
def setTo (a : B1) (j : Nat) (b : Bool) : Res B1 := if b then set a j else resetBit a j
/-- `fill` (bitset.h L167) -/
def fill (a : B1) (limit : Nat) : Res B1 := do return ⟨u32 (a.bits ||| (← ltM limit))⟩
/-- `complement` (bitset.h L169) -/
def complement (a : B1) (limit : Nat) : Res B1 := do return ⟨u32 (a.bits ^^^ (← ltM limit))⟩
/-- `truncate` (bitset.h L170-171) -/
def truncate (a : B1) (limit : Nat) : Res B1 :=
  if limit < 32 then do return ⟨u32 (a.bits &&& (← ltM limit))⟩ else pure a
/-- `slice` (bitset.cpp L46-55) -/
def slice (nd : Bool) (a c : B1) : Res B1 := sliceLoop (test nd) set a 65 c.bits 0 ⟨0⟩
/-- `unslice` (bitset.cpp L61-70) -/
def unslice (nd : Bool) (a c : B1) : Res B1 := unsliceLoop (test nd) set a 65 c.bits 0 ⟨0⟩
/-- values of the iterator over all set bits -/
def elements (a : B1) : Res (List Nat) := iterAll 65 a.bits
/-- `n_th_bit` (bitset.cpp L31-32) -/
def nth (a : B1) (k : Nat) : Nat := nthLoop k a.bits

/-- the loop of the constructor from a vector (bitset.cpp L26-27) -/
def ofVecLoop : Nat → List Int → B1 → Res B1
  | _, [], b => .ok b
  | i, x :: v, b => do ofVecLoop (i + 1) v (← setTo b i (x.tmod 2 ≠ 0))
/-- constructor from a vector of integers (bitset.cpp L21-28), for `BitSet<32>` -/
def ofVec (nd : Bool) (v : List Int) : Res B1 := do
  Res.assertIn nd (v.length ≤ 32)
  ofVecLoop 0 v ⟨0⟩

end B1

/-! ### two chunks -/

/-- `BitSetBase<2>` (bitset.h L184-187) -/
structure B2 where
  lo : Nat
  hi : Nat
  deriving DecidableEq, Repr

namespace B2

/-- constructor from `wide_uint` (bitset.h L202-203) -/
def ofWide (b : Nat) : B2 := ⟨u32 (b &&& 0xFFFFFFFF), u32 ((b &&& 0xFFFFFFFF00000000) >>> 32)⟩
/-- `operator==` (bitset.h L210-211) -/
def beq (a b : B2) : Bool := a.lo == b.lo && a.hi == b.hi
/-- `operator<` (bitset.h L214-215) -/
def lt (a b : B2) : Bool := if a.hi == b.hi then a.lo < b.lo else a.hi < b.hi
/-- `any()` (bitset.h L217) -/
def any (a : B2) : Bool := a.lo ≠ 0 || a.hi ≠ 0
/-- `any(b)` (bitset.h L220-221) -/
def anyOf (a b : B2) : Bool := a.lo &&& b.lo ≠ 0 || a.hi &&& b.hi ≠ 0
/-- `contains` (bitset.h L222-223) -/
def contains (a b : B2) : Bool := not32 a.lo &&& b.lo = 0 && not32 a.hi &&& b.hi = 0
/-- `count` (bitset.h L225-226) -/
def count (a : B2) : Nat := bitCount a.lo + bitCount a.hi
/-- `firstBit` (bitset.cpp L72-77) -/
def first (a : B2) : Nat := if a.lo ≠ 0 then firstBit a.lo else firstBit a.hi + 32
/-- `lastBit` (bitset.cpp L79-84) -/
def last (a : B2) : Nat := if a.hi ≠ 0 then lastBit a.hi + 32 else lastBit a.lo
/-- `test` (bitset.cpp L86-90) -/
def test (a : B2) (j : Nat) : Res Bool := do
  let m ← eqM (j &&& 31)
  return (if j < 32 then a.lo else a.hi) &&& m ≠ 0
/-- `position` (bitset.cpp L92-100) -/
def position (a : B2) (j : Nat) : Res Nat :=
  if j >>> 6 ≠ 0 then do
    let m ← ltM (j &&& 31)
    return bitCount (a.hi &&& m) + bitCount a.lo
  else do
    let m ← ltM j
    return bitCount (a.lo &&& m)
/-- `scalarProduct` (bitset.cpp L102-105) -/
def scalarProduct (a b : B2) : Bool :=
  (bitCount (a.lo &&& b.lo) + bitCount (a.hi &&& b.hi)) % 2 ≠ 0
/-- `to_ulong` (bitset.h L233-234), also the state of `begin()` (bitset.h L422-423) -/
def toWide (a : B2) : Nat := a.lo ^^^ (a.hi <<< 32)
/-- `operator^=` (bitset.cpp L110-114) -/
def xor (a b : B2) : B2 := ⟨a.lo ^^^ b.lo, a.hi ^^^ b.hi⟩
/-- `operator|=` (bitset.cpp L116-120) -/
def or (a b : B2) : B2 := ⟨a.lo ||| b.lo, a.hi ||| b.hi⟩
/-- `operator&=` (bitset.cpp L122-126) -/
def and (a b : B2) : B2 := ⟨a.lo &&& b.lo, a.hi &&& b.hi⟩
/-- `andnot` (bitset.cpp L174-178) -/
def andnot (a b : B2) : B2 := ⟨a.lo &&& not32 b.lo, a.hi &&& not32 b.hi⟩
/-- `operator<<=` (bitset.cpp L128-149) -/
def shl (a : B2) (c : Nat) : B2 :=
  if c = 0 then a
  else if c < 32 then
    let f := u32 (a.lo &&& lnot (ltMask (32 - c)))
    ⟨u32 (a.lo <<< c), u32 (a.hi <<< c) ||| f >>> (32 - c)⟩
  else if c < 64 then ⟨0, u32 (a.lo <<< (c - 32))⟩
  else ⟨0, 0⟩
/-- `operator>>=` (bitset.cpp L151-172) -/
def shr (a : B2) (c : Nat) : B2 :=
  if c = 0 then a
  else if c < 32 then
    let f := u32 (a.hi &&& ltMask c)
    ⟨a.lo >>> c ||| u32 (f <<< (32 - c)), a.hi >>> c⟩
  else if c < 64 then ⟨a.hi >>> (c - 32), 0⟩
  else ⟨0, 0⟩
/-- `flip` (bitset.cpp L180-183) -/
def flip (a : B2) (j : Nat) : Res B2 := do
  let m ← eqM (j &&& 31)
  return if j < 32 then ⟨u32 (a.lo ^^^ m), a.hi⟩ else ⟨a.lo, u32 (a.hi ^^^ m)⟩
/-- `reset()` (bitset.h L248) -/
def reset (_ : B2) : B2 := ⟨0, 0⟩
/-- `reset(j)` (bitset.cpp L185-188) -/
def resetBit (a : B2) (j : Nat) : Res B2 := do
  let m ← eqM (j &&& 31)
  return if j < 32 then ⟨u32 (a.lo &&& lnot m), a.hi⟩ else ⟨a.lo, u32 (a.hi &&& lnot m)⟩
/-- `set(j)` (bitset.cpp L190-193) -/
def set (a : B2) (j : Nat) : Res B2 := do
  let m ← eqM (j &&& 31)
  return if j < 32 then ⟨u32 (a.lo ||| m), a.hi⟩ else ⟨a.lo, u32 (a.hi ||| m)⟩
/-- `set(j,b)` of the derived class (bitset.h L345-346) -/
def setTo (a : B2) (j : Nat) (b : Bool) : Res B2 := if b then set a j else resetBit a j
/-- `fill` (bitset.cpp L195-206) -/
def fill (nd : Bool) (a : B2) (limit : Nat) : Res B2 :=
  if limit ≤ 32 then do return ⟨u32 (← ltM limit), a.hi⟩
  else if limit ≤ 64 then do return ⟨4294967295, u32 (← ltM (limit - 32))⟩
  else do
    Res.assertIn nd false
    pure a
/-- `complement` (bitset.cpp L208-221) -/
def complement (nd : Bool) (a : B2) (limit : Nat) : Res B2 :=
  if limit ≤ 32 then do return ⟨u32 (a.lo ^^^ (← ltM limit)), a.hi⟩
  else if limit ≤ 64 then do return ⟨not32 a.lo, u32 (a.hi ^^^ (← ltM (limit - 32)))⟩
  else do
    Res.assertIn nd false
    pure a
/-- `truncate` (bitset.cpp L223-234) -/
def truncate (nd : Bool) (a : B2) (limit : Nat) : Res B2 :=
  if limit ≤ 32 then do return ⟨u32 (a.lo &&& (← ltM limit)), 0⟩
  else if limit ≤ 64 then do return ⟨a.lo, u32 (a.hi &&& (← ltM (limit - 32)))⟩
  else do
    Res.assertIn nd false
    pure a
/-- `slice` (bitset.cpp L236-245) -/
def slice (a c : B2) : Res B2 := sliceLoop test set a 65 (toWide c) 0 ⟨0, 0⟩
/-- `unslice` (bitset.cpp L247-256) -/
def unslice (a c : B2) : Res B2 := unsliceLoop test set a 65 (toWide c) 0 ⟨0, 0⟩
/-- values of the iterator over all set bits -/
def elements (a : B2) : Res (List Nat) := iterAll 65 (toWide a)
/-- `n_th_bit` (bitset.cpp L31-32) -/
def nth (a : B2) (k : Nat) : Nat := nthLoop k (toWide a)

/-- the loop of the constructor from a vector (bitset.cpp L26-27) -/
def ofVecLoop : Nat → List Int → B2 → Res B2
  | _, [], b => .ok b
  | i, x :: v, b => do ofVecLoop (i + 1) v (← setTo b i (x.tmod 2 ≠ 0))
/-- constructor from a vector of integers (bitset.cpp L21-28), for `BitSet<n>`, `33 ≤ n ≤ 64` -/
def ofVec (nd : Bool) (n : Nat) (v : List Int) : Res B2 := do
  Res.assertIn nd (v.length ≤ n)
  ofVecLoop 0 v ⟨0, 0⟩

end B2
end Verif.BitSet
