import Verif.BigInt.BitLemmas4
import Verif.BigInt.PropsBasic
/-
Property C08: bitwise operations on `big_int`.  `Bit n k` says that bit `k` of the infinite
two's complement expansion of the integer `n` is set; by `bits_determine` the
statements about all bits below determine the integer denoted by the result.
-/
namespace Verif.BigInt

/-- adequacy of the specification: an integer is determined by its bits -/
theorem bits_determine {m n : Int} : (∀ k, Bit m k ↔ Bit n k) ↔ m = n :=
  ⟨int_eq_of_bits, fun h k => by rw [h]⟩

theorem of_digits {r : Digits} (h : Norm r) : Canon r ∧ value r = sval r :=
  ⟨canon_iff_norm.2 h, value_eq_sval r⟩

/-- C08: `a &= b` never leaves its vectors and gives the intersection, in canonical form. -/
theorem C08_andAssign {d x : Digits} {a b : Int} (hd : Rep d a) (hx : Rep x b) :
    ∃ r, andAssign d x = some r ∧ Canon r ∧ ∀ k, Bit (value r) k ↔ Bit a k ∧ Bit b k := by
  rw [rep_iff] at hd hx
  obtain ⟨r, h1, h2, h3⟩ := andAssign_digits hd.1 hx.1
  refine ⟨r, h1, (of_digits h2).1, fun k => ?_⟩
  rw [(of_digits h2).2, bit_iff h2.wf, h3, ← hd.2, ← hx.2, bit_iff hd.1.wf, bit_iff hx.1.wf,
    Nat.testBit_and]
  simp

/-- C08: `a |= b` never leaves its vectors and gives the union, in canonical form. -/
theorem C08_orAssign {d x : Digits} {a b : Int} (hd : Rep d a) (hx : Rep x b) :
    ∃ r, orAssign d x = some r ∧ Canon r ∧ ∀ k, Bit (value r) k ↔ Bit a k ∨ Bit b k := by
  rw [rep_iff] at hd hx
  obtain ⟨r, h1, h2, h3⟩ := orAssign_digits hd.1 hx.1
  refine ⟨r, h1, (of_digits h2).1, fun k => ?_⟩
  rw [(of_digits h2).2, bit_iff h2.wf, h3, ← hd.2, ← hx.2, bit_iff hd.1.wf, bit_iff hx.1.wf,
    Nat.testBit_or]
  simp

/-- C08: `a ^= b` gives the symmetric difference, in canonical form. -/
theorem C08_xorAssign {d x : Digits} {a b : Int} (hd : Rep d a) (hx : Rep x b) :
    Canon (xorAssign d x) ∧ ∀ k, Bit (value (xorAssign d x)) k ↔ ¬ (Bit a k ↔ Bit b k) := by
  rw [rep_iff] at hd hx
  obtain ⟨h2, h3⟩ := xorAssign_digits hd.1 hx.1
  refine ⟨(of_digits h2).1, fun k => ?_⟩
  rw [(of_digits h2).2, bit_iff h2.wf, h3, ← hd.2, ← hx.2, bit_iff hd.1.wf, bit_iff hx.1.wf,
    Nat.testBit_xor]
  cases (digAt d (k / 32)).testBit (k % 32) <;> cases (digAt x (k / 32)).testBit (k % 32) <;> simp

/-- C08: `a.bitwise_subtract(b)` never leaves its vectors and gives the set difference, in
canonical form. -/
theorem C08_bitwiseSubtract {d x : Digits} {a b : Int} (hd : Rep d a) (hx : Rep x b) :
    ∃ r, bitwiseSubtract d x = some r ∧ Canon r ∧
      ∀ k, Bit (value r) k ↔ Bit a k ∧ ¬ Bit b k := by
  rw [rep_iff] at hd hx
  obtain ⟨r, h1, h2, h3⟩ := bitwiseSubtract_digits hd.1 hx.1
  refine ⟨r, h1, (of_digits h2).1, fun k => ?_⟩
  have hk : k % 32 < 32 := Nat.mod_lt _ (by norm_num)
  rw [(of_digits h2).2, bit_iff h2.wf, h3, ← hd.2, ← hx.2, bit_iff hd.1.wf, bit_iff hx.1.wf,
    Nat.testBit_and, testBit_dnot (digAt_lt hx.1.wf _)]
  simp [hk]

/-- C08: the non-destructive versions `a & b`, `a | b`, `bitwise_subtract(b) const`. -/
theorem C08_nondestructive {d x : Digits} {a b : Int} (hd : Rep d a) (hx : Rep x b) :
    (∃ r, bitAnd d x = some r ∧ Canon r ∧ ∀ k, Bit (value r) k ↔ Bit a k ∧ Bit b k) ∧
    (∃ r, bitOr d x = some r ∧ Canon r ∧ ∀ k, Bit (value r) k ↔ Bit a k ∨ Bit b k) ∧
    (∃ r, bitSub d x = some r ∧ Canon r ∧ ∀ k, Bit (value r) k ↔ Bit a k ∧ ¬ Bit b k) := by
  refine ⟨?_, ?_, ?_⟩
  · have e : bitAnd d x = andAssign d x ∨ bitAnd d x = andAssign x d := ite_eq_or_eq _ _ _
    rcases e with e | e <;> rw [e]
    · exact C08_andAssign hd hx
    · obtain ⟨r, h1, h2, h3⟩ := C08_andAssign hx hd
      exact ⟨r, h1, h2, fun k => by rw [h3, and_comm]⟩
  · have e : bitOr d x = orAssign d x ∨ bitOr d x = orAssign x d := ite_eq_or_eq _ _ _
    rcases e with e | e <;> rw [e]
    · exact C08_orAssign hd hx
    · obtain ⟨r, h1, h2, h3⟩ := C08_orAssign hx hd
      exact ⟨r, h1, h2, fun k => by rw [h3, or_comm]⟩
  · have e : bitSub d x = bitwiseSubtract d x ∨ bitSub d x = andAssign (complement x) d := ite_eq_or_eq _ _ _
    rcases e with e | e <;> rw [e]
    · exact C08_bitwiseSubtract hd hx
    · obtain ⟨r, h1, h2, h3⟩ := C08_andAssign (C04_complement hx) hd
      refine ⟨r, h1, h2, fun k => ?_⟩
      rw [h3, and_comm]
      have : Bit (-1 - b) k ↔ ¬ Bit b k := by
        unfold Bit
        have hp : (0 : Int) < 2 ^ k := by positivity
        have e : (-1 - b) / 2 ^ k = -1 - b / 2 ^ k := by
          rw [Int.ediv_eq_iff_of_pos hp]
          have := Int.emod_nonneg b hp.ne'
          have := Int.emod_lt_of_pos b hp
          have e := Int.mul_ediv_add_emod b (2 ^ k)
          constructor <;> nlinarith
        rw [e]; omega
      rw [this]

/-- C08: `a.bitwise_subset(b)` decides inclusion. -/
theorem C08_bitwiseSubset {d x : Digits} {a b : Int} (hd : Rep d a) (hx : Rep x b) :
    bitwiseSubset d x = true ↔ ∀ k, Bit a k → Bit b k := by
  rw [rep_iff] at hd hx
  rw [bitwiseSubset_digits hd.1 hx.1, ← hd.2, ← hx.2]
  constructor
  · intro h k
    rw [bit_iff hd.1.wf, bit_iff hx.1.wf]
    intro h1
    have h2 := congrArg (Nat.testBit · (k % 32)) (h (k / 32))
    have hk : k % 32 < 32 := Nat.mod_lt _ (by norm_num)
    simp only [Nat.testBit_and, testBit_dnot (digAt_lt hx.1.wf _), hk, decide_true,
      Bool.true_and, h1, Nat.zero_testBit] at h2
    simpa using h2
  · intro h i
    apply Nat.eq_of_testBit_eq
    intro j
    rw [Nat.testBit_and, testBit_dnot (digAt_lt hx.1.wf _), Nat.zero_testBit]
    by_cases hj : j < 32
    · have := h (32 * i + j)
      rw [bit_at hd.1.wf i hj, bit_at hx.1.wf i hj] at this
      cases h1 : (digAt d i).testBit j <;> simp_all
    · simp [hj]

/-- C08: `index_of_set_bit(n)` is the position of the set bit that has exactly `n` set bits
below it, and `-1` precisely when there are at most `n` set bits. -/
theorem C08_indexOfSetBit {d : Digits} {a : Int} (hd : Rep d a) (n : Nat) :
    (∃ p : Nat, indexOfSetBit d n = p ∧ Bit a p ∧ bitsBelow a p = n) ∨
    (indexOfSetBit d n = -1 ∧ ∀ p, bitsBelow a p ≤ n) := by
  rw [rep_iff] at hd
  rw [← hd.2]
  exact indexOfSetBit_spec hd.1.wf n

/-- C08: `bit_length()` of a nonnegative number is the least `k` with `a < 2^k`. -/
theorem C08_bitLength_nonneg {d : Digits} {a : Int} (hd : Rep d a) (h : 0 ≤ a) (k : Nat) :
    0 ≤ bitLength d ∧ (bitLength d ≤ k ↔ a < 2 ^ k) := by
  rw [rep_iff] at hd
  have hs : isNegative d = false := by
    have := isNegative_iff hd.1.wf
    rw [hd.2] at this
    rcases hn : isNegative d with _ | _
    · rfl
    · have := this.1 hn; omega
  unfold bitLength
  rw [hs, if_neg (by simp), ← hd.2, ← bitLength_pos hd.1.wf hs hd.1 k]
  constructor
  · positivity
  · norm_cast

/-- C08: `bit_length()` of a negative number is `-1-k` for the least `k` with `-2^k ≤ a`. -/
theorem C08_bitLength_neg {d : Digits} {a : Int} (hd : Rep d a) (h : a < 0) (k : Nat) :
    bitLength d ≤ -1 ∧ (-1 - bitLength d ≤ k ↔ -2 ^ k ≤ a) := by
  rw [rep_iff] at hd
  have hs : isNegative d = true := (isNegative_iff hd.1.wf).2 (by rw [hd.2]; exact h)
  have hs' : isNegative (cmap d) = false := by rw [isNegative_cmap hd.1.wf, hs]; rfl
  have hb : back (cmap d) = dnot (back d) := by
    have h0 : cmap d ≠ [] := by simpa [cmap] using hd.1.wf.1
    rw [← digAt_back h0, ← digAt_back hd.1.wf.1, digAt_cmap hd.1.wf, cmap_length]
  have key := bitLength_pos (cmap_wf hd.1.wf) hs' (cmap_norm hd.1) k
  rw [cmap_sval hd.1.wf, hd.2, cmap_length, hb] at key
  unfold bitLength
  rw [hs, if_pos rfl]
  generalize 32 * (d.length - 1) + Bits.lastBit (dnot (back d)) = L at *
  generalize (2 : Int) ^ k = P at *
  constructor
  · omega
  · omega

example : Rep [0, 𝐇 + 5] (-2 ^ 63 + 5 * 2 ^ 32) ∧ Rep [7, 3] (3 * 2 ^ 32 + 7) ∧
    andAssign [0, 𝐇 + 5] [7, 3] = some [0, 1] ∧ orAssign [0, 𝐇 + 5] [7, 3] = some [7, 𝐇 + 7] ∧
    xorAssign [0, 𝐇 + 5] [7, 3] = [7, 𝐇 + 6] ∧ bitwiseSubtract [7, 3] [0, 𝐇 + 5] = some [7, 2] ∧
    indexOfSetBit [0, 𝐇 + 5] 2 = 63 ∧ bitLength [0, 𝐇 + 5] = -64 ∧ bitLength [7, 3] = 34 :=
  ⟨rep_of_check (by decide), rep_of_check (by decide), by decide, by decide, by decide, by decide,
    by decide +kernel, by decide +kernel, by decide +kernel⟩

/-- the `bits::lastBit` used within the model of `reduce_mod` agrees with the table driven
function -/
theorem lastBit_eq {x : Nat} (h : x < 2 ^ 64) : lastBit x = Bits.lastBit x := by
  have key : ∀ k, lastBit x ≤ k ↔ x < 2 ^ k := by
    intro k
    unfold lastBit
    split
    · next h0 => subst h0; simp
    · next h0 => rw [Nat.add_one_le_iff, Nat.log2_lt h0]
  have h1 := (key (Bits.lastBit x)).2 ((Bits.C18_lastBit h _).1 le_rfl)
  have h2 := (Bits.C18_lastBit h (lastBit x)).2 ((key _).1 le_rfl)
  omega

end Verif.BigInt
