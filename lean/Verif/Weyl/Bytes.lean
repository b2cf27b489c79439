import Verif.Common
/-
Arrays of `unsigned char`: the contents of an array is represented by the natural number of which the entries are the
digits in base 256.  Index checks are made by the users of these functions.
-/
namespace Verif.Weyl
open Verif

/-- the byte at position `i` -/
def getByte (n i : Nat) : Nat := n >>> (8 * i) % 256

/-- change the byte at position `i` to `v` -/
def setByte (n i v : Nat) : Nat := n ^^^ (getByte n i ^^^ v) <<< (8 * i)

/-- set `k` bytes from position `i` on to 255 -/
def fillBytes (n i k : Nat) : Nat := n ||| (2 ^ (8 * k) - 1) <<< (8 * i)

theorem testBit_getByte (n i b : Nat) : (getByte n i).testBit b = (decide (b < 8) && n.testBit (8 * i + b)) := by
  unfold getByte
  rw [show 256 = 2 ^ 8 from rfl, Nat.testBit_mod_two_pow, Nat.testBit_shiftRight]

theorem getByte_lt (n i : Nat) : getByte n i < 256 := Nat.mod_lt _ (by decide)

theorem testBit_ge_256 {v b : Nat} (hv : v < 256) (hb : 8 ≤ b) : v.testBit b = false :=
  Nat.testBit_lt_two_pow (Nat.lt_of_lt_of_le hv (by rw [show 256 = 2 ^ 8 from rfl]; exact Nat.pow_le_pow_right (by decide) hb))

theorem getByte_setByte (n i j : Nat) {v : Nat} (hv : v < 256) : getByte (setByte n i v) j = if i = j then v else getByte n j := by
  apply Nat.eq_of_testBit_eq
  intro b
  rw [testBit_getByte, setByte, Nat.testBit_xor, Nat.testBit_shiftLeft]
  by_cases hb : b < 8
  · by_cases h : i = j
    · subst h
      rw [if_pos rfl]
      have e1 : decide (8 * i + b ≥ 8 * i) = true := by simp
      have e2 : 8 * i + b - 8 * i = b := by omega
      rw [e1, e2, Nat.testBit_xor, testBit_getByte]
      simp [hb]
    · rw [if_neg h, testBit_getByte]
      by_cases h1 : i < j
      · have : (getByte n i ^^^ v).testBit (8 * j + b - 8 * i) = false :=
          testBit_ge_256 (Nat.xor_lt_two_pow (n := 8) (getByte_lt n i) hv) (by omega)
        rw [this]; simp
      · have : decide (8 * j + b ≥ 8 * i) = false := by simp; omega
        rw [this]; simp
  · have : (if i = j then v else getByte n j).testBit b = false := by
      apply testBit_ge_256 _ (by omega)
      by_cases h : i = j
      · rw [if_pos h]; exact hv
      · rw [if_neg h]; exact getByte_lt n j
    rw [this]; simp [hb]

theorem getByte_fillBytes (n i k j : Nat) : getByte (fillBytes n i k) j = if i ≤ j ∧ j < i + k then 255 else getByte n j := by
  apply Nat.eq_of_testBit_eq
  intro b
  rw [testBit_getByte, fillBytes, Nat.testBit_or, Nat.testBit_shiftLeft, Nat.testBit_two_pow_sub_one]
  by_cases hb : b < 8
  · by_cases h : i ≤ j ∧ j < i + k
    · rw [if_pos h]
      have e1 : decide (8 * j + b ≥ 8 * i) = true := by simp; omega
      have e2 : decide (8 * j + b - 8 * i < 8 * k) = true := by simp; omega
      rw [e1, e2, show 255 = 2 ^ 8 - 1 from rfl, Nat.testBit_two_pow_sub_one]
      simp [hb]
    · rw [if_neg h, testBit_getByte]
      have : (decide (8 * j + b ≥ 8 * i) && decide (8 * j + b - 8 * i < 8 * k)) = false := by
        rw [Bool.and_eq_false_iff]
        by_cases h1 : i ≤ j
        · right; simp; omega
        · left; simp; omega
      rw [this, Bool.or_false]
  · have : (if i ≤ j ∧ j < i + k then 255 else getByte n j).testBit b = false := by
      apply testBit_ge_256 _ (by omega)
      split
      · decide
      · exact getByte_lt n j
    rw [this]; simp [hb]

end Verif.Weyl
