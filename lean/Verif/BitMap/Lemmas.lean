import Verif.BitMap.Model
import Verif.Bits.Props
import Mathlib.Data.Finset.Card
import Mathlib.Data.Finset.Sort
import Mathlib.Order.Interval.Finset.Nat
/-
Lemmas on lists of words for the `BitMap` proofs, and the representation relation.
-/
namespace Verif.BitMap
open Verif.Bits

/-- bit number `i` of a vector of 64-bit words -/
def bit (l : List Nat) (i : Nat) : Bool := (l.getD (i / 64) 0).testBit (i % 64)

/-- `b` represents the subset `S` of `[0,c)` -/
structure Rep (b : BitMap) (c : Nat) (S : Finset Nat) : Prop where
  cap : b.cap = c
  room : c + 64 ≤ 2 ^ 64
  len : b.map.length = (c + 63) / 64
  wf : ∀ w ∈ b.map, w < 2 ^ 64
  bits : ∀ i, bit b.map i = decide (i ∈ S)
  sub : ∀ i ∈ S, i < c

theorem wordOf_eq (n : Nat) : wordOf n = n / 64 := by unfold wordOf; rw [Nat.shiftRight_eq_div_pow]
theorem posOf_eq (n : Nat) : posOf n = n % 64 := Nat.and_two_pow_sub_one_eq_mod n 6

theorem rd_ok {l : List Nat} {i : Nat} (h : i < l.length) : rd l i = .ok (l.getD i 0) := by
  unfold rd
  rw [List.getElem?_eq_getElem h, List.getD_eq_getElem _ _ h]

theorem upd_ok {l : List Nat} {i : Nat} (f : Nat → Nat) (h : i < l.length) :
    upd l i f = .ok (l.set i (f (l.getD i 0))) := by
  unfold upd
  rw [List.getElem?_eq_getElem h, List.getD_eq_getElem _ _ h]

theorem getD_set {l : List Nat} {i j v : Nat} (h : i < l.length) :
    (l.set i v).getD j 0 = if i = j then v else l.getD j 0 := by
  rw [List.getD_eq_getElem?_getD, List.getD_eq_getElem?_getD, List.getElem?_set]
  by_cases c : i = j
  · subst c; simp [h]
  · simp [c]

theorem getD_lt {l : List Nat} (wf : ∀ w ∈ l, w < 2 ^ 64) (i : Nat) : l.getD i 0 < 2 ^ 64 := by
  by_cases h : i < l.length
  · rw [List.getD_eq_getElem _ _ h]; exact wf _ (List.getElem_mem h)
  · rw [List.getD_eq_default _ _ (by omega)]; norm_num

theorem wf_of_getD {l : List Nat} (h : ∀ i < l.length, l.getD i 0 < 2 ^ 64) : ∀ w ∈ l, w < 2 ^ 64 := by
  intro w hw
  obtain ⟨i, hi, rfl⟩ := List.getElem_of_mem hw
  have := h i hi
  rwa [List.getD_eq_getElem _ _ hi] at this

theorem wf_set {l : List Nat} (wf : ∀ w ∈ l, w < 2 ^ 64) {i v : Nat} (hv : v < 2 ^ 64) :
    ∀ w ∈ l.set i v, w < 2 ^ 64 := by
  intro w hw
  rcases List.mem_or_eq_of_mem_set hw with h | h
  · exact wf w h
  · subst h; exact hv

theorem bit_of_words {l : List Nat} (wf : ∀ w ∈ l, w < 2 ^ 64) (j k : Nat) :
    (l.getD j 0).testBit k = if k < 64 then bit l (64 * j + k) else false := by
  split
  · next h =>
    unfold bit
    rw [show (64 * j + k) / 64 = j by omega, show (64 * j + k) % 64 = k by omega]
  · next h =>
    exact Nat.testBit_lt_two_pow (lt_of_lt_of_le (getD_lt wf j) (Nat.pow_le_pow_right (by norm_num) (by omega)))

theorem testBit_lnot {x : Nat} (h : x < 2 ^ 64) (k : Nat) : (lnot x).testBit k = (decide (k < 64) && !x.testBit k) := by
  unfold lnot
  have : 18446744073709551616 - 1 - x = 2 ^ 64 - (x + 1) := by omega
  rw [this, Nat.testBit_two_pow_sub_succ h]

theorem lnot_lt (x : Nat) : lnot x < 2 ^ 64 := by unfold lnot; omega

theorem eqMask_lt {j : Nat} (h : j < 64) : eqMask j < 2 ^ 64 := by
  rw [eqMask, Nat.one_shiftLeft]; exact Nat.pow_lt_pow_right (by norm_num) h

theorem ltMask_lt {j : Nat} (h : j ≤ 64) : ltMask j < 2 ^ 64 := by
  rw [ltMask_eq]
  have : 2 ^ j ≤ 2 ^ 64 := Nat.pow_le_pow_right (by norm_num) h
  have : 0 < 2 ^ j := by positivity
  omega

theorem testBit_eqMask (j k : Nat) : (eqMask j).testBit k = decide (k = j) := (C18_masks j k).1
theorem testBit_ltMask (j k : Nat) : (ltMask j).testBit k = decide (k < j) := (C18_masks j k).2.1

theorem testBit_mask_ne (w j : Nat) : decide (w &&& eqMask j ≠ 0) = w.testBit j := by
  by_cases h : w.testBit j
  · rw [h, decide_eq_true]
    intro h0
    have : (w &&& eqMask j).testBit j = true := by
      rw [Nat.testBit_and, h, testBit_eqMask]; simp
    rw [h0, Nat.zero_testBit] at this; cases this
  · have h' : w.testBit j = false := by simpa using h
    rw [h', decide_eq_false]
    push Not
    apply Nat.eq_of_testBit_eq
    intro k
    rw [Nat.testBit_and, testBit_eqMask, Nat.zero_testBit]
    by_cases c : k = j
    · subst c; simp [h']
    · simp [c]

theorem M_pow : (18446744073709551616 : Nat) = 2 ^ 64 := by norm_num

namespace Rep
variable {b : BitMap} {c : Nat} {S : Finset Nat}

theorem words (h : Rep b c S) (j k : Nat) :
    (b.map.getD j 0).testBit k = (decide (k < 64) && decide (64 * j + k ∈ S)) := by
  rw [bit_of_words h.wf, h.bits]
  by_cases c : k < 64 <;> simp [c]

theorem index (h : Rep b c S) {n : Nat} (hn : n < c) : n / 64 < b.map.length := by
  rw [h.len]; omega

theorem bit_iff (h : Rep b c S) (i : Nat) : bit b.map i = true ↔ i ∈ S := by
  rw [h.bits]; simp

end Rep

/-- building a representation from word values -/
theorem Rep.mk' {b : BitMap} {c : Nat} {S : Finset Nat} (h1 : b.cap = c) (h2 : c + 64 ≤ 2 ^ 64)
    (h3 : b.map.length = (c + 63) / 64) (h4 : ∀ j < b.map.length, b.map.getD j 0 < 2 ^ 64)
    (h5 : ∀ j < b.map.length, ∀ k < 64, (b.map.getD j 0).testBit k = decide (64 * j + k ∈ S))
    (h6 : ∀ i ∈ S, i < c) : Rep b c S := by
  refine ⟨h1, h2, h3, wf_of_getD h4, fun i => ?_, h6⟩
  unfold bit
  by_cases hi : i / 64 < b.map.length
  · rw [h5 _ hi _ (by omega), Nat.div_add_mod]
  · rw [List.getD_eq_default _ _ (by omega), Nat.zero_testBit]
    symm
    apply decide_eq_false
    intro hm
    have := h6 i hm
    rw [h3] at hi; omega

/-- changing one word -/
theorem Rep.upd {b : BitMap} {c : Nat} {S T : Finset Nat} (h : Rep b c S) {m : Nat} (f : Nat → Nat)
    (hm : m < b.map.length) (hf : f (b.map.getD m 0) < 2 ^ 64)
    (h1 : ∀ k < 64, (f (b.map.getD m 0)).testBit k = decide (64 * m + k ∈ T))
    (h2 : ∀ i, i / 64 ≠ m → (i ∈ T ↔ i ∈ S)) (h3 : ∀ i ∈ T, i < c) :
    ∃ l, BitMap.upd b.map m f = .ok l ∧ Rep ⟨b.cap, l⟩ c T := by
  refine ⟨_, upd_ok f hm, Rep.mk' h.cap h.room (by simp [h.len]) ?_ ?_ h3⟩
  · intro j hj
    dsimp only at hj ⊢
    rw [getD_set hm]
    split
    · exact hf
    · exact getD_lt h.wf j
  · intro j hj k hk
    dsimp only at hj ⊢
    rw [getD_set hm]
    split
    · next e => subst e; exact h1 k hk
    · next e =>
      rw [h.words]
      have := h2 (64 * j + k) (by omega)
      simp [hk, this]

end Verif.BitMap
