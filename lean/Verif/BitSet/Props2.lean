import Verif.BitSet.Props
/-
Property theorems C22 for two-chunk sets (`BitSet<33>`, `BitSet<64>`), and the places where
the two-chunk class departs from the property.
-/
namespace Verif.BitSet
open Verif.Bits Verif.BitMap

variable {a b c : B2} {S T C : Finset Nat}

theorem rep2_zero : Rep2 ⟨0, 0⟩ ∅ := ⟨by norm_num, by norm_num, fun i => by simp [B2.bit]⟩

/-- C22: every pair of chunks stands for a set. -/
theorem C22_two_rep (h1 : a.lo < 2 ^ 32) (h2 : a.hi < 2 ^ 32) : ∃ S, Rep2 a S :=
  ⟨(Finset.range 64).filter (a.bit ·), h1, h2, fun i => by
    by_cases c : i < 64
    · simp [c]
    · unfold B2.bit; rw [if_neg (by omega), high_false h2 (by omega)]; simp [c]⟩

theorem Rep2.eq (h : Rep2 a S) (h' : Rep2 b S) : a = b := by
  have h1 := Word.eq h.wlo h'.wlo
  have h2 := Word.eq h.whi h'.whi
  cases a; cases b; simp_all

theorem C22_two_eq (h : Rep2 a S) (h' : Rep2 b T) : a.beq b = decide (S = T) := by
  unfold B2.beq
  rw [Bool.eq_iff_iff, Bool.and_eq_true, beq_iff_eq, beq_iff_eq, decide_eq_true_eq]
  constructor
  · rintro ⟨e1, e2⟩
    ext i
    have h1 := h.bits i
    have h2 := h'.bits i
    unfold B2.bit at h1 h2
    rw [e1, e2, h2] at h1
    simpa using h1.symm
  · rintro rfl; rw [h.eq h']; exact ⟨rfl, rfl⟩

/-- C22: conversion from an integer takes its 64 lowest binary digits, `to_ulong` gives them back. -/
theorem C22_two_wide {x : Nat} (hx : x < 2 ^ 64) :
    ∃ S, Rep2 (B2.ofWide x) S ∧ (∀ i, i ∈ S ↔ x.testBit i = true) ∧ (B2.ofWide x).toWide = x := by
  have hb : ∀ i, (B2.ofWide x).bit i = x.testBit i := by
    intro i
    unfold B2.ofWide B2.bit
    dsimp only
    have hm : (0xFFFFFFFF00000000 : Nat) = (2 ^ 32 - 1) <<< 32 := by decide
    have hl : (0xFFFFFFFF : Nat) = 2 ^ 32 - 1 := by decide
    by_cases c : i < 32
    · rw [if_pos c, testBit_u32, hl, Nat.testBit_and, Nat.testBit_two_pow_sub_one]; simp [c]
    · rw [if_neg c, testBit_u32, Nat.testBit_shiftRight, hm, Nat.testBit_and, Nat.testBit_shiftLeft,
        Nat.testBit_two_pow_sub_one, show 32 + (i - 32) = i by omega]
      by_cases c' : i < 64
      · simp [show i - 32 < 32 by omega, show 32 ≤ i by omega]
      · rw [high_false hx (by omega)]; simp
  have hlo : (B2.ofWide x).lo < 2 ^ 32 := u32_lt _
  refine ⟨(Finset.range 64).filter (x.testBit ·), ⟨hlo, u32_lt _, fun i => ?_⟩, fun i => ?_, ?_⟩
  · rw [hb]
    by_cases c : i < 64
    · simp [c]
    · rw [high_false hx (by omega)]; simp [c]
  · simp only [Finset.mem_filter, Finset.mem_range, and_iff_right_iff_imp]
    intro hi
    by_contra hc
    rw [high_false hx (by omega)] at hi; cases hi
  · apply Nat.eq_of_testBit_eq
    intro i
    rw [B2.testBit_toWide hlo, hb]

/-- C22: membership test. -/
theorem C22_two_test (h : Rep2 a S) {j : Nat} (hj : j < 64) : a.test j = .ok (decide (j ∈ S)) := by
  unfold B2.test
  rw [and31, eqM_ok (by omega), Res.ok_bind, Res.pure_eq, testBit_mask_ne, ← h.bits]
  unfold B2.bit
  by_cases c : j < 32
  · rw [if_pos c, if_pos c, Nat.mod_eq_of_lt c]
  · rw [if_neg c, if_neg c, show j % 32 = j - 32 by omega]

theorem low_high_nonempty (hS : ∀ i ∈ S, i < 64) : S.Nonempty ↔ (low S).Nonempty ∨ (high S).Nonempty := by
  constructor
  · rintro ⟨i, hi⟩
    have := hS i hi
    by_cases c : i < 32
    · exact .inl ⟨i, mem_low.2 ⟨hi, c⟩⟩
    · exact .inr ⟨i - 32, mem_high.2 ⟨by rwa [show i - 32 + 32 = i by omega], by omega⟩⟩
  · rintro (⟨i, hi⟩ | ⟨i, hi⟩)
    · exact ⟨i, (mem_low.1 hi).1⟩
    · exact ⟨i + 32, (mem_high.1 hi).1⟩

theorem C22_two_any (h : Rep2 a S) : a.any = decide S.Nonempty := by
  unfold B2.any
  rw [Bool.eq_iff_iff, Bool.or_eq_true, decide_eq_true_eq, decide_eq_true_eq, decide_eq_true_eq,
    h.wlo.ne_zero, h.whi.ne_zero, low_high_nonempty (fun _ => h.sub)]

theorem low_inter (S T : Finset Nat) : low S ∩ low T = low (S ∩ T) := by
  ext i; simp only [Finset.mem_inter, mem_low]; tauto
theorem high_inter (S T : Finset Nat) : high S ∩ high T = high (S ∩ T) := by
  ext i; simp only [Finset.mem_inter, mem_high]; tauto

theorem C22_two_anyOf (h : Rep2 a S) (h' : Rep2 b T) : a.anyOf b = decide (S ∩ T).Nonempty := by
  unfold B2.anyOf
  rw [Bool.eq_iff_iff, Bool.or_eq_true, decide_eq_true_eq, decide_eq_true_eq, decide_eq_true_eq,
    (h.wlo.and h'.wlo).ne_zero, (h.whi.and h'.whi).ne_zero, low_inter, high_inter,
    ← low_high_nonempty (fun i hi => h.sub (Finset.mem_inter.1 hi).1)]

theorem C22_two_contains (h : Rep2 a S) (h' : Rep2 b T) : a.contains b = decide (T ⊆ S) := by
  unfold B2.contains
  rw [Bool.eq_iff_iff, Bool.and_eq_true, decide_eq_true_eq, decide_eq_true_eq, decide_eq_true_eq,
    Word.contains h.wlo h'.wlo, Word.contains h.whi h'.whi]
  constructor
  · rintro ⟨h1, h2⟩ i hi
    have := h'.sub hi
    by_cases c : i < 32
    · exact (mem_low.1 (h1 (mem_low.2 ⟨hi, c⟩))).1
    · have := (mem_high.1 (h2 (mem_high.2 ⟨by rwa [show i - 32 + 32 = i by omega], by omega⟩))).1
      rwa [show i - 32 + 32 = i by omega] at this
  · intro hs
    exact ⟨fun i hi => mem_low.2 ⟨hs (mem_low.1 hi).1, (mem_low.1 hi).2⟩,
      fun i hi => mem_high.2 ⟨hs (mem_high.1 hi).1, (mem_high.1 hi).2⟩⟩

theorem C22_two_count (h : Rep2 a S) : a.count = S.card := by
  unfold B2.count
  rw [h.wlo.card (by norm_num), h.whi.card (by norm_num), card_low_high (fun _ => h.sub)]

/-- C22: `firstBit` of a nonempty set is its least member. -/
theorem C22_two_first (h : Rep2 a S) (hS : S.Nonempty) : a.first ∈ S ∧ ∀ i ∈ S, a.first ≤ i := by
  unfold B2.first
  by_cases c : a.lo ≠ 0
  · rw [if_pos c]
    obtain ⟨h1, h2⟩ := h.wlo.first (by norm_num) (h.wlo.ne_zero.1 c)
    refine ⟨(mem_low.1 h1).1, fun i hi => ?_⟩
    by_cases ci : i < 32
    · exact h2 i (mem_low.2 ⟨hi, ci⟩)
    · have := (mem_low.1 h1).2; omega
  · rw [if_neg c]
    have hl : ¬ (low S).Nonempty := fun hn => c (h.wlo.ne_zero.2 hn)
    have hh := ((low_high_nonempty (fun _ => h.sub)).1 hS).resolve_left hl
    obtain ⟨h1, h2⟩ := h.whi.first (by norm_num) hh
    refine ⟨(mem_high.1 h1).1, fun i hi => ?_⟩
    have := h.sub hi
    by_cases ci : i < 32
    · exact absurd ⟨i, mem_low.2 ⟨hi, ci⟩⟩ hl
    · have := h2 (i - 32) (mem_high.2 ⟨by rwa [show i - 32 + 32 = i by omega], by omega⟩)
      omega

/-- C22 fails: for an empty two-chunk set `firstBit` gives 96, where the one-chunk class (and
the comment on it, "`longBits` if none") gives 64 (finding F10). -/
theorem C22_two_first_empty_false : B2.first ⟨0, 0⟩ = 96 ∧ B1.first ⟨0⟩ = 64 := by decide +kernel

/-- C22: `lastBit` is one more than the largest member, 0 for the empty set. -/
theorem C22_two_last (h : Rep2 a S) (k : Nat) : a.last ≤ k ↔ ∀ i ∈ S, i < k := by
  unfold B2.last
  by_cases c : a.hi ≠ 0
  · rw [if_pos c]
    obtain ⟨m, hm⟩ := h.whi.ne_zero.1 c
    constructor
    · intro hk i hi
      have := h.sub hi
      have hh := (h.whi.last (by norm_num) (k - 32)).1 (by omega)
      by_cases ci : i < 32
      · omega
      · have := hh (i - 32) (mem_high.2 ⟨by rwa [show i - 32 + 32 = i by omega], by omega⟩)
        omega
    · intro hk
      have := hk _ (mem_high.1 hm).1
      have := (h.whi.last (by norm_num) (k - 32)).2 (fun i hi => by
        have := hk _ (mem_high.1 hi).1; omega)
      omega
  · rw [if_neg c, h.wlo.last (by norm_num)]
    have hl : ¬ (high S).Nonempty := fun hn => c (h.whi.ne_zero.2 hn)
    constructor
    · intro hk i hi
      have := h.sub hi
      by_cases ci : i < 32
      · exact hk i (mem_low.2 ⟨hi, ci⟩)
      · exact absurd ⟨i - 32, mem_high.2 ⟨by rwa [show i - 32 + 32 = i by omega], by omega⟩⟩ hl
    · intro hk i hi; exact hk i (mem_low.1 hi).1

/-- C22: `position(j)` is the number of members below `j`, for `j ≤ 32` only.  Missing:
`32 < j < 64`, where it is false (`C22_two_position_false`). -/
theorem C22_two_position_partial (h : Rep2 a S) {j : Nat} (hj : j ≤ 32) :
    a.position j = .ok (S.filter (· < j)).card := by
  unfold B2.position
  rw [Nat.shiftRight_eq_div_pow, if_neg (by omega), ltM_ok (by omega), Res.ok_bind, Res.pure_eq,
    (h.wlo.and Word.ltMask).card (by norm_num)]
  congr 2; ext i
  simp only [Finset.mem_inter, mem_low, Finset.mem_range, Finset.mem_filter]
  constructor
  · rintro ⟨⟨h1, -⟩, h2⟩; exact ⟨h1, h2⟩
  · rintro ⟨h1, h2⟩; exact ⟨⟨h1, by omega⟩, h2⟩

/-- what `position` computes in the remaining range: only members below 32 are counted -/
theorem C22_two_position_high (h : Rep2 a S) {j : Nat} (hj : 32 ≤ j) (hj' : j < 64) :
    a.position j = .ok (S.filter (· < 32)).card := by
  unfold B2.position
  rw [Nat.shiftRight_eq_div_pow, if_neg (by omega), ltM_ok (by omega), Res.ok_bind, Res.pure_eq,
    (h.wlo.and Word.ltMask).card (by norm_num)]
  congr 2; ext i
  simp only [Finset.mem_inter, mem_low, Finset.mem_range, Finset.mem_filter]
  constructor
  · rintro ⟨⟨h1, h2⟩, -⟩; exact ⟨h1, h2⟩
  · rintro ⟨h1, h2⟩; exact ⟨⟨h1, h2⟩, by omega⟩

/-- C22 fails: `position(40)` in the set `{33}` gives 0 although one member is below 40, because the
choice of the chunk is made with `j >> 6` (finding F9). -/
theorem C22_two_position_false : ∃ a : B2, Rep2 a {33} ∧ a.position 40 = .ok 0 ∧
    (({33} : Finset Nat).filter (· < 40)).card = 1 := by
  refine ⟨⟨0, 2⟩, ⟨by norm_num, by norm_num, fun i => ?_⟩, by decide +kernel, by decide⟩
  unfold B2.bit
  by_cases c : i < 32
  · rw [if_pos c]; simp; omega
  · rw [if_neg c]
    by_cases c' : i = 33
    · subst c'; decide
    · rw [show (2 : Nat) = 2 ^ 1 by norm_num, Nat.testBit_two_pow, Bool.eq_iff_iff]
      simp; omega

theorem C22_two_scalarProduct (h : Rep2 a S) (h' : Rep2 b T) :
    a.scalarProduct b = decide ((S ∩ T).card % 2 = 1) := by
  unfold B2.scalarProduct
  rw [(h.wlo.and h'.wlo).card (by norm_num), (h.whi.and h'.whi).card (by norm_num), low_inter, high_inter,
    card_low_high (fun i hi => h.sub (Finset.mem_inter.1 hi).1)]
  apply decide_eq_decide.2; omega

theorem C22_two_xor (h : Rep2 a S) (h' : Rep2 b T) : Rep2 (a.xor b) (symmDiff S T) := by
  refine Rep2.of_words (h.wlo.xor h'.wlo) (h.whi.xor h'.whi) ?_ ?_ ?_
  · intro i hi; simp only [Finset.mem_symmDiff, mem_low]; tauto
  · intro i hi; simp only [Finset.mem_symmDiff, mem_high]; tauto
  · intro i hi
    rcases Finset.mem_symmDiff.1 hi with ⟨hi, -⟩ | ⟨hi, -⟩
    · exact h.sub hi
    · exact h'.sub hi

theorem C22_two_or (h : Rep2 a S) (h' : Rep2 b T) : Rep2 (a.or b) (S ∪ T) := by
  refine Rep2.of_words (h.wlo.or h'.wlo) (h.whi.or h'.whi) ?_ ?_ ?_
  · intro i hi; simp only [Finset.mem_union, mem_low]; tauto
  · intro i hi; simp only [Finset.mem_union, mem_high]; tauto
  · intro i hi
    rcases Finset.mem_union.1 hi with hi | hi
    · exact h.sub hi
    · exact h'.sub hi

theorem C22_two_and (h : Rep2 a S) (h' : Rep2 b T) : Rep2 (a.and b) (S ∩ T) := by
  refine Rep2.of_words (h.wlo.and h'.wlo) (h.whi.and h'.whi) ?_ ?_ ?_
  · intro i hi; simp only [Finset.mem_inter, mem_low]; tauto
  · intro i hi; simp only [Finset.mem_inter, mem_high]; tauto
  · intro i hi; exact h.sub (Finset.mem_inter.1 hi).1

theorem C22_two_andnot (h : Rep2 a S) (h' : Rep2 b T) : Rep2 (a.andnot b) (S \ T) := by
  refine Rep2.of_words (h.wlo.andnot h'.wlo) (h.whi.andnot h'.whi) ?_ ?_ ?_
  · intro i hi; simp only [Finset.mem_sdiff, mem_low]; tauto
  · intro i hi; simp only [Finset.mem_sdiff, mem_high]; tauto
  · intro i hi; exact h.sub (Finset.mem_sdiff.1 hi).1

/-- C22: left shift adds `k` to every member and drops those reaching 64. -/
theorem C22_two_shl (h : Rep2 a S) (k : Nat) : Rep2 (a.shl k) ((S.image (· + k)).filter (· < 64)) := by
  have key : ∀ i, i ∈ (S.image (· + k)).filter (· < 64) ↔ i < 64 ∧ k ≤ i ∧ i - k ∈ S := by
    intro i
    simp only [Finset.mem_filter, Finset.mem_image]
    constructor
    · rintro ⟨⟨j, h1, rfl⟩, h2⟩; exact ⟨h2, by omega, by rwa [Nat.add_sub_cancel]⟩
    · rintro ⟨h1, h2, h3⟩; exact ⟨⟨i - k, h3, by omega⟩, h1⟩
  have hmk : ∀ r : B2, r.lo < 2 ^ 32 → r.hi < 2 ^ 32 →
      (∀ i < 32, r.lo.testBit i = (decide (k ≤ i) && decide (i - k ∈ S))) →
      (∀ i < 32, r.hi.testBit i = (decide (k ≤ i + 32) && decide (i + 32 - k ∈ S))) →
      Rep2 r ((S.image (· + k)).filter (· < 64)) := by
    intro r h1 h2 h3 h4
    refine ⟨h1, h2, fun i => ?_⟩
    unfold B2.bit
    rw [Bool.eq_iff_iff, decide_eq_true_eq, key]
    by_cases c : i < 32
    · rw [if_pos c, h3 i c]; simp; omega
    · rw [if_neg c]
      by_cases c' : i < 64
      · rw [h4 (i - 32) (by omega), show i - 32 + 32 = i by omega]; simp [c']
      · rw [high_false h2 (by omega)]; simp [c']
  have hlo := h.wlo.bits
  have hhi := h.whi.bits
  unfold B2.shl
  by_cases c0 : k = 0
  · subst c0; rw [if_pos rfl]
    apply hmk _ h.lo h.hi
    · intro i hi; rw [hlo]; simp [mem_low, hi]
    · intro i hi; rw [hhi]; simp [mem_high, hi]
  rw [if_neg c0]
  by_cases c1 : k < 32
  · rw [if_pos c1]
    have hf : ∀ i, (u32 (a.lo &&& lnot (ltMask (32 - k)))).testBit i = (decide (i < 32 ∧ 32 - k ≤ i) && decide (i ∈ S)) := by
      intro i
      rw [testBit_u32, Nat.testBit_and, testBit_lnot (ltMask_lt (by omega)), testBit_ltMask, hlo, Bool.eq_iff_iff]
      simp only [Bool.and_eq_true, decide_eq_true_eq, Bool.not_eq_true', decide_eq_false_iff_not, mem_low, not_lt]
      constructor
      · rintro ⟨h1, ⟨h2, -⟩, -, h3⟩; exact ⟨⟨h1, h3⟩, h2⟩
      · rintro ⟨⟨h1, h2⟩, h3⟩; exact ⟨h1, ⟨h3, h1⟩, by omega, h2⟩
    apply hmk
    · exact u32_lt _
    · refine Nat.or_lt_two_pow (u32_lt _) ?_
      rw [Nat.shiftRight_eq_div_pow]
      exact lt_of_le_of_lt (Nat.div_le_self _ _) (u32_lt _)
    · intro i hi
      dsimp only
      rw [testBit_u32, Nat.testBit_shiftLeft, hlo, Bool.eq_iff_iff]
      simp only [Bool.and_eq_true, decide_eq_true_eq, mem_low]
      constructor
      · rintro ⟨h1, h2, h3, h4⟩; exact ⟨h2, h3⟩
      · rintro ⟨h1, h2⟩; exact ⟨hi, h1, h2, by omega⟩
    · intro i hi
      dsimp only
      rw [Nat.testBit_or, testBit_u32, Nat.testBit_shiftLeft, Nat.testBit_shiftRight, hf, hhi, Bool.eq_iff_iff]
      simp only [Bool.or_eq_true, Bool.and_eq_true, decide_eq_true_eq, mem_high]
      constructor
      · rintro (⟨h1, h2, h3, h4⟩ | ⟨⟨h1, h2⟩, h3⟩)
        · exact ⟨by omega, by rwa [show i - k + 32 = i + 32 - k by omega] at h3⟩
        · exact ⟨by omega, by rwa [show 32 - k + i = i + 32 - k by omega] at h3⟩
      · rintro ⟨h1, h2⟩
        by_cases ck : k ≤ i
        · refine .inl ⟨hi, ck, ?_, by omega⟩
          rwa [show i - k + 32 = i + 32 - k by omega]
        · refine .inr ⟨⟨by omega, by omega⟩, ?_⟩
          rwa [show 32 - k + i = i + 32 - k by omega]
  rw [if_neg c1]
  by_cases c2 : k < 64
  · rw [if_pos c2]
    apply hmk _ (by norm_num) (u32_lt _)
    · intro i hi; simp; omega
    · intro i hi
      dsimp only
      rw [testBit_u32, Nat.testBit_shiftLeft, hlo, Bool.eq_iff_iff]
      simp only [Bool.and_eq_true, decide_eq_true_eq, mem_low]
      constructor
      · rintro ⟨h1, h2, h3, h4⟩; exact ⟨by omega, by rwa [show i - (k - 32) = i + 32 - k by omega] at h3⟩
      · rintro ⟨h1, h2⟩; exact ⟨hi, by omega, by rwa [show i - (k - 32) = i + 32 - k by omega], by omega⟩
  · rw [if_neg c2]
    apply hmk _ (by norm_num) (by norm_num)
    · intro i hi; simp; omega
    · intro i hi; simp; omega

/-- C22: right shift subtracts `k` from the members that are at least `k`. -/
theorem C22_two_shr (h : Rep2 a S) (k : Nat) : Rep2 (a.shr k) ((S.filter (k ≤ ·)).image (· - k)) := by
  have key : ∀ i, i ∈ (S.filter (k ≤ ·)).image (· - k) ↔ i + k ∈ S := by
    intro i
    simp only [Finset.mem_filter, Finset.mem_image]
    constructor
    · rintro ⟨j, ⟨h1, h2⟩, rfl⟩; rwa [Nat.sub_add_cancel h2]
    · intro hi; exact ⟨i + k, ⟨hi, by omega⟩, by omega⟩
  have hmk : ∀ r : B2, r.lo < 2 ^ 32 → r.hi < 2 ^ 32 →
      (∀ i < 32, r.lo.testBit i = decide (i + k ∈ S)) →
      (∀ i < 32, r.hi.testBit i = decide (i + 32 + k ∈ S)) →
      Rep2 r ((S.filter (k ≤ ·)).image (· - k)) := by
    intro r h1 h2 h3 h4
    refine ⟨h1, h2, fun i => ?_⟩
    unfold B2.bit
    rw [Bool.eq_iff_iff, decide_eq_true_eq, key]
    by_cases c : i < 32
    · rw [if_pos c, h3 i c]; simp
    · rw [if_neg c]
      by_cases c' : i < 64
      · rw [h4 (i - 32) (by omega), show i - 32 + 32 = i by omega]; simp
      · rw [high_false h2 (by omega)]
        simp only [Bool.false_eq_true, false_iff]
        intro hi; have := h.sub hi; omega
  have hlo := h.wlo.bits
  have hhi := h.whi.bits
  unfold B2.shr
  by_cases c0 : k = 0
  · subst c0; rw [if_pos rfl]
    apply hmk _ h.lo h.hi
    · intro i hi; rw [hlo]; simp [mem_low, hi]
    · intro i hi; rw [hhi]; simp [mem_high, hi]
  rw [if_neg c0]
  have hdiv : ∀ {x : Nat} (j : Nat), x < 2 ^ 32 → x >>> j < 2 ^ 32 := by
    intro x j hx
    rw [Nat.shiftRight_eq_div_pow]
    exact lt_of_le_of_lt (Nat.div_le_self _ _) hx
  by_cases c1 : k < 32
  · rw [if_pos c1]
    apply hmk
    · exact Nat.or_lt_two_pow (hdiv _ h.lo) (u32_lt _)
    · exact hdiv _ h.hi
    · intro i hi
      dsimp only
      rw [Nat.testBit_or, testBit_u32, Nat.testBit_shiftLeft, Nat.testBit_shiftRight, testBit_u32, Nat.testBit_and,
        testBit_ltMask, hlo, hhi, Bool.eq_iff_iff]
      simp only [Bool.or_eq_true, Bool.and_eq_true, decide_eq_true_eq, mem_high, mem_low]
      constructor
      · rintro (⟨h1, h2⟩ | ⟨h1, h2, h3, ⟨h4, h5⟩, h6⟩)
        · rwa [add_comm]
        · rwa [show i - (32 - k) + 32 = i + k by omega] at h4
      · intro hm
        by_cases ck : i + k < 32
        · exact .inl ⟨by rwa [add_comm], by omega⟩
        · refine .inr ⟨hi, by omega, by omega, ⟨?_, by omega⟩, by omega⟩
          rwa [show i - (32 - k) + 32 = i + k by omega]
    · intro i hi
      dsimp only
      rw [Nat.testBit_shiftRight, hhi, decide_eq_decide, mem_high, show k + i + 32 = i + 32 + k by omega]
      exact ⟨fun h => h.1, fun hm => ⟨hm, by have := h.sub hm; omega⟩⟩
  rw [if_neg c1]
  by_cases c2 : k < 64
  · rw [if_pos c2]
    apply hmk _ (hdiv _ h.hi) (by norm_num)
    · intro i hi
      dsimp only
      rw [Nat.testBit_shiftRight, hhi, decide_eq_decide, mem_high, show k - 32 + i + 32 = i + k by omega]
      exact ⟨fun h => h.1, fun hm => ⟨hm, by have := h.sub hm; omega⟩⟩
    · intro i hi
      dsimp only
      rw [Nat.zero_testBit]; symm; apply decide_eq_false
      intro hm; have := h.sub hm; omega
  · rw [if_neg c2]
    apply hmk _ (by norm_num) (by norm_num) <;>
    · intro i hi
      dsimp only
      rw [Nat.zero_testBit]; symm; apply decide_eq_false
      intro hm; have := h.sub hm; omega

/-- changing one chunk at one place -/
theorem Rep2.update (h : Rep2 a S) {j : Nat} (hj : j < 64) (f : Nat → Nat) (hf : ∀ x, x < 2 ^ 32 → f x < 2 ^ 32)
    (v : Bool → Bool) (hv : ∀ x i, x < 2 ^ 32 → i < 32 → (f x).testBit i = if i = j % 32 then v (x.testBit i) else x.testBit i)
    (hT : ∀ i, i ∈ T ↔ (if i = j then v (decide (j ∈ S)) = true else i ∈ S)) :
    Rep2 (if j < 32 then ⟨f a.lo, a.hi⟩ else ⟨a.lo, f a.hi⟩) T := by
  have hb := h.bits
  unfold B2.bit at hb
  by_cases c : j < 32
  · rw [if_pos c]
    refine ⟨hf _ h.lo, h.hi, fun i => ?_⟩
    unfold B2.bit
    dsimp only
    rw [Bool.eq_iff_iff, decide_eq_true_eq, hT]
    by_cases ci : i < 32
    · rw [if_pos ci, hv _ _ h.lo ci, Nat.mod_eq_of_lt c]
      have := hb i
      rw [if_pos ci] at this
      rw [this]
      by_cases e : i = j
      · subst e; rw [if_pos rfl, if_pos rfl]
      · rw [if_neg e, if_neg e, decide_eq_true_eq]
    · have := hb i
      rw [if_neg ci] at this
      rw [if_neg ci, if_neg (by omega), this, decide_eq_true_eq]
  · rw [if_neg c]
    refine ⟨h.lo, hf _ h.hi, fun i => ?_⟩
    unfold B2.bit
    dsimp only
    rw [Bool.eq_iff_iff, decide_eq_true_eq, hT]
    have := hb i
    by_cases ci : i < 32
    · rw [if_pos ci] at this
      rw [if_pos ci, if_neg (by omega), this, decide_eq_true_eq]
    · rw [if_neg ci] at this
      rw [if_neg ci]
      by_cases ci' : i < 64
      · rw [hv _ _ h.hi (by omega), this]
        by_cases e : i = j
        · subst e; rw [if_pos (by omega), if_pos rfl]
        · rw [if_neg (by omega), if_neg e, decide_eq_true_eq]
      · rw [high_false (hf _ h.hi) (by omega), if_neg (by omega)]
        simp only [Bool.false_eq_true, false_iff]
        intro hi; have := h.sub hi; omega

theorem C22_two_set (h : Rep2 a S) {j : Nat} (hj : j < 64) :
    ∃ a', a.set j = .ok a' ∧ Rep2 a' (insert j S) := by
  refine ⟨_, by unfold B2.set; rw [and31, eqM_ok (by omega)]; rfl, ?_⟩
  refine h.update hj (fun x => u32 (x ||| eqMask (j % 32))) (fun _ _ => u32_lt _) (fun _ => true) ?_ ?_
  · intro x i hx hi
    rw [testBit_u32, Nat.testBit_or, testBit_eqMask]
    by_cases e : i = j % 32 <;> simp [e, hi]
    omega
  · intro i; by_cases e : i = j <;> simp [e]

theorem C22_two_flip (h : Rep2 a S) {j : Nat} (hj : j < 64) :
    ∃ a', a.flip j = .ok a' ∧ Rep2 a' (symmDiff S {j}) := by
  refine ⟨_, by unfold B2.flip; rw [and31, eqM_ok (by omega)]; rfl, ?_⟩
  refine h.update hj (fun x => u32 (x ^^^ eqMask (j % 32))) (fun _ _ => u32_lt _) (fun b => !b) ?_ ?_
  · intro x i hx hi
    rw [testBit_u32, Nat.testBit_xor, testBit_eqMask]
    by_cases e : i = j % 32 <;> simp [e, hi]
    omega
  · intro i; by_cases e : i = j <;> simp [e, Finset.mem_symmDiff]

theorem C22_two_reset (h : Rep2 a S) {j : Nat} (hj : j < 64) :
    (∃ a', a.resetBit j = .ok a' ∧ Rep2 a' (S.erase j)) ∧ Rep2 a.reset ∅ := by
  refine ⟨⟨_, by unfold B2.resetBit; rw [and31, eqM_ok (by omega)]; rfl, ?_⟩, rep2_zero⟩
  refine h.update hj (fun x => u32 (x &&& lnot (eqMask (j % 32)))) (fun _ _ => u32_lt _) (fun _ => false) ?_ ?_
  · intro x i hx hi
    rw [testBit_u32, Nat.testBit_and, testBit_lnot (eqMask_lt (by omega)), testBit_eqMask]
    by_cases e : i = j % 32
    · simp [e]
    · simp [e, hi]; omega
  · intro i; by_cases e : i = j <;> simp [e]

/-- C22 fails: `fill(limit)` of a two-chunk set does not keep the members between `limit` and 32
(finding F10): `fill(1)` on `{2}` gives `{0}`, while on a one-chunk set it gives `{0,2}`. -/
theorem C22_two_fill_false : B2.fill false ⟨4, 0⟩ 1 = .ok ⟨1, 0⟩ ∧ B1.fill ⟨4⟩ 1 = .ok ⟨5⟩ := by decide +kernel

/-- C22: `fill(limit)` of two-chunk sets adds the values below `limit` provided no member lies
in the same chunk as and not below `limit`.  Missing: the other sets, where it is false
(`C22_two_fill_false`). -/
theorem C22_two_fill_partial (nd : Bool) (h : Rep2 a S) {k : Nat} (hk : k ≤ 64)
    (hS : ∀ i ∈ S, i < k ∨ (k ≤ 32 ∧ 32 ≤ i)) :
    ∃ a', a.fill nd k = .ok a' ∧ Rep2 a' (S ∪ Finset.range k) := by
  have hsub : ∀ i ∈ S ∪ Finset.range k, i < 64 := by
    intro i hi
    rcases Finset.mem_union.1 hi with hi | hi
    · exact h.sub hi
    · have := Finset.mem_range.1 hi; omega
  unfold B2.fill
  by_cases c : k ≤ 32
  · rw [if_pos c, ltM_ok (by omega)]
    refine ⟨_, rfl, Rep2.of_words (Word.ltMask.mono c).u32 h.whi ?_ ?_ hsub⟩
    · intro i hi
      simp only [Finset.mem_filter, Finset.mem_range, Finset.mem_union]
      constructor
      · rintro ⟨h1, -⟩; exact .inr h1
      · rintro (h1 | h1)
        · rcases hS i h1 with h2 | h2
          · exact ⟨h2, hi⟩
          · omega
        · exact ⟨h1, hi⟩
    · intro i hi
      simp only [mem_high, Finset.mem_range, Finset.mem_union]
      constructor
      · rintro ⟨h1, -⟩; exact .inl h1
      · rintro (h1 | h1)
        · exact ⟨h1, hi⟩
        · omega
  · rw [if_neg c, if_pos hk, ltM_ok (by omega)]
    have h32 : Word 32 4294967295 (Finset.range 32) := by
      refine Word.of_testBit (fun i => ?_) (by simp)
      rw [show 4294967295 = 2 ^ 32 - 1 by norm_num, Nat.testBit_two_pow_sub_one]; simp
    refine ⟨_, rfl, Rep2.of_words h32 (Word.ltMask.mono (by omega : k - 32 ≤ 32)).u32 ?_ ?_ hsub⟩
    · intro i hi
      simp only [Finset.mem_range, Finset.mem_union]
      constructor
      · intro _; right; omega
      · intro _; exact hi
    · intro i hi
      simp only [Finset.mem_filter, Finset.mem_range, Finset.mem_union]
      constructor
      · rintro ⟨h1, -⟩; right; omega
      · rintro (h1 | h1)
        · rcases hS _ h1 with h2 | h2
          · exact ⟨by omega, hi⟩
          · omega
        · exact ⟨by omega, hi⟩

/-- C22: `complement(limit)` exchanges members and non-members below `limit`. -/
theorem C22_two_complement (nd : Bool) (h : Rep2 a S) {k : Nat} (hk : k ≤ 64) :
    ∃ a', a.complement nd k = .ok a' ∧ Rep2 a' (symmDiff S (Finset.range k)) := by
  have hsub : ∀ i ∈ symmDiff S (Finset.range k), i < 64 := by
    intro i hi
    rcases Finset.mem_symmDiff.1 hi with ⟨hi, -⟩ | ⟨hi, -⟩
    · exact h.sub hi
    · have := Finset.mem_range.1 hi; omega
  unfold B2.complement
  by_cases c : k ≤ 32
  · rw [if_pos c, ltM_ok (by omega)]
    refine ⟨_, rfl, Rep2.of_words (h.wlo.xor (Word.ltMask.mono c)).u32 h.whi ?_ ?_ hsub⟩
    · intro i hi
      simp only [Finset.mem_filter, Finset.mem_range, Finset.mem_symmDiff, mem_low]; tauto
    · intro i hi
      simp only [mem_high, Finset.mem_range, Finset.mem_symmDiff]
      constructor
      · rintro ⟨h1, -⟩; exact .inl ⟨h1, by omega⟩
      · rintro (⟨h1, -⟩ | ⟨h1, -⟩)
        · exact ⟨h1, hi⟩
        · omega
  · rw [if_neg c, if_pos hk, ltM_ok (by omega)]
    have hn : Word 32 (not32 a.lo) (Finset.range 32 \ low S) := by
      refine Word.of_testBit (fun i => ?_) (by simp; omega)
      rw [testBit_not32 h.lo, h.wlo.bits, Bool.eq_iff_iff]; simp
    refine ⟨_, rfl, Rep2.of_words hn (h.whi.xor (Word.ltMask.mono (by omega : k - 32 ≤ 32))).u32 ?_ ?_ hsub⟩
    · intro i hi
      simp only [Finset.mem_range, Finset.mem_sdiff, mem_low, Finset.mem_symmDiff]
      have : i < k := by omega
      tauto
    · intro i hi
      simp only [Finset.mem_filter, Finset.mem_range, mem_high, Finset.mem_symmDiff]
      have : i < k - 32 ↔ i + 32 < k := by omega
      rw [this]; tauto

/-- C22: `truncate(limit)` keeps the members below `limit`. -/
theorem C22_two_truncate (nd : Bool) (h : Rep2 a S) {k : Nat} (hk : k ≤ 64) :
    ∃ a', a.truncate nd k = .ok a' ∧ Rep2 a' (S.filter (· < k)) := by
  have hsub : ∀ i ∈ S.filter (· < k), i < 64 := fun i hi => h.sub (Finset.mem_filter.1 hi).1
  unfold B2.truncate
  by_cases c : k ≤ 32
  · rw [if_pos c, ltM_ok (by omega)]
    refine ⟨_, rfl, Rep2.of_words (h.wlo.and Word.ltMask).u32 Word.zero ?_ ?_ hsub⟩
    · intro i hi
      simp only [Finset.mem_filter, Finset.mem_inter, Finset.mem_range, mem_low]; tauto
    · intro i hi
      simp only [Finset.mem_filter, Finset.notMem_empty, false_iff]
      rintro ⟨-, h2⟩; omega
  · rw [if_neg c, if_pos hk, ltM_ok (by omega)]
    refine ⟨_, rfl, Rep2.of_words h.wlo (h.whi.and Word.ltMask).u32 ?_ ?_ hsub⟩
    · intro i hi
      simp only [Finset.mem_filter, mem_low]
      exact ⟨fun h => ⟨h.1, by omega⟩, fun h => ⟨h.1, hi⟩⟩
    · intro i hi
      simp only [Finset.mem_filter, Finset.mem_inter, Finset.mem_range, mem_high]
      have : i < k - 32 ↔ i + 32 < k := by omega
      rw [this]; tauto

theorem Rep2.card_lt (h : Rep2 a S) : S.card < 65 := by
  have : S ⊆ Finset.range 64 := fun i hi => Finset.mem_range.2 (h.sub hi)
  have := Finset.card_le_card this
  simp at this; omega

/-- C22: `slice(c)` moves each member of `S` in `C` to its rank in `C`, dropping the others. -/
theorem C22_two_slice (h : Rep2 a S) (hc : Rep2 c C) :
    ∃ r, a.slice c = .ok r ∧ Rep2 r ((S ∩ C).image (rank C)) := by
  have := sliceLoop_spec (test := B2.test) (set := B2.set) (R := Rep2) (N := 64)
    (fun v S h j hj => C22_two_test h hj) (fun v S h j hj => C22_two_set h hj) h
    (fun i hi => hc.sub hi) (by norm_num) 65 c.toWide C ⟨0, 0⟩ hc.wide hc.card_lt (Finset.Subset.refl _)
    (fun x hx hn => absurd hx hn) (by simp [rep2_zero])
  simpa [B2.slice] using this

/-- C22: `unslice(c)` has as members the values of `C` whose rank in `C` is in `S`. -/
theorem C22_two_unslice (h : Rep2 a S) (hc : Rep2 c C) :
    ∃ r, a.unslice c = .ok r ∧ Rep2 r (C.filter (rank C · ∈ S)) := by
  have := unsliceLoop_spec (test := B2.test) (set := B2.set) (R := Rep2) (N := 64)
    (fun v S h j hj => C22_two_test h hj) (fun v S h j hj => C22_two_set h hj) h
    (fun i hi => hc.sub hi) (by norm_num) 65 c.toWide C ⟨0, 0⟩ hc.wide hc.card_lt (Finset.Subset.refl _)
    (fun x hx hn => absurd hx hn) (by simp [rep2_zero])
  simpa [B2.unslice] using this

/-- C22: `slice(c)` then `unslice(c)` amounts to `&= c`. -/
theorem C22_two_slice_unslice (h : Rep2 a S) (hc : Rep2 c C) :
    (do let r ← a.slice c; r.unslice c) = .ok (a.and c) := by
  obtain ⟨r, e, hr⟩ := C22_two_slice h hc
  obtain ⟨r', e', hr'⟩ := C22_two_unslice hr hc
  rw [e, Res.ok_bind, e']
  rw [unslice_slice_set] at hr'
  rw [hr'.eq (C22_two_and h hc)]

/-- C22: `unslice(c)` then `slice(c)` gives back a set all of whose members are below `c.count()`. -/
theorem C22_two_unslice_slice (h : Rep2 a S) (hc : Rep2 c C) (hS : ∀ i ∈ S, i < C.card) :
    (do let r ← a.unslice c; r.slice c) = .ok a := by
  obtain ⟨r, e, hr⟩ := C22_two_unslice h hc
  obtain ⟨r', e', hr'⟩ := C22_two_slice hr hc
  rw [e, Res.ok_bind, e']
  rw [slice_unslice_set, filter_lt hS] at hr'
  rw [hr'.eq h]

/-- C22: the iterator visits every member once, in increasing order. -/
theorem C22_two_elements (h : Rep2 a S) :
    ∃ l, a.elements = .ok l ∧ l.Pairwise (· < ·) ∧ ∀ i, i ∈ l ↔ i ∈ S :=
  iterAll_spec le_rfl 65 _ _ h.wide h.card_lt

/-- C22: `n_th_bit(k)` is the member with exactly `k` members below it. -/
theorem C22_two_nth (h : Rep2 a S) {k : Nat} (hk : k < S.card) : a.nth k ∈ S ∧ rank S (a.nth k) = k := by
  have := nthLoop_spec le_rfl k _ _ h.wide hk (Finset.Subset.refl S) (fun x hx hn => absurd hx hn)
  simpa [B2.nth] using this

/-- hypotheses met on a set with members in both chunks: `{1,40}` -/
example : Rep2 ⟨2, 256⟩ {1, 40} := by
  refine ⟨by norm_num, by norm_num, fun i => ?_⟩
  unfold B2.bit
  by_cases c : i < 32
  · rw [if_pos c, show (2 : Nat) = 2 ^ 1 by norm_num, Nat.testBit_two_pow, Bool.eq_iff_iff]; simp; omega
  · rw [if_neg c, show (256 : Nat) = 2 ^ 8 by norm_num, Nat.testBit_two_pow, Bool.eq_iff_iff]; simp; omega
example : B2.slice ⟨2, 256⟩ ⟨1, 257⟩ = .ok ⟨4, 0⟩ := by decide +kernel
example : B2.unslice ⟨4, 0⟩ ⟨1, 257⟩ = .ok ⟨0, 256⟩ := by decide +kernel
example : B2.elements ⟨2, 256⟩ = .ok [1, 40] := by decide +kernel

end Verif.BitSet
