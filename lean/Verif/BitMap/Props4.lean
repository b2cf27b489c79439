import Verif.BitMap.Props3
/-
Property theorems C19 (change of capacity, shifts, order, histories) and C21 (multi-bit access).
-/
namespace Verif.BitMap
open Verif.Bits

variable {a b : BitMap} {c d : Nat} {S T : Finset Nat}

theorem getD_resize (l : List Nat) (n j : Nat) :
    (resize l n).getD j 0 = if j < n then l.getD j 0 else 0 := by
  unfold resize
  rw [List.getD_eq_getElem?_getD, List.getD_eq_getElem?_getD, List.getElem?_append, List.length_take]
  by_cases h1 : j < n
  · rw [if_pos h1]
    by_cases h2 : j < l.length
    · rw [if_pos (by omega), List.getElem?_take_of_lt h1]
    · rw [if_neg (by omega), List.getElem?_eq_none (l := l) (by omega), List.getElem?_replicate]
      split <;> rfl
  · rw [if_neg h1, if_neg (by omega), List.getElem?_replicate]
    split <;> rfl

theorem length_resize (l : List Nat) (n : Nat) : (resize l n).length = n := by
  unfold resize; simp; omega

/-- C19: changing the capacity keeps the members below the new capacity. -/
theorem C19_setCapacity (h : Rep b c S) {n : Nat} (hn : n + 64 ≤ 2 ^ 64) :
    ∃ r, setCapacity b n = .ok r ∧ Rep r n (S.filter (· < n)) := by
  have e : wordOf ((n + 63) % 18446744073709551616) = (n + 63) / 64 := by
    rw [wordOf_eq, Nat.mod_eq_of_lt (by omega)]
  have hsub : ∀ i ∈ S.filter (· < n), i < n := fun i hi => (Finset.mem_filter.1 hi).2
  have hlen := h.len
  unfold setCapacity
  rw [h.cap, posOf_eq, wordOf_eq, e]
  by_cases h0 : n < c ∧ n % 64 ≠ 0
  · rw [if_pos h0, upd_ok _ (by omega), Res.ok_bind]
    refine ⟨_, rfl, Rep.mk' rfl hn (length_resize _ _) ?_ ?_ hsub⟩
    · intro j hj
      dsimp only
      rw [getD_resize, getD_set (by omega)]
      split
      · split
        · exact Nat.and_lt_two_pow _ (ltMask_lt (by omega))
        · exact getD_lt h.wf j
      · norm_num
    · intro j hj k hk
      dsimp only at hj ⊢
      rw [length_resize] at hj
      rw [getD_resize, if_pos hj, getD_set (by omega), Bool.eq_iff_iff]
      split
      · next e =>
        rw [Nat.testBit_and, testBit_ltMask, e, h.words]
        simp only [Bool.and_eq_true, decide_eq_true_eq, Finset.mem_filter]
        constructor
        · rintro ⟨⟨-, h1⟩, h2⟩; exact ⟨h1, by omega⟩
        · rintro ⟨h1, h2⟩; exact ⟨⟨hk, h1⟩, by omega⟩
      · next e =>
        rw [h.words]
        simp only [Bool.and_eq_true, decide_eq_true_eq, Finset.mem_filter]
        constructor
        · rintro ⟨-, h1⟩; exact ⟨h1, by omega⟩
        · rintro ⟨h1, h2⟩; exact ⟨hk, h1⟩
  · rw [if_neg h0, Res.ok_bind]
    refine ⟨_, rfl, Rep.mk' rfl hn (length_resize _ _) ?_ ?_ hsub⟩
    · intro j hj
      dsimp only
      rw [getD_resize]
      split
      · exact getD_lt h.wf j
      · norm_num
    · intro j hj k hk
      dsimp only at hj ⊢
      rw [length_resize] at hj
      rw [getD_resize, if_pos hj, Bool.eq_iff_iff, h.words]
      simp only [Bool.and_eq_true, decide_eq_true_eq, Finset.mem_filter]
      constructor
      · rintro ⟨-, h1⟩
        have := h.sub _ h1
        exact ⟨h1, by omega⟩
      · rintro ⟨h1, h2⟩; exact ⟨hk, h1⟩

/-- C19: extending the capacity by one, with the new value being a member or not. -/
theorem C19_extendCapacity (nd : Bool) (h : Rep b c S) (hc : c + 65 ≤ 2 ^ 64) (v : Bool) :
    ∃ r, extendCapacity nd b v = .ok r ∧ Rep r (c + 1) (if v then Insert.insert c S else S) := by
  have hlen := h.len
  have hmod : (b.map.length <<< 6) % 18446744073709551616 = 64 * b.map.length := by
    rw [Nat.shiftLeft_eq, Nat.mod_eq_of_lt (by omega)]; ring
  have h1 : Rep ⟨c + 1, if b.cap = 64 * b.map.length then b.map ++ [0] else b.map⟩ (c + 1) S := by
    have hg : ∀ j, (if b.cap = 64 * b.map.length then b.map ++ [0] else b.map).getD j 0 = b.map.getD j 0 := by
      intro j
      split
      · rw [List.getD_eq_getElem?_getD, List.getElem?_append]
        by_cases hj : j < b.map.length
        · rw [if_pos hj, List.getD_eq_getElem?_getD]
        · rw [if_neg hj, List.getD_eq_default b.map 0 (by omega)]
          cases hh : j - b.map.length <;> simp
      · rfl
    refine Rep.mk' rfl (by omega) ?_ ?_ ?_ ?_
    · dsimp only
      rw [h.cap]
      split
      · rw [List.length_append, List.length_singleton]; omega
      · omega
    · intro j hj; dsimp only; rw [hg]; exact getD_lt h.wf j
    · intro j hj k hk; dsimp only; rw [hg, h.words, decide_eq_true hk]; rfl
    · intro i hi; have := h.sub i hi; omega
  obtain ⟨r, e, hr⟩ := C19_setTo nd h1 (n := c) (by omega) v
  refine ⟨r, ?_, ?_⟩
  · unfold extendCapacity
    dsimp only
    rw [hmod]
    rw [h.cap] at e ⊢
    rw [Nat.mod_eq_of_lt (by omega : c + 1 < 18446744073709551616), e]
  · cases v
    · have : S.erase c = S := Finset.erase_eq_of_notMem (fun hm => absurd (h.sub c hm) (lt_irrefl c))
      rwa [if_neg (by simp), this] at hr
    · exact hr

/-! ### C21: multi-bit access within a word -/

/-- C21: `range(n,r)` packs the membership of `n,...,n+r-1` in `r` bits. -/
theorem C21_range (h : Rep b c S) {n r : Nat} (hn : n < c) (hr : n % 64 + r ≤ 64) :
    ∃ v, range b n r = .ok v ∧ v < 2 ^ r ∧ ∀ k < r, v.testBit k = decide (n + k ∈ S) := by
  unfold range
  rw [if_neg (by omega), wordOf_eq, posOf_eq, rd_ok (h.index hn), Res.ok_bind]
  refine ⟨_, rfl, ?_, ?_⟩
  · apply lt_of_le_of_lt Nat.and_le_right
    rw [ltMask_eq]
    have : 0 < 2 ^ r := by positivity
    omega
  · intro k hk
    rw [Nat.testBit_and, Nat.testBit_shiftRight, testBit_ltMask, h.words, decide_eq_true hk,
      decide_eq_true (by omega : n % 64 + k < 64), show 64 * (n / 64) + (n % 64 + k) = n + k by omega]
    simp

/-- C21: `setRange(n,r,a)` gives `n,...,n+r-1` the membership described by the bits of `a`
and changes nothing else. -/
theorem C21_setRange (h : Rep b c S) {n r : Nat} (hn : n < c) (hr : n % 64 + r ≤ 64) (hc : n + r ≤ c) (v : Nat) :
    ∃ b' T, setRange b n r v = .ok b' ∧ Rep b' c T ∧
      ∀ i, i ∈ T ↔ if n ≤ i ∧ i < n + r then v.testBit (i - n) = true else i ∈ S := by
  have hm := h.index hn
  have hmask : ∀ k, ((ltMask r <<< (n % 64)) % 18446744073709551616).testBit k = (decide (n % 64 ≤ k ∧ k < n % 64 + r)) := by
    intro k
    rw [testBit_shl, testBit_ltMask, Bool.eq_iff_iff]
    simp only [Bool.and_eq_true, decide_eq_true_eq]
    omega
  let T := (Finset.range c).filter (fun i => if n ≤ i ∧ i < n + r then v.testBit (i - n) = true else i ∈ S)
  have hT : ∀ i, i ∈ T ↔ if n ≤ i ∧ i < n + r then v.testBit (i - n) = true else i ∈ S := by
    intro i
    rw [Finset.mem_filter, Finset.mem_range]
    constructor
    · exact fun h => h.2
    · intro hi
      refine ⟨?_, hi⟩
      by_cases c1 : n ≤ i ∧ i < n + r
      · omega
      · rw [if_neg c1] at hi; exact h.sub i hi
  unfold setRange
  rw [if_neg (by omega), wordOf_eq, posOf_eq, upd_ok _ hm, Res.ok_bind, upd_ok _ (by rw [List.length_set]; exact hm),
    getD_set hm, if_pos rfl, List.set_set, Res.ok_bind]
  refine ⟨_, T, rfl, ?_, hT⟩
  refine Rep.mk' h.cap h.room (by simp [h.len]) ?_ ?_ ?_
  · intro j hj
    dsimp only
    rw [getD_set hm]
    split
    · exact Nat.or_lt_two_pow (Nat.and_lt_two_pow _ (lnot_lt _)) (mod_M_lt _)
    · exact getD_lt h.wf j
  · intro j hj k hk
    dsimp only
    rw [getD_set hm, Bool.eq_iff_iff, decide_eq_true_eq, hT]
    split
    · next e =>
      rw [Nat.testBit_or, Nat.testBit_and, testBit_lnot (mod_M_lt _), hmask, testBit_shl, Nat.testBit_and,
        testBit_ltMask, e, h.words]
      simp only [hk, decide_true, Bool.true_and, Bool.or_eq_true, Bool.and_eq_true, decide_eq_true_eq,
        Bool.not_eq_true', decide_eq_false_iff_not]
      by_cases c1 : n ≤ 64 * j + k ∧ 64 * j + k < n + r
      · rw [if_pos c1, show 64 * j + k - n = k - n % 64 by omega]
        constructor
        · rintro (⟨-, h1⟩ | ⟨-, h1, -⟩)
          · omega
          · exact h1
        · intro h1; exact .inr ⟨by omega, h1, by omega⟩
      · rw [if_neg c1]
        constructor
        · rintro (⟨h1, -⟩ | ⟨h1, -, h2⟩)
          · exact h1
          · omega
        · intro h1; exact .inl ⟨h1, by omega⟩
    · next e =>
      rw [if_neg (by omega), h.words]
      simp [hk]
  · intro i hi
    exact Finset.mem_range.1 (Finset.mem_filter.1 hi).1

/-- C21: reading back what was stored. -/
theorem C21_roundTrip (h : Rep b c S) {n r : Nat} (hn : n < c) (hr : n % 64 + r ≤ 64) (hc : n + r ≤ c) (v : Nat) :
    ∃ b', setRange b n r v = .ok b' ∧ range b' n r = .ok (v % 2 ^ r) := by
  obtain ⟨b', T, e, hT, hmem⟩ := C21_setRange h hn hr hc v
  obtain ⟨w, e', hw, hb⟩ := C21_range hT hn hr
  refine ⟨b', e, ?_⟩
  rw [e']
  congr 1
  apply Nat.eq_of_testBit_eq
  intro k
  rw [Nat.testBit_mod_two_pow]
  by_cases hk : k < r
  · rw [hb k hk, decide_eq_true hk, Bool.true_and, Bool.eq_iff_iff, decide_eq_true_eq, hmem, if_pos (by omega),
      Nat.add_sub_cancel_left]
  · rw [decide_eq_false hk, Bool.false_and]
    exact Nat.testBit_lt_two_pow (lt_of_lt_of_le hw (Nat.pow_le_pow_right (by norm_num) (by omega)))

/-! ### shifts -/

theorem shlLoop_spec {r : Nat} (hr : r < 64) : ∀ (l : List Nat) (p : Nat),
    (shlLoop r p l).length = l.length ∧ ∀ j, (shlLoop r p l).getD j 0 =
      if j < l.length then (l.getD j 0 <<< r) % 18446744073709551616 ||| (p :: l).getD j 0 >>> (64 - r) else 0
  | [], p => by simp [shlLoop]
  | w :: l, p => by
    obtain ⟨h1, h2⟩ := shlLoop_spec hr l w
    refine ⟨by simp [shlLoop, h1], fun j => ?_⟩
    rw [shlLoop]
    cases j with
    | zero => simp
    | succ j =>
      have := h2 j
      simpa using this

theorem wordShl_spec (l : List Nat) {d : Nat} (h : d ≤ l.length) :
    (List.replicate d 0 ++ l.take (l.length - d)).length = l.length ∧
    ∀ j, (List.replicate d 0 ++ l.take (l.length - d)).getD j 0 = if d ≤ j ∧ j < l.length then l.getD (j - d) 0 else 0 := by
  refine ⟨by simp; omega, fun j => ?_⟩
  rw [List.getD_eq_getElem?_getD, List.getElem?_append, List.length_replicate]
  by_cases h1 : j < d
  · rw [if_pos h1, if_neg (by omega), List.getElem?_replicate, if_pos h1]; rfl
  · rw [if_neg h1]
    by_cases h2 : j < l.length
    · rw [if_pos (by omega), List.getElem?_take_of_lt (by omega), List.getD_eq_getElem?_getD]
    · rw [if_neg (by omega), List.getElem?_eq_none (by simp; omega)]; rfl

/-- the bits after `<<=` -/
theorem shl_bits (h : Rep b c S) {δ : Nat} (hδ : δ ≤ c) :
    ∃ r, shl b δ = .ok r ∧ r.cap = c ∧ r.map.length = b.map.length ∧ (∀ w ∈ r.map, w < 2 ^ 64) ∧
      ∀ i < 64 * b.map.length, bit r.map i = decide (δ ≤ i ∧ i - δ ∈ S) := by
  have hlen := h.len
  have hd : δ / 64 ≤ b.map.length := by omega
  obtain ⟨w1, w2⟩ := wordShl_spec b.map hd
  have hwlt : ∀ j, (List.replicate (δ / 64) 0 ++ b.map.take (b.map.length - δ / 64)).getD j 0 < 2 ^ 64 := by
    intro j; rw [w2]; split
    · exact getD_lt h.wf _
    · norm_num
  unfold shl
  dsimp only
  rw [wordOf_eq, posOf_eq, if_neg (by omega)]
  refine ⟨_, rfl, h.cap, ?_⟩
  dsimp only
  by_cases hp : δ % 64 > 0
  · rw [if_pos hp]
    generalize List.replicate (δ / 64) 0 ++ b.map.take (b.map.length - δ / 64) = l at w1 w2 hwlt ⊢
    obtain ⟨s1, s2⟩ := shlLoop_spec (r := δ % 64) (by omega) l 0
    have hprev : ∀ j, (0 :: l).getD j 0 = if j = 0 then 0 else l.getD (j - 1) 0 := by
      intro j; cases j <;> simp
    refine ⟨by rw [s1, w1], wf_of_getD fun j _ => ?_, fun i hi => ?_⟩
    · rw [s2]
      split
      · apply Nat.or_lt_two_pow (mod_M_lt _)
        rw [hprev]
        split
        · simp
        · rw [Nat.shiftRight_eq_div_pow]
          exact (Nat.div_le_self _ _).trans_lt (hwlt _)
      · norm_num
    · unfold bit
      rw [s2, if_pos (by rw [w1]; omega), Nat.testBit_or, testBit_shl, Nat.testBit_shiftRight, Bool.eq_iff_iff,
        Bool.or_eq_true, decide_eq_true_eq]
      have A : ∀ j k, (l.getD j 0).testBit k = true ↔ j < b.map.length ∧ δ / 64 ≤ j ∧ k < 64 ∧ 64 * (j - δ / 64) + k ∈ S := by
        intro j k
        rw [w2]
        by_cases hj : δ / 64 ≤ j ∧ j < b.map.length
        · rw [if_pos hj, h.words, Bool.and_eq_true, decide_eq_true_eq, decide_eq_true_eq]
          exact ⟨fun h => ⟨hj.2, hj.1, h⟩, fun h => h.2.2⟩
        · rw [if_neg hj, Nat.zero_testBit]
          simp only [Bool.false_eq_true, false_iff]
          omega
      rw [Bool.and_eq_true, Bool.and_eq_true, decide_eq_true_eq, decide_eq_true_eq, A, hprev]
      by_cases c1 : δ % 64 ≤ i % 64
      · constructor
        · rintro (⟨-, h1, h2, h3, h4⟩ | h1)
          · refine ⟨by omega, ?_⟩
            rwa [show i - δ = 64 * (i / 64 - δ / 64) + (i % 64 - δ % 64) by omega]
          · exfalso
            split at h1
            · simp at h1
            · rw [A] at h1; omega
        · rintro ⟨h1, h2⟩
          refine .inl ⟨⟨by omega, c1⟩, by omega, by omega, by omega, ?_⟩
          rwa [show 64 * (i / 64 - δ / 64) + (i % 64 - δ % 64) = i - δ by omega]
      · constructor
        · rintro (⟨⟨-, h0⟩, -⟩ | h1)
          · omega
          · split at h1
            · simp at h1
            · rw [A] at h1
              obtain ⟨h2, h3, h4, h5⟩ := h1
              refine ⟨by omega, ?_⟩
              rwa [show i - δ = 64 * (i / 64 - 1 - δ / 64) + (64 - δ % 64 + i % 64) by omega]
        · rintro ⟨h1, h2⟩
          refine .inr ?_
          rw [if_neg (by omega), A]
          refine ⟨by omega, by omega, by omega, ?_⟩
          rwa [show 64 * (i / 64 - 1 - δ / 64) + (64 - δ % 64 + i % 64) = i - δ by omega]
  · rw [if_neg hp]
    refine ⟨w1, wf_of_getD fun j _ => hwlt j, fun i hi => ?_⟩
    unfold bit
    rw [w2]
    by_cases c1 : δ / 64 ≤ i / 64
    · rw [if_pos ⟨c1, by omega⟩, h.words, Bool.eq_iff_iff, Bool.and_eq_true, decide_eq_true_eq, decide_eq_true_eq,
        decide_eq_true_eq, show 64 * (i / 64 - δ / 64) + i % 64 = i - δ by omega]
      constructor
      · rintro ⟨-, h⟩; exact ⟨by omega, h⟩
      · rintro ⟨-, h⟩; exact ⟨by omega, h⟩
    · rw [if_neg (by omega), Nat.zero_testBit, decide_eq_false (by omega)]

/-- C42, in part: shifting left adds `δ` to all members, provided all new values are below the capacity. -/
theorem C42_shl_partial (h : Rep b c S) {δ : Nat} (hδ : δ ≤ c) (hS : ∀ i ∈ S, i + δ < c) :
    ∃ r, shl b δ = .ok r ∧ Rep r c (S.image (· + δ)) := by
  obtain ⟨r, e, h1, h2, h3, h4⟩ := shl_bits h hδ
  have hmem : ∀ i, i ∈ S.image (· + δ) ↔ δ ≤ i ∧ i - δ ∈ S := by
    intro i
    rw [Finset.mem_image]
    constructor
    · rintro ⟨x, hx, rfl⟩; exact ⟨by omega, by rwa [Nat.add_sub_cancel]⟩
    · rintro ⟨h1, h2⟩; exact ⟨i - δ, h2, by omega⟩
  refine ⟨r, e, h1, h.room, h2.trans h.len, h3, fun i => ?_, ?_⟩
  · by_cases hi : i < 64 * b.map.length
    · rw [h4 i hi]
      exact decide_eq_decide.2 (hmem i).symm
    · rw [bit_ge (by omega)]
      symm
      apply decide_eq_false
      rw [hmem]
      rintro ⟨h5, h6⟩
      have := hS _ h6
      have := h.len
      omega
  · intro i hi
    obtain ⟨h5, h6⟩ := (hmem i).1 hi
    have := hS _ h6
    omega

/-- C42 fails for left shifts that move members to the capacity or beyond: they remain in the
representation (finding F8).  Shifting `{2}` in capacity 3 gives a bitmap of size 1 whose first
member is 4. -/
theorem C42_shl_false : ∃ b r, Rep b 3 {2} ∧ shl b 2 = .ok r ∧ size r = 1 ∧ front r = 4 ∧
    isMember r 4 = .ok false := by
  refine ⟨⟨3, [4]⟩, ⟨3, [16]⟩, ?_, by decide +kernel, by decide +kernel, by decide +kernel, by decide⟩
  refine Rep.mk' rfl (by norm_num) (by simp) (by simp) ?_ (by simp)
  intro j hj k hk
  obtain rfl : j = 0 := by simpa using hj
  interval_cases k <;> decide

theorem shrLoop_spec {r : Nat} (hr : r < 64) : ∀ (l : List Nat), l.getLast? = some 0 →
    (shrLoop r l).length = l.length ∧ ∀ j, (shrLoop r l).getD j 0 =
      l.getD j 0 >>> r ||| (l.getD (j + 1) 0 <<< (64 - r)) % 18446744073709551616
  | [], h => by simp at h
  | [w], h => by
    obtain rfl : w = 0 := by simpa using h
    refine ⟨rfl, fun j => ?_⟩
    cases j <;> simp [shrLoop]
  | w :: v :: l, h => by
    obtain ⟨h1, h2⟩ := shrLoop_spec hr (v :: l) (by simpa using h)
    refine ⟨by simp [shrLoop, h1], fun j => ?_⟩
    rw [shrLoop]
    cases j with
    | zero => simp
    | succ j =>
      have := h2 j
      simpa using this

/-- C42, in part: shifting right subtracts `δ` from all members that are at least `δ`,
provided `δ` is 0 or at least 64, or the last word of the bitmap contains no members. -/
theorem C42_shr_partial (h : Rep b c S) {δ : Nat} (hδ : δ ≤ c)
    (hS : δ = 0 ∨ 64 ≤ δ ∨ ∀ i ∈ S, i / 64 + 1 < (c + 63) / 64) :
    ∃ r, shr b δ = .ok r ∧ Rep r c ((S.filter (δ ≤ ·)).image (· - δ)) := by
  have hlen := h.len
  have hmem : ∀ i, i ∈ (S.filter (δ ≤ ·)).image (· - δ) ↔ i + δ ∈ S := by
    intro i
    simp only [Finset.mem_image, Finset.mem_filter]
    constructor
    · rintro ⟨x, ⟨hx, h1⟩, rfl⟩; rwa [Nat.sub_add_cancel h1]
    · intro h1; exact ⟨i + δ, ⟨h1, by omega⟩, by omega⟩
  have hsub : ∀ i ∈ (S.filter (δ ≤ ·)).image (· - δ), i < c := by
    intro i hi
    have := h.sub _ ((hmem i).1 hi)
    omega
  have w1 : (b.map.drop (δ / 64) ++ List.replicate (δ / 64) 0).length = b.map.length := by simp; omega
  have w2 : ∀ j, (b.map.drop (δ / 64) ++ List.replicate (δ / 64) 0).getD j 0 = b.map.getD (j + δ / 64) 0 := by
    intro j
    rw [List.getD_eq_getElem?_getD, List.getElem?_append, List.length_drop, List.getElem?_drop,
      List.getD_eq_getElem?_getD]
    by_cases h1 : j < b.map.length - δ / 64
    · rw [if_pos h1, Nat.add_comm]
    · rw [if_neg h1, List.getElem?_eq_none (l := b.map) (by omega), List.getElem?_replicate]
      split <;> rfl
  have hwlt : ∀ j, (b.map.drop (δ / 64) ++ List.replicate (δ / 64) 0).getD j 0 < 2 ^ 64 := by
    intro j; rw [w2]; exact getD_lt h.wf _
  have A : ∀ j k, ((b.map.drop (δ / 64) ++ List.replicate (δ / 64) 0).getD j 0).testBit k = true ↔
      k < 64 ∧ 64 * (j + δ / 64) + k ∈ S := by
    intro j k
    rw [w2, h.words, Bool.and_eq_true, decide_eq_true_eq, decide_eq_true_eq]
  unfold shr
  dsimp only
  rw [wordOf_eq, posOf_eq, if_neg (by omega)]
  refine ⟨_, rfl, ?_⟩
  by_cases hp : δ % 64 > 0
  · rw [if_pos hp]
    have hlast : (b.map.drop (δ / 64) ++ List.replicate (δ / 64) 0).getLast? = some 0 := by
      have hne : b.map.length ≠ 0 := by omega
      have h0 : (b.map.drop (δ / 64) ++ List.replicate (δ / 64) 0).getD (b.map.length - 1) 0 = 0 := by
        apply Nat.eq_of_testBit_eq
        intro k
        rw [Nat.zero_testBit, ← Bool.not_eq_true, A]
        rintro ⟨hk, hm⟩
        have := h.sub _ hm
        rcases hS with hS | hS | hS
        · omega
        · omega
        · have := hS _ hm; omega
      rw [List.getLast?_eq_getElem?, w1]
      rw [List.getD_eq_getElem?_getD, List.getElem?_eq_getElem (by omega)] at h0
      rw [List.getElem?_eq_getElem (by omega)]
      simpa using h0
    generalize b.map.drop (δ / 64) ++ List.replicate (δ / 64) 0 = l at *
    obtain ⟨s1, s2⟩ := shrLoop_spec (r := δ % 64) (by omega) l hlast
    refine Rep.mk' h.cap h.room (by dsimp only; omega) ?_ ?_ hsub
    · intro j _
      dsimp only
      rw [s2]
      apply Nat.or_lt_two_pow _ (mod_M_lt _)
      rw [Nat.shiftRight_eq_div_pow]
      exact (Nat.div_le_self _ _).trans_lt (hwlt _)
    · intro j _ k hk
      dsimp only
      rw [s2, Nat.testBit_or, Nat.testBit_shiftRight, testBit_shl, Bool.eq_iff_iff, decide_eq_true_eq, hmem,
        Bool.or_eq_true, Bool.and_eq_true, Bool.and_eq_true, A, A, decide_eq_true_eq, decide_eq_true_eq]
      constructor
      · rintro (⟨h1, h2⟩ | ⟨⟨h1, h2⟩, h3, h4⟩)
        · rwa [show 64 * j + k + δ = 64 * (j + δ / 64) + (δ % 64 + k) by omega]
        · rwa [show 64 * j + k + δ = 64 * (j + 1 + δ / 64) + (k - (64 - δ % 64)) by omega]
      · intro h1
        by_cases c1 : δ % 64 + k < 64
        · refine .inl ⟨c1, ?_⟩
          rwa [show 64 * (j + δ / 64) + (δ % 64 + k) = 64 * j + k + δ by omega]
        · refine .inr ⟨⟨hk, by omega⟩, by omega, ?_⟩
          rwa [show 64 * (j + 1 + δ / 64) + (k - (64 - δ % 64)) = 64 * j + k + δ by omega]
  · rw [if_neg hp]
    refine Rep.mk' h.cap h.room (by dsimp only; omega) (fun j _ => hwlt j) ?_ hsub
    intro j _ k hk
    dsimp only
    rw [Bool.eq_iff_iff, decide_eq_true_eq, hmem, A, show 64 * (j + δ / 64) + k = 64 * j + k + δ by omega]
    exact ⟨fun h => h.2, fun h => ⟨hk, h⟩⟩

/-- C42 fails for other right shifts: the last word is shifted in the wrong direction
(finding F8).  Shifting `{3}` right by 1 in capacity 10 gives `{4}` instead of `{2}`. -/
theorem C42_shr_false : ∃ b r, Rep b 10 {3} ∧ shr b 1 = .ok r ∧ isMember r 2 = .ok false ∧
    elements r = .ok [4] := by
  refine ⟨⟨10, [8]⟩, ⟨10, [16]⟩, ?_, by decide +kernel, by decide, by decide +kernel⟩
  refine Rep.mk' rfl (by norm_num) (by simp) (by simp) ?_ (by simp)
  intro j hj k hk
  obtain rfl : j = 0 := by simpa using hj
  interval_cases k <;> decide

/-! ### order -/

theorem ltWords_trans : ∀ {x y z : List Nat}, ltWords x y = true → ltWords y z = true → ltWords x z = true
  | _, [], _, h, _ => by simp [ltWords] at h
  | _, _ :: _, [], _, h => by simp [ltWords] at h
  | [], _ :: _, _ :: _, _, _ => by simp [ltWords]
  | a :: x, b :: y, c :: z, h1, h2 => by
    simp only [ltWords] at h1 h2 ⊢
    by_cases ab : a < b
    · by_cases bc : b < c
      · rw [if_pos (by omega)]
      · rw [if_neg bc] at h2
        by_cases cb : c < b
        · rw [if_pos cb] at h2; cases h2
        · rw [if_pos (by omega)]
    · rw [if_neg ab] at h1
      by_cases ba : b < a
      · rw [if_pos ba] at h1; cases h1
      · rw [if_neg ba] at h1
        by_cases bc : b < c
        · rw [if_pos (by omega)]
        · rw [if_neg bc] at h2
          by_cases cb : c < b
          · rw [if_pos cb] at h2; cases h2
          · rw [if_neg cb] at h2
            rw [if_neg (by omega), if_neg (by omega)]
            exact ltWords_trans h1 h2

theorem ltWords_trichotomy : ∀ x y : List Nat,
    (ltWords x y = true ∧ x ≠ y ∧ ltWords y x = false) ∨ (ltWords x y = false ∧ x = y ∧ ltWords y x = false) ∨
    (ltWords x y = false ∧ x ≠ y ∧ ltWords y x = true)
  | [], [] => by simp [ltWords]
  | [], _ :: _ => by simp [ltWords]
  | _ :: _, [] => by simp [ltWords]
  | a :: x, b :: y => by
    simp only [ltWords]
    by_cases ab : a < b
    · rw [if_pos ab, if_neg (by omega), if_pos ab]
      exact .inl ⟨rfl, by simp; omega, rfl⟩
    · rw [if_neg ab]
      by_cases ba : b < a
      · rw [if_pos ba, if_pos ba]
        exact .inr (.inr ⟨rfl, by simp; omega, rfl⟩)
      · rw [if_neg ba, if_neg ba, if_neg ab]
        obtain rfl : a = b := by omega
        simpa using ltWords_trichotomy x y

/-- C19: `<` is a strict total order on subsets of a fixed range. -/
theorem C19_lt_order {a₁ a₂ a₃ : BitMap} {S₁ S₂ S₃ : Finset Nat} (h₁ : Rep a₁ c S₁) (h₂ : Rep a₂ c S₂) (_h₃ : Rep a₃ c S₃) :
    ltWords a₁.map a₁.map = false ∧
    (ltWords a₁.map a₂.map = true → ltWords a₂.map a₃.map = true → ltWords a₁.map a₃.map = true) ∧
    (S₁ ≠ S₂ → (ltWords a₁.map a₂.map = true ↔ ltWords a₂.map a₁.map = false)) := by
  have heq : a₁.map = a₂.map ↔ S₁ = S₂ := by
    have := C19_eq h₁ h₂
    unfold beq at this
    rwa [beq_iff_eq] at this
  refine ⟨?_, ltWords_trans, fun hne => ?_⟩
  · rcases ltWords_trichotomy a₁.map a₁.map with h | h | h
    · exact absurd rfl h.2.1
    · exact h.1
    · exact absurd rfl h.2.1
  · rcases ltWords_trichotomy a₁.map a₂.map with h | h | h
    · simp [h.1, h.2.2]
    · exact absurd (heq.1 h.2.1) hne
    · simp [h.1, h.2.2]

end Verif.BitMap
