import Verif.BitMap.Props
import Mathlib.Data.Nat.Count
/-
Property theorems C19 (first member, cardinality, fullness) and C20 (`position`, `n_th`).
-/
namespace Verif.BitMap
open Verif.Bits

variable {a b : BitMap} {c d : Nat} {S T : Finset Nat}

theorem bit_cons_zero (w : Nat) (l : List Nat) {k : Nat} (h : k < 64) : bit (w :: l) k = w.testBit k := by
  unfold bit
  rw [show k / 64 = 0 by omega, show k % 64 = k by omega]; rfl

theorem bit_cons_succ (w : Nat) (l : List Nat) (k : Nat) : bit (w :: l) (64 + k) = bit l k := by
  unfold bit
  rw [show (64 + k) / 64 = k / 64 + 1 by omega, show (64 + k) % 64 = k % 64 by omega]; rfl

theorem bit_ge {l : List Nat} {i : Nat} (h : 64 * l.length ≤ i) : bit l i = false := by
  unfold bit
  rw [List.getD_eq_default _ _ (by omega), Nat.zero_testBit]

theorem frontLoop_spec : ∀ (l : List Nat) (i : Nat), (frontLoop i l = none ∧ ∀ j, l.getD j 0 = 0) ∨
    ∃ j, frontLoop i l = some (i + j, l.getD j 0) ∧ l.getD j 0 ≠ 0 ∧ ∀ j' < j, l.getD j' 0 = 0
  | [], i => .inl ⟨rfl, by simp⟩
  | w :: l, i => by
    rw [frontLoop]
    by_cases c : w ≠ 0
    · rw [if_pos c]
      exact .inr ⟨0, by simp, by simpa using c, by simp⟩
    · rw [if_neg c]
      push Not at c
      rcases frontLoop_spec l (i + 1) with ⟨h1, h2⟩ | ⟨j, h1, h2, h3⟩
      · refine .inl ⟨h1, fun j => ?_⟩
        cases j with
        | zero => simpa using c
        | succ j => simpa using h2 j
      · refine .inr ⟨j + 1, by rw [h1]; simp; omega, by simpa using h2, fun j' hj' => ?_⟩
        cases j' with
        | zero => simpa using c
        | succ j' => simpa using h3 j' (by omega)

theorem Rep.zero_word (h : Rep b c S) {j : Nat} (h0 : b.map.getD j 0 = 0) {i : Nat} (hi : i ∈ S) : i / 64 ≠ j := by
  rintro rfl
  have := h.words (i / 64) (i % 64)
  rw [h0, Nat.zero_testBit, Nat.div_add_mod] at this
  simp [hi, Nat.mod_lt] at this

theorem Rep.first_word (h : Rep b c S) {j : Nat} (h0 : b.map.getD j 0 ≠ 0) :
    firstBit (b.map.getD j 0) < 64 ∧ 64 * j + firstBit (b.map.getD j 0) ∈ S ∧
    ∀ i ∈ S, i / 64 = j → 64 * j + firstBit (b.map.getD j 0) ≤ i := by
  obtain ⟨h1, h2, h3⟩ := (C18_firstBit (getD_lt h.wf j)).1 h0
  refine ⟨h1, ?_, ?_⟩
  · rw [h.words, Bool.and_eq_true, decide_eq_true_eq, decide_eq_true_eq] at h2; exact h2.2
  · intro i hi hij
    by_contra hc
    have := h3 (i % 64) (by omega)
    rw [h.words, ← hij, Nat.div_add_mod] at this
    simp [hi, Nat.mod_lt] at this

/-- C19: `front` is the least member, or the capacity if there is none. -/
theorem C19_front (h : Rep b c S) :
    (S = ∅ → front b = c) ∧ (S.Nonempty → front b ∈ S ∧ ∀ i ∈ S, front b ≤ i) := by
  rcases frontLoop_spec b.map 0 with ⟨h1, h2⟩ | ⟨j, h1, h2, h3⟩
  · have : S = ∅ := by
      rw [← Finset.not_nonempty_iff_eq_empty, ← h.nonzero_iff]; simpa using h2
    subst this
    refine ⟨fun _ => ?_, by simp⟩
    unfold front; rw [h1]; exact h.cap
  · have hne : S.Nonempty := h.nonzero_iff.1 ⟨j, h2⟩
    refine ⟨fun h0 => by simp [h0] at hne, fun _ => ?_⟩
    have e : front b = 64 * j + firstBit (b.map.getD j 0) := by
      unfold front
      rw [h1]
      dsimp only
      rw [Nat.shiftLeft_eq, zero_add]; ring
    obtain ⟨k1, k2, k3⟩ := h.first_word h2
    rw [e]
    refine ⟨k2, fun i hi => ?_⟩
    by_contra hc
    have : j ≤ i / 64 := by
      by_contra hlt
      exact h.zero_word (h3 (i / 64) (by omega)) hi rfl
    have := k3 i hi (by omega)
    omega

/-! ### counting -/

theorem popCount_eq (n x : Nat) : popCount n x = Nat.count (fun k => x.testBit k = true) n := by
  unfold popCount Nat.count
  rw [List.countP_eq_length_filter]; simp

/-- number of bits set below `n` -/
def cnt (l : List Nat) (n : Nat) : Nat := Nat.count (fun i => bit l i = true) n

theorem cnt_small (w : Nat) (l : List Nat) {n : Nat} (h : n ≤ 64) :
    cnt (w :: l) n = Nat.count (fun k => w.testBit k = true) n := by
  unfold cnt
  rw [Nat.count_eq_card_filter_range, Nat.count_eq_card_filter_range]
  congr 1
  apply Finset.filter_congr
  intro k hk
  rw [bit_cons_zero w l (by have := Finset.mem_range.1 hk; omega)]

theorem cnt_cons (w : Nat) (l : List Nat) (n : Nat) : cnt (w :: l) (64 + n) = popCount 64 w + cnt l n := by
  have e := cnt_small w l (le_refl 64)
  unfold cnt at *
  have e2 : Nat.count (fun k => bit (w :: l) (64 + k) = true) n = Nat.count (fun k => bit l k = true) n := by
    simp only [bit_cons_succ]
  rw [Nat.count_add, popCount_eq, e, e2]

theorem Rep.cnt (h : Rep b c S) (n : Nat) : cnt b.map n = (S.filter (· < n)).card := by
  unfold BitMap.cnt
  rw [Nat.count_eq_card_filter_range]
  congr 1
  ext i
  simp only [Finset.mem_filter, Finset.mem_range, h.bit_iff]
  tauto

theorem cnt_word (l : List Nat) (j : Nat) {r : Nat} (hr : r ≤ 64) :
    cnt l (64 * j + r) = cnt l (64 * j) + Nat.count (fun k => (l.getD j 0).testBit k = true) r := by
  unfold cnt
  rw [Nat.count_add]
  congr 1
  rw [Nat.count_eq_card_filter_range, Nat.count_eq_card_filter_range]
  congr 1
  apply Finset.filter_congr
  intro k hk
  have := Finset.mem_range.1 hk
  unfold bit
  rw [show (64 * j + k) / 64 = j by omega, show (64 * j + k) % 64 = k by omega]

theorem sum_count : ∀ {l : List Nat}, (∀ w ∈ l, w < 2 ^ 64) → (l.map bitCount).sum = cnt l (64 * l.length)
  | [], _ => by simp [cnt]
  | w :: l, h => by
    rw [List.map_cons, List.sum_cons, sum_count (fun v hv => h v (by simp [hv])),
      C18_bitCount (h w (by simp)), List.length_cons, show 64 * (l.length + 1) = 64 + 64 * l.length by ring,
      cnt_cons]

/-- C19: `size` is the number of members. -/
theorem C19_size (h : Rep b c S) : size b = S.card := by
  unfold size
  rw [sum_count h.wf, h.cnt, Finset.filter_true_of_mem]
  intro i hi
  have := h.sub i hi
  rw [h.len]; omega

theorem positionLoop_spec {l : List Nat} (wf : ∀ w ∈ l, w < 2 ^ 64) : ∀ {j : Nat}, j ≤ l.length →
    positionLoop l j = .ok (cnt l (64 * j))
  | 0, _ => by simp [positionLoop, cnt]
  | j + 1, h => by
    rw [positionLoop, positionLoop_spec wf (by omega), Res.ok_bind, rd_ok (by omega), Res.ok_bind,
      C18_bitCount (getD_lt wf j), show 64 * (j + 1) = 64 * j + 64 by ring, cnt_word l j le_rfl, popCount_eq]
    rfl

/-- C20: `position n` is the number of members smaller than `n`. -/
theorem C20_position (h : Rep b c S) {n : Nat} (hn : n ≤ c) :
    position b n = .ok (S.filter (· < n)).card := by
  have hn' := Nat.div_add_mod n 64
  unfold position
  rw [wordOf_eq, posOf_eq, positionLoop_spec h.wf (by rw [h.len]; omega), Res.ok_bind, ← h.cnt]
  by_cases h0 : n % 64 ≠ 0
  · rw [if_pos h0, rd_ok (by rw [h.len]; omega), Res.ok_bind,
      C18_bitCount (Nat.and_lt_two_pow _ (ltMask_lt (by omega))), popCount_eq]
    conv_rhs => rw [← hn', cnt_word _ _ (by omega)]
    rw [Res.pure_eq]
    congr 2
    rw [Nat.count_eq_card_filter_range, Nat.count_eq_card_filter_range]
    congr 1
    ext k
    simp only [Finset.mem_filter, Finset.mem_range, Nat.testBit_and, testBit_ltMask, Bool.and_eq_true,
      decide_eq_true_eq]
    constructor
    · rintro ⟨-, h1, h2⟩; exact ⟨h2, h1⟩
    · rintro ⟨h1, h2⟩; exact ⟨by omega, h2, h1⟩
  · rw [if_neg h0]
    push Not at h0
    rw [show 64 * (n / 64) = n by omega]; rfl

theorem clear_lowest {f : Nat} (hf : f < 2 ^ 64) {t : Nat} (h1 : f.testBit t = true)
    (h2 : ∀ j < t, f.testBit j = false) (k : Nat) :
    (f &&& (f + 18446744073709551616 - 1) % 18446744073709551616).testBit k = (f.testBit k && decide (k ≠ t)) := by
  have hf0 : f ≠ 0 := by rintro rfl; simp at h1
  have e1 : (f + 18446744073709551616 - 1) % 18446744073709551616 = f - 1 := by omega
  have hmod : f % 2 ^ t = 0 := by
    apply Nat.eq_of_testBit_eq
    intro j
    rw [Nat.testBit_mod_two_pow, Nat.zero_testBit]
    by_cases hj : j < t
    · simp [h2 j hj]
    · simp [hj]
  have hp : 0 < 2 ^ t := by positivity
  obtain ⟨g, hg⟩ : ∃ g, f = 2 ^ t * g := ⟨f / 2 ^ t, by rw [Nat.mul_div_cancel' (Nat.dvd_of_mod_eq_zero hmod)]⟩
  have hgo : g % 2 = 1 := by
    rw [hg, Nat.testBit_two_pow_mul] at h1
    simpa [Nat.testBit_zero] using h1
  have e2 : f - 1 = 2 ^ t * (g - 1) + (2 ^ t - 1) := by
    have : g = (g - 1) + 1 := by omega
    rw [hg]
    nth_rewrite 1 [this]
    rw [mul_add, mul_one]; omega
  rw [e1, Nat.testBit_and]
  by_cases hkt : k < t
  · rw [h2 k hkt]; rfl
  · rw [e2, Nat.testBit_two_pow_mul_add _ (by omega), if_neg hkt]
    rw [hg, Nat.testBit_two_pow_mul]
    by_cases hk : k = t
    · subst hk
      have : (g - 1) % 2 = 0 := by omega
      simp [this]
    · obtain ⟨m, hm⟩ : ∃ m, k - t = m + 1 := ⟨k - t - 1, by omega⟩
      have : (g - 1) / 2 = g / 2 := by omega
      simp [hk, hm, Nat.testBit_succ, this]

theorem clearLow_spec : ∀ (i : Nat) {f : Nat}, f < 2 ^ 64 → i < popCount 64 f →
    firstBit (clearLow i f) < 64 ∧ f.testBit (firstBit (clearLow i f)) = true ∧
    Nat.count (fun k => f.testBit k = true) (firstBit (clearLow i f)) = i
  | 0, f, hf, hi => by
    have hf0 : f ≠ 0 := by
      rintro rfl
      rw [popCount_eq] at hi
      simp at hi
    obtain ⟨h1, h2, h3⟩ := (C18_firstBit hf).1 hf0
    refine ⟨h1, h2, ?_⟩
    rw [clearLow]
    rw [Nat.count_eq_card_filter_range, Finset.card_eq_zero, Finset.filter_eq_empty_iff]
    intro k hk
    rw [h3 k (by simpa using hk)]; simp
  | i + 1, f, hf, hi => by
    have hf0 : f ≠ 0 := by
      rintro rfl
      rw [popCount_eq] at hi
      simp at hi
    obtain ⟨h1, h2, h3⟩ := (C18_firstBit hf).1 hf0
    have hc := clear_lowest hf h2 h3
    rw [clearLow]
    generalize f &&& (f + 18446744073709551616 - 1) % 18446744073709551616 = g at hc ⊢
    have hg : g < 2 ^ 64 := by
      apply Nat.lt_pow_two_of_testBit
      intro k hk
      rw [hc, Nat.testBit_lt_two_pow (lt_of_lt_of_le hf (Nat.pow_le_pow_right (by norm_num) hk))]; rfl
    have hcount : ∀ n, firstBit f < n → Nat.count (fun k => f.testBit k = true) n =
        Nat.count (fun k => g.testBit k = true) n + 1 := by
      intro n hn
      rw [Nat.count_eq_card_filter_range, Nat.count_eq_card_filter_range]
      have : (Finset.range n).filter (fun k => f.testBit k = true) =
          Insert.insert (firstBit f) ((Finset.range n).filter (fun k => g.testBit k = true)) := by
        ext k
        simp only [Finset.mem_insert, Finset.mem_filter, Finset.mem_range, hc, Bool.and_eq_true,
          decide_eq_true_eq]
        constructor
        · rintro ⟨h4, h5⟩
          by_cases hk : k = firstBit f
          · exact .inl hk
          · exact .inr ⟨h4, h5, hk⟩
        · rintro (rfl | ⟨h4, h5, -⟩)
          · exact ⟨hn, h2⟩
          · exact ⟨h4, h5⟩
      rw [this, Finset.card_insert_of_notMem]
      simp [hc]
    obtain ⟨k1, k2, k3⟩ := clearLow_spec i hg (by
      rw [popCount_eq] at hi ⊢
      rw [hcount 64 h1] at hi; omega)
    rw [hc, Bool.and_eq_true, decide_eq_true_eq] at k2
    refine ⟨k1, k2.1, ?_⟩
    rw [hcount, k3]
    by_contra hlt
    have := h3 (firstBit (clearLow i g)) (by omega)
    rw [k2.1] at this; cases this

theorem nthLoop_spec (cap : Nat) : ∀ {l : List Nat}, (∀ w ∈ l, w < 2 ^ 64) → ∀ i pos,
    (cnt l (64 * l.length) ≤ i → nthLoop cap l i pos = cap) ∧
    (i < cnt l (64 * l.length) → ∃ k, nthLoop cap l i pos = pos + k ∧ bit l k = true ∧ cnt l k = i)
  | [], _, i, pos => ⟨fun _ => rfl, fun h => by simp [cnt] at h⟩
  | w :: l, h, i, pos => by
    have hw := h w (by simp)
    rw [nthLoop, C18_bitCount hw, List.length_cons, show 64 * (l.length + 1) = 64 + 64 * l.length by ring, cnt_cons]
    by_cases c : popCount 64 w > i
    · rw [if_pos c]
      refine ⟨fun h => by omega, fun _ => ?_⟩
      obtain ⟨k1, k2, k3⟩ := clearLow_spec i hw c
      exact ⟨_, rfl, by rw [bit_cons_zero w l k1]; exact k2, by rw [cnt_small w l (by omega)]; exact k3⟩
    · rw [if_neg c]
      obtain ⟨i1, i2⟩ := nthLoop_spec cap (l := l) (fun v hv => h v (by simp [hv])) (i - popCount 64 w) (pos + 64)
      refine ⟨fun h => i1 (by omega), fun h => ?_⟩
      obtain ⟨k, e, h1, h2⟩ := i2 (by omega)
      refine ⟨64 + k, by rw [e]; omega, by rw [bit_cons_succ]; exact h1, by rw [cnt_cons, h2]; omega⟩

/-- C20: `n_th i` is the member with exactly `i` smaller members, or the capacity if there is none. -/
theorem C20_nTh (h : Rep b c S) (i : Nat) :
    (S.card ≤ i → nTh b i = c) ∧
    (i < S.card → nTh b i ∈ S ∧ (S.filter (· < nTh b i)).card = i) := by
  obtain ⟨h1, h2⟩ := nthLoop_spec b.cap h.wf i 0
  have e : cnt b.map (64 * b.map.length) = S.card := by rw [← sum_count h.wf, ← C19_size h]; rfl
  rw [e] at h1 h2
  unfold nTh
  refine ⟨fun hi => by rw [h1 hi, h.cap], fun hi => ?_⟩
  obtain ⟨k, e, h3, h4⟩ := h2 hi
  rw [e, zero_add]
  exact ⟨(h.bit_iff k).1 h3, by rw [← h.cnt]; exact h4⟩

/-- C20: `position` and `n_th` are mutually inverse. -/
theorem C20_inverse (h : Rep b c S) :
    (∀ i ≤ S.card, position b (nTh b i) = .ok i) ∧
    (∀ n ∈ S, ∃ p, position b n = .ok p ∧ p < S.card ∧ nTh b p = n) := by
  constructor
  · intro i hi
    obtain ⟨h1, h2⟩ := C20_nTh h i
    rcases hi.lt_or_eq with hi | hi
    · obtain ⟨h3, h4⟩ := h2 hi
      rw [C20_position h (h.sub _ h3).le, h4]
    · rw [h1 hi.ge, C20_position h le_rfl, Finset.filter_true_of_mem h.sub, hi]
  · intro n hn
    refine ⟨_, C20_position h (h.sub n hn).le, ?_, ?_⟩
    · apply Finset.card_lt_card
      rw [Finset.filter_ssubset]
      exact ⟨n, hn, lt_irrefl n⟩
    · have hlt : (S.filter (· < n)).card < S.card := by
        apply Finset.card_lt_card
        rw [Finset.filter_ssubset]
        exact ⟨n, hn, lt_irrefl n⟩
      obtain ⟨h3, h4⟩ := (C20_nTh h _).2 hlt
      generalize nTh b (S.filter (· < n)).card = m at h3 h4
      rcases Nat.lt_trichotomy m n with hmn | hmn | hmn
      · have : (S.filter (· < m)).card < (S.filter (· < n)).card := by
          apply Finset.card_lt_card
          refine Finset.ssubset_iff_of_subset (fun i hi => ?_) |>.2 ⟨m, ?_, ?_⟩
          · simp at hi ⊢; exact ⟨hi.1, by omega⟩
          · simp [h3, hmn]
          · simp
        omega
      · exact hmn
      · have : (S.filter (· < n)).card < (S.filter (· < m)).card := by
          apply Finset.card_lt_card
          refine Finset.ssubset_iff_of_subset (fun i hi => ?_) |>.2 ⟨n, ?_, ?_⟩
          · simp at hi ⊢; exact ⟨hi.1, by omega⟩
          · simp [hn, hmn]
          · simp
        omega

theorem fullLoop_spec {l : List Nat} (wf : ∀ w ∈ l, w < 2 ^ 64) : ∀ {j : Nat}, j ≤ l.length →
    ∃ v, fullLoop l j = .ok v ∧ (v = true ↔ ∀ i < 64 * j, bit l i = true)
  | 0, _ => ⟨true, rfl, by simp⟩
  | j + 1, h => by
    rw [fullLoop, rd_ok (by omega), Res.ok_bind]
    have hw := getD_lt wf j
    by_cases c : lnot (l.getD j 0) ≠ 0
    · refine ⟨false, by rw [if_pos c]; rfl, ?_⟩
      simp only [Bool.false_eq_true, false_iff]
      intro hall
      apply c
      apply Nat.eq_of_testBit_eq
      intro k
      rw [testBit_lnot hw, Nat.zero_testBit, bit_of_words wf]
      by_cases hk : k < 64
      · simp [hk, hall (64 * j + k) (by omega)]
      · simp [hk]
    · obtain ⟨v, e, hv⟩ := fullLoop_spec wf (j := j) (by omega)
      refine ⟨v, by rw [if_neg c, e], ?_⟩
      push Not at c
      rw [hv]
      constructor
      · intro hall i hi
        by_cases hij : i < 64 * j
        · exact hall i hij
        · have := congrArg (·.testBit (i % 64)) c
          rw [testBit_lnot hw, Nat.zero_testBit] at this
          have hlt : i % 64 < 64 := Nat.mod_lt _ (by norm_num)
          unfold bit
          rw [show i / 64 = j by omega]
          simpa [hlt] using this
      · intro hall i hi
        exact hall i (by omega)

/-- C19: `full` tells whether every value below the capacity is a member. -/
theorem C19_full (h : Rep b c S) : ∃ v, full b = .ok v ∧ (v = true ↔ S = Finset.range c) := by
  have hS : S = Finset.range c ↔ ∀ i < c, bit b.map i = true := by
    constructor
    · rintro rfl i hi; rw [h.bit_iff]; simpa using hi
    · intro hall
      ext i
      rw [Finset.mem_range]
      exact ⟨h.sub i, fun hi => (h.bit_iff i).1 (hall i hi)⟩
  obtain ⟨v, e, hv⟩ := fullLoop_spec h.wf (j := c / 64) (by rw [h.len]; omega)
  have hc := Nat.div_add_mod c 64
  unfold full
  rw [h.cap, posOf_eq, wordOf_eq]
  by_cases h0 : c % 64 ≠ 0
  · have hne : b.map ≠ [] := by
      intro h0
      have := h.len
      rw [h0] at this
      simp at this; omega
    have hl : b.map.getLast? = some (b.map.getD (c / 64) 0) := by
      rw [List.getLast?_eq_getElem?, List.getD_eq_getElem?_getD, show b.map.length - 1 = c / 64 by rw [h.len]; omega,
        List.getElem?_eq_getElem (by rw [h.len]; omega)]
      rfl
    rw [if_pos h0, hl]
    dsimp only
    rw [Res.ok_bind]
    by_cases hw : b.map.getD (c / 64) 0 ≠ ltMask (c % 64)
    · rw [decide_eq_true hw]
      refine ⟨false, rfl, ?_⟩
      simp only [Bool.false_eq_true, false_iff]
      rw [hS]
      intro hall
      apply hw
      apply Nat.eq_of_testBit_eq
      intro k
      rw [testBit_ltMask, bit_of_words h.wf]
      by_cases hk : k < c % 64
      · rw [if_pos (by omega), hall _ (by omega), decide_eq_true hk]
      · rw [decide_eq_false hk]
        split
        · rw [h.bits, decide_eq_false]
          intro hm; have := h.sub _ hm; omega
        · rfl
    · rw [decide_eq_false hw]
      refine ⟨v, by rw [if_neg (by simp), e], ?_⟩
      push Not at hw
      rw [hv, hS]
      constructor
      · intro hall i hi
        by_cases hi' : i < 64 * (c / 64)
        · exact hall i hi'
        · unfold bit
          rw [show i / 64 = c / 64 by omega, hw, testBit_ltMask, decide_eq_true (by omega)]
      · intro hall i hi; exact hall i (by omega)
  · rw [if_neg h0, Res.ok_bind]
    refine ⟨v, by rw [if_neg (by simp), e], ?_⟩
    rw [hv, hS, show 64 * (c / 64) = c by omega]

end Verif.BitMap
