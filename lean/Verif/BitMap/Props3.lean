import Verif.BitMap.Props2
/-
Property theorems C19 (iteration, `back_up`, ranges, change of capacity, shifts, histories) and
C21 (multi-bit access).
-/
namespace Verif.BitMap
open Verif.Bits

variable {a b : BitMap} {c d : Nat} {S T : Finset Nat}

/-! ### iteration -/

/-- `n` is the least member above `m`, or the capacity if there is none -/
def IsNext (S : Finset Nat) (c m n : Nat) : Prop :=
  (n ∈ S ∧ m < n ∧ ∀ i ∈ S, m < i → n ≤ i) ∨ (n = c ∧ ∀ i ∈ S, i ≤ m)

theorem nextLoop_spec (h : Rep b c S) {m : Nat} (hm : m < c) : ∀ (k j : Nat), b.map.length < j + k → j < b.map.length →
    m < 64 * (j + 1) → (∀ i ∈ S, m < i → 64 * (j + 1) ≤ i) →
    ∃ it, nextLoop b.map c k j (64 * j) = .ok it ∧ it.cap = c ∧ IsNext S c m it.addr ∧
      (it.addr < c → it.chunk = it.addr / 64)
  | 0, j, h1, h2, _, _ => by omega
  | k + 1, j, h1, h2, h3, h4 => by
    have hroom := h.room
    have hlen := h.len
    have e : (64 * j + 64) % 18446744073709551616 = 64 * (j + 1) := by
      rw [Nat.mod_eq_of_lt (by omega)]; ring
    rw [nextLoop]
    rw [e]
    by_cases hc : 64 * (j + 1) < c
    · rw [if_pos hc, rd_ok (by omega), Res.ok_bind]
      by_cases h0 : b.map.getD (j + 1) 0 = 0
      · rw [if_pos h0]
        refine nextLoop_spec h hm k (j + 1) (by omega) (by omega) (by omega) ?_
        intro i hi hmi
        have := h4 i hi hmi
        have := h.zero_word h0 hi
        omega
      · rw [if_neg h0]
        obtain ⟨k1, k2, k3⟩ := h.first_word h0
        have := h.sub _ k2
        refine ⟨_, rfl, rfl, .inl ?_, ?_⟩
        · dsimp only
          rw [Nat.mod_eq_of_lt (by omega)]
          refine ⟨k2, by omega, fun i hi hmi => ?_⟩
          by_contra hlt
          have := k3 i hi (by have := h4 i hi hmi; omega)
          omega
        · intro _
          dsimp only
          rw [Nat.mod_eq_of_lt (by omega)]; omega
    · rw [if_neg hc]
      refine ⟨_, rfl, rfl, .inr ⟨rfl, fun i hi => ?_⟩, fun h => absurd h (lt_irrefl c)⟩
      by_contra hmi
      have := h4 i hi (by omega)
      have := h.sub i hi
      omega

/-- C19: advancing an iterator placed at any value below the capacity (whether or not this
value is still a member) moves it to the next larger member, or to the end. -/
theorem C19_next (h : Rep b c S) {it : Iter} (h1 : it.chunk = it.addr / 64) (h2 : it.addr < c) (h3 : it.cap = c) :
    ∃ it', next b it = .ok it' ∧ it'.cap = c ∧ IsNext S c it.addr it'.addr ∧
      (it'.addr < c → it'.chunk = it'.addr / 64) := by
  have hroom := h.room
  obtain ⟨ch, m, cp⟩ := it
  dsimp only at h1 h2 h3 ⊢
  subst h1 h3
  unfold next
  dsimp only
  rw [rd_ok (h.index h2), Res.ok_bind, posOf_eq]
  have hbit : ∀ k, (b.map.getD (m / 64) 0 >>> (m % 64) >>> 1).testBit k =
      (decide (m % 64 + 1 + k < 64) && decide (m + 1 + k ∈ S)) := by
    intro k
    rw [Nat.testBit_shiftRight, Nat.testBit_shiftRight, h.words]
    rw [show 64 * (m / 64) + (m % 64 + (1 + k)) = m + 1 + k by omega, show m % 64 + (1 + k) = m % 64 + 1 + k by omega]
  have hlt : b.map.getD (m / 64) 0 >>> (m % 64) >>> 1 < 2 ^ 64 := by
    have := getD_lt h.wf (m / 64)
    rw [Nat.shiftRight_eq_div_pow, Nat.shiftRight_eq_div_pow]
    have := Nat.div_le_self (b.map.getD (m / 64) 0) (2 ^ (m % 64))
    have := Nat.div_le_self (b.map.getD (m / 64) 0 / 2 ^ (m % 64)) (2 ^ 1)
    omega
  generalize b.map.getD (m / 64) 0 >>> (m % 64) >>> 1 = f at hbit hlt ⊢
  by_cases h0 : f ≠ 0
  · rw [if_pos h0]
    obtain ⟨k1, k2, k3⟩ := (C18_firstBit hlt).1 h0
    rw [hbit, Bool.and_eq_true, decide_eq_true_eq, decide_eq_true_eq] at k2
    have := h.sub _ k2.2
    have e : (m + (firstBit f + 1)) % 18446744073709551616 = m + 1 + firstBit f := by
      rw [Nat.mod_eq_of_lt (by omega)]; ring
    refine ⟨_, rfl, rfl, .inl ?_, ?_⟩
    · dsimp only
      rw [e]
      refine ⟨k2.2, by omega, fun i hi hmi => ?_⟩
      by_contra hlt
      have := k3 (i - m - 1) (by omega)
      rw [hbit, show m + 1 + (i - m - 1) = i by omega, decide_eq_true hi, decide_eq_true (by omega)] at this
      cases this
    · intro _
      dsimp only
      rw [e]; omega
  · rw [if_neg h0]
    push Not at h0
    have e : m &&& lnot 63 = 64 * (m / 64) := by
      apply Nat.eq_of_testBit_eq
      intro k
      rw [Nat.testBit_and, testBit_lnot (by norm_num), show (64 : Nat) = 2 ^ 6 by norm_num, Nat.testBit_two_pow_mul,
        Nat.testBit_div_two_pow, show (63 : Nat) = 2 ^ 6 - 1 by norm_num, Nat.testBit_two_pow_sub_one]
      by_cases h6 : k < 6
      · simp [h6]
      · by_cases h64 : k < 64
        · simp [h6, h64, show 6 ≤ k by omega]
        · have : m.testBit k = false :=
            Nat.testBit_lt_two_pow (lt_of_lt_of_le (by omega : m < 2 ^ 64) (Nat.pow_le_pow_right (by norm_num) (by omega)))
          simp only [this, Bool.false_and]
          rw [show k - 6 + 6 = k by omega, this, Bool.and_false]
    rw [e]
    refine nextLoop_spec h h2 _ _ (by omega) (h.index h2) (by omega) ?_
    intro i hi hmi
    by_contra hlt
    have := hbit (i - m - 1)
    rw [h0, Nat.zero_testBit, show m + 1 + (i - m - 1) = i by omega, decide_eq_true hi, decide_eq_true (by omega)] at this
    cases this

theorem collect_spec (h : Rep b c S) : ∀ (k : Nat) (it : Iter), c < it.addr + k →
    (it.addr < c → it.chunk = it.addr / 64) → it.cap = c → (it.addr < c → it.addr ∈ S) → it.addr ≤ c →
    ∃ l, collect b k it = .ok l ∧ l.Pairwise (· < ·) ∧ ∀ i, i ∈ l ↔ i ∈ S ∧ it.addr ≤ i
  | 0, it, h1, _, _, _, _ => by omega
  | k + 1, it, h1, h2, h3, h4, h5 => by
    rw [collect]
    by_cases hc : it.addr ≠ it.cap
    · rw [if_pos hc]
      have hlt : it.addr < c := by rw [h3] at hc; omega
      obtain ⟨it', e, k1, k2, k3⟩ := C19_next h (h2 hlt) hlt h3
      have hgt : it.addr < it'.addr := by
        rcases k2 with k2 | k2
        · exact k2.2.1
        · omega
      obtain ⟨l, e', l1, l2⟩ := collect_spec h k it' (by omega) k3 k1 (by
          intro h'
          rcases k2 with k2 | k2
          · exact k2.1
          · omega) (by
          rcases k2 with k2 | k2
          · exact (h.sub _ k2.1).le
          · omega)
      refine ⟨it.addr :: l, by rw [e, Res.ok_bind, e']; rfl, ?_, ?_⟩
      · rw [List.pairwise_cons]
        refine ⟨fun i hi => ?_, l1⟩
        have := (l2 i).1 hi
        omega
      · intro i
        rw [List.mem_cons, l2]
        constructor
        · rintro (rfl | ⟨h6, h7⟩)
          · exact ⟨h4 hlt, le_rfl⟩
          · exact ⟨h6, by omega⟩
        · rintro ⟨h6, h7⟩
          by_cases he : i = it.addr
          · exact .inl he
          · refine .inr ⟨h6, ?_⟩
            rcases k2 with k2 | k2
            · exact k2.2.2 i h6 (by omega)
            · have := k2.2 i h6; omega
    · rw [if_neg hc]
      push Not at hc
      refine ⟨[], rfl, List.Pairwise.nil, fun i => ?_⟩
      simp only [List.not_mem_nil, false_iff, not_and]
      intro hi
      have := h.sub i hi
      omega

/-- C19: iteration visits the members in increasing order, each once. -/
theorem C19_elements (h : Rep b c S) :
    ∃ l, elements b = .ok l ∧ l.Pairwise (· < ·) ∧ ∀ i, i ∈ l ↔ i ∈ S := by
  obtain ⟨f1, f2⟩ := C19_front h
  have hf : front b ≤ c ∧ (front b < c → front b ∈ S) := by
    rcases S.eq_empty_or_nonempty with h0 | h0
    · rw [f1 h0]; exact ⟨le_rfl, fun h => absurd h (lt_irrefl c)⟩
    · exact ⟨(h.sub _ (f2 h0).1).le, fun _ => (f2 h0).1⟩
  obtain ⟨l, e, l1, l2⟩ := collect_spec h (b.cap + 1) (begin b) (by rw [h.cap]; omega)
    (fun _ => wordOf_eq _) h.cap hf.2 hf.1
  refine ⟨l, e, l1, fun i => (l2 i).trans ⟨fun h => h.1, fun hi => ⟨hi, ?_⟩⟩⟩
  exact (f2 ⟨i, hi⟩).2 i hi

/-! ### backing up -/

theorem backUpLoop_spec (h : Rep b c S) : ∀ (i m : Nat), i ≤ b.map.length → m < 2 ^ 64 →
    ∃ i' m', backUpLoop b.map i m = .ok (i', m') ∧ i' ≤ i ∧ m' < 2 ^ 64 ∧
      ((i' = i ∧ m' = m ∧ (m ≠ 0 ∨ i = 0)) ∨
       (m = 0 ∧ i' < i ∧ m' = b.map.getD i' 0 ∧ (m' ≠ 0 ∨ i' = 0) ∧ ∀ j, i' < j → j < i → b.map.getD j 0 = 0))
  | 0, m, _, hm => ⟨0, m, rfl, le_rfl, hm, .inl ⟨rfl, rfl, .inr rfl⟩⟩
  | i + 1, m, hi, hm => by
    rw [backUpLoop]
    by_cases h0 : m = 0
    · rw [if_pos h0, rd_ok (by omega), Res.ok_bind]
      obtain ⟨i', m', e, h1, h2, h3⟩ := backUpLoop_spec h i (b.map.getD i 0) (by omega) (getD_lt h.wf i)
      refine ⟨i', m', e, by omega, h2, .inr ⟨h0, ?_⟩⟩
      rcases h3 with ⟨rfl, rfl, h3⟩ | ⟨h4, h5, h6, h7, h8⟩
      · exact ⟨by omega, rfl, h3, fun j h1 h2 => by omega⟩
      · refine ⟨by omega, h6, h7, fun j hj1 hj2 => ?_⟩
        by_cases hj : j = i
        · rw [hj]; exact h4
        · exact h8 j hj1 (by omega)
    · rw [if_neg h0]
      exact ⟨i + 1, m, rfl, le_rfl, hm, .inl ⟨rfl, rfl, .inl h0⟩⟩

theorem lastBit_spec {m : Nat} (hm : m < 2 ^ 64) (h0 : m ≠ 0) :
    0 < lastBit m ∧ lastBit m ≤ 64 ∧ m.testBit (lastBit m - 1) = true ∧ ∀ k, lastBit m ≤ k → m.testBit k = false := by
  have h1 := C18_lastBit hm
  have hpos : 0 < lastBit m := by
    by_contra hc
    have := (h1 0).1 (by omega)
    simp at this; exact h0 this
  have h2 : m < 2 ^ (lastBit m) := (h1 _).1 le_rfl
  have h3 : 2 ^ (lastBit m - 1) ≤ m := by
    by_contra hc
    have := (h1 (lastBit m - 1)).2 (by omega)
    omega
  refine ⟨hpos, (h1 64).2 hm, ?_, ?_⟩
  · rw [Nat.testBit_eq_decide_div_mod_eq, decide_eq_true_eq]
    have e : m / 2 ^ (lastBit m - 1) = 1 := by
      have hp : 2 ^ lastBit m = 2 * 2 ^ (lastBit m - 1) := by
        rw [← Nat.pow_succ']; congr 1; omega
      have hp0 : 0 < 2 ^ (lastBit m - 1) := by positivity
      apply Nat.div_eq_of_lt_le <;> omega
    rw [e]
  · intro k hk
    exact Nat.testBit_lt_two_pow (lt_of_lt_of_le h2 (Nat.pow_le_pow_right (by norm_num) hk))

/-- C42, in part (capacities below `2^32`): `back_up` finds the largest member below `n`. -/
theorem C42_backUp_partial (h : Rep b c S) (hc : c < 2 ^ 32) {n : Nat} (hn : n ≤ c) :
    ∃ r, backUp b n = .ok r ∧ (r = none → ∀ i ∈ S, n ≤ i) ∧
      (∀ m, r = some m → m ∈ S ∧ m < n ∧ ∀ i ∈ S, i < n → i ≤ m) := by
  have hlen := h.len
  have hd : n / 64 % 4294967296 = n / 64 := Nat.mod_eq_of_lt (by omega)
  obtain ⟨m0, em, hm0, hb0⟩ : ∃ m0, (if n % 64 = 0 then pure 0 else do
      let w ← rd b.map (n / 64)
      pure (w &&& ltMask (n % 64)) : Res Nat) = .ok m0 ∧ m0 < 2 ^ 64 ∧
      ∀ k, m0.testBit k = (decide (k < n % 64) && decide (64 * (n / 64) + k ∈ S)) := by
    by_cases h0 : n % 64 = 0
    · rw [if_pos h0]
      exact ⟨0, rfl, by norm_num, by simp [h0]⟩
    · rw [if_neg h0, rd_ok (by omega)]
      refine ⟨_, rfl, Nat.and_lt_two_pow _ (ltMask_lt (by omega)), fun k => ?_⟩
      rw [Nat.testBit_and, testBit_ltMask, h.words]
      by_cases hk : k < n % 64
      · simp [hk, show k < 64 by omega]
      · simp [hk]
  obtain ⟨i', m', e, h1, h2, h3⟩ := backUpLoop_spec h (n / 64) m0 (by omega) hm0
  unfold backUp
  dsimp only
  rw [wordOf_eq, posOf_eq, hd, em, Res.ok_bind, e, Res.ok_bind]
  dsimp only
  -- bits of `m'`
  have hb : ∀ k, m'.testBit k = true ↔ k < 64 ∧ 64 * i' + k < n ∧ 64 * i' + k ∈ S := by
    intro k
    rcases h3 with ⟨rfl, rfl, -⟩ | ⟨-, hi', rfl, -, -⟩
    · rw [hb0, Bool.and_eq_true, decide_eq_true_eq, decide_eq_true_eq]
      constructor
      · rintro ⟨h4, h5⟩; exact ⟨by omega, by omega, h5⟩
      · rintro ⟨h4, h5, h6⟩; exact ⟨by omega, h6⟩
    · rw [h.words, Bool.and_eq_true, decide_eq_true_eq, decide_eq_true_eq]
      constructor
      · rintro ⟨h4, h5⟩; exact ⟨h4, by omega, h5⟩
      · rintro ⟨h4, -, h6⟩; exact ⟨h4, h6⟩
  -- no members below `n` in later words
  have hlater : ∀ i ∈ S, i < n → i / 64 ≤ i' := by
    intro i hi hin
    rcases h3 with ⟨rfl, -, -⟩ | ⟨hm, hi', -, -, h5⟩
    · omega
    · by_contra hlt
      push Not at hlt
      by_cases hx : i / 64 = n / 64
      · have := hb0 (i % 64)
        rw [hm, Nat.zero_testBit, ← hx, Nat.div_add_mod, decide_eq_true hi, decide_eq_true (by omega)] at this
        cases this
      · exact h.zero_word (h5 (i / 64) hlt (by omega)) hi rfl
  by_cases h0 : m' = 0
  · rw [if_pos h0]
    have hi0 : i' = 0 := by
      rcases h3 with ⟨h4, rfl, h5⟩ | ⟨-, -, -, h5, -⟩
      · omega
      · exact h5.resolve_left (by simp [h0])
    refine ⟨none, rfl, fun _ i hi => ?_, by simp⟩
    by_contra hlt
    have := hlater i hi (by omega)
    have := (hb (i % 64)).2 ⟨by omega, by omega, by rw [show 64 * i' + i % 64 = i by omega]; exact hi⟩
    rw [h0, Nat.zero_testBit] at this; cases this
  · rw [if_neg h0]
    obtain ⟨l1, l2, l3, l4⟩ := lastBit_spec h2 h0
    obtain ⟨t1, t2, t3⟩ := (hb _).1 l3
    have ei : i' <<< 6 = 64 * i' := by rw [Nat.shiftLeft_eq]; ring
    have e2 : ((i' <<< 6) % 4294967296 + lastBit m' + 4294967295) % 4294967296 = 64 * i' + (lastBit m' - 1) := by
      rw [ei, Nat.mod_eq_of_lt (by omega : 64 * i' < 4294967296)]; omega
    rw [e2]
    refine ⟨_, rfl, by simp, ?_⟩
    intro m hm
    rw [Option.some.injEq] at hm
    subst hm
    refine ⟨t3, t2, fun i hi hin => ?_⟩
    have hle := hlater i hi hin
    by_contra hgt
    have := l4 (i % 64) (by omega)
    have hh := (hb (i % 64)).2 ⟨by omega, by omega, by rw [show 64 * i' + i % 64 = i by omega]; exact hi⟩
    rw [hh] at this; cases this

/-- C42, in part (capacities below `2^32`): `last` is the largest member. -/
theorem C42_last_partial (nd : Bool) (h : Rep b c S) (hc : c < 2 ^ 32) (hS : S.Nonempty) :
    ∃ m, last nd b = .ok m ∧ m ∈ S ∧ ∀ i ∈ S, i ≤ m := by
  obtain ⟨r, e, h1, h2⟩ := C42_backUp_partial h hc le_rfl
  obtain ⟨i, hi⟩ := hS
  rcases r with _ | m
  · have := h1 rfl i hi
    have := h.sub i hi; omega
  · obtain ⟨k1, -, k3⟩ := h2 m rfl
    refine ⟨m, ?_, k1, fun i hi => k3 i hi (h.sub i hi)⟩
    unfold last
    rw [h.cap, e, Res.ok_bind]; cases nd <;> rfl

/-- C42 fails for `back_up` in bitmaps of capacity above `2^32`: the address is computed with
32 bits (finding F26).  Here the only member is `2^32`, but the value found is 0. -/
theorem C42_backUp_false : ∃ b, Rep b (2 ^ 32 + 1) {2 ^ 32} ∧ backUp b (2 ^ 32 + 1) = .ok (some 0) := by
  obtain ⟨b, -, h⟩ := C19_insert true (C19_make (c := 2 ^ 32 + 1) (by norm_num)) (n := 2 ^ 32) (by norm_num)
  rw [insert_empty_eq] at h
  refine ⟨b, h, ?_⟩
  unfold backUp
  dsimp only
  have e1 : (b.map.getD 67108864 0 &&& ltMask 1) = 1 := by
    apply Nat.eq_of_testBit_eq
    intro k
    rw [Nat.testBit_and, testBit_ltMask, h.words]
    by_cases hk : k = 0
    · subst hk; simp
    · have : Nat.testBit 1 k = false := Nat.testBit_lt_two_pow (Nat.one_lt_two_pow hk)
      simp [hk, this]
  rw [wordOf_eq, posOf_eq, show (2 ^ 32 + 1) / 64 % 4294967296 = 67108863 + 1 by norm_num,
    show (2 ^ 32 + 1) % 64 = 1 by norm_num, if_neg (by norm_num), rd_ok (by rw [h.len]; norm_num), Res.ok_bind,
    e1, Res.pure_eq, Res.ok_bind, backUpLoop, if_neg (by norm_num), Res.ok_bind]
  dsimp only
  rw [if_neg (by norm_num), show lastBit 1 = 1 by decide +kernel]
  rfl

/-! ### ranges of bits -/

theorem setWords_spec (v : Nat) : ∀ (k i : Nat) {l : List Nat}, i + k ≤ l.length →
    ∃ r, setWords v k i l = .ok r ∧ r.length = l.length ∧
      ∀ j, r.getD j 0 = if i ≤ j ∧ j < i + k then v else l.getD j 0
  | 0, i, l, _ => ⟨l, rfl, rfl, fun j => by rw [if_neg (by omega)]⟩
  | k + 1, i, l, h => by
    obtain ⟨r, e, h1, h2⟩ := setWords_spec v k (i + 1) (l := l.set i v) (by rw [List.length_set]; omega)
    refine ⟨r, by rw [setWords, upd_ok _ (by omega), Res.ok_bind, e], by rw [h1, List.length_set], fun j => ?_⟩
    rw [h2, getD_set (by omega)]
    by_cases h3 : i = j
    · subst h3; rw [if_neg (by omega), if_pos rfl, if_pos (by omega)]
    · rw [if_neg h3]
      by_cases h4 : i + 1 ≤ j ∧ j < i + 1 + k
      · rw [if_pos h4, if_pos (by omega)]
      · rw [if_neg h4, if_neg (by omega)]

/-- combining words of a range with a mask at both ends: common part of `fill` and `clear` -/
theorem range_spec {l l1 l2 l3 : List Nat} {s e v : Nat} (f g : Nat → Nat) (hs : s < l.length) (hse : s < e)
    (p : Bool) (he : p = true → e < l.length) (he' : e ≤ l.length)
    (h1 : upd l s f = .ok l1) (h2 : setWords v (e - (s + 1)) (s + 1) l1 = .ok l2)
    (h3 : (if p then upd l2 e g else .ok l2) = .ok l3) :
    l3.length = l.length ∧ ∀ j, l3.getD j 0 = if j = s then f (l.getD s 0) else if s < j ∧ j < e then v
      else if p ∧ j = e then g (l.getD e 0) else l.getD j 0 := by
  rw [upd_ok f hs, Res.ok.injEq] at h1
  subst h1
  obtain ⟨r, e1, e2, e3⟩ := setWords_spec v (e - (s + 1)) (s + 1) (l := l.set s (f (l.getD s 0)))
    (by rw [List.length_set]; omega)
  rw [e1, Res.ok.injEq] at h2
  subst h2
  rw [List.length_set] at e2
  have e3' : ∀ j, r.getD j 0 = if j = s then f (l.getD s 0) else if s < j ∧ j < e then v else l.getD j 0 := by
    intro j
    rw [e3, getD_set hs]
    by_cases c1 : j = s
    · subst c1; rw [if_neg (by omega), if_pos rfl, if_pos rfl]
    · rw [if_neg (by omega : ¬ s = j), if_neg c1]
      by_cases c2 : s < j ∧ j < e
      · rw [if_pos (by omega), if_pos c2]
      · rw [if_neg (by omega), if_neg c2]
  cases p with
  | false =>
    rw [if_neg (by simp), Res.ok.injEq] at h3
    subst h3
    refine ⟨e2, fun j => ?_⟩
    rw [e3']; simp
  | true =>
    have := he rfl
    rw [if_pos rfl, upd_ok g (by omega), Res.ok.injEq] at h3
    subst h3
    refine ⟨by rw [List.length_set, e2], fun j => ?_⟩
    rw [getD_set (by omega), e3', e3']
    by_cases c1 : e = j
    · subst c1
      simp [show ¬ e = s by omega]
    · simp [c1, show ¬ j = e by omega]

theorem testBit_shl (x p k : Nat) : ((x <<< p) % 18446744073709551616).testBit k =
    (decide (k < 64) && decide (p ≤ k) && x.testBit (k - p)) := by
  rw [M_pow, Nat.testBit_mod_two_pow, Nat.testBit_shiftLeft]
  simp [Bool.and_assoc]

theorem mod_M_lt (x : Nat) : x % 18446744073709551616 < 2 ^ 64 := Nat.mod_lt _ (by norm_num)

/-- C19: inserting all values of an interval. -/
theorem C19_fillRange (h : Rep b c S) {x y : Nat} (hy : y ≤ c) :
    ∃ r, fillRange b x y = .ok r ∧ Rep r c (S ∪ Finset.Ico x y) := by
  unfold fillRange
  by_cases hxy : x ≥ y
  · rw [if_pos hxy]
    exact ⟨b, rfl, by rw [Finset.Ico_eq_empty (by omega), Finset.union_empty]; exact h⟩
  rw [if_neg hxy, wordOf_eq, wordOf_eq, posOf_eq, posOf_eq]
  dsimp only
  have hsub : ∀ i ∈ S ∪ Finset.Ico x y, i < c := by
    intro i hi
    rcases Finset.mem_union.1 hi with hi | hi
    · exact h.sub i hi
    · have := Finset.mem_Ico.1 hi; omega
  have hlen := h.len
  by_cases hse : x / 64 = y / 64
  · rw [if_pos hse]
    obtain ⟨l, e, hl⟩ := h.upd (T := S ∪ Finset.Ico x y) (m := x / 64)
      (· ||| (ltMask (y - x) <<< (x % 64)) % 18446744073709551616) (h.index (by omega))
      (Nat.or_lt_two_pow (getD_lt h.wf _) (mod_M_lt _)) (by
        intro k hk
        rw [Nat.testBit_or, h.words, testBit_shl, testBit_ltMask]
        by_cases hS : 64 * (x / 64) + k ∈ S
        · simp [hS, hk]
        · simp only [hk, hS, Finset.mem_union, Finset.mem_Ico, decide_true, decide_false, Bool.and_false,
            Bool.false_or, Bool.true_and, false_or, ← Bool.decide_and]
          apply decide_eq_decide.2; omega) (by
        intro i hi
        rw [Finset.mem_union, Finset.mem_Ico]
        constructor
        · rintro (h | h)
          · exact h
          · omega
        · exact .inl) hsub
    exact ⟨_, by rw [e]; rfl, hl⟩
  · rw [if_neg hse]
    have hx : x / 64 < b.map.length := h.index (by omega)
    have hylen : y / 64 ≤ b.map.length := by omega
    have hlt : x / 64 < y / 64 := by omega
    obtain ⟨l1, e1, el1⟩ : ∃ l1, upd b.map (x / 64) (· ||| lnot (ltMask (x % 64))) = .ok l1 ∧ l1.length = b.map.length :=
      ⟨_, upd_ok _ hx, by simp⟩
    obtain ⟨l2, e2, el2, -⟩ := setWords_spec (18446744073709551616 - 1) (y / 64 - (x / 64 + 1)) (x / 64 + 1) (l := l1) (by omega)
    obtain ⟨l3, e3⟩ : ∃ l3, (if y % 64 ≠ 0 then upd l2 (y / 64) (· ||| ltMask (y % 64)) else .ok l2) = Res.ok l3 := by
      by_cases hp : y % 64 ≠ 0
      · rw [if_pos hp]; exact ⟨_, upd_ok _ (by omega)⟩
      · rw [if_neg hp]; exact ⟨_, rfl⟩
    obtain ⟨k1, k2⟩ := range_spec (l := b.map) (l1 := l1) (l2 := l2) (l3 := l3) (s := x / 64) (e := y / 64)
      (v := 18446744073709551616 - 1) _ (· ||| ltMask (y % 64)) hx hlt (decide (y % 64 ≠ 0)) (by
        intro hp; have := of_decide_eq_true hp; omega) hylen e1 e2 (by
        rw [← e3]; by_cases hp : y % 64 ≠ 0 <;> simp [hp])
    rw [e1, Res.ok_bind, e2, Res.ok_bind, e3, Res.ok_bind]
    refine ⟨_, rfl, Rep.mk' h.cap h.room (k1.trans hlen) ?_ ?_ hsub⟩
    · intro j _
      dsimp only
      have hw := getD_lt h.wf
      have hm1 : ltMask (y % 64) < 2 ^ 64 := ltMask_lt (by omega)
      rw [k2]
      split
      · exact Nat.or_lt_two_pow (hw _) (lnot_lt _)
      · split
        · norm_num
        · split
          · exact Nat.or_lt_two_pow (hw _) hm1
          · exact hw _
    · intro j _ k hk
      dsimp only
      rw [k2]
      by_cases hS : 64 * j + k ∈ S
      · have hb := h.words j k
        rw [decide_eq_true hk, decide_eq_true hS] at hb
        rw [decide_eq_true (Finset.mem_union_left _ hS)]
        split
        · next hj => rw [hj] at hb; rw [Nat.testBit_or, hb]; rfl
        · split
          · rw [Nat.testBit_two_pow_sub_one (n := 64), decide_eq_true hk]
          · split
            · next hj => rw [hj.2] at hb; rw [Nat.testBit_or, hb]; rfl
            · exact hb
      · have hb := h.words j k
        rw [decide_eq_false hS, Bool.and_false] at hb
        have hm : (64 * j + k ∈ S ∪ Finset.Ico x y) ↔ x ≤ 64 * j + k ∧ 64 * j + k < y := by
          rw [Finset.mem_union, Finset.mem_Ico]; simp [hS]
        have hm' : decide (64 * j + k ∈ S ∪ Finset.Ico x y) = decide (x ≤ 64 * j + k ∧ 64 * j + k < y) :=
          decide_eq_decide.2 hm
        rw [hm']
        clear hm hm'
        split
        · next hj =>
          subst hj
          rw [Nat.testBit_or, hb, testBit_lnot (ltMask_lt (by omega)), testBit_ltMask, Bool.false_or,
            ← decide_not, ← Bool.decide_and]
          apply decide_eq_decide.2; omega
        · split
          · rw [Nat.testBit_two_pow_sub_one (n := 64)]
            apply decide_eq_decide.2; omega
          · split
            · next hj =>
              obtain ⟨-, rfl⟩ := hj
              rw [Nat.testBit_or, hb, testBit_ltMask, Bool.false_or]
              apply decide_eq_decide.2; omega
            · next h1 h2 h3 =>
              rw [hb]
              symm
              apply decide_eq_false
              by_cases hp : y % 64 ≠ 0
              · have : j ≠ y / 64 := fun h => h3 ⟨decide_eq_true hp, h⟩
                omega
              · omega

/-- C19: removing all values of an interval. -/
theorem C19_clearRange (h : Rep b c S) {x y : Nat} (hy : y ≤ c) :
    ∃ r, clearRange b x y = .ok r ∧ Rep r c (S \ Finset.Ico x y) := by
  unfold clearRange
  by_cases hxy : x ≥ y
  · rw [if_pos hxy]
    exact ⟨b, rfl, by rw [Finset.Ico_eq_empty (by omega), Finset.sdiff_empty]; exact h⟩
  rw [if_neg hxy, wordOf_eq, wordOf_eq, posOf_eq, posOf_eq]
  dsimp only
  have hsub : ∀ i ∈ S \ Finset.Ico x y, i < c := fun i hi => h.sub i (Finset.mem_sdiff.1 hi).1
  have hlen := h.len
  have hmem : ∀ i, i ∈ S \ Finset.Ico x y ↔ i ∈ S ∧ ¬ (x ≤ i ∧ i < y) := by
    intro i; rw [Finset.mem_sdiff, Finset.mem_Ico]
  by_cases hse : x / 64 = y / 64
  · rw [if_pos hse]
    obtain ⟨l, e, hl⟩ := h.upd (T := S \ Finset.Ico x y) (m := x / 64)
      (· &&& lnot ((ltMask (y - x) <<< (x % 64)) % 18446744073709551616)) (h.index (by omega))
      (Nat.and_lt_two_pow _ (lnot_lt _)) (by
        intro k hk
        rw [Nat.testBit_and, h.words, testBit_lnot (mod_M_lt _), testBit_shl, testBit_ltMask]
        have hm' : decide (64 * (x / 64) + k ∈ S \ Finset.Ico x y) =
            decide (64 * (x / 64) + k ∈ S ∧ ¬(x ≤ 64 * (x / 64) + k ∧ 64 * (x / 64) + k < y)) :=
          decide_eq_decide.2 (hmem (64 * (x / 64) + k))
        rw [hm']
        clear hm'
        by_cases hS : 64 * (x / 64) + k ∈ S
        · simp only [hk, hS, decide_true, Bool.true_and, true_and, ← Bool.decide_and, ← decide_not]
          apply decide_eq_decide.2; omega
        · simp [hS]) (by
        intro i hi
        rw [hmem]
        constructor
        · exact fun h => h.1
        · exact fun h => ⟨h, by omega⟩) hsub
    exact ⟨_, by rw [e]; rfl, hl⟩
  · rw [if_neg hse]
    have hx : x / 64 < b.map.length := h.index (by omega)
    have hylen : y / 64 ≤ b.map.length := by omega
    have hlt : x / 64 < y / 64 := by omega
    obtain ⟨l1, e1, el1⟩ : ∃ l1, upd b.map (x / 64) (· &&& ltMask (x % 64)) = .ok l1 ∧ l1.length = b.map.length :=
      ⟨_, upd_ok _ hx, by simp⟩
    obtain ⟨l2, e2, el2, -⟩ := setWords_spec 0 (y / 64 - (x / 64 + 1)) (x / 64 + 1) (l := l1) (by omega)
    obtain ⟨l3, e3⟩ : ∃ l3, (if y % 64 ≠ 0 then upd l2 (y / 64) (· &&& lnot (ltMask (y % 64))) else .ok l2) = Res.ok l3 := by
      by_cases hp : y % 64 ≠ 0
      · rw [if_pos hp]; exact ⟨_, upd_ok _ (by omega)⟩
      · rw [if_neg hp]; exact ⟨_, rfl⟩
    obtain ⟨k1, k2⟩ := range_spec (l := b.map) (l1 := l1) (l2 := l2) (l3 := l3) (s := x / 64) (e := y / 64)
      (v := 0) _ (· &&& lnot (ltMask (y % 64))) hx hlt (decide (y % 64 ≠ 0)) (by
        intro hp; have := of_decide_eq_true hp; omega) hylen e1 e2 (by
        rw [← e3]; by_cases hp : y % 64 ≠ 0 <;> simp [hp])
    rw [e1, Res.ok_bind, e2, Res.ok_bind, e3, Res.ok_bind]
    refine ⟨_, rfl, Rep.mk' h.cap h.room (k1.trans hlen) ?_ ?_ hsub⟩
    · intro j _
      dsimp only
      rw [k2]
      split
      · exact Nat.and_lt_two_pow _ (ltMask_lt (by omega))
      · split
        · norm_num
        · split
          · exact Nat.and_lt_two_pow _ (lnot_lt _)
          · exact getD_lt h.wf _
    · intro j _ k hk
      dsimp only
      have hm' : decide (64 * j + k ∈ S \ Finset.Ico x y) = decide (64 * j + k ∈ S ∧ ¬(x ≤ 64 * j + k ∧ 64 * j + k < y)) :=
        decide_eq_decide.2 (hmem (64 * j + k))
      rw [k2, hm']
      clear hm'
      have hb := h.words j k
      rw [decide_eq_true hk, Bool.true_and] at hb
      split
      · next hj =>
        subst hj
        rw [Nat.testBit_and, hb, testBit_ltMask, ← Bool.decide_and]
        apply decide_eq_decide.2
        constructor
        · rintro ⟨h1, h2⟩; exact ⟨h1, by omega⟩
        · rintro ⟨h1, h2⟩; exact ⟨h1, by omega⟩
      · split
        · rw [Nat.zero_testBit]
          symm; apply decide_eq_false
          rintro ⟨-, h2⟩; omega
        · split
          · next hj =>
            obtain ⟨-, rfl⟩ := hj
            rw [Nat.testBit_and, hb, testBit_lnot (ltMask_lt (by omega)), testBit_ltMask, ← decide_not,
              ← Bool.decide_and, ← Bool.decide_and]
            apply decide_eq_decide.2
            constructor
            · rintro ⟨h1, h2⟩; exact ⟨h1, by omega⟩
            · rintro ⟨h1, h2⟩; exact ⟨h1, by omega⟩
          · next h1 h2 h3 =>
            rw [hb]
            apply decide_eq_decide.2
            constructor
            · intro hS
              refine ⟨hS, ?_⟩
              by_cases hp : y % 64 ≠ 0
              · have : j ≠ y / 64 := fun h => h3 ⟨decide_eq_true hp, h⟩
                omega
              · omega
            · exact fun h => h.1

end Verif.BitMap
