import Verif.BitMap.Lemmas
/-
Property theorems C19: a `BitMap` behaves as a subset of `[0,capacity)`.
The specification is `Rep b c S` (Verif/BitMap/Lemmas.lean): `b` has capacity `c`, bit `i` of
its words is set exactly for `i ∈ S`, and `S ⊆ [0,c)`.
-/
namespace Verif.BitMap
open Verif.Bits

variable {a b : BitMap} {c d : Nat} {S T : Finset Nat}

/-- C19: a new bitmap is empty. -/
theorem C19_make (h : c + 64 ≤ 2 ^ 64) : Rep (make c) c ∅ := by
  have e : wordOf ((c + 63) % 18446744073709551616) = (c + 63) / 64 := by
    rw [wordOf_eq, Nat.mod_eq_of_lt (by omega)]
  unfold make
  rw [e]
  refine Rep.mk' rfl h (by simp) ?_ ?_ (by simp)
  · intro j hj; simp at hj ⊢
  · intro j hj k hk; simp at hj; simp [hj]

/-- C19: membership. -/
theorem C19_isMember (h : Rep b c S) (n : Nat) : isMember b n = .ok (decide (n ∈ S)) := by
  unfold isMember
  rw [h.cap]
  by_cases hn : n ≥ c
  · rw [if_pos hn, decide_eq_false]; rfl
    intro hm; have := h.sub n hm; omega
  · rw [if_neg hn, wordOf_eq, posOf_eq, rd_ok (h.index (by omega)), Res.ok_bind, testBit_mask_ne,
      h.words, Nat.div_add_mod]
    simp [Nat.mod_lt]

/-- C19: insertion. -/
theorem C19_insert (nd : Bool) (h : Rep b c S) {n : Nat} (hn : n < c) :
    ∃ r, insert nd b n = .ok r ∧ Rep r c (Insert.insert n S) := by
  obtain ⟨l, e, hr⟩ := h.upd (T := Insert.insert n S) (m := n / 64) (· ||| eqMask (n % 64)) (h.index hn)
    (Nat.or_lt_two_pow (getD_lt h.wf _) (eqMask_lt (Nat.mod_lt _ (by norm_num)))) (by
      intro k hk
      rw [Nat.testBit_or, testBit_eqMask, h.words]
      by_cases hkn : k = n % 64
      · subst hkn; simp [Nat.div_add_mod]
      · have : 64 * (n / 64) + k ≠ n := by omega
        simp [hk, hkn, this]) (by
      intro i hi
      have : i ≠ n := by rintro rfl; exact hi rfl
      simp [this]) (by
      intro i hi
      rcases Finset.mem_insert.1 hi with rfl | hi
      · exact hn
      · exact h.sub i hi)
  refine ⟨_, ?_, hr⟩
  unfold insert
  rw [Res.assertIn_bind nd (decide_eq_true (by rw [h.cap]; exact hn)), wordOf_eq, posOf_eq, e]; rfl

/-- C19: removal. -/
theorem C19_remove (nd : Bool) (h : Rep b c S) {n : Nat} (hn : n < c) :
    ∃ r, remove nd b n = .ok r ∧ Rep r c (S.erase n) := by
  have hp : n % 64 < 64 := Nat.mod_lt _ (by norm_num)
  obtain ⟨l, e, hr⟩ := h.upd (T := S.erase n) (m := n / 64) (· &&& lnot (eqMask (n % 64))) (h.index hn)
    (Nat.and_lt_two_pow _ (lnot_lt _)) (by
      intro k hk
      rw [Nat.testBit_and, testBit_lnot (eqMask_lt hp), testBit_eqMask, h.words]
      by_cases hkn : k = n % 64
      · subst hkn; simp [Nat.div_add_mod]
      · have : 64 * (n / 64) + k ≠ n := by omega
        simp [hk, hkn, this]) (by
      intro i hi
      have : i ≠ n := by rintro rfl; exact hi rfl
      simp [this]) (by
      intro i hi
      exact h.sub i (Finset.mem_of_mem_erase hi))
  refine ⟨_, ?_, hr⟩
  unfold remove
  rw [Res.assertIn_bind nd (decide_eq_true (by rw [h.cap]; exact hn)), wordOf_eq, posOf_eq, e]; rfl

/-- C19: flipping membership. -/
theorem C19_flip (nd : Bool) (h : Rep b c S) {n : Nat} (hn : n < c) :
    ∃ r, flip nd b n = .ok r ∧ Rep r c (if n ∈ S then S.erase n else Insert.insert n S) := by
  have hp : n % 64 < 64 := Nat.mod_lt _ (by norm_num)
  obtain ⟨l, e, hr⟩ := h.upd (T := if n ∈ S then S.erase n else Insert.insert n S) (m := n / 64)
    (· ^^^ eqMask (n % 64)) (h.index hn)
    (Nat.xor_lt_two_pow (getD_lt h.wf _) (eqMask_lt hp)) (by
      intro k hk
      rw [Nat.testBit_xor, testBit_eqMask, h.words]
      by_cases hkn : k = n % 64
      · subst hkn
        by_cases hm : n ∈ S <;> simp [Nat.div_add_mod, hm, hp]
      · have : 64 * (n / 64) + k ≠ n := by omega
        by_cases hm : n ∈ S <;> simp [hk, hkn, this, hm]) (by
      intro i hi
      have : i ≠ n := by rintro rfl; exact hi rfl
      by_cases hm : n ∈ S <;> simp [this, hm]) (by
      intro i hi
      by_cases hm : n ∈ S
      · rw [if_pos hm] at hi; exact h.sub i (Finset.mem_of_mem_erase hi)
      · rw [if_neg hm] at hi
        rcases Finset.mem_insert.1 hi with rfl | hi
        · exact hn
        · exact h.sub i hi)
  refine ⟨_, ?_, hr⟩
  unfold flip
  rw [Res.assertIn_bind nd (decide_eq_true (by rw [h.cap]; exact hn)), wordOf_eq, posOf_eq, e]; rfl

/-- C19: setting membership to a given value. -/
theorem C19_setTo (nd : Bool) (h : Rep b c S) {n : Nat} (hn : n < c) (v : Bool) :
    ∃ r, setTo nd b n v = .ok r ∧ Rep r c (if v then Insert.insert n S else S.erase n) := by
  cases v
  · exact C19_remove nd h hn
  · exact C19_insert nd h hn

/-- C19: setting membership to the parity of a number. -/
theorem C19_setMod2 (nd : Bool) (h : Rep b c S) {n : Nat} (hn : n < c) (v : Nat) :
    ∃ r, setMod2 nd b n v = .ok r ∧ Rep r c (if v % 2 = 1 then Insert.insert n S else S.erase n) := by
  have e : decide (v &&& 1 ≠ 0) = decide (v % 2 = 1) := by
    rw [show v &&& 1 = v % 2 from Nat.and_two_pow_sub_one_eq_mod v 1]
    apply decide_eq_decide.2; omega
  obtain ⟨r, e1, e2⟩ := C19_setTo nd h hn (decide (v % 2 = 1))
  refine ⟨r, by unfold setMod2; rw [e, e1], by simpa using e2⟩

/-- C19: modifications at or beyond the capacity are stopped in builds with assertions. -/
theorem C19_out_of_range (h : Rep b c S) {n : Nat} (hn : c ≤ n) :
    insert false b n = .assertFail ∧ remove false b n = .assertFail ∧ flip false b n = .assertFail := by
  have : decide (n < b.cap) = false := decide_eq_false (by rw [h.cap]; omega)
  unfold insert remove flip
  rw [this]
  exact ⟨rfl, rfl, rfl⟩

/-- C19: insertion of a list of values. -/
theorem C19_insertAll (nd : Bool) (h : Rep b c S) {l : List Nat} (hl : ∀ n ∈ l, n < c) :
    ∃ r, insertAll nd b l = .ok r ∧ Rep r c (S ∪ l.toFinset) := by
  induction l generalizing b S with
  | nil => exact ⟨b, rfl, by simpa using h⟩
  | cons n l ih =>
    obtain ⟨r, e, hr⟩ := C19_insert nd h (hl n (by simp))
    obtain ⟨r', e', hr'⟩ := ih hr (fun m hm => hl m (by simp [hm]))
    refine ⟨r', by rw [insertAll, e, Res.ok_bind, e'], ?_⟩
    rw [List.toFinset_cons, Finset.union_insert, ← Finset.insert_union]
    exact hr'

/-- C19: construction from a list of values. -/
theorem C19_ofList (nd : Bool) (hc : c + 64 ≤ 2 ^ 64) {l : List Nat} (hl : ∀ n ∈ l, n < c) :
    ∃ r, ofList nd c l = .ok r ∧ Rep r c l.toFinset := by
  obtain ⟨r, e, h⟩ := C19_insertAll nd (C19_make hc) hl
  exact ⟨r, e, by simpa using h⟩

/-! ### operations on all words -/

theorem maskLast_spec (h : (a.map.length = (c + 63) / 64)) (hr : c + 64 ≤ 2 ^ 64)
    (hw : ∀ j < a.map.length, a.map.getD j 0 < 2 ^ 64) (hS : ∀ i ∈ S, i < c)
    (hb : ∀ i < c, bit a.map i = decide (i ∈ S)) :
    ∃ l, maskLast c a.map = .ok l ∧ Rep ⟨c, l⟩ c S := by
  unfold maskLast
  rw [posOf_eq]
  have key : ∀ j k, k < 64 → (a.map.getD j 0).testBit k = bit a.map (64 * j + k) := by
    intro j k hk
    unfold bit
    rw [show (64 * j + k) / 64 = j by omega, show (64 * j + k) % 64 = k by omega]
  by_cases h0 : c % 64 ≠ 0
  · rw [if_pos h0, upd_ok _ (by omega)]
    have hc := Nat.div_add_mod c 64
    refine ⟨_, rfl, Rep.mk' rfl hr (by simp [h]) ?_ ?_ hS⟩
    · intro j hj
      dsimp only at hj ⊢
      rw [getD_set (by omega)]
      split
      · exact Nat.and_lt_two_pow _ (ltMask_lt (by omega))
      · exact hw j (by simpa using hj)
    · intro j hj k hk
      dsimp only at hj ⊢
      rw [List.length_set] at hj
      rw [getD_set (by omega)]
      split
      · next e =>
        rw [e, Nat.testBit_and, testBit_ltMask, key _ _ hk]
        by_cases hlt : 64 * j + k < c
        · rw [hb _ hlt]
          have : k < c % 64 := by omega
          simp [this]
        · have h1 : ¬ k < c % 64 := by omega
          have h2 : 64 * j + k ∉ S := fun hm => hlt (hS _ hm)
          simp [h1, h2]
      · next e =>
        rw [key _ _ hk, hb _ (by omega)]
  · rw [if_neg h0]
    refine ⟨_, rfl, Rep.mk' rfl hr h hw ?_ hS⟩
    intro j hj k hk
    dsimp only at hj ⊢
    rw [key _ _ hk, hb _ (by omega)]

theorem getD_map {f : Nat → Nat} {l : List Nat} {j : Nat} (h : j < l.length) :
    (l.map f).getD j 0 = f (l.getD j 0) := by
  rw [List.getD_eq_getElem _ _ (by simpa using h), List.getElem_map, List.getD_eq_getElem _ _ h]

/-- C19: complement. -/
theorem C19_complement (h : Rep b c S) :
    ∃ r, complement b = .ok r ∧ Rep r c (Finset.range c \ S) := by
  obtain ⟨l, e, hl⟩ := maskLast_spec (a := ⟨c, b.map.map lnot⟩) (S := Finset.range c \ S) (c := c)
    (by simp [h.len]) h.room (by
      intro j hj
      rw [getD_map (by simpa using hj)]; exact lnot_lt _) (by
      intro i hi; simp at hi; exact hi.1) (by
      intro i hi
      unfold bit
      rw [getD_map (h.index hi), testBit_lnot (getD_lt h.wf _), h.words, Nat.div_add_mod]
      simp [hi, Nat.mod_lt])
  refine ⟨_, ?_, hl⟩
  unfold complement
  rw [h.cap]
  dsimp only at e
  rw [e]; rfl

/-- C19: the full and the empty set. -/
theorem C19_fillAll (h : Rep b c S) : ∃ r, fillAll b = .ok r ∧ Rep r c (Finset.range c) := by
  have key : fillAll b = do
      let l ← maskLast b.cap (b.map.map fun _ => 18446744073709551616 - 1)
      return { b with map := l } := by
    unfold fillAll maskLast
    dsimp only
    split
    · unfold upd
      rcases e : (b.map.map fun _ => 18446744073709551616 - 1)[(b.map.map fun _ => 18446744073709551616 - 1).length - 1]? with _ | w
      · rfl
      · dsimp only
        have hw : w = 18446744073709551616 - 1 := by
          have := List.mem_of_getElem? e
          rw [List.mem_map] at this
          obtain ⟨_, _, rfl⟩ := this
          rfl
        rw [hw, Nat.and_comm, Nat.and_two_pow_sub_one_eq_mod _ 64, Nat.mod_eq_of_lt (ltMask_lt (by
          rw [posOf_eq]; omega))]
    · rfl
  obtain ⟨l, e, hl⟩ := maskLast_spec (a := ⟨c, b.map.map fun _ => 18446744073709551616 - 1⟩) (S := Finset.range c) (c := c)
    (by simp [h.len]) h.room (by
      intro j hj
      rw [getD_map (by simpa using hj)]; norm_num) (by
      intro i hi; simpa using hi) (by
      intro i hi
      unfold bit
      rw [getD_map (h.index hi), Nat.testBit_two_pow_sub_one (n := 64)]
      simp [hi, Nat.mod_lt])
  refine ⟨_, ?_, hl⟩
  rw [key, h.cap]
  dsimp only at e
  rw [e]; rfl

theorem C19_reset (h : Rep b c S) : Rep (reset b) c ∅ := by
  refine Rep.mk' h.cap h.room (by simp [reset, h.len]) ?_ ?_ (by simp)
  · intro j hj
    simp only [reset, List.length_map] at hj ⊢
    rw [getD_map hj]; norm_num
  · intro j hj k hk
    simp only [reset, List.length_map] at hj ⊢
    rw [getD_map hj]; simp

/-! ### operations with a second bitmap, of capacity at most ours -/

theorem mergeLoop_spec (f : Nat → Nat → Nat) : ∀ {vs ws : List Nat}, ws.length ≤ vs.length →
    ∃ r, mergeLoop f vs ws = .ok r ∧ r.length = vs.length ∧
      ∀ i, r.getD i 0 = if i < ws.length then f (vs.getD i 0) (ws.getD i 0) else vs.getD i 0
  | vs, [], _ => ⟨vs, by cases vs <;> rfl, rfl, by simp⟩
  | [], _ :: _, h => by simp at h
  | v :: vs, w :: ws, h => by
    obtain ⟨r, e, h1, h2⟩ := mergeLoop_spec f (vs := vs) (ws := ws) (by simpa using h)
    refine ⟨f v w :: r, by rw [mergeLoop, e]; rfl, by simp [h1], ?_⟩
    intro i
    cases i with
    | zero => simp
    | succ i => simpa using h2 i

theorem andLoop_spec : ∀ {vs ws : List Nat}, ws.length ≤ vs.length →
    ∃ any r, andLoop vs ws = .ok (any, r) ∧ r.length = vs.length ∧
      (any = true ↔ ∃ i, r.getD i 0 ≠ 0) ∧ ∀ i, r.getD i 0 = vs.getD i 0 &&& ws.getD i 0
  | vs, [], _ => by
    have e : ∀ i, (vs.map fun _ => 0).getD i 0 = 0 := by
      intro i
      by_cases h : i < vs.length
      · rw [getD_map h]
      · rw [List.getD_eq_default _ _ (by simpa using h)]
    refine ⟨false, vs.map fun _ => 0, by cases vs <;> rfl, by simp, ?_, ?_⟩
    · simp
    · intro i; rw [e]; simp
  | [], _ :: _, h => by simp at h
  | v :: vs, w :: ws, h => by
    obtain ⟨any, r, e, h1, h2, h3⟩ := andLoop_spec (vs := vs) (ws := ws) (by simpa using h)
    refine ⟨_, _, by rw [andLoop, e]; rfl, by simp [h1], ?_, ?_⟩
    · rw [Bool.or_eq_true, decide_eq_true_iff, h2]
      constructor
      · rintro (h | ⟨i, h⟩)
        · exact ⟨0, h⟩
        · exact ⟨i + 1, h⟩
      · rintro ⟨i, h⟩
        cases i with
        | zero => exact .inl h
        | succ i => exact .inr ⟨i, h⟩
    · intro i
      cases i with
      | zero => simp
      | succ i => simpa using h3 i

theorem merge_rep (f : Nat → Nat → Nat) (hf : ∀ x < 2 ^ 64, ∀ y < 2 ^ 64, f x y < 2 ^ 64)
    (ha : Rep a c S) (hb : Rep b d T) (hd : d ≤ c) {U : Finset Nat} (hU : ∀ i ∈ U, i < c)
    (h : ∀ j, ∀ k < 64, (f (a.map.getD j 0) (b.map.getD j 0)).testBit k = decide (64 * j + k ∈ U))
    (hd' : ∀ x, f x 0 = x) :
    ∃ r, mergeLoop f a.map b.map = .ok r ∧ Rep ⟨a.cap, r⟩ c U := by
  have hlen : b.map.length ≤ a.map.length := by rw [ha.len, hb.len]; omega
  obtain ⟨r, e, h1, h2⟩ := mergeLoop_spec f hlen
  refine ⟨r, e, Rep.mk' ha.cap ha.room (by rw [← ha.len]; exact h1) ?_ ?_ hU⟩
  · intro j hj
    dsimp only
    rw [h2]
    split
    · exact hf _ (getD_lt ha.wf j) _ (getD_lt hb.wf j)
    · exact getD_lt ha.wf j
  · intro j hj k hk
    dsimp only
    rw [h2, ← h j k hk]
    split
    · rfl
    · next hj' => rw [List.getD_eq_default (n := j) b.map 0 (by omega), hd']

/-- C19: union, symmetric difference and set difference. -/
theorem C19_union (nd : Bool) (ha : Rep a c S) (hb : Rep b d T) (hd : d ≤ c) :
    ∃ r, orAssign nd a b = .ok r ∧ Rep r c (S ∪ T) := by
  obtain ⟨l, e, h⟩ := merge_rep (· ||| ·) (fun _ h1 _ h2 => Nat.or_lt_two_pow h1 h2) ha hb hd
    (U := S ∪ T) (by
      intro i hi
      rcases Finset.mem_union.1 hi with h | h
      · exact ha.sub i h
      · exact (hb.sub i h).trans_le hd) (by
      intro j k hk
      rw [Nat.testBit_or, ha.words, hb.words]
      simp [hk]) (by simp)
  refine ⟨_, ?_, h⟩
  unfold orAssign
  rw [Res.assertIn_bind nd (decide_eq_true (by rw [ha.cap, hb.cap]; exact hd)), e]; rfl

theorem C19_symmDiff (nd : Bool) (ha : Rep a c S) (hb : Rep b d T) (hd : d ≤ c) :
    ∃ r, xorAssign nd a b = .ok r ∧ Rep r c ((S \ T) ∪ (T \ S)) := by
  obtain ⟨l, e, h⟩ := merge_rep (· ^^^ ·) (fun _ h1 _ h2 => Nat.xor_lt_two_pow h1 h2) ha hb hd
    (U := (S \ T) ∪ (T \ S)) (by
      intro i hi
      rw [Finset.mem_union, Finset.mem_sdiff, Finset.mem_sdiff] at hi
      rcases hi with h | h
      · exact ha.sub i h.1
      · exact (hb.sub i h.1).trans_le hd) (by
      intro j k hk
      rw [Nat.testBit_xor, ha.words, hb.words]
      simp only [hk, Finset.mem_union, Finset.mem_sdiff]
      by_cases h1 : 64 * j + k ∈ S <;> by_cases h2 : 64 * j + k ∈ T <;> simp [h1, h2]) (by simp)
  refine ⟨_, ?_, h⟩
  unfold xorAssign
  rw [Res.assertIn_bind nd (decide_eq_true (by rw [ha.cap, hb.cap]; exact hd)), e]; rfl

theorem C19_andnot (nd : Bool) (ha : Rep a c S) (hb : Rep b d T) (hd : d ≤ c) :
    ∃ r, andnot nd a b = .ok r ∧ Rep r c (S \ T) := by
  have hlen : b.map.length ≤ a.map.length := by rw [ha.len, hb.len]; omega
  obtain ⟨r, e, h1, h2⟩ := mergeLoop_spec (fun v w => v &&& lnot w) hlen
  refine ⟨⟨a.cap, r⟩, ?_, Rep.mk' ha.cap ha.room (by rw [← ha.len]; exact h1) ?_ ?_ ?_⟩
  · unfold andnot
    rw [Res.assertIn_bind nd (decide_eq_true (by rw [ha.cap, hb.cap]; exact hd)), e]; rfl
  · intro j hj
    dsimp only
    rw [h2]
    split
    · exact Nat.and_lt_two_pow _ (lnot_lt _)
    · exact getD_lt ha.wf j
  · intro j hj k hk
    dsimp only
    have e2 := hb.words j k
    rw [h2]
    split
    · rw [Nat.testBit_and, testBit_lnot (getD_lt hb.wf j), e2, ha.words]
      by_cases h1 : 64 * j + k ∈ S <;> by_cases h2 : 64 * j + k ∈ T <;> simp [h1, h2, hk]
    · next hj' =>
      rw [List.getD_eq_default (n := j) b.map 0 (by omega), Nat.zero_testBit] at e2
      have hT : 64 * j + k ∉ T := by simpa [hk] using e2.symm
      rw [ha.words]
      simp [hk, hT]
  · intro i hi
    exact ha.sub i (Finset.mem_sdiff.1 hi).1

theorem nonzero_iff {l : List Nat} (wf : ∀ w ∈ l, w < 2 ^ 64) (j : Nat) :
    l.getD j 0 ≠ 0 ↔ ∃ k < 64, bit l (64 * j + k) = true := by
  constructor
  · intro h
    obtain ⟨k, hk⟩ := Nat.exists_testBit_of_ne_zero h
    rw [bit_of_words wf] at hk
    split at hk
    · exact ⟨k, by assumption, hk⟩
    · cases hk
  · rintro ⟨k, hk, h⟩ h0
    have := bit_of_words wf j k
    rw [h0, if_pos hk, h, Nat.zero_testBit] at this
    cases this

theorem Rep.nonzero_iff (h : Rep b c S) : (∃ j, b.map.getD j 0 ≠ 0) ↔ S.Nonempty := by
  constructor
  · rintro ⟨j, hj⟩
    obtain ⟨k, -, hk⟩ := (BitMap.nonzero_iff h.wf j).1 hj
    exact ⟨_, (h.bit_iff _).1 hk⟩
  · rintro ⟨i, hi⟩
    refine ⟨i / 64, (BitMap.nonzero_iff h.wf _).2 ⟨i % 64, Nat.mod_lt _ (by norm_num), ?_⟩⟩
    rw [Nat.div_add_mod, h.bit_iff]; exact hi

/-- C19: intersection, also reporting whether the result is nonempty. -/
theorem C19_inter (nd : Bool) (ha : Rep a c S) (hb : Rep b d T) (hd : d ≤ c) :
    ∃ any r, andAssign nd a b = .ok (any, r) ∧ Rep r c (S ∩ T) ∧ (any = true ↔ (S ∩ T).Nonempty) := by
  have hlen : b.map.length ≤ a.map.length := by rw [ha.len, hb.len]; omega
  obtain ⟨any, r, e, h1, h2, h3⟩ := andLoop_spec hlen
  have hr : Rep ⟨a.cap, r⟩ c (S ∩ T) := by
    refine Rep.mk' ha.cap ha.room (by rw [← ha.len]; exact h1) ?_ ?_ ?_
    · intro j hj
      dsimp only
      rw [h3]
      exact Nat.and_lt_two_pow _ (getD_lt hb.wf j)
    · intro j hj k hk
      dsimp only
      rw [h3, Nat.testBit_and, ha.words, hb.words]
      simp [hk]
    · intro i hi
      exact ha.sub i (Finset.mem_inter.1 hi).1
  refine ⟨any, _, ?_, hr, h2.trans hr.nonzero_iff⟩
  unfold andAssign
  rw [Res.assertIn_bind nd (decide_eq_true (by rw [ha.cap, hb.cap]; exact hd)), e]; rfl

theorem containsLoop_spec : ∀ {ws vs : List Nat}, ws.length ≤ vs.length →
    containsLoop ws vs = .ok (decide (∀ i < ws.length, ws.getD i 0 &&& lnot (vs.getD i 0) = 0))
  | [], vs, _ => by simp [containsLoop]
  | _ :: _, [], h => by simp at h
  | w :: ws, v :: vs, h => by
    rw [containsLoop, containsLoop_spec (by simpa using h)]
    by_cases c : w &&& lnot v ≠ 0
    · rw [if_pos c, decide_eq_false]
      intro h; exact c (h 0 (by simp))
    · rw [if_neg c]
      congr 1
      apply decide_eq_decide.2
      push Not at c
      constructor
      · intro h i hi
        cases i with
        | zero => simpa using c
        | succ i => simpa using h i (by simpa using hi)
      · intro h i hi
        simpa using h (i + 1) (by simpa using hi)

/-- C19: inclusion. -/
theorem C19_contains (nd : Bool) (ha : Rep a c S) (hb : Rep b d T) (hd : d ≤ c) :
    contains nd a b = .ok (decide (T ⊆ S)) := by
  unfold contains
  rw [Res.assertIn_bind nd (decide_eq_true (by rw [ha.cap, hb.cap]; exact hd)),
    containsLoop_spec (by rw [ha.len, hb.len]; omega)]
  congr 1
  apply decide_eq_decide.2
  constructor
  · intro h i hi
    have hi' := hb.sub i hi
    have := congrArg (·.testBit (i % 64)) (h (i / 64) (hb.index hi'))
    rw [Nat.testBit_and, testBit_lnot (getD_lt ha.wf _), ha.words, hb.words, Nat.div_add_mod,
      Nat.zero_testBit] at this
    simpa [hi, Nat.mod_lt] using this
  · intro h j hj
    apply Nat.eq_of_testBit_eq
    intro k
    rw [Nat.testBit_and, testBit_lnot (getD_lt ha.wf _), ha.words, hb.words, Nat.zero_testBit]
    by_cases hk : k < 64
    · by_cases hm : 64 * j + k ∈ T
      · simp [h hm, hk]
      · simp [hm]
    · simp [hk]

theorem disjointLoop_spec : ∀ {vs ws : List Nat},
    (disjointLoop vs ws = true ↔ ∀ i, vs.getD i 0 &&& ws.getD i 0 = 0)
  | [], ws => by simp [disjointLoop]
  | _ :: _, [] => by simp [disjointLoop]
  | v :: vs, w :: ws => by
    rw [disjointLoop]
    by_cases c : v &&& w ≠ 0
    · rw [if_pos c]
      constructor
      · intro h; cases h
      · intro h; exact absurd (h 0) c
    · rw [if_neg c, disjointLoop_spec]
      push Not at c
      constructor
      · intro h i
        cases i with
        | zero => simpa using c
        | succ i => simpa using h i
      · intro h i; simpa using h (i + 1)

/-- C19: disjointness, for any capacities. -/
theorem C19_disjoint (ha : Rep a c S) (hb : Rep b d T) : disjoint a b = true ↔ Disjoint S T := by
  unfold disjoint
  rw [disjointLoop_spec, Finset.disjoint_left]
  constructor
  · intro h i hi hi'
    have := congrArg (·.testBit (i % 64)) (h (i / 64))
    rw [Nat.testBit_and, ha.words, hb.words, Nat.div_add_mod, Nat.zero_testBit] at this
    simp [hi, hi', Nat.mod_lt] at this
  · intro h j
    apply Nat.eq_of_testBit_eq
    intro k
    rw [Nat.testBit_and, ha.words, hb.words, Nat.zero_testBit]
    by_cases hm : 64 * j + k ∈ S
    · simp [h hm]
    · simp [hm]

/-- C19: equality of bitmaps of the same capacity is equality of sets. -/
theorem C19_eq (ha : Rep a c S) (hb : Rep b c T) : beq a b = true ↔ S = T := by
  unfold beq
  rw [beq_iff_eq]
  constructor
  · intro h
    ext i
    rw [← ha.bit_iff, ← hb.bit_iff, h]
  · rintro rfl
    apply List.ext_getElem (by rw [ha.len, hb.len])
    intro j h1 h2
    rw [← List.getD_eq_getElem _ 0 h1, ← List.getD_eq_getElem _ 0 h2]
    apply Nat.eq_of_testBit_eq
    intro k
    rw [ha.words, hb.words]

/-- C19 does not extend to equality of bitmaps of different capacity: only the words are
compared (finding F15). -/
theorem C19_eq_capacity_false : beq (make 3) (make 5) = true ∧ (make 3).cap ≠ (make 5).cap := by decide

/-- C19: emptiness. -/
theorem C19_empty (h : Rep b c S) : empty b = true ↔ S = ∅ := by
  unfold empty
  rw [← Finset.not_nonempty_iff_eq_empty, ← h.nonzero_iff, List.all_eq_true]
  push Not
  constructor
  · intro h j
    by_cases hj : j < b.map.length
    · have := h _ (List.getElem_mem hj)
      rw [List.getD_eq_getElem _ _ hj]; simpa using this
    · rw [List.getD_eq_default _ _ (by omega)]
  · intro h w hw
    obtain ⟨j, hj, rfl⟩ := List.getElem_of_mem hw
    have := h j
    rw [List.getD_eq_getElem _ _ hj] at this; simpa using this

end Verif.BitMap
