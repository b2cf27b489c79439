import Verif.BitSet.Model
import Verif.BitMap.Props2
/-
Representation of finite sets by `BitSet` values, and lemmas on chunks.
-/
namespace Verif.BitSet
open Verif.Bits Verif.BitMap

/-- the word `w` of `n` bits has bit `i` set exactly for `i ∈ S` -/
structure Word (n w : Nat) (S : Finset Nat) : Prop where
  lt : w < 2 ^ n
  bits : ∀ i, w.testBit i = decide (i ∈ S)

/-- bit number `i` of a two-chunk set -/
def B2.bit (b : B2) (i : Nat) : Bool := if i < 32 then b.lo.testBit i else b.hi.testBit (i - 32)

/-- the one-chunk `BitSet` `b` stands for the set `S` (of naturals below 32) -/
def Rep1 (b : B1) (S : Finset Nat) : Prop := Word 32 b.bits S

/-- the two-chunk `BitSet` `b` stands for the set `S` (of naturals below 64) -/
structure Rep2 (b : B2) (S : Finset Nat) : Prop where
  lo : b.lo < 2 ^ 32
  hi : b.hi < 2 ^ 32
  bits : ∀ i, b.bit i = decide (i ∈ S)

theorem testBit_u32 (x k : Nat) : (u32 x).testBit k = (decide (k < 32) && x.testBit k) := by
  unfold u32
  rw [show 4294967296 = 2 ^ 32 by norm_num, Nat.testBit_mod_two_pow]

theorem u32_lt (x : Nat) : u32 x < 2 ^ 32 := by unfold u32; omega

theorem testBit_not32 {x : Nat} (h : x < 2 ^ 32) (k : Nat) :
    (not32 x).testBit k = (decide (k < 32) && !x.testBit k) := by
  unfold not32
  rw [show 4294967295 - x = 2 ^ 32 - (x + 1) by omega, Nat.testBit_two_pow_sub_succ h]

theorem not32_lt (x : Nat) : not32 x < 2 ^ 32 := by unfold not32; omega

theorem eqM_ok {j : Nat} (h : j < 64) : eqM j = .ok (eqMask j) := if_pos h
theorem ltM_ok {j : Nat} (h : j ≤ 64) : ltM j = .ok (ltMask j) := if_pos (by omega)

theorem and31 (j : Nat) : j &&& 31 = j % 32 := Nat.and_two_pow_sub_one_eq_mod j 5

theorem high_false {n w k : Nat} (h : w < 2 ^ n) (hk : n ≤ k) : w.testBit k = false :=
  Nat.testBit_lt_two_pow (lt_of_lt_of_le h (Nat.pow_le_pow_right (by norm_num) hk))

theorem Word.sub {n w : Nat} {S : Finset Nat} (h : Word n w S) {i : Nat} (hi : i ∈ S) : i < n := by
  by_contra hc
  have := h.bits i
  rw [high_false h.lt (by omega)] at this
  simp [hi] at this

theorem Word.of_testBit {n w : Nat} {S : Finset Nat} (h : ∀ i, w.testBit i = decide (i ∈ S))
    (hS : ∀ i ∈ S, i < n) : Word n w S := by
  refine ⟨Nat.lt_pow_two_of_testBit w fun i hi => ?_, h⟩
  rw [h, decide_eq_false]; intro hm; have := hS i hm; omega

theorem Word.mono {n m w : Nat} {S : Finset Nat} (h : Word n w S) (hm : n ≤ m) : Word m w S :=
  ⟨lt_of_lt_of_le h.lt (Nat.pow_le_pow_right (by norm_num) hm), h.bits⟩

theorem Word.eq {n m w w' : Nat} {S : Finset Nat} (h : Word n w S) (h' : Word m w' S) : w = w' :=
  Nat.eq_of_testBit_eq fun i => by rw [h.bits, h'.bits]

theorem Word.zero {n : Nat} : Word n 0 ∅ := ⟨by positivity, by simp⟩

theorem Word.ne_zero {n w : Nat} {S : Finset Nat} (h : Word n w S) : w ≠ 0 ↔ S.Nonempty := by
  constructor
  · intro hw
    obtain ⟨i, hi⟩ := Nat.exists_testBit_of_ne_zero hw
    rw [h.bits] at hi
    exact ⟨i, by simpa using hi⟩
  · rintro ⟨i, hi⟩ rfl
    have := h.bits i
    simp [hi] at this

theorem Word.first {n w : Nat} {S : Finset Nat} (h : Word n w S) (hn : n ≤ 64) (hS : S.Nonempty) :
    firstBit w ∈ S ∧ ∀ i ∈ S, firstBit w ≤ i := by
  obtain ⟨h1, h2, h3⟩ := (C18_firstBit (h.mono hn).lt).1 (h.ne_zero.2 hS)
  rw [h.bits] at h2
  refine ⟨by simpa using h2, fun i hi => ?_⟩
  by_contra hc
  have := h3 i (by omega)
  rw [h.bits] at this
  simp [hi] at this

theorem Word.next {n w : Nat} {S : Finset Nat} (h : Word n w S) (hn : n ≤ 64) (hS : S.Nonempty) :
    Word n (iterNext w) (S.erase (firstBit w)) := by
  have hw := h.ne_zero.2 hS
  have h64 := (h.mono hn).lt
  obtain ⟨h1, h2, h3⟩ := (C18_firstBit h64).1 hw
  apply Word.of_testBit
  · intro i
    have := clear_lowest h64 h2 h3 i
    rw [show (w + 18446744073709551616 - 1) % 18446744073709551616 = w - 1 by omega] at this
    unfold iterNext
    rw [this, h.bits, Bool.eq_iff_iff]
    simp only [Bool.and_eq_true, decide_eq_true_eq, Finset.mem_erase]
    tauto
  · intro i hi; exact h.sub (Finset.mem_of_mem_erase hi)

theorem Word.card {n w : Nat} {S : Finset Nat} (h : Word n w S) (hn : n ≤ 64) : bitCount w = S.card := by
  rw [C18_bitCount (h.mono hn).lt, popCount_eq, Nat.count_eq_card_filter_range]
  congr 1
  ext i
  simp only [Finset.mem_filter, Finset.mem_range, h.bits, decide_eq_true_eq]
  exact ⟨fun h => h.2, fun hi => ⟨(h.mono hn).sub hi, hi⟩⟩

theorem Word.and {n m w w' : Nat} {S S' : Finset Nat} (h : Word n w S) (h' : Word m w' S') :
    Word n (w &&& w') (S ∩ S') := by
  apply Word.of_testBit
  · intro i
    rw [Nat.testBit_and, h.bits, h'.bits, Bool.eq_iff_iff]
    simp
  · intro i hi; exact h.sub (Finset.mem_inter.1 hi).1

theorem Word.or {n w w' : Nat} {S S' : Finset Nat} (h : Word n w S) (h' : Word n w' S') :
    Word n (w ||| w') (S ∪ S') := by
  apply Word.of_testBit
  · intro i
    rw [Nat.testBit_or, h.bits, h'.bits, Bool.eq_iff_iff]
    simp
  · intro i hi; rcases Finset.mem_union.1 hi with hi | hi
    · exact h.sub hi
    · exact h'.sub hi

theorem Word.xor {n w w' : Nat} {S S' : Finset Nat} (h : Word n w S) (h' : Word n w' S') :
    Word n (w ^^^ w') (symmDiff S S') := by
  apply Word.of_testBit
  · intro i
    rw [Nat.testBit_xor, h.bits, h'.bits, Bool.eq_iff_iff]
    by_cases h1 : i ∈ S <;> by_cases h2 : i ∈ S' <;> simp [Finset.mem_symmDiff, h1, h2]
  · intro i hi
    rcases Finset.mem_symmDiff.1 hi with ⟨hi, -⟩ | ⟨hi, -⟩
    · exact h.sub hi
    · exact h'.sub hi

theorem Word.andnot {w w' : Nat} {S S' : Finset Nat} (h : Word 32 w S) (h' : Word 32 w' S') :
    Word 32 (w &&& not32 w') (S \ S') := by
  apply Word.of_testBit
  · intro i
    rw [Nat.testBit_and, testBit_not32 h'.lt, h.bits, h'.bits, Bool.eq_iff_iff]
    simp only [Bool.and_eq_true, decide_eq_true_eq, Bool.not_eq_true', decide_eq_false_iff_not, Finset.mem_sdiff]
    exact ⟨fun h => ⟨h.1, h.2.2⟩, fun hh => ⟨hh.1, h.sub hh.1, hh.2⟩⟩
  · intro i hi; exact h.sub (Finset.mem_sdiff.1 hi).1

theorem Word.ltMask {k : Nat} : Word k (ltMask k) (Finset.range k) :=
  Word.of_testBit (fun i => by rw [testBit_ltMask]; simp) (by simp)

theorem Word.eqMask {k : Nat} : Word (k + 1) (eqMask k) {k} :=
  Word.of_testBit (fun i => by rw [testBit_eqMask]; simp) (by simp)

theorem Word.u32 {n w : Nat} {S : Finset Nat} (h : Word n w S) :
    Word 32 (u32 w) (S.filter (· < 32)) := by
  apply Word.of_testBit
  · intro i
    rw [testBit_u32, h.bits, Bool.eq_iff_iff]
    simp only [Bool.and_eq_true, decide_eq_true_eq, Finset.mem_filter]; tauto
  · intro i hi; exact (Finset.mem_filter.1 hi).2

theorem Word.last {n w : Nat} {S : Finset Nat} (h : Word n w S) (hn : n ≤ 64) (k : Nat) :
    lastBit w ≤ k ↔ ∀ i ∈ S, i < k := by
  rw [C18_lastBit (h.mono hn).lt]
  constructor
  · intro hk i hi
    by_contra hc
    have := h.bits i
    rw [high_false hk (by omega)] at this
    simp [hi] at this
  · intro hk
    exact (Word.of_testBit h.bits hk).lt

/-- rank of `i` in `C`: how many members of `C` are below `i` -/
def rank (C : Finset Nat) (i : Nat) : Nat := (C.filter (· < i)).card

theorem rank_mono {C : Finset Nat} {i j : Nat} (h : i ≤ j) : rank C i ≤ rank C j := by
  apply Finset.card_le_card
  intro x hx
  simp only [Finset.mem_filter] at hx ⊢
  exact ⟨hx.1, by omega⟩

theorem rank_lt {C : Finset Nat} {i j : Nat} (hi : i ∈ C) (h : i < j) : rank C i < rank C j := by
  apply Finset.card_lt_card
  refine ⟨fun x hx => ?_, fun hs => ?_⟩
  · simp only [Finset.mem_filter] at hx ⊢
    exact ⟨hx.1, by omega⟩
  · have := hs (Finset.mem_filter.2 ⟨hi, h⟩)
    simp at this

theorem rank_inj {C : Finset Nat} {i j : Nat} (hi : i ∈ C) (hj : j ∈ C) (h : rank C i = rank C j) : i = j := by
  rcases lt_trichotomy i j with c | c | c
  · have := rank_lt hi c; omega
  · exact c
  · have := rank_lt hj c; omega

theorem rank_lt_card {C : Finset Nat} {i : Nat} (hi : i ∈ C) : rank C i < C.card := by
  apply Finset.card_lt_card
  refine ⟨Finset.filter_subset _ _, fun hs => ?_⟩
  have := hs hi
  simp at this

theorem exists_rank {C : Finset Nat} {k : Nat} (h : k < C.card) : ∃ i ∈ C, rank C i = k := by
  have himg : C.image (rank C) = Finset.range C.card := by
    apply Finset.eq_of_subset_of_card_le
    · intro x hx
      obtain ⟨i, hi, rfl⟩ := Finset.mem_image.1 hx
      exact Finset.mem_range.2 (rank_lt_card hi)
    · rw [Finset.card_range, Finset.card_image_of_injOn]
      intro i hi j hj; exact rank_inj hi hj
  have : k ∈ C.image (rank C) := by rw [himg]; simpa using h
  simpa using this

/-- facts about one step of an iteration over `C`, `D` being what remains -/
theorem iter_step {C D : Finset Nat} (hDC : D ⊆ C) (hlt : ∀ x ∈ C, x ∉ D → ∀ y ∈ D, x < y) {m : Nat}
    (hm : m ∈ D) (hmin : ∀ i ∈ D, m ≤ i) :
    rank C m = (C \ D).card ∧ D.erase m ⊆ C ∧ (∀ x ∈ C, x ∉ D.erase m → ∀ y ∈ D.erase m, x < y) ∧
    C \ D.erase m = insert m (C \ D) ∧ (C \ D.erase m).card = (C \ D).card + 1 := by
  have e : C \ D.erase m = insert m (C \ D) := by
    ext x
    simp only [Finset.mem_sdiff, Finset.mem_erase, Finset.mem_insert, not_and, ne_eq]
    constructor
    · rintro ⟨h1, h2⟩
      by_cases c : x = m
      · exact .inl c
      · exact .inr ⟨h1, h2 c⟩
    · rintro (rfl | ⟨h1, h2⟩)
      · exact ⟨hDC hm, fun h => absurd rfl h⟩
      · exact ⟨h1, fun _ => h2⟩
  refine ⟨?_, fun x hx => hDC (Finset.mem_of_mem_erase hx), ?_, e, ?_⟩
  · unfold rank
    congr 1
    ext x
    simp only [Finset.mem_filter, Finset.mem_sdiff]
    constructor
    · rintro ⟨h1, h2⟩
      exact ⟨h1, fun h => by have := hmin x h; omega⟩
    · rintro ⟨h1, h2⟩; exact ⟨h1, hlt x h1 h2 m hm⟩
  · intro x hx hxD y hy
    obtain ⟨hy1, hy2⟩ := Finset.mem_erase.1 hy
    by_cases c : x = m
    · subst c; have := hmin y hy2; omega
    · exact hlt x hx (fun h => hxD (Finset.mem_erase.2 ⟨c, h⟩)) y hy2
  · rw [e, Finset.card_insert_of_notMem]
    simp [hm]

section loops
variable {α : Type} {test : α → Nat → Res Bool} {set : α → Nat → Res α} {R : α → Finset Nat → Prop} {N : Nat}
  (ht : ∀ v S, R v S → ∀ j < N, test v j = .ok (decide (j ∈ S)))
  (hs : ∀ v S, R v S → ∀ j < N, ∃ v', set v j = .ok v' ∧ R v' (insert j S))
include ht hs

theorem sliceLoop_spec {val : α} {S C : Finset Nat} (hv : R val S) (hC : ∀ i ∈ C, i < N) (hN : N ≤ 64) :
    ∀ (k it : Nat) (D : Finset Nat) (acc : α), Word N it D → D.card < k → D ⊆ C →
    (∀ x ∈ C, x ∉ D → ∀ y ∈ D, x < y) → R acc ((S ∩ (C \ D)).image (rank C)) →
    ∃ r, sliceLoop test set val k it (C \ D).card acc = .ok r ∧ R r ((S ∩ C).image (rank C))
  | 0, it, D, acc, _, hk, _, _, _ => absurd hk (by omega)
  | k + 1, it, D, acc, hw, hk, hDC, hlt, ha => by
    rw [sliceLoop]
    by_cases h0 : it = 0
    · rw [if_pos h0]
      have : D = ∅ := by
        rw [← Finset.not_nonempty_iff_eq_empty, ← hw.ne_zero]; simpa using h0
      subst this
      exact ⟨acc, rfl, by simpa using ha⟩
    · rw [if_neg h0]
      have hD := hw.ne_zero.1 h0
      obtain ⟨f1, f2⟩ := hw.first hN hD
      have hmN := hC _ (hDC f1)
      obtain ⟨g1, g2, g3, g4, g5⟩ := iter_step hDC hlt f1 f2
      have hcN : (C \ D).card < N := by
        rw [← g1]
        refine lt_of_lt_of_le (rank_lt_card (hDC f1)) ?_
        have : C ⊆ Finset.range N := fun i hi => Finset.mem_range.2 (hC i hi)
        simpa using Finset.card_le_card this
      have hk' : (D.erase (firstBit it)).card < k := by
        rw [Finset.card_erase_of_mem f1]; have := Finset.card_pos.2 hD; omega
      rw [ht _ _ hv _ hmN, Res.ok_bind, ← g5]
      by_cases hm : firstBit it ∈ S
      · obtain ⟨v', e, hv'⟩ := hs _ _ ha _ hcN
        rw [decide_eq_true hm, if_pos rfl, e, Res.ok_bind]
        refine sliceLoop_spec hv hC hN k _ _ v' (hw.next hN hD) hk' g2 g3 ?_
        convert hv' using 1
        rw [g4, Finset.inter_insert_of_mem hm, Finset.image_insert, g1]
      · rw [decide_eq_false hm, if_neg (by simp), Res.pure_eq, Res.ok_bind]
        refine sliceLoop_spec hv hC hN k _ _ acc (hw.next hN hD) hk' g2 g3 ?_
        rw [g4, Finset.inter_insert_of_notMem hm]; exact ha

theorem unsliceLoop_spec {val : α} {S C : Finset Nat} (hv : R val S) (hC : ∀ i ∈ C, i < N) (hN : N ≤ 64) :
    ∀ (k it : Nat) (D : Finset Nat) (acc : α), Word N it D → D.card < k → D ⊆ C →
    (∀ x ∈ C, x ∉ D → ∀ y ∈ D, x < y) → R acc ((C \ D).filter (rank C · ∈ S)) →
    ∃ r, unsliceLoop test set val k it (C \ D).card acc = .ok r ∧ R r (C.filter (rank C · ∈ S))
  | 0, it, D, acc, _, hk, _, _, _ => absurd hk (by omega)
  | k + 1, it, D, acc, hw, hk, hDC, hlt, ha => by
    rw [unsliceLoop]
    by_cases h0 : it = 0
    · rw [if_pos h0]
      have : D = ∅ := by
        rw [← Finset.not_nonempty_iff_eq_empty, ← hw.ne_zero]; simpa using h0
      subst this
      exact ⟨acc, rfl, by simpa using ha⟩
    · rw [if_neg h0]
      have hD := hw.ne_zero.1 h0
      obtain ⟨f1, f2⟩ := hw.first hN hD
      have hmN := hC _ (hDC f1)
      obtain ⟨g1, g2, g3, g4, g5⟩ := iter_step hDC hlt f1 f2
      have hcN : (C \ D).card < N := by
        rw [← g1]
        refine lt_of_lt_of_le (rank_lt_card (hDC f1)) ?_
        have : C ⊆ Finset.range N := fun i hi => Finset.mem_range.2 (hC i hi)
        simpa using Finset.card_le_card this
      have hk' : (D.erase (firstBit it)).card < k := by
        rw [Finset.card_erase_of_mem f1]; have := Finset.card_pos.2 hD; omega
      rw [ht _ _ hv _ hcN, Res.ok_bind, ← g5]
      by_cases hm : (C \ D).card ∈ S
      · obtain ⟨v', e, hv'⟩ := hs _ _ ha _ hmN
        rw [decide_eq_true hm, if_pos rfl, e, Res.ok_bind]
        refine unsliceLoop_spec hv hC hN k _ _ v' (hw.next hN hD) hk' g2 g3 ?_
        convert hv' using 1
        rw [g4, Finset.filter_insert, if_pos (by rw [g1]; exact hm)]
      · rw [decide_eq_false hm, if_neg (by simp), Res.pure_eq, Res.ok_bind]
        refine unsliceLoop_spec hv hC hN k _ _ acc (hw.next hN hD) hk' g2 g3 ?_
        rw [g4, Finset.filter_insert, if_neg (by rw [g1]; exact hm)]; exact ha

end loops

theorem iterAll_spec {n : Nat} (hn : n ≤ 64) : ∀ (k d : Nat) (D : Finset Nat), Word n d D → D.card < k →
    ∃ l, iterAll k d = .ok l ∧ l.Pairwise (· < ·) ∧ ∀ i, i ∈ l ↔ i ∈ D
  | 0, d, D, _, hk => absurd hk (by omega)
  | k + 1, d, D, hw, hk => by
    rw [iterAll]
    by_cases h0 : d = 0
    · rw [if_pos h0]
      have : D = ∅ := by
        rw [← Finset.not_nonempty_iff_eq_empty, ← hw.ne_zero]; simpa using h0
      subst this
      exact ⟨[], rfl, by simp, by simp⟩
    · rw [if_neg h0]
      have hD := hw.ne_zero.1 h0
      obtain ⟨f1, f2⟩ := hw.first hn hD
      obtain ⟨l, e, l1, l2⟩ := iterAll_spec hn k _ _ (hw.next hn hD)
        (by rw [Finset.card_erase_of_mem f1]; have := Finset.card_pos.2 hD; omega)
      refine ⟨firstBit d :: l, by rw [e]; rfl, ?_, ?_⟩
      · refine List.pairwise_cons.2 ⟨fun i hi => ?_, l1⟩
        obtain ⟨h1, h2⟩ := Finset.mem_erase.1 ((l2 i).1 hi)
        have := f2 i h2; omega
      · intro i
        rw [List.mem_cons, l2, Finset.mem_erase]
        by_cases c : i = firstBit d
        · subst c; simp [f1]
        · simp [c]

theorem nthLoop_spec {n : Nat} (hn : n ≤ 64) {C : Finset Nat} : ∀ (k d : Nat) (D : Finset Nat), Word n d D →
    k < D.card → D ⊆ C → (∀ x ∈ C, x ∉ D → ∀ y ∈ D, x < y) →
    nthLoop k d ∈ C ∧ rank C (nthLoop k d) = (C \ D).card + k
  | 0, d, D, hw, hk, hDC, hlt => by
    obtain ⟨f1, f2⟩ := hw.first hn (Finset.card_pos.1 hk)
    obtain ⟨g1, -⟩ := iter_step hDC hlt f1 f2
    exact ⟨hDC f1, g1⟩
  | k + 1, d, D, hw, hk, hDC, hlt => by
    have hD : D.Nonempty := Finset.card_pos.1 (by omega)
    obtain ⟨f1, f2⟩ := hw.first hn hD
    obtain ⟨g1, g2, g3, g4, g5⟩ := iter_step hDC hlt f1 f2
    obtain ⟨h1, h2⟩ := nthLoop_spec hn k _ _ (hw.next hn hD)
      (by rw [Finset.card_erase_of_mem f1]; omega) g2 g3
    refine ⟨h1, ?_⟩
    rw [nthLoop, h2, g5]; omega

/-! ### the two chunks as one word -/

theorem B2.testBit_toWide {b : B2} (h : b.lo < 2 ^ 32) (i : Nat) : b.toWide.testBit i = b.bit i := by
  unfold B2.toWide B2.bit
  rw [Nat.testBit_xor, Nat.testBit_shiftLeft]
  by_cases c : i < 32
  · rw [if_pos c]; simp [show ¬ 32 ≤ i by omega]
  · rw [if_neg c, high_false h (by omega)]; simp [show 32 ≤ i by omega]

theorem Rep2.sub {b : B2} {S : Finset Nat} (h : Rep2 b S) {i : Nat} (hi : i ∈ S) : i < 64 := by
  by_contra hc
  have := h.bits i
  unfold B2.bit at this
  rw [if_neg (by omega), high_false h.hi (by omega)] at this
  simp [hi] at this

theorem Rep2.wide {b : B2} {S : Finset Nat} (h : Rep2 b S) : Word 64 b.toWide S :=
  Word.of_testBit (fun i => by rw [B2.testBit_toWide h.lo, h.bits]) (fun _ => h.sub)

/-- members in the low and the high chunk -/
def low (S : Finset Nat) : Finset Nat := S.filter (· < 32)
def high (S : Finset Nat) : Finset Nat := (Finset.range 32).filter (· + 32 ∈ S)

theorem Rep2.wlo {b : B2} {S : Finset Nat} (h : Rep2 b S) : Word 32 b.lo (low S) := by
  refine ⟨h.lo, fun i => ?_⟩
  by_cases c : i < 32
  · have := h.bits i
    unfold B2.bit at this
    rw [if_pos c] at this
    rw [this]; simp [low, c]
  · rw [high_false h.lo (by omega)]; simp [low, c]

theorem Rep2.whi {b : B2} {S : Finset Nat} (h : Rep2 b S) : Word 32 b.hi (high S) := by
  refine ⟨h.hi, fun i => ?_⟩
  by_cases c : i < 32
  · have := h.bits (i + 32)
    unfold B2.bit at this
    rw [if_neg (by omega), show i + 32 - 32 = i by omega] at this
    rw [this]; simp [high, c]
  · rw [high_false h.hi (by omega)]; simp [high, c]

theorem Rep2.of_words {lo hi : Nat} {S A B : Finset Nat} (h1 : Word 32 lo A) (h2 : Word 32 hi B)
    (hA : ∀ i < 32, i ∈ A ↔ i ∈ S) (hB : ∀ i < 32, i ∈ B ↔ i + 32 ∈ S) (hS : ∀ i ∈ S, i < 64) : Rep2 ⟨lo, hi⟩ S := by
  refine ⟨h1.lt, h2.lt, fun i => ?_⟩
  unfold B2.bit
  dsimp only
  by_cases c : i < 32
  · rw [if_pos c, h1.bits]; exact decide_eq_decide.2 (hA i c)
  · rw [if_neg c, h2.bits]
    apply decide_eq_decide.2
    by_cases c' : i < 64
    · rw [hB _ (by omega), show i - 32 + 32 = i by omega]
    · constructor
      · intro h; have := h2.sub h; omega
      · intro h; have := hS _ h; omega

theorem mem_low {S : Finset Nat} {i : Nat} : i ∈ low S ↔ i ∈ S ∧ i < 32 := by simp [low]
theorem mem_high {S : Finset Nat} {i : Nat} : i ∈ high S ↔ i + 32 ∈ S ∧ i < 32 := by simp [high, and_comm]

theorem card_low_high {S : Finset Nat} (h : ∀ i ∈ S, i < 64) : (low S).card + (high S).card = S.card := by
  have e : S = low S ∪ (high S).image (· + 32) := by
    ext i
    simp only [Finset.mem_union, mem_low, Finset.mem_image, mem_high]
    constructor
    · intro hi
      by_cases c : i < 32
      · exact .inl ⟨hi, c⟩
      · have := h i hi
        refine .inr ⟨i - 32, ⟨?_, by omega⟩, by omega⟩
        rw [show i - 32 + 32 = i by omega]; exact hi
    · rintro (h | ⟨j, ⟨h1, -⟩, rfl⟩)
      · exact h.1
      · exact h1
  conv_rhs => rw [e]
  rw [Finset.card_union_of_disjoint, Finset.card_image_of_injective _ (fun a b h => by simpa using h)]
  rw [Finset.disjoint_left]
  intro i h1 h2
  obtain ⟨j, -, rfl⟩ := Finset.mem_image.1 h2
  have := (mem_low.1 h1).2
  omega

end Verif.BitSet
