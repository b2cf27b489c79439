import Verif.BigInt.BitLemmas3
/-
Helper lemmas for the bitwise operations: counting bits.
-/
namespace Verif.BigInt
open Verif.Bits (popCount bitCount firstBit C18_bitCount C18_firstBit C18_lastBit)

theorem popCount_succ (j x : Nat) : popCount (j + 1) x = popCount j x + if x.testBit j then 1 else 0 := by
  unfold popCount
  rw [List.range_succ, List.filter_append, List.length_append]
  congr 1
  by_cases h : x.testBit j <;> simp [h]

@[simp] theorem popCount_zero (x : Nat) : popCount 0 x = 0 := rfl

theorem popCount_high {x : Nat} (h : x < 𝐁) : ∀ j, popCount (32 + j) x = popCount 32 x
  | 0 => rfl
  | j + 1 => by
    rw [← Nat.add_assoc, popCount_succ, popCount_high h j, testBit_high h (by omega)]; simp

theorem bitCount_digit {x : Nat} (h : x < 𝐁) : bitCount x = popCount 32 x := by
  rw [C18_bitCount (by omega), popCount_high h 32]

theorem bit_at {d : Digits} (h : WF d) (i : Nat) {j : Nat} (hj : j < 32) :
    Bit (sval d) (32 * i + j) ↔ (digAt d i).testBit j = true := by
  rw [bit_iff h, show (32 * i + j) / 32 = i by omega, show (32 * i + j) % 32 = j by omega]

theorem bitsBelow_digit {d : Digits} (h : WF d) (i : Nat) : ∀ j, j ≤ 32 →
    bitsBelow (sval d) (32 * i + j) = bitsBelow (sval d) (32 * i) + popCount j (digAt d i)
  | 0, _ => by simp
  | j + 1, hj => by
    rw [← Nat.add_assoc, bitsBelow, bitsBelow_digit h i j (by omega), popCount_succ]
    have := bit_at h i (j := j) (by omega)
    by_cases c : (digAt d i).testBit j = true
    · rw [if_pos (this.2 c), if_pos c]; omega
    · rw [if_neg (fun x => c (this.1 x)), if_neg c]; omega

theorem popCount_pos {x p q : Nat} (h : p < q) (hb : x.testBit p = true) : popCount p x + 1 ≤ popCount q x := by
  induction q with
  | zero => omega
  | succ q ih =>
    rw [popCount_succ]
    rcases Nat.lt_succ_iff_lt_or_eq.1 h with h | h
    · have := ih h; omega
    · subst h; rw [if_pos hb]

theorem popCount_eq_zero {x q : Nat} (h : ∀ j < q, x.testBit j = false) : popCount q x = 0 := by
  induction q with
  | zero => rfl
  | succ q ih => rw [popCount_succ, ih (fun j hj => h j (by omega)), h q (by omega)]; simp

theorem exists_bit {x q : Nat} (h : 0 < popCount q x) : ∃ p < q, x.testBit p = true := by
  by_contra hc
  push Not at hc
  rw [popCount_eq_zero (fun j hj => by simpa using hc j hj)] at h
  omega

/-- clearing the lowest set bit -/
theorem clear_testBit {x q : Nat} (h : x < 𝐁) (hq : x.testBit q = true) (hm : ∀ j < q, x.testBit j = false)
    (k : Nat) : (x &&& ddec x).testBit k = (x.testBit k && decide (k ≠ q)) := by
  have h0 : x ≠ 0 := by rintro rfl; simp at hq
  have hdd : ddec x = x - 1 := by unfold ddec; omega
  -- x = 2^q * (2*y+1)
  have hmod : x % 2 ^ q = 0 := by
    apply Nat.eq_of_testBit_eq
    intro j
    rw [Nat.testBit_mod_two_pow, Nat.zero_testBit]
    by_cases hj : j < q
    · simp [hm j hj]
    · simp [hj]
  have hodd : x / 2 ^ q % 2 = 1 := by
    rw [Nat.testBit_eq_decide_div_mod_eq] at hq; simpa using hq
  have hx : x = 2 ^ q * (2 * (x / 2 ^ q / 2)) + 2 ^ q := by
    have h1 := Nat.mod_add_div x (2 ^ q)
    rw [hmod, zero_add] at h1
    conv_lhs => rw [← h1, show x / 2 ^ q = 2 * (x / 2 ^ q / 2) + 1 by omega]
    ring
  obtain ⟨y, hy⟩ : ∃ y, y = x / 2 ^ q / 2 := ⟨_, rfl⟩
  rw [← hy] at hx
  have hpos : 0 < 2 ^ q := by positivity
  have hx1 : ddec x = 2 ^ q * (2 * y) + (2 ^ q - 1) := by rw [hdd]; omega
  rw [Nat.testBit_and, hx1, Nat.testBit_two_pow_mul_add _ (by omega)]
  by_cases hk : k < q
  · rw [if_pos hk, hm k hk]; simp
  · rw [if_neg hk]
    have e : x.testBit k = (2 * y + 1).testBit (k - q) := by
      rw [hx, show 2 ^ q * (2 * y) + 2 ^ q = 2 ^ q * (2 * y + 1) by ring, Nat.testBit_two_pow_mul]
      simp [show q ≤ k by omega]
    rw [e]
    rcases hkq : k - q with _ | m
    · have : k = q := by omega
      simp [this]
    · have : k ≠ q := by omega
      rw [Nat.testBit_succ, Nat.testBit_succ]
      simp [this, show (2 * y + 1) / 2 = y by omega]

theorem clearLow_spec : ∀ (n x : Nat), x < 𝐁 → n < popCount 32 x →
    firstBit (clearLow n x) < 32 ∧ x.testBit (firstBit (clearLow n x)) = true ∧
      popCount (firstBit (clearLow n x)) x = n
  | 0, x, hx, hn => by
    obtain ⟨p, hp, hb⟩ := exists_bit hn
    have h0 : x ≠ 0 := by rintro rfl; simp at hb
    obtain ⟨h1, h2, h3⟩ := (C18_firstBit (f := x) (by omega)).1 h0
    refine ⟨?_, h2, popCount_eq_zero h3⟩
    show firstBit x < 32
    by_contra hc
    rw [h3 p (by omega)] at hb
    exact absurd hb (by simp)
  | n + 1, x, hx, hn => by
    obtain ⟨p, hp, hb⟩ := exists_bit (Nat.lt_of_le_of_lt (Nat.zero_le _) hn)
    have h0 : x ≠ 0 := by rintro rfl; simp at hb
    obtain ⟨h1, h2, h3⟩ := (C18_firstBit (f := x) (by omega)).1 h0
    obtain ⟨q, hq⟩ : ∃ q, q = firstBit x := ⟨_, rfl⟩
    rw [← hq] at h1 h2 h3
    have ht := clear_testBit hx h2 h3
    have hcount : ∀ j, popCount j (x &&& ddec x) + (if q < j then 1 else 0) = popCount j x := by
      intro j
      induction j with
      | zero => simp
      | succ j ih =>
        rw [popCount_succ, popCount_succ, ht j]
        by_cases c : j = q
        · subst c
          simp [h2] at ih ⊢; omega
        · have e : (x.testBit j && decide (j ≠ q)) = x.testBit j := by simp [c]
          rw [e]
          by_cases c2 : q < j
          · rw [if_pos c2] at ih
            rw [if_pos (show q < j + 1 by omega)]; omega
          · rw [if_neg c2] at ih
            rw [if_neg (show ¬ q < j + 1 by omega)]; omega
    have hq32 : q < 32 := by
      by_contra hc
      rw [h3 p (by omega)] at hb
      exact absurd hb (by simp)
    have ih := clearLow_spec n (x &&& ddec x) (and_lt_B _ hx) (by
      have := hcount 32; rw [if_pos hq32] at this; omega)
    show firstBit (clearLow n (x &&& ddec x)) < 32 ∧ _
    obtain ⟨i1, i2, i3⟩ := ih
    obtain ⟨r, hr⟩ : ∃ r, r = firstBit (clearLow n (x &&& ddec x)) := ⟨_, rfl⟩
    have hclear : clearLow (n + 1) x = clearLow n (x &&& ddec x) := rfl
    rw [hclear, ← hr]
    rw [← hr] at i1 i2 i3
    rw [ht r] at i2
    simp only [Bool.and_eq_true, decide_eq_true_eq] at i2
    have hqr : q < r := by
      by_contra hc
      have := h3 r (by omega)
      rw [this] at i2; exact absurd i2.1 (by simp)
    refine ⟨i1, i2.1, ?_⟩
    have := hcount r
    rw [if_pos hqr] at this; omega

theorem setBitLoop_spec {d : Digits} (h : WF d) (N : Nat) : ∀ (l : Digits) (i n : Nat),
    l = d.drop i → i ≤ d.length → n + bitsBelow (sval d) (32 * i) = N →
    (∃ p, setBitLoop l i n = .inl p ∧ Bit (sval d) p ∧ bitsBelow (sval d) p = N) ∨
    (∃ m, setBitLoop l i n = .inr m ∧ m + bitsBelow (sval d) (32 * d.length) = N)
  | [], i, n, hl, hi, hn => by
    have : i = d.length := by
      have := congrArg List.length hl
      simp at this; omega
    subst this
    exact Or.inr ⟨n, rfl, hn⟩
  | dig :: l, i, n, hl, hi, hn => by
    have hi' : i < d.length := by
      by_contra hc
      rw [List.drop_eq_nil_of_le (by omega)] at hl
      exact absurd hl (by simp)
    have hdd : d.drop i = d[i] :: d.drop (i + 1) := List.drop_eq_getElem_cons hi'
    rw [hdd] at hl
    have hdig : dig = digAt d i := by
      rw [digAt_of_lt hi', List.getD_eq_getElem?_getD, List.getElem?_eq_getElem hi']
      simpa using (List.cons.inj hl).1
    have hl' := (List.cons.inj hl).2
    have hlt : dig < 𝐁 := by rw [hdig]; exact digAt_lt h i
    unfold setBitLoop
    simp only [bitCount_digit hlt]
    by_cases c : n < popCount 32 dig
    · rw [if_pos c]
      left
      obtain ⟨h1, h2, h3⟩ := clearLow_spec n dig hlt c
      refine ⟨_, rfl, ?_, ?_⟩
      · rw [bit_at h i h1, ← hdig]; exact h2
      · rw [bitsBelow_digit h i _ (by omega), ← hdig, h3]; omega
    · rw [if_neg c]
      refine setBitLoop_spec h N l (i + 1) _ hl' (by omega) ?_
      rw [show 32 * (i + 1) = 32 * i + 32 by ring, bitsBelow_digit h i 32 le_rfl, ← hdig]
      omega

theorem bitsBelow_mono (n : Int) {p q : Nat} (h : p ≤ q) : bitsBelow n p ≤ bitsBelow n q := by
  induction q with
  | zero => simp_all
  | succ q ih =>
    rcases Nat.le_succ_iff.1 h with h | h
    · exact (ih h).trans (by rw [bitsBelow]; omega)
    · rw [h]

theorem bit_high {d : Digits} (h : WF d) {p : Nat} (hp : 32 * d.length ≤ p) :
    Bit (sval d) p ↔ isNegative d = true := by
  rw [bit_iff h]
  rcases hn : isNegative d with _ | _
  · rw [digAt_pos' hn (by omega)]; simp
  · rw [digAt_neg' hn (by omega), show (𝐁 - 1 : Nat) = 2 ^ 32 - 1 by norm_num, Nat.testBit_two_pow_sub_one]
    simp; omega

theorem bitsBelow_high {d : Digits} (h : WF d) : ∀ j, bitsBelow (sval d) (32 * d.length + j) =
    bitsBelow (sval d) (32 * d.length) + if isNegative d then j else 0
  | 0 => by simp
  | j + 1 => by
    rw [← Nat.add_assoc, bitsBelow, bitsBelow_high h j]
    have := bit_high h (p := 32 * d.length + j) (by omega)
    by_cases c : isNegative d = true
    · rw [if_pos (this.2 c), if_pos c, if_pos c]; omega
    · rw [if_neg (fun x => c (this.1 x)), if_neg c, if_neg c]

theorem indexOfSetBit_spec {d : Digits} (h : WF d) (n : Nat) :
    (∃ p : Nat, indexOfSetBit d n = p ∧ Bit (sval d) p ∧ bitsBelow (sval d) p = n) ∨
    (indexOfSetBit d n = -1 ∧ ∀ p, bitsBelow (sval d) p ≤ n) := by
  unfold indexOfSetBit
  rcases setBitLoop_spec h n d 0 n (by simp) (by omega) (by simp [bitsBelow]) with
    ⟨p, e, h1, h2⟩ | ⟨m, e, h1⟩
  · rw [e]; exact Or.inl ⟨p, rfl, h1, h2⟩
  · rw [e]
    rcases hn : isNegative d with _ | _
    · right
      refine ⟨by simp, fun p => ?_⟩
      by_cases hp : p ≤ 32 * d.length
      · have := bitsBelow_mono (sval d) hp; omega
      · have := bitsBelow_high h (p - 32 * d.length)
        rw [show 32 * d.length + (p - 32 * d.length) = p by omega, hn] at this
        simp at this; omega
    · left
      refine ⟨32 * d.length + m, by simp, ?_, ?_⟩
      · rw [bit_high h (by omega)]; exact hn
      · rw [bitsBelow_high h, hn]; simp; omega

/-! ### bit length -/

theorem uval_top : ∀ {d : Digits} {n : Nat}, WF d → d.length = n + 1 →
    ∃ u, u < 𝐁 ^ n ∧ uval d = u + 𝐁 ^ n * back d
  | [], n, h, _ => absurd rfl h.1
  | [x], n, h, hl => by
    have : n = 0 := by simpa using hl.symm
    subst this
    exact ⟨0, by simp, by simp [uval]⟩
  | x :: y :: l, n, h, hl => by
    obtain ⟨m, rfl⟩ : ∃ m, n = m + 1 := ⟨n - 1, by simp at hl; omega⟩
    have w := (wf_cons (List.cons_ne_nil _ _)).1 h
    obtain ⟨u, h1, h2⟩ := uval_top (n := m) w.2 (by simpa using hl)
    refine ⟨x + 𝐁 * u, ?_, ?_⟩
    · rw [pow_succ]; have := w.1; generalize 𝐁 ^ m = P at *; omega
    · rw [uval, h2, back_cons, pow_succ]; ring

theorem bitLength_pos {d : Digits} (h : WF d) (hs : isNegative d = false) (hN : Norm d) (k : Nat) :
    32 * (d.length - 1) + Bits.lastBit (back d) ≤ k ↔ sval d < 2 ^ k := by
  have h0 : d.length ≠ 0 := by simpa using h.1
  obtain ⟨n, hn⟩ : ∃ n, d.length = n + 1 := ⟨d.length - 1, by omega⟩
  have hbB := back_lt h
  have hb : back d < 𝐇 := by unfold isNegative at hs; simpa using hs
  obtain ⟨u, hu, huv⟩ := uval_top h hn
  have hv : sval d = (uval d : Int) := by
    rw [← value_eq_sval]; unfold value
    rw [show d.getLastD 0 = back d from rfl, if_neg (by omega)]; simp
  rw [hv, huv, hn, Nat.add_sub_cancel]
  have key : 32 * n + Bits.lastBit (back d) ≤ k ↔ u + 𝐁 ^ n * back d < 2 ^ k := by
    have eB : (𝐁 : Nat) ^ n = 2 ^ (32 * n) := by rw [pow_mul]; norm_num
    have hPpos : 0 < 𝐁 ^ n := by positivity
    by_cases hk : 32 * n ≤ k
    · have hl := C18_lastBit (f := back d) (by omega) (k - 32 * n)
      have e2 : 2 ^ k = 𝐁 ^ n * 2 ^ (k - 32 * n) := by
        rw [eB, ← pow_add]; congr 1; omega
      rw [e2]
      have : 32 * n + Bits.lastBit (back d) ≤ k ↔ Bits.lastBit (back d) ≤ k - 32 * n := by omega
      rw [this, hl]
      generalize 2 ^ (k - 32 * n) = T
      generalize back d = b
      generalize 𝐁 ^ n = P at *
      constructor
      · intro hbt
        have : P * (b + 1) ≤ P * T := Nat.mul_le_mul_left _ hbt
        rw [Nat.mul_add, Nat.mul_one] at this; omega
      · intro hlt
        by_contra hc
        have : P * T ≤ P * b := Nat.mul_le_mul_left _ (by omega)
        omega
    · -- too few bits: impossible on both sides
      constructor
      · intro hc; omega
      · intro hc
        exfalso
        obtain ⟨m, rfl⟩ : ∃ m, n = m + 1 := ⟨n - 1, by omega⟩
        have hnv := (norm_iff_value m h (by omega)).1 hN
        rw [hv] at hnv
        have h1 : (𝐇 * 𝐁 ^ m : Int) ≤ uval d := by
          rcases hnv with hnv | hnv
          · exfalso
            have : (0 : Int) < 𝐇 * 𝐁 ^ m := by positivity
            omega
          · exact hnv
        have h2 : 𝐇 * 𝐁 ^ m ≤ uval d := by exact_mod_cast h1
        have h3 : 2 ^ k ≤ 𝐇 * 𝐁 ^ m := by
          have : (𝐇 : Nat) * 𝐁 ^ m = 2 ^ (31 + 32 * m) := by rw [pow_add, pow_mul]; norm_num
          rw [this]
          exact Nat.pow_le_pow_right (by norm_num) (by omega)
        omega
  rw [key]
  exact_mod_cast Iff.rfl

end Verif.BigInt
