import Verif.BigInt.BitModel
import Verif.BigInt.BitSpec
import Verif.BigInt.MulLemmas
import Verif.Bits.Props
/-
Helper lemmas for the bitwise operations: digits of the infinite two's
complement expansion.
-/
namespace Verif.BigInt

/-- digit `i` of the infinite expansion -/
def ext (d : Digits) : Nat := if isNegative d then 𝐁 - 1 else 0
def digAt (d : Digits) (i : Nat) : Nat := d.getD i (ext d)

theorem ext_cons {x y : Nat} {l : Digits} : ext (x :: y :: l) = ext (y :: l) := by
  unfold ext isNegative; rw [back_cons]

theorem digAt_spec : ∀ {d : Digits} (i : Nat), WF d → sval d / 𝐁 ^ i % 𝐁 = digAt d i
  | [], _, h => absurd rfl h.1
  | [x], 0, h => by
    have hx := wf_single.1 h
    rw [sval_single]; simp only [digAt, pow_zero, List.getD_cons_zero]
    split <;> omega
  | [x], i + 1, h => by
    have hx := wf_single.1 h
    rw [sval_single, pow_succ', ← Int.ediv_ediv_of_nonneg (by norm_num)]
    have e : digAt [x] (i + 1) = ext [x] := by simp [digAt]
    rw [e]; unfold ext isNegative
    have hb : back [x] = x := rfl
    rw [hb]
    by_cases hc : x < 𝐇
    · rw [if_pos hc, if_neg (by simp; omega)]
      have : (x : Int) / 𝐁 = 0 := by omega
      rw [this]; simp
    · rw [if_neg hc, if_pos (by simp; omega)]
      have : ((x : Int) - 𝐁) / 𝐁 = -1 := by omega
      rw [this]
      have h1 : (-1 : Int) / 𝐁 ^ i = -1 := by
        rw [Int.ediv_eq_iff_of_pos (by positivity)]
        have : (0 : Int) < 𝐁 ^ i := by positivity
        constructor <;> linarith
      rw [h1]; norm_num
  | x :: y :: l, 0, h => by
    have hx := (wf_cons (by simp)).1 h
    rw [sval_cons2]; simp only [digAt, pow_zero, List.getD_cons_zero]
    omega
  | x :: y :: l, i + 1, h => by
    have hx := (wf_cons (by simp)).1 h
    have ih := digAt_spec i hx.2
    rw [sval_cons2, pow_succ', ← Int.ediv_ediv_of_nonneg (by norm_num)]
    have : ((x : Int) + 𝐁 * sval (y :: l)) / 𝐁 = sval (y :: l) := by omega
    rw [this, ih]
    unfold digAt
    rw [ext_cons, List.getD_cons_succ]

theorem digAt_lt {d : Digits} (h : WF d) (i : Nat) : digAt d i < 𝐁 := by
  have := digAt_spec i h
  omega

theorem digAt_congr {d e : Digits} (hd : WF d) (he : WF e) (h : sval d = sval e) (i : Nat) :
    digAt d i = digAt e i := by
  have h1 := digAt_spec i hd
  have h2 := digAt_spec i he
  rw [h] at h1; omega

theorem bit_digit (n : Int) (k : Nat) :
    Bit n k ↔ ((n / 𝐁 ^ (k / 32) % 𝐁).toNat).testBit (k % 32) = true := by
  unfold Bit
  have hk : k = 32 * (k / 32) + k % 32 := by omega
  have e1 : (2 : Int) ^ k = 𝐁 ^ (k / 32) * 2 ^ (k % 32) := by
    conv_lhs => rw [hk]
    rw [pow_add, pow_mul]; norm_num
  rw [e1, ← Int.ediv_ediv_of_nonneg (by positivity)]
  generalize n / 𝐁 ^ (k / 32) = m
  have hj : k % 32 < 32 := by omega
  generalize k % 32 = j at *
  rw [Nat.testBit_eq_decide_div_mod_eq, decide_eq_true_iff]
  have hm : m = (m % 𝐁) + 𝐁 * (m / 𝐁) := by omega
  have hp : (𝐁 : Int) = 2 ^ j * (2 * 2 ^ (31 - j)) := by
    rw [← mul_assoc, ← pow_succ, ← pow_add, show j + 1 + (31 - j) = 32 by omega]; norm_num
  have e2 : m / 2 ^ j = (m % 𝐁) / 2 ^ j + 2 * (2 ^ (31 - j) * (m / 𝐁)) := by
    conv_lhs => rw [hm]
    generalize m / 𝐁 = q
    have : (𝐁 : Int) * q = 2 ^ j * (2 * (2 ^ (31 - j) * q)) := by
      conv_lhs => rw [hp]
      rw [mul_assoc, mul_assoc]
    rw [this, Int.add_mul_ediv_left _ _ (by positivity)]
  obtain ⟨t, ht⟩ : ∃ t : Nat, (t : Int) = m % 𝐁 := ⟨(m % 𝐁).toNat, by omega⟩
  rw [e2, ← ht, Int.toNat_natCast]
  have e3 : (t : Int) / 2 ^ j = ((t / 2 ^ j : Nat) : Int) := by push_cast; rfl
  rw [e3]
  omega

theorem bit_iff {d : Digits} (h : WF d) (k : Nat) :
    Bit (sval d) k ↔ (digAt d (k / 32)).testBit (k % 32) = true := by
  rw [bit_digit, digAt_spec _ h]; simp

theorem bit_succ (n : Int) (k : Nat) : Bit n (k + 1) ↔ Bit (n / 2) k := by
  unfold Bit
  rw [pow_succ', ← Int.ediv_ediv_of_nonneg (by norm_num)]

/-- an integer is determined by its bits -/
theorem int_eq_of_bits {m n : Int} (h : ∀ k, Bit m k ↔ Bit n k) : m = n := by
  obtain ⟨N, hN⟩ : ∃ N, m.natAbs + n.natAbs ≤ N := ⟨_, le_rfl⟩
  induction N generalizing m n with
  | zero => omega
  | succ N ih =>
    have h0 := h 0
    unfold Bit at h0
    rw [pow_zero, Int.ediv_one, Int.ediv_one] at h0
    by_cases hs : (m / 2).natAbs + (n / 2).natAbs ≤ N
    · have := ih (m := m / 2) (n := n / 2) (fun k => by rw [← bit_succ, ← bit_succ]; exact h _) hs
      omega
    · have : (m = 0 ∨ m = -1) ∧ (n = 0 ∨ n = -1) := by omega
      omega

/-! ### digits of results -/

theorem back_eq_getD {d : Digits} : back d = d.getD (d.length - 1) 0 := by
  unfold back
  rw [List.getLastD_eq_getLast?, List.getLast?_eq_getElem?, List.getD_eq_getElem?_getD]

theorem digAt_of_lt {d : Digits} {i : Nat} (h : i < d.length) : digAt d i = d.getD i 0 := by
  unfold digAt
  simp [List.getD_eq_getElem?_getD, h]

theorem digAt_of_ge {d : Digits} {i : Nat} (h : d.length ≤ i) : digAt d i = ext d := by
  unfold digAt
  simp [List.getD_eq_getElem?_getD, h]

theorem digAt_back {d : Digits} (h : d ≠ []) : digAt d (d.length - 1) = back d := by
  have : d.length ≠ 0 := by simpa using h
  rw [digAt_of_lt (by omega), back_eq_getD]

/-- digits from the top one on show the sign -/
theorem digAt_sign {d : Digits} (h : d ≠ []) {i : Nat} (hi : d.length - 1 ≤ i) :
    (isNegative d = true ↔ 𝐇 ≤ digAt d i) := by
  by_cases h' : i < d.length
  · have : i = d.length - 1 := by omega
    rw [this, digAt_back h]; simp [isNegative]
  · rw [digAt_of_ge (by omega)]
    unfold ext
    split <;> simp_all

/-- identify a result from its digits -/
theorem digAt_of {r : Digits} {F : Nat → Nat} {e : Nat} (hr : r ≠ [])
    (h1 : ∀ i < r.length, r.getD i 0 = F i) (h2 : ∀ i, r.length ≤ i → F i = e)
    (h3 : e = 0 ∧ F (r.length - 1) < 𝐇 ∨ e = 𝐁 - 1 ∧ 𝐇 ≤ F (r.length - 1)) (i : Nat) :
    digAt r i = F i := by
  have h0 : r.length ≠ 0 := by simpa using hr
  by_cases hi : i < r.length
  · rw [digAt_of_lt hi, h1 i hi]
  · rw [digAt_of_ge (by omega), h2 i (by omega)]
    have hb : back r = F (r.length - 1) := by rw [back_eq_getD, h1 _ (by omega)]
    unfold ext isNegative
    rw [hb]
    rcases h3 with ⟨h3, h4⟩ | ⟨h3, h4⟩
    · rw [if_neg (by simp; omega), h3]
    · rw [if_pos (by simp; omega), h3]

theorem top2_getD : ∀ {l : Digits} {n : Nat}, l.length = n + 2 →
    top2 l = some (l.getD n 0, l.getD (n + 1) 0)
  | [x, y], n, h => by
    have : n = 0 := by simpa using h.symm
    subst this; rfl
  | x :: y :: z :: l, n, h => by
    obtain ⟨m, rfl⟩ : ∃ m, n = m + 1 := ⟨l.length, by simp at h; omega⟩
    have := top2_getD (l := y :: z :: l) (n := m) (by simp at h ⊢; omega)
    rw [List.getD_cons_succ, List.getD_cons_succ]
    exact this

/-- canonical form in terms of the two leading digits -/
theorem norm_iff_dig {l : Digits} {n : Nat} (h : l.length = n + 2) (hw : WF l) :
    Norm l ↔ ¬ (digAt l (n + 1) = 0 ∧ digAt l n < 𝐇) ∧ ¬ (digAt l (n + 1) = 𝐁 - 1 ∧ 𝐇 ≤ digAt l n) := by
  unfold Norm PosRed NegRed
  rw [top2_getD h, digAt_of_lt (by omega), digAt_of_lt (by omega)]
  simp [hw]

theorem norm_of_len1 {l : Digits} (h : l.length = 1) (hw : WF l) : Norm l := by
  match l, h with
  | [x], _ => exact norm_single.2 (wf_single.1 hw)

end Verif.BigInt
