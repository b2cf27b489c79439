import Verif.Io.Digits
import Verif.BigInt.PropsMulDiv
/-
C91: the number of digits of numbers of arbitrary size.
-/
namespace Verif.Io
open Verif BigInt

theorem isZero_iff {d : Digits} {a : Int} (h : Rep d a) : isZero d = true ↔ a = 0 := by
  have h0 : Rep [0] 0 := rep_of_check (by decide)
  rw [isZero, beq_iff_eq]
  constructor
  · rintro rfl
    exact (rep_iff.1 h).2.symm.trans (rep_iff.1 h0).2
  · rintro rfl
    exact rep_unique h h0

theorem digitsBigLoop_spec (b : Nat) (hb : 2 ≤ b) (hB : b < 2 ^ 32) : ∀ (k d : Nat) (x : Digits) (a : Nat), Rep x (a : Int) → a < k → ∃ e, digitsBigLoop b k d x = .ok (d + e + 1) ∧ a < b ^ (e + 1) ∧ (0 < e → b ^ e ≤ a)
  | 0, _, _, _, _, h => by omega
  | k + 1, d, x, a, hx, h => by
    have hs := (C07_shiftModulo (m := b) hx (by omega) hB).1
    have hq : ((a : Int) / (b : Int)) = ((a / b : Nat) : Int) := by simp
    rw [hq] at hs
    rw [digitsBigLoop]
    by_cases ha : a / b = 0
    · rw [if_pos ((isZero_iff hs).2 (by simp [ha]))]
      refine ⟨0, rfl, ?_, by simp⟩
      have := (Nat.div_eq_zero_iff).1 ha
      simp
      omega
    · rw [if_neg (by rw [isZero_iff hs]; exact_mod_cast ha)]
      have hpos : 0 < a := by
        rcases Nat.eq_zero_or_pos a with rfl | h'
        · simp at ha
        · exact h'
      have hlt : a / b < a := Nat.div_lt_self hpos (by omega)
      obtain ⟨e, h1, h2, h3⟩ := digitsBigLoop_spec b hb hB k (d + 1) _ (a / b) hs (by omega)
      refine ⟨e + 1, by rw [h1]; congr 1; omega, ?_, fun _ => ?_⟩
      · rw [Nat.pow_succ]
        exact (Nat.div_lt_iff_lt_mul (by omega)).1 h2
      · rcases Nat.eq_zero_or_pos e with rfl | he
        · have : ¬ a < b := fun h => ha (Nat.div_eq_of_lt h)
          simp
          omega
        · rw [Nat.pow_succ]
          exact (Nat.le_div_iff_mul_le (by omega)).1 (h3 he)

/-- C91, the number of digits of a nonnegative number of arbitrary size: the least positive number of digits with which it can be written -/
theorem C91_digits_big (x : Digits) (a b : Nat) (hx : Rep x (a : Int)) (hb : 2 ≤ b) (hB : b < 2 ^ 32) :
    ∃ d k, (∀ fuel, k ≤ fuel → digitsBig fuel x b = .ok d) ∧ 1 ≤ d ∧ a < b ^ d ∧ ∀ c, 1 ≤ c → a < b ^ c → d ≤ c := by
  obtain ⟨e, h1, h2, h3⟩ := digitsBigLoop_spec b hb hB (a + 1) 0 x a hx (by omega)
  refine ⟨e + 1, a + 1, ?_, by omega, h2, ?_⟩
  · intro fuel hf
    rw [digitsBig, if_neg (by omega)]
    obtain ⟨e', h1', h2', h3'⟩ := digitsBigLoop_spec b hb hB fuel 0 x a hx (by omega)
    rw [h1']
    have : e' = e := by
      rcases Nat.lt_trichotomy e' e with h | h | h
      · have := Nat.pow_le_pow_right (n := b) (by omega) (show e' + 1 ≤ e by omega)
        have := h3 (by omega)
        omega
      · exact h
      · have := Nat.pow_le_pow_right (n := b) (by omega) (show e + 1 ≤ e' by omega)
        have := h3' (by omega)
        omega
    rw [this]
    congr 1
    omega
  · intro c hc hac
    rcases Nat.eq_zero_or_pos e with rfl | he
    · omega
    · have := Nat.lt_of_le_of_lt (h3 he) hac
      have := (Nat.pow_lt_pow_iff_right (by omega)).1 this
      omega

example : Rep [0, 1] ((2 ^ 32 : Nat) : Int) ∧ digitsBig 20 [0, 1] 10 = .ok 10 := ⟨rep_of_check (by decide), by decide⟩

/-- C91, refuted for negative numbers: the computation does not end -/
theorem C91_digits_negative_false (x : Digits) (a : Int) (b : Nat) (hx : Rep x a) (ha : a < 0) (hb : 2 ≤ b) (hB : b < 2 ^ 32) (fuel : Nat) : digitsBig fuel x b = .outOfFuel := by
  have key : ∀ (k d : Nat) (x : Digits) (a : Int), Rep x a → a < 0 → digitsBigLoop b k d x = .outOfFuel := by
    intro k
    induction k with
    | zero => intros; rfl
    | succ k ih =>
      intro d x a hx ha
      have hs := (C07_shiftModulo (m := b) hx (by omega) hB).1
      have hn : a / (b : Int) < 0 := Int.ediv_neg_of_neg_of_pos ha (by omega)
      rw [digitsBigLoop, if_neg (by rw [isZero_iff hs]; omega)]
      exact ih _ _ _ hs hn
  rw [digitsBig, if_neg (by omega)]
  exact key fuel 0 x a hx ha

example : Rep [2 ^ 32 - 1] (-1) := rep_of_check (by decide)

end Verif.Io
