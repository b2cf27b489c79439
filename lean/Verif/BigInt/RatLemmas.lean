import Verif.BigInt.RatModel
import Verif.BigInt.PropsMulDiv
import Mathlib.Data.Rat.Lemmas
import Mathlib.Tactic.FieldSimp
/-
Helper lemmas for `gcd` and `big_rat`.
-/
namespace Verif.BigInt

@[simp] theorem ok_bind {α β : Type} (a : α) (f : α → Outcome β) : (Outcome.ok a >>= f) = f a := rfl
@[simp] theorem pure_eq {α : Type} (a : α) : (pure a : Outcome α) = .ok a := rfl
@[simp] theorem throw_bind {α β : Type} (f : α → Outcome β) : ((Outcome.throw : Outcome α) >>= f) = .throw := rfl

theorem div_pos_rep {d x : Digits} {a b : Int} (hd : Rep d a) (hx : Rep x b) (hb : 0 < b) :
    ∃ q, divAssign d x = .ok q ∧ Rep q (a / b) := by
  obtain ⟨⟨q, e, h⟩, -⟩ := C07_operators_partial hd hx hb.ne' (.inl hb)
  rw [Int.fdiv_eq_ediv_of_nonneg _ hb.le] at h
  exact ⟨q, e, h⟩

theorem mod_pos_rep {d x : Digits} {a b : Int} (hd : Rep d a) (hx : Rep x b) (hb : 0 < b) :
    ∃ q, modAssign d x = .ok q ∧ Rep q (a % b) := by
  obtain ⟨-, ⟨q, e, h⟩⟩ := C07_operators_partial hd hx hb.ne' (.inl hb)
  rw [Int.fmod_eq_emod_of_nonneg _ hb.le] at h
  exact ⟨q, e, h⟩

theorem isZero_rep {d : Digits} {a : Int} (hd : Rep d a) : isZero d = true ↔ a = 0 := (C02_sign hd).2.1
theorem isNeg_rep {d : Digits} {a : Int} (hd : Rep d a) : isNegative d = true ↔ a < 0 := (C02_sign hd).1

theorem one_rep : Rep (ofInt32 1) 1 := C01_ofInt (by norm_num)

theorem fuelOf_gt : ∀ {d : Digits}, WF d → sval d < fuelOf d
  | [], h => absurd rfl h.1
  | [x], h => by simp only [sval, fuelOf]; split <;> push_cast <;> omega
  | x :: y :: l, h => by
    have w := (wf_cons (List.cons_ne_nil _ _)).1 h
    have ih := fuelOf_gt w.2
    rw [sval_cons2, fuelOf]; push_cast; omega

theorem gcdLoop_rep : ∀ (n : Nat) {x y : Digits} {a b : Int}, Rep x a → Rep y b → 0 < a → a < n →
    ∃ r, gcdLoop n x y = .ok r ∧ Rep r (Int.gcd a b)
  | 0, x, y, a, b, _, _, h1, h2 => by omega
  | n + 1, x, y, a, b, hx, hy, h1, h2 => by
    obtain ⟨y', e1, hy'⟩ := mod_pos_rep hy hx h1
    have hb' := Int.emod_nonneg b h1.ne'
    have hb2 := Int.emod_lt_of_pos b h1
    unfold gcdLoop
    rw [e1, ok_bind]
    by_cases hz : isZero y' = true
    · rw [if_pos hz]
      refine ⟨x, rfl, ?_⟩
      have := (isZero_rep hy').1 hz
      have hg : (Int.gcd a b : Int) = a := by
        rw [Int.gcd_eq_natAbs_left_iff_dvd.2 (Int.dvd_of_emod_eq_zero this)]
        omega
      rw [hg]; exact hx
    · rw [if_neg hz]
      have hb0 : 0 < b % a := by
        have : b % a ≠ 0 := fun h => hz ((isZero_rep hy').2 h)
        omega
      obtain ⟨x', e2, hx'⟩ := mod_pos_rep hx hy' hb0
      have ha' := Int.emod_nonneg a hb0.ne'
      have ha2 := Int.emod_lt_of_pos a hb0
      have hgc : Int.gcd a b = Int.gcd a (b % a) := by
        rw [Int.gcd_comm a (b % a), Int.gcd_emod, Int.gcd_comm]
      simp only [e2, ok_bind, pure_eq]
      by_cases hz2 : isZero x' = true
      · rw [if_pos hz2]
        refine ⟨y', rfl, ?_⟩
        have := (isZero_rep hx').1 hz2
        have hg : (Int.gcd a b : Int) = b % a := by
          rw [hgc, Int.gcd_eq_natAbs_right_iff_dvd.2 (Int.dvd_of_emod_eq_zero this)]
          omega
        rw [hg]; exact hy'
      · rw [if_neg hz2]
        have ha0 : 0 < a % (b % a) := by
          have : a % (b % a) ≠ 0 := fun h => hz2 ((isZero_rep hx').2 h)
          omega
        obtain ⟨r, e3, hr⟩ := gcdLoop_rep n hx' hy' ha0 (by omega)
        refine ⟨r, e3, ?_⟩
        rw [hgc, ← Int.gcd_emod a (b % a)]; exact hr

theorem gcd_rep {x y : Digits} {a b : Int} (hx : Rep x a) (hy : Rep y b) :
    ∃ r, gcd x y = .ok r ∧ Rep r (Int.gcd a b) := by
  unfold gcd
  by_cases hz : isZero x = true
  · rw [if_pos hz]
    have h0 := (isZero_rep hx).1 hz
    subst h0
    refine ⟨_, rfl, ?_⟩
    rw [Int.gcd_zero_left]
    by_cases hn : isNegative y = true
    · rw [if_pos hn]
      have := (isNeg_rep hy).1 hn
      have h2 := C04_negate hy
      rwa [show ((b.natAbs : Nat) : Int) = -b by omega]
    · rw [if_neg hn]
      have : ¬ b < 0 := fun h => hn ((isNeg_rep hy).2 h)
      rwa [show ((b.natAbs : Nat) : Int) = b by omega]
  · rw [if_neg hz]
    have h0 : a ≠ 0 := fun h => hz ((isZero_rep hx).2 h)
    have key : ∀ {x' : Digits} {a' : Int}, Rep x' a' → 0 < a' →
        ∃ r, gcdLoop (fuelOf x') x' y = .ok r ∧ Rep r (Int.gcd a' b) := by
      intro x' a' hx' ha'
      refine gcdLoop_rep _ hx' hy ha' ?_
      rw [rep_iff] at hx'
      rw [← hx'.2]; exact fuelOf_gt hx'.1.wf
    by_cases hn : isNegative x = true
    · simp only [if_pos hn]
      have := (isNeg_rep hx).1 hn
      have h2 := key (C04_negate hx) (by omega)
      rwa [Int.neg_gcd] at h2
    · simp only [if_neg hn]
      have : ¬ a < 0 := fun h => hn ((isNeg_rep hx).2 h)
      exact key hx (by omega)

end Verif.BigInt
