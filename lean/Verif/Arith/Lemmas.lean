import Verif.Arith.Model
import Verif.Bits.Props
import Mathlib.Data.Nat.GCD.Basic
import Mathlib.Data.Nat.ModEq
import Mathlib.Tactic.Ring
import Mathlib.Tactic.LinearCombination
import Mathlib.Tactic.Linarith
import Mathlib.Tactic.IntervalCases
/- Helper lemmas for the properties of `Verif.Arith`. -/
namespace Verif.Arith

theorem sgn_ok {w : Nat} {x : Int} (h : fits w x) : sgn w x = .ok x := if_pos h

theorem toU_nonneg {w : Nat} {x : Int} (h0 : 0 ≤ x) (h : x < 2 ^ w) : toU w x = x.toNat := by
  unfold toU; rw [Int.emod_eq_of_lt h0 h]

theorem pow_double {w : Nat} (hw : 0 < w) : (2 : Int) ^ w = 2 * 2 ^ (w - 1) := by
  obtain ⟨k, rfl⟩ : ∃ k, w = k + 1 := ⟨w - 1, by omega⟩
  rw [pow_succ]; simp; ring

theorem toS_small {w : Nat} {x : Int} (hw : 0 < w) (h0 : 0 ≤ x) (h : x < 2 ^ (w - 1)) : toS w x = x := by
  have := pow_double hw
  unfold toS; rw [Int.emod_eq_of_lt h0 (by omega), if_pos h]

theorem toU_lt {w : Nat} {x : Int} : toU w x < 2 ^ w := by
  have h2 : (0 : Int) < 2 ^ w := by positivity
  have := Int.emod_lt_of_pos x h2
  have h3 := Int.emod_nonneg x h2.ne'
  unfold toU
  zify
  rw [Int.toNat_of_nonneg h3]; exact this

theorem ugcdLoop_spec : ∀ (n a b : Nat), 0 < b → b ≤ n → ugcdLoop n a b = .ok (Nat.gcd a b)
  | 0, a, b, h0, h => by omega
  | n + 1, a, b, h0, h => by
    unfold ugcdLoop
    have ha := Nat.mod_lt a h0
    by_cases c : a % b = 0
    · simp only [c, if_true]
      rw [Nat.gcd_eq_right (Nat.dvd_of_mod_eq_zero c)]
    · simp only [if_neg c]
      have e1 : Nat.gcd a b = Nat.gcd (a % b) b := by rw [Nat.gcd_comm a b, Nat.gcd_rec]
      by_cases c2 : b % (a % b) = 0
      · rw [if_neg (by simpa using c2), e1, Nat.gcd_eq_left (Nat.dvd_of_mod_eq_zero c2)]
      · rw [if_pos c2, ugcdLoop_spec n _ _ (Nat.pos_of_ne_zero c2) (by
          have := Nat.mod_lt b (Nat.pos_of_ne_zero c); omega), e1, Nat.gcd_rec (a % b) b,
          Nat.gcd_comm]

theorem ugcd_spec {a b : Nat} (h : 0 < b) : unsignedGcd a b = .ok (Nat.gcd a b) := by
  unfold unsignedGcd
  rw [if_neg (by omega), ugcdLoop_spec _ _ _ h le_rfl]

theorem gcd_spec {a : Int} {b : Nat} (hb : 0 < b) (ha : |a| < 2 ^ 63) : gcd a b = .ok (Int.gcd a b) := by
  have ha' := abs_lt.1 ha
  unfold gcd
  rcases lt_trichotomy a 0 with h | h | h
  · rw [if_neg (by omega), if_neg (by omega), sgn_ok ⟨by norm_num; omega, by norm_num; omega⟩,
      Res.ok_bind, toU_nonneg (by omega) (by norm_num; omega), ugcd_spec hb]
    congr 1
    unfold Int.gcd
    congr 1
    omega
  · subst h; simp
  · rw [if_pos h, toU_nonneg (by omega) (by norm_num; omega), ugcd_spec hb]
    congr 1
    unfold Int.gcd
    congr 1
    omega

/-- the invariant of the loop of `lcm` -/
structure LcmInv (a b c d mc md : Nat) : Prop where
  sum : c * md + d * mc = a * b
  gcd_eq : Nat.gcd c d = Nat.gcd a b
  mc_mod : (b : Int) ∣ mc - c
  md_mod : (b : Int) ∣ md + d
  mc_dvd : a ∣ mc
  md_dvd : a ∣ md

theorem lcm_bound {a b x y t : Nat} (ha : 0 < a) (hgx : Nat.gcd a b ∣ x) (hx : 0 < x)
    (h : x * y + t = a * b) : y ≤ Nat.lcm a b := by
  have hl := Nat.gcd_mul_lcm a b
  have : Nat.gcd a b ≤ x := Nat.le_of_dvd hx hgx
  have h2 : Nat.gcd a b * y ≤ Nat.gcd a b * Nat.lcm a b := by
    rw [hl, ← h]
    have : Nat.gcd a b * y ≤ x * y := Nat.mul_le_mul_right _ this
    omega
  exact Nat.le_of_mul_le_mul_left h2 (Nat.gcd_pos_of_pos_left _ ha)

theorem lcm_eq {a b y : Nat} (ha : 0 < a) (h : Nat.gcd a b * y = a * b) : y = Nat.lcm a b := by
  have hl := Nat.gcd_mul_lcm a b
  rw [← h] at hl
  exact (Nat.eq_of_mul_eq_mul_left (Nat.gcd_pos_of_pos_left _ ha) hl).symm

theorem LcmInv.step1 {a b c d mc md : Nat} (h : LcmInv a b c d mc md) :
    LcmInv a b c (d % c) mc (md + d / c * mc) := by
  obtain ⟨h1, h2, h3, h4, h5, h6⟩ := h
  have e := Nat.div_add_mod d c
  refine ⟨?_, ?_, h3, ?_, h5, Nat.dvd_add h6 (h5.mul_left _)⟩
  · rw [← h1]; nth_rewrite 3 [← e]; ring
  · rw [← h2, Nat.gcd_comm c (d % c), ← Nat.gcd_rec]
  · have e' : (d : Int) = c * (d / c : Nat) + (d % c : Nat) := by exact_mod_cast e.symm
    obtain ⟨u, hu⟩ := h3
    obtain ⟨v, hv⟩ := h4
    refine ⟨v + (d / c : Nat) * u, ?_⟩
    push_cast at *
    linear_combination hv + (d / c : Int) * hu - e'

theorem LcmInv.step2 {a b c d mc md : Nat} (h : LcmInv a b c d mc md) :
    LcmInv a b (c % d) d (mc + c / d * md) md := by
  obtain ⟨h1, h2, h3, h4, h5, h6⟩ := h
  have e := Nat.div_add_mod c d
  refine ⟨?_, ?_, ?_, h4, Nat.dvd_add h5 (h6.mul_left _), h6⟩
  · rw [← h1]; nth_rewrite 3 [← e]; ring
  · rw [← h2, Nat.gcd_comm c d, Nat.gcd_rec d c]
  · have e' : (c : Int) = d * (c / d : Nat) + (c % d : Nat) := by exact_mod_cast e.symm
    obtain ⟨u, hu⟩ := h3
    obtain ⟨v, hv⟩ := h4
    refine ⟨u + (c / d : Nat) * v, ?_⟩
    push_cast at *
    linear_combination hu + (c / d : Int) * hv + e'

theorem lcmLoop_spec {a b : Nat} (ha : 0 < a) (hl : Nat.lcm a b < 2 ^ 64) :
    ∀ (n c d mc md : Nat), 0 < c → c ≤ n → 0 < d → LcmInv a b c d mc md →
    ∃ p, lcmLoop n c d mc md = .ok (Nat.lcm a b, Nat.gcd a b, p) ∧ a ∣ p ∧
      (b : Int) ∣ p - Nat.gcd a b ∧ p ≤ Nat.lcm a b
  | 0, c, d, mc, md, hc, hn, _, h => by omega
  | n + 1, c, d, mc, md, hc, hn, hd, h => by
    have i1 := h.step1
    have b0 : mc ≤ Nat.lcm a b := lcm_bound ha (h.gcd_eq ▸ Nat.gcd_dvd_right ..) hd
      (by rw [add_comm]; exact h.sum)
    have b1 : md + d / c * mc ≤ Nat.lcm a b := lcm_bound ha (i1.gcd_eq ▸ Nat.gcd_dvd_left ..) hc i1.sum
    have e1 : (md + d / c * mc) % 18446744073709551616 = md + d / c * mc :=
      Nat.mod_eq_of_lt (by omega)
    unfold lcmLoop
    simp only [e1]
    generalize hmd' : md + d / c * mc = md' at *
    by_cases c1 : d % c = 0
    · simp only [c1, if_true]
      rw [c1] at i1
      have hg : c = Nat.gcd a b := by rw [← i1.gcd_eq, Nat.gcd_zero_right]
      refine ⟨mc, ?_, i1.mc_dvd, ?_, b0⟩
      · have := i1.sum
        rw [zero_mul, add_zero] at this
        nth_rewrite 1 [hg] at this
        rw [lcm_eq ha this, ← hg]
      · rw [← hg]; exact i1.mc_mod
    · simp only [if_neg c1]
      have hd' := Nat.pos_of_ne_zero c1
      have hdc := Nat.mod_lt d hc
      generalize hdd : d % c = d' at *
      have i2 := i1.step2
      have b2 : mc + c / d' * md' ≤ Nat.lcm a b :=
        lcm_bound ha (i2.gcd_eq ▸ Nat.gcd_dvd_right ..) hd' (by rw [add_comm]; exact i2.sum)
      have e2 : (mc + c / d' * md') % 18446744073709551616 = mc + c / d' * md' :=
        Nat.mod_eq_of_lt (by omega)
      have hle : md' ≤ mc + c / d' * md' := by
        have : 1 ≤ c / d' := (Nat.one_le_div_iff hd').2 hdc.le
        nlinarith
      simp only [e2]
      generalize hmc' : mc + c / d' * md' = mc' at *
      have hcd := Nat.mod_lt c hd'
      by_cases c2 : 0 < c % d'
      · rw [if_pos c2]
        exact lcmLoop_spec ha hl n _ _ _ _ c2 (by omega) hd' i2
      · rw [if_neg c2]
        have c2' : c % d' = 0 := by omega
        rw [c2'] at i2
        have hg : d' = Nat.gcd a b := by rw [← i2.gcd_eq, Nat.gcd_zero_left]
        have hL : mc' = Nat.lcm a b := by
          have := i2.sum
          rw [zero_mul, zero_add, hg] at this
          exact lcm_eq ha this
        by_cases c3 : md' = 0
        · refine ⟨0, by rw [if_pos c3, hL, hg], dvd_zero a, ?_, by omega⟩
          have := i2.md_mod
          rw [c3, hg] at this
          simpa using this
        · have e3 : (mc' + (18446744073709551616 - md')) % 18446744073709551616 = mc' - md' := by
            omega
          refine ⟨mc' - md', by rw [if_neg c3, e3, hL, hg], Nat.dvd_sub i2.mc_dvd i2.md_dvd, ?_, by omega⟩
          have h1 := i2.mc_mod
          have h2 := i2.md_mod
          have := Int.dvd_sub h1 h2
          rw [← hg]
          push_cast [Nat.cast_sub hle] at *
          have e : (mc' : Int) - 0 - (md' + d') = mc' - md' - d' := by ring
          rwa [e] at this

theorem lcm_spec {a b : Nat} (ha : 0 < a) (hl : Nat.lcm a b < 2 ^ 64) (ha' : a < 2 ^ 64) :
    ∃ p, lcm a b = .ok (Nat.lcm a b, Nat.gcd a b, p) ∧ a ∣ p ∧
      (b : Int) ∣ p - Nat.gcd a b ∧ (0 < b → p ≤ Nat.lcm a b) := by
  unfold lcm
  rw [if_neg (by omega)]
  rcases Nat.eq_zero_or_pos b with rfl | hb
  · obtain ⟨n, rfl⟩ : ∃ n, a = n + 1 := ⟨a - 1, by omega⟩
    refine ⟨n + 1, ?_, dvd_rfl, by simp, by omega⟩
    unfold lcmLoop
    simp
  · obtain ⟨p, h1, h2, h3, h4⟩ := lcmLoop_spec ha hl a a b a 0 ha le_rfl hb
      ⟨by ring, rfl, by simp, by simp, dvd_rfl, dvd_zero a⟩
    exact ⟨p, h1, h2, h3, fun _ => h4⟩

theorem powerLoop_spec (x n : Nat) : ∀ (l r : Nat), r = x ^ (n >>> l) % 𝐌 →
    powerLoop x n l r = x ^ n % 𝐌
  | 0, r, h => by rw [powerLoop, h]; rfl
  | l + 1, r, h => by
    unfold powerLoop
    apply powerLoop_spec x n l
    have e : n >>> l = 2 * (n >>> (l + 1)) + (n >>> l) % 2 := by
      rw [Nat.shiftRight_succ]; omega
    have hsq : r * r % 𝐌 = x ^ (2 * (n >>> (l + 1))) % 𝐌 := by
      rw [h, ← Nat.mul_mod, two_mul, pow_add]
    rw [Nat.and_one_is_mod]
    rcases Nat.mod_two_eq_zero_or_one (n >>> l) with c | c
    · rw [if_neg (by omega), hsq, e, c, add_zero, show 2 * (n >>> (l + 1)) = n >>> l by omega]
    · rw [if_pos (by omega), hsq, e, c, pow_succ, Nat.mod_mul_mod]

theorem power_spec {x n : Nat} (hn : n < 2 ^ 64) (hx : x < 2 ^ 64) : power x n = x ^ n % 2 ^ 64 := by
  unfold power
  by_cases h0 : n = 0
  · subst h0; simp
  · rw [if_neg h0]
    by_cases h1 : x ≤ 1
    · rw [if_pos h1]
      interval_cases x
      · rw [zero_pow h0]; rfl
      · rw [one_pow]; rfl
    · rw [if_neg h1]
      refine powerLoop_spec x n _ _ ?_
      have := (Bits.C18_lastBit hn (Bits.lastBit n)).1 le_rfl
      rw [Nat.shiftRight_eq_div_pow, Nat.div_eq_of_lt this]; rfl

end Verif.Arith
