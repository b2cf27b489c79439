import Verif.Arith.PropsRational
/-
Property theorems C16, continued: remainder, operations with integers, rounding, comparison
and powers of `Rational<Numer_t>`.
-/
namespace Verif.Arith
open Verif.BigInt (rat_unique rat_eq rat_coprime gcd_split den_pos)

theorem floor_ediv (n : Int) {d : Int} (hd : 0 < d) : ⌊(n : ℚ) / d⌋ = n / d := by
  obtain ⟨m, rfl⟩ : ∃ m : Nat, d = m := ⟨d.toNat, by omega⟩
  have := Rat.floor_intCast_div_natCast n m
  push_cast; exact this

theorem floor_num (q : ℚ) : ⌊q⌋ = q.num / (q.den : Int) := by
  rw [← floor_ediv _ (den_pos q), ← rat_eq]

theorem denomS {q : ℚ} (h : q.den < 2 ^ 63) : toS 64 (q.den : Int) = q.den := toS64 (by omega) (by omega)

theorem fitsAbs {x : Int} (h : |x| < 2 ^ 63) : fits 64 (x.natAbs : Int) :=
  fits64 (by rw [Int.natCast_natAbs, abs_abs]; exact h)

theorem toUAbs {x : Int} (h : |x| < 2 ^ 63) : toU 64 (x.natAbs : Int) = x.natAbs := by
  have := toU_nonneg (w := 64) (x := (x.natAbs : Int)) (by omega) (by rw [Int.natCast_natAbs]; omega)
  rwa [Int.toNat_natCast] at this

/-- C16: `a % b` is the remainder in `[0,|b|)` of division of rationals. -/
theorem C16_mod (nd : Bool) {r x : Rational} {q p : ℚ} (hr : RepR r q) (hx : RepR x p) (h0 : p ≠ 0)
    (h1 : |q.num * (p.den / Nat.gcd q.den p.den : Nat)| < 2 ^ 63)
    (h2 : (q.den / Nat.gcd q.den p.den : Nat) * |p.num| < 2 ^ 63)
    (h3 : q.den * (p.den / Nat.gcd q.den p.den) < 2 ^ 63) :
    ∃ s, Rational.mod nd r x = .ok s ∧ RepR s (q - |p| * ⌊q / |p|⌋) := by
  have qd := den_pos q
  have pd := den_pos p
  have pn : p.num ≠ 0 := Rat.num_ne_zero.2 h0
  obtain ⟨d, a, b, g, d0, e1, e2, hc, -, -⟩ := gcd_split (a := (q.den : Int)) (b := (p.den : Int)) (.inr pd.ne')
  have a0 := pos_of_mul e1 qd d0
  have b0 := pos_of_mul e2 pd d0
  have gu : (Nat.gcd q.den p.den : Int) = d := by rw [← g]; simp [Int.gcd]
  have ea : ((q.den / Nat.gcd q.den p.den : Nat) : Int) = a := by
    push_cast; rw [gu, e1, Int.mul_ediv_cancel_left _ d0.ne']
  have eb : ((p.den / Nat.gcd q.den p.den : Nat) : Int) = b := by
    push_cast; rw [gu, e2, Int.mul_ediv_cancel_left _ d0.ne']
  rw [eb] at h1
  rw [ea] at h2
  have h3' : (q.den : Int) * b < 2 ^ 63 := by rw [← eb]; exact_mod_cast h3
  have ble : b ≤ p.den := by rw [e2]; nlinarith
  have hpa : 0 < |p.num| := abs_pos.2 pn
  have hM : 0 < a * |p.num| := by positivity
  have hD : 0 < (q.den : Int) * b := by positivity
  obtain rfl := hr.eq
  obtain rfl := hx.eq
  have hp4 := hx.2.2.2
  unfold Rational.mod
  rw [Res.assertIn_bind nd (decide_eq_true pn), ugcd_spec p.den_pos, Res.ok_bind]
  dsimp only
  rw [sgn_ok (fitsAbs hx.2.2.1), Res.ok_bind, toUAbs hx.2.2.1, eb, toS64 b0.le (by omega),
    sgn_ok (fits64 h1), Res.ok_bind,
    natMulMod ea (Int.natCast_natAbs p.num) hM.le (by omega), natMulMod rfl eb hD.le (by omega),
    Int.toNat_of_nonneg hM.le, toS64 hM.le h2,
    C13_remainder nd (by norm_num) (fits64 h1) (fits64 (by rw [abs_of_pos hM]; exact h2)) hM,
    Res.ok_bind]
  have hv : (((q.num * b) % (a * |p.num|) : Int) : ℚ) / ((q.den * b : Int) : ℚ) = q - |p| * ⌊q / |p|⌋ := by
    have hpabs : |p| = (|p.num| : Int) / ((p.den : Int) : ℚ) := by
      conv_lhs => rw [rat_eq p]
      rw [abs_div, Int.cast_abs, abs_of_pos (a := ((p.den : Int) : ℚ)) (by exact_mod_cast pd)]
    have t1 : (d : ℚ) ≠ 0 := by exact_mod_cast d0.ne'
    have t2 : (a : ℚ) ≠ 0 := by exact_mod_cast a0.ne'
    have t3 : (b : ℚ) ≠ 0 := by exact_mod_cast b0.ne'
    have t4 : ((|p.num| : Int) : ℚ) ≠ 0 := by exact_mod_cast hpa.ne'
    have hdiv : q / |p| = ((q.num * b : Int) : ℚ) / ((a * |p.num| : Int) : ℚ) := by
      rw [hpabs]
      conv_lhs => rw [rat_eq q, e1, e2]
      push_cast at t4 ⊢
      field_simp
    rw [hdiv, floor_ediv _ hM, Int.emod_def, hpabs]
    generalize q.num * b / (a * |p.num|) = f
    conv_rhs => lhs; rw [rat_eq q]
    rw [e1, e2]
    push_cast; field_simp
  have r0 := Int.emod_nonneg (q.num * b) hM.ne'
  have r1 := Int.emod_lt_of_pos (q.num * b) hM
  obtain ⟨s, es, hs⟩ := make_value hD hv (by rw [abs_of_nonneg r0]; omega) h3'
  exact ⟨s, by rw [es, Res.ok_bind, normalize_rep hs], hs⟩

/-- C16: opposite and inverse. -/
theorem C16_neg_inverse {r : Rational} {q : ℚ} (hr : RepR r q) :
    (∃ s, Rational.neg r = .ok s ∧ RepR s (-q)) ∧
    (q ≠ 0 → ∃ s, Rational.inverse r = .ok s ∧ RepR s q⁻¹) := by
  have qd := den_pos q
  have hq := rat_eq q
  obtain ⟨-, -, n1, n2⟩ := id hr
  have n1' := abs_lt.1 n1
  obtain rfl := hr.eq
  constructor
  · unfold Rational.neg
    dsimp only
    rw [sgn_ok (fits64 (by rw [abs_neg]; exact n1)), Res.ok_bind]
    have := make_value (n := -q.num) (d := q.den) (q := -q) qd (by
      conv_rhs => rw [hq]
      push_cast; ring) (by rw [abs_neg]; exact n1) (by omega)
    simpa using this
  · intro h0
    have hn : q.num ≠ 0 := Rat.num_ne_zero.2 h0
    unfold Rational.inverse
    dsimp only
    by_cases c : 0 < q.num
    · rw [if_pos c, denomS n2, toU_nonneg c.le (by omega)]
      exact make_value c (by conv_rhs => rw [hq, inv_div]) (by rw [abs_of_pos qd]; omega) (by omega)
    · rw [if_neg c, sgn_ok (fits64 (by rw [abs_neg]; exact n1)), Res.ok_bind,
        toU_nonneg (by omega) (by omega)]
      have e : toS 64 (((18446744073709551616 - q.den) % 18446744073709551616 : Nat) : Int) = -q.den := by
        have e1 : (18446744073709551616 - q.den) % 18446744073709551616 = 18446744073709551616 - q.den :=
          Nat.mod_eq_of_lt (by omega)
        rw [e1]
        unfold toS
        norm_num
        have : (((18446744073709551616 - q.den : Nat) : Int)) % 18446744073709551616 =
          18446744073709551616 - q.den := by omega
        rw [this, if_neg (by omega)]; omega
      rw [e]
      exact make_value (n := -q.den) (d := -q.num) (q := q⁻¹) (by omega) (by
        conv_rhs => rw [hq, inv_div]
        push_cast; rw [neg_div_neg_eq]) (by rw [abs_neg, abs_of_pos qd]; omega) (by omega)

/-! ### operations with an integer -/

theorem wrap_exact {x : Int} {u : Nat} (h : |x| < 2 ^ 63) (hu : (u : Int) % 18446744073709551616 = x % 18446744073709551616) :
    toS 64 ((u % 18446744073709551616 : Nat) : Int) = x := by
  have := abs_lt.1 h
  unfold toS
  norm_num
  rw [hu]
  split <;> omega

theorem toU_mod (x : Int) : (toU 64 x : Int) = x % 18446744073709551616 := by
  unfold toU
  rw [Int.toNat_of_nonneg (Int.emod_nonneg _ (by norm_num))]
  norm_num

theorem emodMul (a b m : Int) : a % m * b % m = a * b % m := by
  rw [Int.mul_emod, Int.emod_emod, ← Int.mul_emod]

/-- C16: adding and subtracting an integer is exact when the new numerator fits. -/
theorem C16_addInt {r : Rational} {q : ℚ} {n : Int} (hr : RepR r q) :
    (|q.num + n * q.den| < 2 ^ 63 → RepR (Rational.addInt r n) (q + n)) ∧
    (|q.num - n * q.den| < 2 ^ 63 → RepR (Rational.subInt r n) (q - n)) := by
  have qd := den_pos q
  have hq := rat_eq q
  have cq := rat_coprime q
  have hQ : (q.den : ℚ) ≠ 0 := by exact_mod_cast q.den_pos.ne'
  obtain ⟨-, -, n1, n2⟩ := id hr
  obtain rfl := hr.eq
  constructor
  · intro h
    have e : Rational.addInt ⟨q.num, q.den⟩ n = ⟨q.num + n * q.den, q.den⟩ := by
      unfold Rational.addInt
      dsimp only
      rw [wrap_exact h]
      push_cast
      rw [toU_mod, toU_mod, Int.emod_add_emod, ← Int.add_emod_emod, emodMul,
        Int.add_emod_emod]
    rw [e]
    refine repR_mk q.den_pos ?_ ?_ h n2
    · exact cq.add_mul_right_left n
    · push_cast
      conv_rhs => rw [← Rat.num_div_den q]
      field_simp
  · intro h
    have e : Rational.subInt ⟨q.num, q.den⟩ n = ⟨q.num - n * q.den, q.den⟩ := by
      unfold Rational.subInt
      dsimp only
      rw [wrap_exact h]
      have hlt : toU 64 n * q.den % 18446744073709551616 < 18446744073709551616 :=
        Nat.mod_lt _ (by norm_num)
      have hm : ((toU 64 n * q.den % 18446744073709551616 : Nat) : Int) = n * q.den % 18446744073709551616 := by
        push_cast
        rw [toU_mod, emodMul]
      generalize toU 64 n * q.den % 18446744073709551616 = t at *
      have := toU_mod q.num
      generalize toU 64 q.num = u at *
      generalize n * (q.den : Int) = v at *
      omega
    rw [e]
    refine repR_mk q.den_pos ?_ ?_ h n2
    · have := cq.add_mul_right_left (-n)
      rwa [show q.num - n * (q.den : Int) = q.num + -n * q.den by ring]
    · push_cast
      conv_rhs => rw [← Rat.num_div_den q]
      field_simp

theorem signed_pair {n k : Int} (h1 : |n| < 2 ^ 63) (h2 : |k| < 2 ^ 63) :
    (if n < 0 then do pure (← sgn 64 (-n), ← sgn 64 (-k)) else pure (n, k) : Res (Int × Int)) =
      .ok (|n|, if n < 0 then -k else k) := by
  by_cases c : n < 0
  · rw [if_pos c, if_pos c, sgn_ok (fits64 (by rw [abs_neg]; exact h1)),
      sgn_ok (fits64 (by rw [abs_neg]; exact h2)), abs_of_neg c]; rfl
  · rw [if_neg c, if_neg c, abs_of_nonneg (by omega)]; rfl

/-- C16: multiplication by an integer is exact when the result is representable; the assertion
in debugging builds needs slightly more room. -/
theorem C16_mulInt (nd : Bool) {r : Rational} {q : ℚ} {n : Int} (hr : RepR r q) (hn : |n| < 2 ^ 63)
    (h1 : |(q * n).num| < 2 ^ 63) (h2 : nd = true ∨ |(q * n).num| + |n| < 2 ^ 63) :
    ∃ s, Rational.mulInt nd r n = .ok s ∧ RepR s (q * n) := by
  have qd := den_pos q
  have hq := rat_eq q
  have cq := rat_coprime q
  obtain ⟨-, -, n1, n2⟩ := id hr
  obtain rfl := hr.eq
  by_cases h0 : n = 0
  · subst h0
    refine ⟨⟨0, 1⟩, rfl, ?_⟩
    simp only [Int.cast_zero, mul_zero]
    exact repR_mk (by norm_num) isCoprime_one_right (by norm_num) (by norm_num) (by norm_num)
  have hnp : 0 < |n| := abs_pos.2 h0
  obtain ⟨d, a, b, g, d0, e1, e2, hc, -, -⟩ := gcd_split (a := (q.den : Int)) (b := |n|) (.inr hnp.ne')
  have a0 := pos_of_mul e1 qd d0
  have b0 := pos_of_mul e2 hnp d0
  obtain ⟨σ, hσ1, hσ2, hσ3, hσ4⟩ : ∃ σ : Int, (if n < 0 then -q.num else q.num) = σ * q.num ∧
      n = σ * |n| ∧ σ * σ = 1 ∧ IsCoprime σ a := by
    by_cases c : n < 0
    · exact ⟨-1, by rw [if_pos c]; ring, by rw [abs_of_neg c]; ring, by norm_num,
        isCoprime_one_left.neg_left⟩
    · exact ⟨1, by rw [if_neg c]; ring, by rw [abs_of_nonneg (by omega)]; ring, by norm_num,
        isCoprime_one_left⟩
  have dQ : (d : ℚ) ≠ 0 := by exact_mod_cast d0.ne'
  have aQ : (a : ℚ) ≠ 0 := by exact_mod_cast a0.ne'
  have hcop : IsCoprime (σ * q.num * b) a :=
    (hσ4.mul_left (cq.of_isCoprime_of_dvd_right ⟨d, by rw [e1]; ring⟩)).mul_left hc.symm
  have hval : ((σ * q.num * b : Int) : ℚ) / (a : ℚ) = q * n := by
    conv_rhs => rw [hσ2, hq, e1, e2]
    push_cast; field_simp
  obtain ⟨k1, k2⟩ := rat_unique a0 hcop hval
  have ug : unsignedGcd q.den (toU 64 |n|) = .ok (Int.gcd (q.den : Int) |n|) := by
    rw [toU_nonneg hnp.le (by omega), ugcd_spec (by omega)]
    unfold Int.gcd
    congr 2
    omega
  have ea : ((q.den / Int.gcd (q.den : Int) |n| : Nat) : Int) = a := by
    push_cast; rw [g, e1, Int.mul_ediv_cancel_left _ d0.ne']
  have ef : toS 64 ((toU 64 |n| / Int.gcd (q.den : Int) |n| : Nat) : Int) = b := by
    rw [toU_nonneg hnp.le (by omega)]
    push_cast
    rw [Int.toNat_of_nonneg hnp.le, g]
    nth_rewrite 1 [e2]
    rw [Int.mul_ediv_cancel_left _ d0.ne']
    have : b ≤ |n| := by rw [e2]; nlinarith
    exact toS64 b0.le (by omega)
  have hcheck : Res.assertIn nd (decide (σ * q.num < (2 ^ 63 - 1 : Int).tdiv b)) = .ok () := by
    rcases h2 with rfl | h2
    · rfl
    · have : σ * q.num < (2 ^ 63 - 1 : Int).tdiv b := by
        rw [Int.tdiv_eq_ediv_of_nonneg (by norm_num)]
        rw [← Int.add_one_le_iff, Int.le_ediv_iff_mul_le b0]
        have : b ≤ |n| := by rw [e2]; nlinarith
        rw [k1] at h2
        have := le_abs_self (σ * q.num * b)
        have e : (σ * q.num + 1) * b = σ * q.num * b + b := by ring
        rw [e]; linarith
      rw [decide_eq_true this]
      cases nd <;> rfl
  unfold Rational.mulInt
  rw [if_neg h0, normalize_rep hr, Res.ok_bind]
  dsimp only
  rw [signed_pair hn n1, Res.ok_bind]
  dsimp only
  rw [hσ1, ug, Res.ok_bind, ef]
  simp only [if_neg b0.ne']
  rw [hcheck, Res.ok_bind, sgn_ok (fits64 (by rw [← k1]; exact h1)), Res.ok_bind]
  refine ⟨_, rfl, by rw [k1], ?_, h1, ?_⟩
  · have : ((q.den / Int.gcd (q.den : Int) |n| : Nat) : Int) = (((q * n).den : Nat) : Int) := by rw [ea, k2]
    exact_mod_cast this
  · have : a ≤ q.den := by rw [e1]; nlinarith
    omega

/-- C16: division by an integer is exact when the result is representable, in builds without
assertions. -/
theorem C16_divInt_partial {r : Rational} {q : ℚ} {n : Int} (hr : RepR r q) (h0 : n ≠ 0) (hn : |n| < 2 ^ 63)
    (h1 : (q / n).den < 2 ^ 63) :
    ∃ s, Rational.divInt true r n = .ok s ∧ RepR s (q / n) := by
  have qd := den_pos q
  have hq := rat_eq q
  have cq := rat_coprime q
  obtain ⟨-, -, n1, n2⟩ := id hr
  obtain rfl := hr.eq
  have hnp : 0 < |n| := abs_pos.2 h0
  obtain ⟨σ, hσ1, hσ2, hσ3, hσ4, hσ5⟩ : ∃ σ : Int, (if n < 0 then -q.num else q.num) = σ * q.num ∧
      n = σ * |n| ∧ σ * σ = 1 ∧ (∀ a, IsCoprime σ a) ∧ |σ * q.num| = |q.num| := by
    by_cases c : n < 0
    · exact ⟨-1, by rw [if_pos c]; ring, by rw [abs_of_neg c]; ring, by norm_num,
        fun a => isCoprime_one_left.neg_left, by rw [neg_one_mul, abs_neg]⟩
    · exact ⟨1, by rw [if_neg c]; ring, by rw [abs_of_nonneg (by omega)]; ring, by norm_num,
        fun a => isCoprime_one_left, by rw [one_mul]⟩
  obtain ⟨d, a, b, g, d0, e1, e2, hc, -, -⟩ := gcd_split (a := σ * q.num) (b := |n|) (.inr hnp.ne')
  have b0 := pos_of_mul e2 hnp d0
  have dQ : (d : ℚ) ≠ 0 := by exact_mod_cast d0.ne'
  have bQ : (b : ℚ) ≠ 0 := by exact_mod_cast b0.ne'
  have hcop : IsCoprime a (q.den * b) := by
    have : IsCoprime (σ * q.num) (q.den : Int) := (hσ4 _).mul_left cq
    exact (this.of_isCoprime_of_dvd_left ⟨d, by rw [e1]; ring⟩).mul_right hc
  have σQ : (σ : ℚ) * σ = 1 := by exact_mod_cast hσ3
  have σ0 : (σ : ℚ) ≠ 0 := fun h => by rw [h] at σQ; norm_num at σQ
  have e1Q : (σ : ℚ) * q.num = d * a := by exact_mod_cast e1
  have hden : 0 < (q.den : Int) * b := by positivity
  have hval : (a : ℚ) / ((q.den * b : Int) : ℚ) = q / n := by
    have hQ : ((q.den : Int) : ℚ) ≠ 0 := by exact_mod_cast qd.ne'
    have hnum : (q.num : ℚ) = σ * d * a := by
      have : (σ : ℚ) * σ * q.num = σ * (d * a) := by rw [mul_assoc, e1Q]
      rw [σQ, one_mul] at this; rw [this]; ring
    conv_rhs => rw [hσ2, hq, hnum, e2]
    push_cast at *; field_simp
  obtain ⟨k1, k2⟩ := rat_unique hden hcop hval
  have hd1 : d ≤ |n| := by rw [e2]; nlinarith
  have hb1 : b ≤ |n| := by rw [e2]; nlinarith
  have ha1 : |a| ≤ |σ * q.num| := by rw [e1, abs_mul, abs_of_pos d0]; nlinarith [abs_nonneg a]
  rw [hσ5] at ha1
  have hsq : |σ * q.num| < 2 ^ 63 := by rw [hσ5]; exact n1
  have ug : unsignedGcd (toU 64 ((σ * q.num).natAbs : Int)) (toU 64 |n|) = .ok (Int.gcd (σ * q.num) |n|) := by
    rw [toUAbs hsq, toU_nonneg hnp.le (by omega), ugcd_spec (by omega)]
    unfold Int.gcd
    congr 2
    omega
  have hb2 : toU 64 b = b.toNat := toU_nonneg b0.le (by omega)
  unfold Rational.divInt
  rw [Res.assertIn_bind true (decide_eq_true h0), normalize_rep hr, Res.ok_bind]
  dsimp only
  rw [signed_pair hn n1, Res.ok_bind]
  dsimp only
  rw [hσ1, sgn_ok (fitsAbs hsq), Res.ok_bind, ug, Res.ok_bind, g, toS64 d0.le (by omega)]
  simp only [if_neg d0.ne']
  rw [e1, tdiv_exact d0, sgn_ok (fits64 (by omega)), Res.ok_bind, e2, tdiv_exact d0,
    sgn_ok (fits64 (by rw [abs_of_pos b0]; omega)), Res.ok_bind]
  simp only [if_neg b0.ne']
  refine ⟨_, rfl, by rw [k1], ?_, by rw [k1]; omega, h1⟩
  dsimp only
  rw [hb2, natMulMod rfl (Int.toNat_of_nonneg b0.le) hden.le (by omega), ← k2]
  rfl

/-- C16 fails for division by an integer in builds with assertions: `-1/2` divided by 3 makes
an assertion fail, which tests the numerator instead of the denominator (finding F23). -/
theorem C16_divInt_debug_false : RepR ⟨-1, 2⟩ (-1 / 2) ∧ Rational.divInt false ⟨-1, 2⟩ 3 = .assertFail ∧
    Rational.divInt true ⟨-1, 2⟩ 3 = .ok ⟨-1, 6⟩ := by
  refine ⟨repR_mk (by norm_num) (by rw [Int.isCoprime_iff_gcd_eq_one]; decide) (by norm_num)
    (by norm_num) (by norm_num), by decide, by decide⟩

/-- C16: remainder on division by an integer. -/
theorem C16_modInt (nd : Bool) {r : Rational} {q : ℚ} {n : Int} (hr : RepR r q) (h0 : n ≠ 0)
    (hn : q.den * |n| < 2 ^ 63) :
    ∃ s, Rational.modInt nd r n = .ok s ∧ RepR s (q - |n| * ⌊q / |n|⌋) := by
  have qd := den_pos q
  have cq := rat_coprime q
  obtain ⟨-, -, n1, n2⟩ := id hr
  obtain rfl := hr.eq
  have hnp : 0 < |n| := abs_pos.2 h0
  have hn1 : |n| < 2 ^ 63 := by nlinarith
  have hM : 0 < (q.den : Int) * |n| := by positivity
  have r0 := Int.emod_nonneg q.num hM.ne'
  have r1 := Int.emod_lt_of_pos q.num hM
  unfold Rational.modInt
  rw [Res.assertIn_bind nd (decide_eq_true h0), normalize_rep hr, Res.ok_bind]
  dsimp only
  rw [sgn_ok (fitsAbs hn1), Res.ok_bind, toUAbs hn1,
    natMulMod rfl (Int.natCast_natAbs n) hM.le (by omega), Int.toNat_of_nonneg hM.le, toS64 hM.le hn,
    C13_remainder nd (by norm_num) (fits64 n1) (fits64 (by rw [abs_of_pos hM]; exact hn)) hM,
    Res.ok_bind]
  refine ⟨_, rfl, repR_mk q.den_pos ?_ ?_ (by rw [abs_of_nonneg r0]; omega) n2⟩
  · have := cq.add_mul_left_left (-(|n| * (q.num / (q.den * |n|))))
    rw [Int.emod_def]
    rwa [show q.num - q.den * |n| * (q.num / (q.den * |n|)) =
      q.num + q.den * -(|n| * (q.num / (q.den * |n|))) by ring]
  · have nQ : ((|n| : Int) : ℚ) ≠ 0 := by exact_mod_cast hnp.ne'
    have hQ : ((q.den : Int) : ℚ) ≠ 0 := by exact_mod_cast qd.ne'
    have hfl : ⌊q / ((|n| : Int) : ℚ)⌋ = q.num / (q.den * |n|) := by
      rw [← floor_ediv _ hM]
      congr 1
      conv_lhs => rw [rat_eq q]
      push_cast at *; field_simp
    rw [hfl, Int.emod_def]
    generalize q.num / ((q.den : Int) * |n|) = f
    conv_rhs => lhs; rw [rat_eq q]
    push_cast at *; field_simp

/-- C16: fractional part, floor, ceiling and Euclidean quotient. -/
theorem C16_rounding (nd : Bool) {r : Rational} {q : ℚ} (hr : RepR r q) :
    (∃ s, Rational.mod1 nd r = .ok s ∧ RepR s (Int.fract q)) ∧
    Rational.floor r = .ok ⌊q⌋ ∧ Rational.ceil r = .ok ⌈q⌉ ∧
    (∀ n : Nat, 0 < n → n * q.den < 2 ^ 63 → Rational.quotient r n = .ok ⌊q / n⌋) := by
  have qd := den_pos q
  have cq := rat_coprime q
  obtain ⟨-, -, n1, n2⟩ := id hr
  obtain rfl := hr.eq
  have n1' := abs_lt.1 n1
  have fd : fits 64 (q.den : Int) := fits64 (by rw [abs_of_pos qd]; omega)
  have r0 := Int.emod_nonneg q.num qd.ne'
  have r1 := Int.emod_lt_of_pos q.num qd
  refine ⟨?_, ?_, ?_, ?_⟩
  · unfold Rational.mod1 Rational.denominator
    dsimp only
    rw [denomS n2, C13_remainder nd (by norm_num) (fits64 n1) fd qd, Res.ok_bind]
    refine ⟨_, rfl, repR_mk q.den_pos ?_ ?_ (by rw [abs_of_nonneg r0]; omega) n2⟩
    · have := cq.add_mul_left_left (-(q.num / q.den))
      rw [Int.emod_def]
      rwa [show q.num - q.den * (q.num / q.den) = q.num + q.den * -(q.num / q.den) by ring]
    · have hQ : ((q.den : Int) : ℚ) ≠ 0 := by exact_mod_cast qd.ne'
      have : Int.fract q = q - ⌊q⌋ := rfl
      rw [this, floor_num, Int.emod_def]
      conv_rhs => lhs; rw [rat_eq q]
      push_cast at *; field_simp
  · unfold Rational.floor
    dsimp only
    rw [denomS n2, C13_divide (by norm_num) (fits64 n1) fd qd, floor_num]
  · unfold Rational.ceil
    dsimp only
    have hneg : |-q.num| < 2 ^ 63 := by rw [abs_neg]; exact n1
    have e : ⌈q⌉ = -(-q.num / (q.den : Int)) := by
      rw [← floor_ediv _ qd]
      conv_lhs => rw [← neg_neg q, Int.ceil_neg]
      congr 2
      conv_lhs => rw [rat_eq q]
      push_cast; ring
    rw [sgn_ok (fits64 hneg), Res.ok_bind, denomS n2, C13_divide (by norm_num) (fits64 hneg) fd qd,
      Res.ok_bind, e]
    apply sgn_ok
    apply fits64
    rw [abs_neg]
    have h1 : -q.num / (q.den : Int) * q.den ≤ -q.num := Int.ediv_mul_le _ qd.ne'
    have h2 := Int.lt_ediv_add_one_mul_self (-q.num) qd
    rw [abs_lt]
    constructor <;> nlinarith
  · intro n hn0 hn
    unfold Rational.quotient
    dsimp only
    have hM : 0 < (n : Int) * q.den := by positivity
    have hM2 : (n : Int) * q.den < 2 ^ 63 := by exact_mod_cast hn
    rw [natMulMod rfl rfl hM.le (by omega), Int.toNat_of_nonneg hM.le, toS64 hM.le hM2,
      C13_divide (by norm_num) (fits64 n1) (fits64 (by rw [abs_of_pos hM]; exact hM2)) hM]
    congr 1
    rw [← floor_ediv _ hM]
    congr 1
    have nQ : (n : ℚ) ≠ 0 := by exact_mod_cast hn0.ne'
    have hQ : (q.den : ℚ) ≠ 0 := by exact_mod_cast qd.ne'
    conv_rhs => rw [← Rat.num_div_den q]
    push_cast; field_simp

/-- C16: comparison, when the cross products fit. -/
theorem C16_compare {r x : Rational} {q p : ℚ} (hr : RepR r q) (hx : RepR x p)
    (h1 : |q.num * p.den| < 2 ^ 63) (h2 : |q.den * p.num| < 2 ^ 63) :
    Rational.beq r x = .ok (decide (q = p)) ∧ Rational.lt r x = .ok (decide (q < p)) ∧
    Rational.le r x = .ok (decide (q ≤ p)) := by
  obtain ⟨-, -, -, n2⟩ := id hr
  obtain ⟨-, -, -, m2⟩ := id hx
  obtain rfl := hr.eq
  obtain rfl := hx.eq
  unfold Rational.beq Rational.lt Rational.le Rational.denominator
  dsimp only
  rw [denomS n2, denomS m2, sgn_ok (fits64 h1), sgn_ok (fits64 h2)]
  simp only [Res.ok_bind, Res.pure_eq]
  rw [mul_comm (q.den : Int) p.num]
  refine ⟨?_, ?_, ?_⟩ <;> congr 2 <;> apply propext
  · constructor
    · intro h
      rw [← Rat.num_div_den q, ← Rat.num_div_den p]
      have hQ : (q.den : ℚ) ≠ 0 := by exact_mod_cast q.den_pos.ne'
      have pQ : (p.den : ℚ) ≠ 0 := by exact_mod_cast p.den_pos.ne'
      rw [div_eq_div_iff hQ pQ]
      exact_mod_cast h
    · rintro rfl; rfl
  · conv_rhs => rw [← Rat.num_div_den q, ← Rat.num_div_den p]
    rw [div_lt_div_iff₀ (by exact_mod_cast q.den_pos) (by exact_mod_cast p.den_pos)]
    exact_mod_cast Iff.rfl
  · conv_rhs => rw [← Rat.num_div_den q, ← Rat.num_div_den p]
    rw [div_le_div_iff₀ (by exact_mod_cast q.den_pos) (by exact_mod_cast p.den_pos)]
    exact_mod_cast Iff.rfl

theorem pow_signed (x : Int) (k : Nat) : x ^ k = if 0 ≤ x ∨ k % 2 = 0 then |x| ^ k else -|x| ^ k := by
  by_cases hx : 0 ≤ x
  · rw [if_pos (.inl hx), abs_of_nonneg hx]
  · rcases Nat.even_or_odd k with h | h
    · rw [if_pos (.inr (Nat.even_iff.1 h)), h.pow_abs]
    · rw [if_neg (by rintro (h' | h'); exact hx h'; rw [Nat.odd_iff] at h; omega),
        abs_of_neg (by omega), h.neg_pow, neg_neg]

theorem pow_small {x k : Nat} (hk : k < 2 ^ 32) (hx : x < 2 ^ 63) (h : x ^ k < 2 ^ 63) : power x k = x ^ k := by
  rw [power_spec (by omega) (by omega), Nat.mod_eq_of_lt (by omega)]

theorem pow_sign_spec {x : Int} {k y : Nat} {n : Int} (hn : n.natAbs = k) (hy : y < 2 ^ 63) :
    (if 0 ≤ x ∨ n.tmod 2 = 0 then pure (toS 64 (y : Int)) else sgn 64 (-toS 64 (y : Int)) : Res Int) =
    .ok (if 0 ≤ x ∨ k % 2 = 0 then (y : Int) else -y) := by
  have e : n.tmod 2 = 0 ↔ k % 2 = 0 := by
    rw [← Int.dvd_iff_tmod_eq_zero]; omega
  rw [toS64 (by omega) (by omega)]
  by_cases c : 0 ≤ x ∨ k % 2 = 0
  · rw [if_pos c, if_pos (by rwa [e])]; rfl
  · rw [if_neg c, if_neg (by rwa [e]), sgn_ok (fits64 (by rw [abs_neg, abs_of_nonneg (by omega)]; omega))]

/-- C16: integer powers, of either sign; a negative power of zero throws. -/
theorem C16_power {r : Rational} {q : ℚ} {n : Int} (hr : RepR r q) (hn : |n| < 2 ^ 31)
    (h1 : q.num.natAbs ^ n.natAbs < 2 ^ 63) (h2 : q.den ^ n.natAbs < 2 ^ 63) :
    (n < 0 → q = 0 → Rational.power r n = .throw) ∧
    (0 ≤ n ∨ q ≠ 0 → ∃ s, Rational.power r n = .ok s ∧ RepR s (q ^ n)) := by
  obtain ⟨-, -, n1, n2⟩ := id hr
  have hn' := abs_lt.1 hn
  have cq := rat_coprime q
  obtain rfl := hr.eq
  have fa := sgn_ok (fitsAbs n1)
  have ua := toUAbs n1
  have hna : q.num.natAbs < 2 ^ 63 := by
    have := abs_lt.1 n1
    omega
  constructor
  · intro hn0 hq0
    unfold Rational.power
    rw [normalize_rep hr, Res.ok_bind]
    dsimp only
    rw [fa, Res.ok_bind, if_pos hn0, if_pos (by rw [hq0]; rfl)]
  · intro h
    obtain ⟨k, hk⟩ : ∃ k, n.natAbs = k := ⟨_, rfl⟩
    rw [hk] at h1 h2
    have hk32 : k < 2 ^ 32 := by omega
    have cop : IsCoprime (q.num ^ k) ((q.den : Int) ^ k) := cq.pow
    have ea : ((q.num.natAbs ^ k : Nat) : Int) = |q.num| ^ k := by
      rw [Nat.cast_pow, Int.natCast_natAbs]
    by_cases c : n < 0
    · have hq0 : q ≠ 0 := h.resolve_left (by omega)
      have hqn : q.num ≠ 0 := Rat.num_ne_zero.2 hq0
      have hnk : n = -(k : Int) := by omega
      have uk : toU 32 (-n) = k := by rw [toU_nonneg (by omega) (by omega)]; omega
      unfold Rational.power
      rw [normalize_rep hr, Res.ok_bind]
      dsimp only
      rw [fa, Res.ok_bind, if_pos c, if_neg hqn, sgn_ok (by constructor <;> norm_num <;> omega),
        Res.ok_bind, uk, ua, pow_small hk32 n2 h2, pow_small hk32 hna h1,
        pow_sign_spec (k := k) (by omega) h2, Res.ok_bind]
      refine ⟨_, rfl, ?_⟩
      have hv : (q ^ n) = (((if 0 ≤ q.num ∨ k % 2 = 0 then ((q.den ^ k : Nat) : Int) else -((q.den ^ k : Nat) : Int) : Int)) : ℚ)
          / ((q.num.natAbs ^ k : Nat) : ℚ) := by
        have e3 : ((q.num.natAbs ^ k : Nat) : ℚ) = ((|q.num| ^ k : Int) : ℚ) := by
          rw [← ea]; rfl
        rw [e3, hnk, zpow_neg, zpow_natCast]
        conv_lhs => rw [← Rat.num_div_den q, div_pow, inv_div]
        have e4 : (q.num : ℚ) ^ k = ((q.num ^ k : Int) : ℚ) := by push_cast; rfl
        rw [e4, pow_signed]
        by_cases c : 0 ≤ q.num ∨ k % 2 = 0
        · rw [if_pos c, if_pos c]; push_cast; rfl
        · rw [if_neg c, if_neg c]; push_cast; rw [div_neg, neg_div]
      refine repR_mk (Nat.pos_of_ne_zero (pow_ne_zero _ (by omega))) ?_ hv.symm ?_ h1
      · rw [ea]
        have : IsCoprime ((q.den : Int) ^ k) (|q.num| ^ k) := by
          rcases abs_choice q.num with h | h <;> rw [h]
          · exact cop.symm
          · exact cq.symm.neg_right.pow
        by_cases c : 0 ≤ q.num ∨ k % 2 = 0
        · rw [if_pos c]; push_cast; exact this
        · rw [if_neg c]; push_cast; exact this.neg_left
      · by_cases c : 0 ≤ q.num ∨ k % 2 = 0
        · rw [if_pos c, abs_of_nonneg (by omega)]; omega
        · rw [if_neg c, abs_neg, abs_of_nonneg (by omega)]; omega
    · have hnk : n = (k : Int) := by omega
      have uk : toU 32 n = k := by rw [toU_nonneg (by omega) (by omega)]; omega
      unfold Rational.power
      rw [normalize_rep hr, Res.ok_bind]
      dsimp only
      rw [fa, Res.ok_bind, if_neg c, uk, ua, pow_small hk32 n2 h2, pow_small hk32 hna h1,
        pow_sign_spec (k := k) (by omega) h1, Res.ok_bind]
      refine ⟨_, rfl, ?_⟩
      have e5 : (if 0 ≤ q.num ∨ k % 2 = 0 then ((q.num.natAbs ^ k : Nat) : Int) else -((q.num.natAbs ^ k : Nat) : Int)) = q.num ^ k := by
        rw [ea, ← pow_signed]
      rw [e5]
      refine repR_mk (Nat.pos_of_ne_zero (pow_ne_zero _ q.den_pos.ne')) (by push_cast; exact cop) ?_ ?_ h2
      · rw [hnk, zpow_natCast]
        conv_rhs => rw [← Rat.num_div_den q, div_pow]
        push_cast; rfl
      · rw [abs_pow, ← ea]; omega

/-! ### the hypotheses can be met -/

example : RepR ⟨7, 4⟩ (7 / 4) ∧ RepR ⟨-5, 6⟩ (-5 / 6) := by
  constructor <;>
  exact repR_mk (by norm_num) (by rw [Int.isCoprime_iff_gcd_eq_one]; decide) (by norm_num)
    (by norm_num) (by norm_num)
example : Rational.mod false ⟨7, 4⟩ ⟨-5, 6⟩ = .ok ⟨1, 12⟩ := by decide
example : Rational.neg ⟨7, 4⟩ = .ok ⟨-7, 4⟩ ∧ Rational.inverse ⟨-5, 6⟩ = .ok ⟨-6, 5⟩ := by decide
example : Rational.addInt ⟨-5, 6⟩ 3 = ⟨13, 6⟩ ∧ Rational.subInt ⟨-5, 6⟩ 3 = ⟨-23, 6⟩ := by decide
example : Rational.mulInt false ⟨-5, 6⟩ (-4) = .ok ⟨10, 3⟩ ∧ Rational.divInt true ⟨-5, 6⟩ 10 = .ok ⟨-1, 12⟩ := by
  decide
example : Rational.modInt false ⟨-5, 6⟩ (-2) = .ok ⟨7, 6⟩ ∧ Rational.mod1 false ⟨-5, 6⟩ = .ok ⟨1, 6⟩ := by decide
example : Rational.floor ⟨-5, 6⟩ = .ok (-1) ∧ Rational.ceil ⟨7, 4⟩ = .ok 2 ∧ Rational.quotient ⟨-5, 6⟩ 3 = .ok (-1) := by
  decide
example : Rational.lt ⟨-5, 6⟩ ⟨7, 4⟩ = .ok true ∧ Rational.beq ⟨-5, 6⟩ ⟨7, 4⟩ = .ok false := by decide
example : Rational.power ⟨-5, 6⟩ (-3) = .ok ⟨-216, 125⟩ := by decide +kernel

end Verif.Arith
