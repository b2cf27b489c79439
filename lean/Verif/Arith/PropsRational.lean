import Verif.Arith.PropsArith
import Verif.BigInt.RatLemmas2
/-
Property theorems C16: class `Rational<Numer_t>` computes with rational numbers exactly as long
as nothing overflows.  `RepR r q` says that `r` holds numerator and denominator of `q` in lowest
terms, both less than `2^63` in absolute value.
-/
namespace Verif.Arith
open Verif.BigInt (rat_unique rat_eq rat_coprime gcd_split den_pos)

/-- `r` stores `q` in lowest terms, with both parts in the range of positive signed values
(up to sign of the numerator) -/
def RepR (r : Rational) (q : ℚ) : Prop :=
  r.num = q.num ∧ r.den = q.den ∧ |q.num| < 2 ^ 63 ∧ q.den < 2 ^ 63

theorem RepR.eq {r : Rational} {q : ℚ} (h : RepR r q) : r = ⟨q.num, q.den⟩ := by
  obtain ⟨a, b⟩ := r
  obtain ⟨h1, h2, -⟩ := h
  simp only at h1 h2
  rw [h1, h2]

theorem fits64 {x : Int} (h : |x| < 2 ^ 63) : fits 64 x := by
  have := abs_lt.1 h
  exact ⟨by norm_num; omega, by norm_num; omega⟩

theorem toS64 {x : Int} (h0 : 0 ≤ x) (h : x < 2 ^ 63) : toS 64 x = x :=
  toS_small (by norm_num) h0 h

theorem tdiv_exact {d a : Int} (hd : 0 < d) : (d * a).tdiv d = a := Int.mul_tdiv_cancel_left _ hd.ne'

/-- `normalize` gives the reduced form of the fraction -/
theorem normalize_spec {n : Int} {d : Nat} (hd : 0 < d) (hn : |n| < 2 ^ 63) (hd' : d < 2 ^ 63) :
    ∃ s, Rational.normalize ⟨n, d⟩ = .ok s ∧ RepR s ((n : ℚ) / (d : Int)) := by
  obtain ⟨g, a, b, h1, h2, h3, h4, h5, -, -⟩ := gcd_split (a := n) (b := (d : Int)) (.inr (by omega))
  have hb : 0 < b := by
    by_contra hc
    have : g * b ≤ 0 := mul_nonpos_of_nonneg_of_nonpos h2.le (by omega)
    omega
  have hgQ : (g : ℚ) ≠ 0 := by exact_mod_cast h2.ne'
  have hbQ : (b : ℚ) ≠ 0 := by exact_mod_cast hb.ne'
  obtain ⟨e1, e2⟩ := rat_unique (q := (n : ℚ) / (d : Int)) hb h5 (by
    rw [h3, h4]; push_cast; field_simp)
  have hgd : g ≤ d := by rw [h4]; nlinarith
  have han : |a| ≤ |n| := by
    rw [h3, abs_mul, abs_of_pos h2]; nlinarith [abs_nonneg a]
  have hbd : b ≤ d := by rw [h4]; nlinarith
  unfold Rational.normalize
  simp only [gcd_spec hd hn, Res.ok_bind]
  by_cases c : 1 < Int.gcd n d
  · simp only [if_pos c, h1]
    rw [toS64 h2.le (by omega), if_neg h2.ne']
    have : n.tdiv g = a := by rw [h3, tdiv_exact h2]
    rw [this, sgn_ok (fits64 (by omega)), Res.ok_bind]
    refine ⟨_, rfl, e1.symm, ?_, by rw [e1]; omega, by omega⟩
    have : ((d / Int.gcd n d : Nat) : Int) = b := by
      push_cast
      rw [h1, h4, Int.mul_ediv_cancel_left _ h2.ne']
    show d / Int.gcd n d = _
    rw [← e2] at this
    exact_mod_cast this
  · rw [if_neg c]
    have : g = 1 := by omega
    subst this
    rw [one_mul] at h3 h4
    exact ⟨_, rfl, by rw [e1, h3], by have : (d : Int) = ((((n : ℚ) / (d : Int)).den : Nat) : Int) := by rw [e2, h4]
                                      exact_mod_cast this, by rw [e1]; omega, by omega⟩

/-- the constructor -/
theorem C16_make {n : Int} {d : Nat} (hd : 0 < d) (hn : |n| < 2 ^ 63) (hd' : d < 2 ^ 63) :
    ∃ s, Rational.make n d = .ok s ∧ RepR s ((n : ℚ) / (d : Int)) := normalize_spec hd hn hd'

theorem repR_fun {r s : Rational} {q : ℚ} (hr : RepR r q) (hs : RepR s q) : r = s := by
  obtain ⟨a, b⟩ := r
  obtain ⟨c, d⟩ := s
  obtain ⟨h1, h2, -⟩ := hr
  obtain ⟨h3, h4, -⟩ := hs
  simp only at *
  rw [h1, h2, h3, h4]

/-- normalising a normalised value changes nothing -/
theorem normalize_rep {r : Rational} {q : ℚ} (hr : RepR r q) : Rational.normalize r = .ok r := by
  have hq : 0 < q.den := q.den_pos
  obtain ⟨h1, h2, h3, h4⟩ := hr
  obtain ⟨s, e, hs⟩ := normalize_spec (n := q.num) hq h3 h4
  rw [← rat_eq q] at hs
  have := repR_fun ⟨h1, h2, h3, h4⟩ hs
  obtain ⟨a, b⟩ := r
  simp only at h1 h2
  subst h1; subst h2
  rw [e, this]

/-- a result given by an explicit reduced fraction -/
theorem make_reduced {n d : Int} {q : ℚ} (hd : 0 < d) (hc : IsCoprime n d) (h : (n : ℚ) / d = q)
    (hn : |q.num| < 2 ^ 63) (hq : q.den < 2 ^ 63) :
    ∃ s, Rational.make n d.toNat = .ok s ∧ RepR s q := by
  obtain ⟨e1, e2⟩ := rat_unique hd hc h
  have := C16_make (n := n) (d := d.toNat) (by omega) (by rw [← e1]; exact hn) (by omega)
  rwa [Int.toNat_of_nonneg hd.le, h] at this

theorem make_value {n d : Int} {q : ℚ} (hd : 0 < d) (h : (n : ℚ) / d = q)
    (hn : |n| < 2 ^ 63) (hq : d < 2 ^ 63) :
    ∃ s, Rational.make n d.toNat = .ok s ∧ RepR s q := by
  have := C16_make (n := n) (d := d.toNat) (by omega) hn (by omega)
  rwa [Int.toNat_of_nonneg hd.le, h] at this

/-! ### sum and difference -/

theorem addLike_spec {r x : Rational} {q p : ℚ} (hr : RepR r q) (hx : RepR x p) (σ : Int)
    (h1 : Nat.lcm q.den p.den < 2 ^ 63)
    (h2 : |q.num * (Nat.lcm q.den p.den / q.den : Nat)| < 2 ^ 63)
    (h3 : |p.num * (Nat.lcm q.den p.den / p.den : Nat)| < 2 ^ 63)
    (h4 : |q.num * (Nat.lcm q.den p.den / q.den : Nat) +
      σ * (p.num * (Nat.lcm q.den p.den / p.den : Nat))| < 2 ^ 63) :
    ∃ s, (do
      let r ← Rational.normalize r
      let (l, _, _) ← lcm r.den x.den
      if x.den = 0 then .undefined
      let a ← sgn 64 (r.num * toS 64 (l / r.den : Nat))
      let y ← sgn 64 (x.num * toS 64 (l / x.den : Nat))
      Rational.make (← sgn 64 (a + σ * y)) l : Res Rational) = .ok s ∧ RepR s (q + σ * p) := by
  have hq := q.den_pos
  have hp := p.den_pos
  have hL : 0 < Nat.lcm q.den p.den := Nat.lcm_pos hq hp
  obtain ⟨m, e, -⟩ := lcm_spec (b := p.den) hq (by omega) (by have := hr.2.2.2; omega)
  obtain ⟨u, hu⟩ := Nat.dvd_lcm_left q.den p.den
  obtain ⟨v, hv⟩ := Nat.dvd_lcm_right q.den p.den
  have eu : Nat.lcm q.den p.den / q.den = u := by rw [hu]; exact Nat.mul_div_cancel_left _ hq
  have ev : Nat.lcm q.den p.den / p.den = v := by rw [hv]; exact Nat.mul_div_cancel_left _ hp
  rw [eu] at h2 h4
  rw [ev] at h3 h4
  generalize hLL : Nat.lcm q.den p.den = L at *
  have hul : u ≤ L := by rw [hu]; nlinarith
  have hvl : v ≤ L := by rw [hv]; nlinarith
  rw [normalize_rep hr]
  simp only [Res.ok_bind, hr.1, hr.2.1, hx.1, hx.2.1, e, if_neg hp.ne', eu, ev]
  rw [toS64 (by omega) (by omega), toS64 (by omega) (by omega)]
  simp only [Res.ok_bind, sgn_ok (fits64 h2), sgn_ok (fits64 h3), sgn_ok (fits64 h4)]
  have hval : ((q.num * u + σ * (p.num * v) : Int) : ℚ) / ((L : Int) : ℚ) = q + σ * p := by
    have hqQ : (q.den : ℚ) ≠ 0 := by exact_mod_cast hq.ne'
    have hpQ : (p.den : ℚ) ≠ 0 := by exact_mod_cast hp.ne'
    have hLQ : (L : ℚ) ≠ 0 := by exact_mod_cast hL.ne'
    have huQ : (L : ℚ) = q.den * u := by exact_mod_cast hu
    have hvQ : (L : ℚ) = p.den * v := by exact_mod_cast hv
    have a1 : (q.num : ℚ) * u / L = q := by
      rw [div_eq_iff hLQ]
      nth_rewrite 2 [← Rat.num_div_den q]
      rw [huQ]; field_simp
    have a2 : (p.num : ℚ) * v / L = p := by
      rw [div_eq_iff hLQ]
      nth_rewrite 2 [← Rat.num_div_den p]
      rw [hvQ]; field_simp
    push_cast
    rw [add_div, a1, mul_div_assoc, a2]
  have := make_value (d := (L : Int)) (by omega) hval h4 (by omega)
  simpa using this

/-- C16: addition is exact when the common denominator, the two scaled numerators and their
sum are less than `2^63` in absolute value. -/
theorem C16_add {r x : Rational} {q p : ℚ} (hr : RepR r q) (hx : RepR x p)
    (h1 : Nat.lcm q.den p.den < 2 ^ 63)
    (h2 : |q.num * (Nat.lcm q.den p.den / q.den : Nat)| < 2 ^ 63)
    (h3 : |p.num * (Nat.lcm q.den p.den / p.den : Nat)| < 2 ^ 63)
    (h4 : |q.num * (Nat.lcm q.den p.den / q.den : Nat) +
      p.num * (Nat.lcm q.den p.den / p.den : Nat)| < 2 ^ 63) :
    ∃ s, Rational.add r x = .ok s ∧ RepR s (q + p) := by
  have := addLike_spec hr hx 1 h1 h2 h3 (by rwa [one_mul])
  simp only [one_mul, Int.cast_one] at this
  exact this

/-- C16: subtraction, under the same conditions. -/
theorem C16_sub {r x : Rational} {q p : ℚ} (hr : RepR r q) (hx : RepR x p)
    (h1 : Nat.lcm q.den p.den < 2 ^ 63)
    (h2 : |q.num * (Nat.lcm q.den p.den / q.den : Nat)| < 2 ^ 63)
    (h3 : |p.num * (Nat.lcm q.den p.den / p.den : Nat)| < 2 ^ 63)
    (h4 : |q.num * (Nat.lcm q.den p.den / q.den : Nat) -
      p.num * (Nat.lcm q.den p.den / p.den : Nat)| < 2 ^ 63) :
    ∃ s, Rational.sub r x = .ok s ∧ RepR s (q - p) := by
  have := addLike_spec hr hx (-1) h1 h2 h3 (by rwa [neg_one_mul, ← sub_eq_add_neg])
  simp only [neg_one_mul, Int.cast_neg, Int.cast_one, ← sub_eq_add_neg] at this
  exact this

theorem scaled_small {n : Int} {a b : Nat} (hn : |n| < 2 ^ 31) (ha : 0 < a) (hb : b < 2 ^ 31) :
    |n * (Nat.lcm a b / a : Nat)| < 2 ^ 62 := by
  have h1 : Nat.lcm a b / a ≤ b := by
    rw [Nat.div_le_iff_le_mul_add_pred ha]
    have : Nat.lcm a b ≤ a * b := by
      rcases Nat.eq_zero_or_pos b with rfl | h
      · simp
      · exact Nat.le_of_dvd (by positivity) (Nat.lcm_dvd_mul a b)
    omega
  generalize Nat.lcm a b / a = t at *
  rw [abs_mul, abs_of_nonneg (a := (t : Int)) (by omega)]
  have h2 : |n| ≤ 2 ^ 31 - 1 := by omega
  have h3 : (t : Int) ≤ 2 ^ 31 - 1 := by omega
  have := mul_le_mul h2 h3 (by omega) (by norm_num)
  exact lt_of_le_of_lt this (by norm_num)

/-- C16: sum and difference of rationals with numerators and denominators less than `2^31`. -/
theorem C16_add_sub_small {r x : Rational} {q p : ℚ} (hr : RepR r q) (hx : RepR x p)
    (h1 : |q.num| < 2 ^ 31) (h2 : q.den < 2 ^ 31) (h3 : |p.num| < 2 ^ 31) (h4 : p.den < 2 ^ 31) :
    (∃ s, Rational.add r x = .ok s ∧ RepR s (q + p)) ∧
    (∃ s, Rational.sub r x = .ok s ∧ RepR s (q - p)) := by
  have hl : Nat.lcm q.den p.den < 2 ^ 63 := by
    have : Nat.lcm q.den p.den ≤ q.den * p.den :=
      Nat.le_of_dvd (Nat.mul_pos q.den_pos p.den_pos) (Nat.lcm_dvd_mul ..)
    have := Nat.mul_lt_mul'' h2 h4
    omega
  have s1 := scaled_small h1 q.den_pos h4
  have s2 := scaled_small h3 p.den_pos h2
  rw [Nat.lcm_comm] at s2
  have a1 := abs_lt.1 s1
  have a2 := abs_lt.1 s2
  exact ⟨C16_add hr hx hl (by omega) (by omega) (abs_lt.2 (by constructor <;> omega)),
    C16_sub hr hx hl (by omega) (by omega) (abs_lt.2 (by constructor <;> omega))⟩

/-! ### product and quotient -/

/-- C16, full statement for multiplication: false of the code (finding F5). -/
def C16_mul_statement : Prop :=
  ∀ (r x : Rational) (q p : ℚ), RepR r q → RepR x p → |(q * p).num| < 2 ^ 63 → (q * p).den < 2 ^ 63 →
    ∃ s, Rational.mul r x = .ok s ∧ RepR s (q * p)

theorem repR_mk {n : Int} {d : Nat} {q : ℚ} (hd : 0 < d) (hc : IsCoprime n d) (h : (n : ℚ) / d = q)
    (h1 : |n| < 2 ^ 63) (h2 : d < 2 ^ 63) : RepR ⟨n, d⟩ q := by
  obtain ⟨e1, e2⟩ := rat_unique (n := n) (d := d) (q := q) (by omega) hc (by push_cast; exact h)
  have e3 : q.den = d := by exact_mod_cast e2
  exact ⟨e1.symm, e3.symm, by rw [e1]; exact h1, by rw [e3]; exact h2⟩

/-- C16 fails for multiplication: `-2/3 * 1/2` gives `9223372036854775807/3` (finding F5). -/
theorem C16_mul_false : ¬ C16_mul_statement := by
  intro h
  have h1 : RepR ⟨-2, 3⟩ (-2 / 3) := repR_mk (by norm_num)
    (by rw [Int.isCoprime_iff_gcd_eq_one]; decide) (by norm_num) (by norm_num) (by norm_num)
  have h2 : RepR ⟨1, 2⟩ (1 / 2) := repR_mk (by norm_num)
    (by rw [Int.isCoprime_iff_gcd_eq_one]; decide) (by norm_num) (by norm_num) (by norm_num)
  have h3 : RepR ⟨-1, 3⟩ (-2 / 3 * (1 / 2)) := repR_mk (by norm_num)
    (by rw [Int.isCoprime_iff_gcd_eq_one]; decide) (by norm_num) (by norm_num) (by norm_num)
  obtain ⟨s, e, hs⟩ := h _ _ _ _ h1 h2 h3.2.2.1 h3.2.2.2
  have e2 : Rational.mul ⟨-2, 3⟩ ⟨1, 2⟩ = .ok ⟨9223372036854775807, 3⟩ := by decide
  rw [e2] at e
  injection e with e
  rw [← e] at hs
  have := repR_fun hs h3
  simp at this

/-- the cross reduced product -/
theorem cross {q p : ℚ} {d a b d' a' b' : Int} (h1 : q.num = d * a) (h2 : (p.den : Int) = d * b)
    (hc : IsCoprime a b) (h1' : p.num = d' * a') (h2' : (q.den : Int) = d' * b')
    (hc' : IsCoprime a' b') (hd : 0 < d) (hd' : 0 < d') (hb : 0 < b) (hb' : 0 < b') :
    IsCoprime (a * a') (b' * b) ∧ ((a * a' : Int) : ℚ) / ((b' * b : Int) : ℚ) = q * p := by
  have cq := rat_coprime q
  have cp := rat_coprime p
  constructor
  · have c1 : IsCoprime a b' :=
      (cq.of_isCoprime_of_dvd_left ⟨d, by rw [h1]; ring⟩).of_isCoprime_of_dvd_right ⟨d', by rw [h2']; ring⟩
    have c2 : IsCoprime a' b :=
      (cp.of_isCoprime_of_dvd_left ⟨d', by rw [h1']; ring⟩).of_isCoprime_of_dvd_right ⟨d, by rw [h2]; ring⟩
    exact (c1.mul_right hc).mul_left (hc'.mul_right c2)
  · conv_rhs => rw [rat_eq q, rat_eq p, h1, h2, h1', h2']
    have t1 : (d : ℚ) ≠ 0 := by exact_mod_cast hd.ne'
    have t2 : (d' : ℚ) ≠ 0 := by exact_mod_cast hd'.ne'
    have t3 : (b : ℚ) ≠ 0 := by exact_mod_cast hb.ne'
    have t4 : (b' : ℚ) ≠ 0 := by exact_mod_cast hb'.ne'
    push_cast; field_simp

theorem pos_of_mul {d b : Int} {n : Int} (h : n = d * b) (hn : 0 < n) (hd : 0 < d) : 0 < b := by
  by_contra hc
  have : d * b ≤ 0 := mul_nonpos_of_nonneg_of_nonpos hd.le (by omega)
  omega

/-- one of the two cross reductions of `operator*` -/
theorem udiv_spec {n a d : Int} {g : Nat} (hg : (g : Int) = d) (hd : 0 < d) (hn : n = d * a)
    (hs : 0 ≤ n ∨ g = 1) (hb : |n| < 2 ^ 63) :
    (if g = 1 then n else toS 64 (toU 64 n / g : Nat)) = a := by
  by_cases c : g = 1
  · rw [if_pos c, hn, ← hg, c]; simp
  · rw [if_neg c]
    have h0 : 0 ≤ n := hs.resolve_right c
    rw [abs_of_nonneg h0] at hb
    have ha : 0 ≤ a := by
      by_contra hc
      have : d * a < 0 := mul_neg_of_pos_of_neg hd (by omega)
      omega
    rw [toU_nonneg h0 (by omega)]
    push_cast
    rw [Int.toNat_of_nonneg h0, hg, hn, Int.mul_ediv_cancel_left _ hd.ne']
    exact toS64 ha (by nlinarith)

theorem natDiv_spec {n : Nat} {a d : Int} {g : Nat} (hg : (g : Int) = d) (hd : 0 < d) (hn : (n : Int) = d * a) :
    ((if g = 1 then n else n / g : Nat) : Int) = a := by
  by_cases c : g = 1
  · rw [if_pos c, hn, ← hg, c]; simp
  · rw [if_neg c]
    push_cast
    rw [hg, hn, Int.mul_ediv_cancel_left _ hd.ne']

theorem natMulMod {x y : Nat} {u v : Int} (hx : (x : Int) = u) (hy : (y : Int) = v)
    (h0 : 0 ≤ u * v) (h : u * v < 2 ^ 64) : x * y % 𝐌 = (u * v).toNat := by
  subst hx; subst hy
  rw [← Nat.cast_mul, Int.toNat_natCast, Nat.mod_eq_of_lt (by norm_cast at h)]

theorem toU_cast {x : Int} (h0 : 0 ≤ x) (h : x < 2 ^ 64) : (toU 64 x : Int) = x := by
  rw [toU_nonneg h0 h, Int.toNat_of_nonneg h0]

/-- the reduced quotient -/
theorem div_core {d a b d' a' b' : Int} {q p : ℚ} (h1 : q.num = d * a) (h2 : p.num = d * b)
    (hc : IsCoprime a b) (h1' : (q.den : Int) = d' * a') (h2' : (p.den : Int) = d' * b')
    (hc' : IsCoprime a' b') (hd : 0 < d) (hd' : 0 < d') (hb : b ≠ 0) (ha' : 0 < a') (hb' : 0 < b') :
    IsCoprime (a * b') (a' * b) ∧ ((a * b' : Int) : ℚ) / ((a' * b : Int) : ℚ) = q / p := by
  have cq := rat_coprime q
  have cp := rat_coprime p
  constructor
  · have c1 : IsCoprime a a' :=
      (cq.of_isCoprime_of_dvd_left ⟨d, by rw [h1]; ring⟩).of_isCoprime_of_dvd_right ⟨d', by rw [h1']; ring⟩
    have c2 : IsCoprime b b' :=
      (cp.of_isCoprime_of_dvd_left ⟨d, by rw [h2]; ring⟩).of_isCoprime_of_dvd_right ⟨d', by rw [h2']; ring⟩
    exact (c1.mul_right hc).mul_left (hc'.symm.mul_right c2.symm)
  · conv_rhs => rw [rat_eq q, rat_eq p, h1, h2, h1', h2']
    have t1 : (d : ℚ) ≠ 0 := by exact_mod_cast hd.ne'
    have t2 : (d' : ℚ) ≠ 0 := by exact_mod_cast hd'.ne'
    have t3 : (b : ℚ) ≠ 0 := by exact_mod_cast hb
    have t4 : (a' : ℚ) ≠ 0 := by exact_mod_cast ha'.ne'
    have t5 : (b' : ℚ) ≠ 0 := by exact_mod_cast hb'.ne'
    push_cast; field_simp

theorem ite_pair {α β : Type} (c : Prop) [Decidable c] (a a' : α) (b b' : β) :
    (if c then (a, b) else (a', b')) = (if c then a else a', if c then b else b') := by
  split <;> rfl

/-- C16: multiplication is exact when each numerator is nonnegative or has no common factor
with the other denominator, and the result is representable. -/
theorem C16_mul_partial {r x : Rational} {q p : ℚ} (hr : RepR r q) (hx : RepR x p)
    (hq : 0 ≤ q ∨ Int.gcd q.num p.den = 1) (hp : 0 ≤ p ∨ Int.gcd p.num q.den = 1)
    (hn : |(q * p).num| < 2 ^ 63) (hd : (q * p).den < 2 ^ 63) :
    ∃ s, Rational.mul r x = .ok s ∧ RepR s (q * p) := by
  have qd := den_pos q
  have pd := den_pos p
  obtain ⟨d, a, b, g1, d0, h1, h2, hc, -, -⟩ := gcd_split (a := q.num) (b := (p.den : Int)) (.inr pd.ne')
  obtain ⟨d', a', b', g1', d0', h1', h2', hc', -, -⟩ := gcd_split (a := p.num) (b := (q.den : Int)) (.inr qd.ne')
  have b0 := pos_of_mul h2 pd d0
  have b0' := pos_of_mul h2' qd d0'
  obtain ⟨k1, k2⟩ := cross h1 h2 hc h1' h2' hc' d0 d0' b0 b0'
  have bb : 0 < b' * b := by positivity
  obtain ⟨e1, e2⟩ := rat_unique bb k1 k2
  obtain ⟨s, es, hs⟩ := make_reduced bb k1 k2 hn hd
  refine ⟨s, ?_, hs⟩
  unfold Rational.mul
  rw [normalize_rep hr, Res.ok_bind, normalize_rep hx, Res.ok_bind]
  simp only [hr.1, hr.2.1, hx.1, hx.2.1, gcd_spec p.den_pos hr.2.2.1, gcd_spec q.den_pos hx.2.2.1,
    Res.ok_bind, ite_pair]
  have n1 : Int.gcd q.num p.den ≠ 0 := by omega
  have n2 : Int.gcd p.num q.den ≠ 0 := by omega
  simp only [if_neg n1, if_neg n2]
  rw [udiv_spec g1 d0 h1 (hq.imp Rat.num_nonneg.2 id) hr.2.2.1,
    udiv_spec g1' d0' h1' (hp.imp Rat.num_nonneg.2 id) hx.2.2.1]
  have m1 := natDiv_spec g1 d0 h2
  have m2 := natDiv_spec g1' d0' h2'
  rw [sgn_ok (fits64 (by rw [← e1]; exact hn)), Res.ok_bind, ← es]
  rw [natMulMod m2 m1 bb.le (by omega)]

/-- C16: division of rationals is exact when the result is representable. -/
theorem C16_div (nd : Bool) {r x : Rational} {q p : ℚ} (hr : RepR r q) (hx : RepR x p) (h0 : p ≠ 0)
    (hn : |(q / p).num| < 2 ^ 63) (hd : (q / p).den < 2 ^ 63) :
    ∃ s, Rational.div nd r x = .ok s ∧ RepR s (q / p) := by
  have qd := den_pos q
  have pd := den_pos p
  have pn : p.num ≠ 0 := Rat.num_ne_zero.2 h0
  obtain ⟨d, a, b, g1, d0, h1, h2, hc, -, -⟩ := gcd_split (a := q.num) (b := p.num) (.inr pn)
  obtain ⟨d', a', b', g1', d0', h1', h2', hc', -, -⟩ := gcd_split (a := (q.den : Int)) (b := (p.den : Int)) (.inr pd.ne')
  have b0' := pos_of_mul h2' pd d0'
  have a0' := pos_of_mul h1' qd d0'
  have bne : b ≠ 0 := by rintro rfl; simp at h2; exact h0 h2
  obtain ⟨k1, k2⟩ := div_core h1 h2 hc h1' h2' hc' d0 d0' bne a0' b0'
  have pabs' := hx.2.2.1
  have qabs' := hr.2.2.1
  have pabs := abs_lt.1 hx.2.2.1
  have qabs := abs_lt.1 hr.2.2.1
  have hpa : 0 < p.num.natAbs := by omega
  have hdle : d ≤ |p.num| := by
    rw [h2, abs_mul, abs_of_pos d0]
    have : 0 < |b| := abs_pos.2 bne
    nlinarith
  have hale : |a| ≤ |q.num| := by
    rw [h1, abs_mul, abs_of_pos d0]; nlinarith [abs_nonneg a]
  have hble : |b| ≤ |p.num| := by
    rw [h2, abs_mul, abs_of_pos d0]; nlinarith [abs_nonneg b]
  have gu : Nat.gcd q.den p.den = Int.gcd (q.den : Int) (p.den : Int) := by simp [Int.gcd]
  have gg : Int.gcd q.num (p.num.natAbs : Int) = Int.gcd q.num p.num := by
    unfold Int.gcd; rw [Int.natAbs_natCast]
  have b1 : (b' : Int) ≤ p.den := by rw [h2']; nlinarith
  have m1 := natDiv_spec g1' d0' h1'
  have m2 := natDiv_spec g1' d0' h2'
  have bx := abs_le.1 hble
  have ax := abs_le.1 hale
  obtain rfl := hr.eq
  obtain rfl := hx.eq
  unfold Rational.div
  rw [Res.assertIn_bind nd (decide_eq_true pn)]
  rw [normalize_rep hr, Res.ok_bind, normalize_rep hx, Res.ok_bind]
  rw [ugcd_spec p.den_pos, Res.ok_bind, gu, ite_pair]
  dsimp only
  have fp : fits 64 (p.num.natAbs : Int) := fits64 (by rw [Int.natCast_natAbs, abs_abs]; exact pabs')
  have up : toU 64 (p.num.natAbs : Int) = p.num.natAbs := by
    have := toU_nonneg (w := 64) (x := (p.num.natAbs : Int)) (by omega)
      (by rw [Int.natCast_natAbs]; omega)
    rwa [Int.toNat_natCast] at this
  rw [sgn_ok fp, Res.ok_bind, up]
  rw [gcd_spec hpa hr.2.2.1, Res.ok_bind, gg, g1, toS64 d0.le (by omega)]
  simp only [if_neg d0.ne']
  have hpair : (if d = 1 then (pure (q.num, p.num) : Res (Int × Int))
      else do pure (← sgn 64 (q.num.tdiv d), ← sgn 64 (p.num.tdiv d))) = .ok (a, b) := by
    by_cases c : d = 1
    · rw [if_pos c, h1, h2, c]; simp
    · rw [if_neg c, h1, h2, tdiv_exact d0, tdiv_exact d0, sgn_ok (fits64 (by omega)),
        sgn_ok (fits64 (by omega))]; rfl
  rw [hpair, Res.ok_bind]
  simp only []
  rw [m2, toS64 b0'.le (by have := hx.2.2.2; omega)]
  rcases lt_or_gt_of_ne bne with hb | hb
  · have hpos : 0 < a' * -b := mul_pos a0' (by omega)
    have k1' : IsCoprime (-a * b') (a' * -b) := by rw [neg_mul, mul_neg]; exact k1.neg_neg
    have k2' : ((-a * b' : Int) : ℚ) / ((a' * -b : Int) : ℚ) = q / p := by
      rw [← k2]; push_cast; rw [neg_mul, mul_neg, neg_div_neg_eq]
    obtain ⟨e1, e2⟩ := rat_unique hpos k1' k2'
    obtain ⟨s, es, hs⟩ := make_reduced hpos k1' k2' hn hd
    refine ⟨s, ?_, hs⟩
    rw [if_neg (by omega), sgn_ok (fits64 (x := -a) (by rw [abs_neg]; omega)), Res.ok_bind,
      sgn_ok (fits64 (x := -b) (by rw [abs_neg]; omega)), Res.ok_bind,
      sgn_ok (fits64 (by rw [← e1]; exact hn)), Res.ok_bind,
      natMulMod m1 (toU_cast (by omega) (by omega)) hpos.le (by omega), es]
  · have hpos : 0 < a' * b := mul_pos a0' (by omega)
    obtain ⟨e1, e2⟩ := rat_unique hpos k1 k2
    obtain ⟨s, es, hs⟩ := make_reduced hpos k1 k2 hn hd
    refine ⟨s, ?_, hs⟩
    rw [if_pos hb, sgn_ok (fits64 (by rw [← e1]; exact hn)), Res.ok_bind,
      natMulMod m1 (toU_cast (by omega) (by omega)) hpos.le (by omega), es]

end Verif.Arith
