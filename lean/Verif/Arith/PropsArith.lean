import Verif.Arith.Lemmas
/-
Property theorems C13 (divide, remainder), C14 (gcd, lcm), C15 (modular arithmetic, power) and
C17 (`Split_integer`) about the model `Verif.Arith`.
-/
namespace Verif.Arith

/-! ### C13 -/

/-- C13: for every width of the signed type, all dividends and positive divisors of that type,
`divide` is floor division and never overflows. -/
theorem C13_divide {w : Nat} (hw : 0 < w) {a b : Int} (ha : fits w a) (hb : fits w b) (h0 : 0 < b) :
    divide w a b = .ok (a / b) := by
  have hp := pow_double hw
  obtain ⟨a1, a2⟩ := ha
  obtain ⟨b1, b2⟩ := hb
  generalize hM : (2 : Int) ^ (w - 1) = M at *
  have eb : toU w b = b.toNat := toU_nonneg h0.le (by omega)
  have hb' : b.toNat ≠ 0 := by omega
  have key : ∀ c : Int, 0 ≤ c → c < M → toS w ((toU w c / b.toNat : Nat) : Int) = c / b := by
    intro c c0 c1
    rw [toU_nonneg c0 (by omega)]
    push_cast
    rw [Int.toNat_of_nonneg c0, Int.toNat_of_nonneg h0.le]
    have h1 : 0 ≤ c / b := Int.ediv_nonneg c0 h0.le
    have h2 : c / b ≤ c := Int.ediv_le_self _ c0
    exact toS_small hw h1 (by rw [hM]; omega)
  unfold divide
  simp only [eb, if_neg hb']
  by_cases c : 0 ≤ a
  · rw [if_pos c, key a c a2]
  · have f1 : fits w (-1 - a) := ⟨by rw [hM]; omega, by rw [hM]; omega⟩
    rw [if_neg c, sgn_ok f1, Res.ok_bind, key _ (by omega) (by omega)]
    have e : -1 - (-1 - a) / b = a / b := by
      have h1 := Int.mul_ediv_add_emod (-1 - a) b
      have h2 := Int.emod_nonneg (-1 - a) h0.ne'
      have h3 := Int.emod_lt_of_pos (-1 - a) h0
      symm
      rw [Int.ediv_eq_iff_of_pos h0]
      constructor <;> nlinarith
    rw [e]
    apply sgn_ok
    have h1 : a / b < 0 := Int.ediv_neg_of_neg_of_pos (by omega) h0
    have h2 : a ≤ a / b := by
      have h2 := Int.emod_nonneg a h0.ne'
      have h3 := Int.mul_ediv_add_emod a b
      have h4 := Int.emod_lt_of_pos a h0
      rw [Int.le_ediv_iff_mul_le h0]; nlinarith
    exact ⟨by rw [hM]; omega, by rw [hM]; omega⟩

/-- C13: `remainder` is the nonnegative remainder of that division, and in a debugging build
its assertion holds. -/
theorem C13_remainder (nd : Bool) {w : Nat} (hw : 0 < w) {a b : Int} (ha : fits w a) (hb : fits w b)
    (h0 : 0 < b) : remainder nd w a b = .ok (a % b) := by
  have hp := pow_double hw
  obtain ⟨a1, a2⟩ := ha
  obtain ⟨b1, b2⟩ := hb
  have hP : ((2 ^ w : Nat) : Int) = 2 ^ w := by push_cast; rfl
  generalize hM : (2 : Int) ^ (w - 1) = M at *
  have eb : toU w b = b.toNat := toU_nonneg h0.le (by omega)
  have hb' : b.toNat ≠ 0 := by omega
  have hr0 := Int.emod_nonneg a h0.ne'
  have hr1 := Int.emod_lt_of_pos a h0
  have key : ∀ c : Int, 0 ≤ c → c < M → ((toU w c % b.toNat : Nat) : Int) = c % b := by
    intro c c0 c1
    rw [toU_nonneg c0 (by omega)]
    push_cast
    rw [Int.toNat_of_nonneg c0, Int.toNat_of_nonneg h0.le]
  unfold remainder
  rw [Res.assertIn_bind nd (decide_eq_true h0)]
  simp only [eb, if_neg hb']
  by_cases c : 0 ≤ a
  · rw [if_pos c, key a c a2]
    exact congrArg Res.ok (toS_small hw hr0 (by rw [hM]; omega))
  · have f1 : fits w (-1 - a) := ⟨by rw [hM]; omega, by rw [hM]; omega⟩
    rw [if_neg c, sgn_ok f1, Res.ok_bind]
    refine congrArg Res.ok ?_
    have k := key (-1 - a) (by omega) (by omega)
    have hc0 := Int.emod_nonneg (-1 - a) h0.ne'
    have hc1 := Int.emod_lt_of_pos (-1 - a) h0
    have e : a % b = b - 1 - (-1 - a) % b := by
      have h1 := Int.mul_ediv_add_emod (-1 - a) b
      have : a = (b - 1 - (-1 - a) % b) + b * (-1 - (-1 - a) / b) := by linarith
      nth_rewrite 1 [this]
      rw [Int.add_mul_emod_self_left, Int.emod_eq_of_lt (by omega) (by omega)]
    generalize toU w (-1 - a) % b.toNat = t at *
    have hlt : (2 ^ w - 1 - t + b.toNat) % 2 ^ w = b.toNat - 1 - t := by
      rw [show 2 ^ w - 1 - t + b.toNat = (b.toNat - 1 - t) + 2 ^ w by omega, Nat.add_mod_right,
        Nat.mod_eq_of_lt (by omega)]
    rw [hlt]
    have : ((b.toNat - 1 - t : Nat) : Int) = a % b := by omega
    rw [this]
    exact toS_small hw hr0 (by rw [hM]; omega)

/-- C13: quotient and remainder belong together. -/
theorem C13_division (nd : Bool) {w : Nat} (hw : 0 < w) {a b : Int} (ha : fits w a) (hb : fits w b)
    (h0 : 0 < b) : ∃ q r, divide w a b = .ok q ∧ remainder nd w a b = .ok r ∧
      a = q * b + r ∧ 0 ≤ r ∧ r < b :=
  ⟨_, _, C13_divide hw ha hb h0, C13_remainder nd hw ha hb h0,
    by rw [mul_comm]; exact (Int.mul_ediv_add_emod a b).symm,
    Int.emod_nonneg a h0.ne', Int.emod_lt_of_pos a h0⟩

/-- C13: unsigned division. -/
theorem C13_divideU {a b : Nat} (h : 0 < b) : divideU a b = .ok (a / b) := if_neg (by omega)

example : fits 32 (-2 ^ 31) ∧ fits 32 7 ∧ divide 32 (-2 ^ 31) 7 = .ok (-306783379) ∧
    remainder false 32 (-2 ^ 31) 7 = .ok 5 := by decide

/-! ### C14 -/

/-- C14: `unsigned_gcd` terminates and gives the greatest common divisor. -/
theorem C14_unsignedGcd (a : Nat) {b : Nat} (h : 0 < b) : unsignedGcd a b = .ok (Nat.gcd a b) :=
  ugcd_spec h

/-- C14: `gcd` with signed first argument. -/
theorem C14_gcd {a : Int} {b : Nat} (hb : 0 < b) (ha : -2 ^ 63 < a ∧ a < 2 ^ 63) :
    gcd a b = .ok (Int.gcd a b) := gcd_spec hb (abs_lt.2 ha)

/-- C14: `div_gcd(d,a)` is `d/gcd(a,d)`. -/
theorem C14_divGcd {d : Nat} (a : Nat) (h : 0 < d) : divGcd d a = .ok (d / Nat.gcd a d) := by
  unfold divGcd; rw [ugcd_spec h]; rfl

/-- C14: `lcm(a,b,d,p)` returns the least common multiple, sets `d` to the greatest common
divisor and `p` to a multiple of `a` that is congruent to it modulo `b`. -/
theorem C14_lcm {a b : Nat} (ha : 0 < a) (ha' : a < 2 ^ 64) (hl : Nat.lcm a b < 2 ^ 64) :
    ∃ p, lcm a b = .ok (Nat.lcm a b, Nat.gcd a b, p) ∧ a ∣ p ∧ p % b = Nat.gcd a b % b ∧
      (0 < b → p ≤ Nat.lcm a b) := by
  obtain ⟨p, h1, h2, h3, h4⟩ := lcm_spec ha hl ha'
  refine ⟨p, h1, h2, ?_, h4⟩
  have := Int.emod_emod_of_dvd
  have := (Int.emod_eq_emod_iff_emod_sub_eq_zero).2 (Int.emod_eq_zero_of_dvd h3)
  exact_mod_cast this

/-- C14: the documented form `p % b == gcd`, `p < lcm`, valid when `b` does not divide `a`. -/
theorem C14_lcm_bezout {a b : Nat} (ha : 0 < a) (ha' : a < 2 ^ 64) (hl : Nat.lcm a b < 2 ^ 64)
    (hb : 0 < b) (hd : ¬ b ∣ a) :
    ∃ p, lcm a b = .ok (Nat.lcm a b, Nat.gcd a b, p) ∧ p % a = 0 ∧ p % b = Nat.gcd a b ∧
      p < Nat.lcm a b := by
  obtain ⟨p, h1, h2, h3, h4⟩ := C14_lcm ha ha' hl
  have hg : Nat.gcd a b < b := by
    refine lt_of_le_of_ne (Nat.le_of_dvd hb (Nat.gcd_dvd_right ..)) fun h => hd ?_
    rw [← h]; exact Nat.gcd_dvd_left ..
  rw [Nat.mod_eq_of_lt hg] at h3
  refine ⟨p, h1, Nat.mod_eq_zero_of_dvd h2, h3, lt_of_le_of_ne (h4 hb) ?_⟩
  rintro rfl
  rw [Nat.mod_eq_zero_of_dvd (Nat.dvd_lcm_right ..)] at h3
  have := Nat.gcd_pos_of_pos_left b ha
  omega

/-- C14: what the header promises without exception fails when `b` divides `a`:
`lcm(6,3,d,p)` sets `d=3` and `p=0`, so `p%3` is not `d` (documentation finding F24). -/
theorem C14_lcm_doc_false : lcm 6 3 = .ok (6, 3, 0) ∧ 0 % 3 ≠ 3 := by decide

example : lcm 12 18 = .ok (36, 6, 24) ∧ Nat.lcm 12 18 < 2 ^ 64 := by decide

/-! ### C15 -/

/-- C15: `modAdd`, for the full range of moduli (no intermediate overflow). -/
theorem C15_modAdd {a b n : Nat} (hn : n < 2 ^ 64) (ha : a < n) (hb : b < n) :
    modAdd a b n = (a + b) % n := by
  unfold modAdd
  have e : (n + (18446744073709551616 - b)) % 18446744073709551616 = n - b := by omega
  simp only [e]
  split
  · rw [Nat.mod_eq_of_lt (by omega : a + b < n)]; omega
  · have : (a + b) % n = a + b - n := by
      rw [Nat.mod_eq_sub_mod (by omega), Nat.mod_eq_of_lt (by omega)]
    omega

/-- C15: `modProd` is right, and prints no message, for moduli up to `2^32`. -/
theorem C15_modProd {a b n : Nat} (hn : n ≤ 2 ^ 32) (ha : a < n) (hb : b < n) :
    modProd a b n = .ok (false, a * b % n) := by
  have : a * b < 18446744073709551616 := by
    have := Nat.mul_lt_mul'' ha hb
    have := Nat.mul_le_mul hn hn
    omega
  unfold modProd
  rw [if_neg (by omega), Nat.mod_eq_of_lt this, decide_eq_false (by omega)]

/-- C15: beyond that a message is printed, but a wrong value is returned nevertheless
(finding F25): the modulus `2^32 + 15` with `a = b = 2^32 + 1`. -/
theorem C15_modProd_large : modProd (2 ^ 32 + 1) (2 ^ 32 + 1) (2 ^ 32 + 15) = .ok (true, 4294967282) ∧
    (2 ^ 32 + 1) * (2 ^ 32 + 1) % (2 ^ 32 + 15) = 196 := by decide

/-- C15: `power` is exact modulo `2^64`. -/
theorem C15_power {x n : Nat} (hx : x < 2 ^ 64) (hn : n < 2 ^ 32) : power x n = x ^ n % 2 ^ 64 :=
  power_spec (by omega) hx

/-- C15: powers of −1 and of `i`. -/
theorem C15_exp (n : Int) : expMinus1 n = (if Even n then 1 else -1) ∧
    (∀ m, n = 2 * m → expI n = .ok (if Even m then 1 else -1)) ∧
    (¬ Even n → expI n = .assertFail) := by
  have ht : ∀ k : Int, 0 < k → (n.tmod k = 0 ↔ n % k = 0) := fun k hk => by
    rw [← Int.dvd_iff_tmod_eq_zero, Int.dvd_iff_emod_eq_zero]
  refine ⟨?_, ?_, ?_⟩
  · unfold expMinus1
    simp only [ht 2 (by norm_num), Int.even_iff]
  · rintro m rfl
    have h2 : (2 * m).tmod 2 = 0 := (ht 2 (by norm_num)).2 (by omega)
    unfold expI
    rw [Res.assert_bind (decide_eq_true h2)]
    simp only [ht 4 (by norm_num), Int.even_iff, Res.pure_eq]
    congr 2
    exact propext ⟨fun h => by omega, fun h => by omega⟩
  · intro h
    rw [Int.even_iff, ← ht 2 (by norm_num)] at h
    unfold expI
    rw [decide_eq_false h]
    rfl

example : power 7 20 = 7 ^ 20 ∧ modAdd (2 ^ 64 - 3) (2 ^ 64 - 5) (2 ^ 64 - 1) = 2 ^ 64 - 7 ∧
    modProd (2 ^ 32 - 1) (2 ^ 32 - 2) (2 ^ 32) = .ok (false, 2) := by decide +kernel

/-! ### C17: `Split_integer` is the ring `ℤ[s]/(s²-1)` -/

/-- `x` holds the split integer `a + b·s` -/
def RepS (x : SplitInt) (a b : Int) : Prop :=
  x.ev1 = a + b ∧ x.evm1 = a - b ∧ fits 32 (a + b) ∧ fits 32 (a - b)

theorem raw_rep {x y a b : Int} (hx : x = a + b) (hy : y = a - b) (h1 : fits 32 (a + b))
    (h2 : fits 32 (a - b)) : ∃ z, SplitInt.raw x y = .ok z ∧ RepS z a b := by
  subst hx; subst hy
  unfold SplitInt.raw
  rw [sgn_ok h1, sgn_ok h2]
  exact ⟨_, rfl, rfl, rfl, h1, h2⟩

/-- C17: construction from the two coefficients, and their recovery. -/
theorem C17_make {a b : Int} (h1 : fits 32 (a + b)) (h2 : fits 32 (a - b)) :
    ∃ z, SplitInt.make a b = .ok z ∧ RepS z a b := raw_rep rfl rfl h1 h2

/-- C17: `e` and `s` give the coefficients, `s_to_1` and `s_to_minus_1` the evaluations. -/
theorem C17_parts {x : SplitInt} {a b : Int} (h : RepS x a b) :
    x.e = a ∧ x.s = b ∧ x.sTo1 = a + b * 1 ∧ x.sToMinus1 = a + b * (-1) := by
  obtain ⟨h1, h2, ⟨f1, f2⟩, f3, f4⟩ := h
  norm_num at f1 f2 f3 f4
  have key : ∀ c : Int, -2147483648 ≤ c → c < 2147483648 → toS 32 c = c := by
    intro c c1 c2
    unfold toS; norm_num; split <;> omega
  refine ⟨?_, ?_, by rw [SplitInt.sTo1, h1]; ring, by rw [SplitInt.sToMinus1, h2]; ring⟩
  · rw [SplitInt.e, h1, h2, show a + b + (a - b) = a * 2 by ring, Int.mul_tdiv_cancel _ (by norm_num)]
    exact key a (by omega) (by omega)
  · rw [SplitInt.s, h1, h2, show a + b - (a - b) = b * 2 by ring, Int.mul_tdiv_cancel _ (by norm_num)]
    exact key b (by omega) (by omega)

/-- C17: equality and zero test. -/
theorem C17_eq {x y : SplitInt} {a b c d : Int} (hx : RepS x a b) (hy : RepS y c d) :
    (SplitInt.beq x y = true ↔ a = c ∧ b = d) ∧ (SplitInt.isZero x = true ↔ a = 0 ∧ b = 0) := by
  obtain ⟨h1, h2, -⟩ := hx
  obtain ⟨h3, h4, -⟩ := hy
  unfold SplitInt.beq SplitInt.isZero
  simp only [Bool.and_eq_true, beq_iff_eq, h1, h2, h3, h4]
  constructor <;> omega

/-- C17: the ring operations with `s² = 1`, whenever the two evaluations of the result fit. -/
theorem C17_ring {x y : SplitInt} {a b c d : Int} (hx : RepS x a b) (hy : RepS y c d) :
    (fits 32 (a + c + (b + d)) → fits 32 (a + c - (b + d)) →
      ∃ z, SplitInt.add x y = .ok z ∧ RepS z (a + c) (b + d)) ∧
    (fits 32 (a - c + (b - d)) → fits 32 (a - c - (b - d)) →
      ∃ z, SplitInt.sub x y = .ok z ∧ RepS z (a - c) (b - d)) ∧
    (fits 32 (-a + -b) → fits 32 (-a - -b) → ∃ z, SplitInt.neg x = .ok z ∧ RepS z (-a) (-b)) ∧
    (fits 32 (a * c + b * d + (a * d + b * c)) → fits 32 (a * c + b * d - (a * d + b * c)) →
      ∃ z, SplitInt.mul x y = .ok z ∧ RepS z (a * c + b * d) (a * d + b * c)) := by
  obtain ⟨h1, h2, -⟩ := hx
  obtain ⟨h3, h4, -⟩ := hy
  refine ⟨raw_rep ?_ ?_, raw_rep ?_ ?_, raw_rep ?_ ?_, raw_rep ?_ ?_⟩ <;>
    simp only [h1, h2, h3, h4] <;> ring

/-- C17: operations with an integer. -/
theorem C17_int {x : SplitInt} {a b : Int} (n : Int) (hx : RepS x a b) :
    (fits 32 (a + n + b) → fits 32 (a + n - b) → ∃ z, SplitInt.addInt x n = .ok z ∧ RepS z (a + n) b) ∧
    (fits 32 (a - n + b) → fits 32 (a - n - b) → ∃ z, SplitInt.subInt x n = .ok z ∧ RepS z (a - n) b) ∧
    (fits 32 (a * n + b * n) → fits 32 (a * n - b * n) →
      ∃ z, SplitInt.mulInt x n = .ok z ∧ RepS z (a * n) (b * n)) := by
  obtain ⟨h1, h2, -⟩ := hx
  refine ⟨raw_rep ?_ ?_, raw_rep ?_ ?_, raw_rep ?_ ?_⟩ <;> simp only [h1, h2] <;> ring

/-- C17: multiplication by `s`, `1-s` and `1+s`. -/
theorem C17_times {x : SplitInt} {a b : Int} (hx : RepS x a b) :
    (fits 32 (b + a) → fits 32 (b - a) → ∃ z, SplitInt.timesS x = .ok z ∧ RepS z b a) ∧
    (fits 32 (a - b + (b - a)) → fits 32 (a - b - (b - a)) →
      ∃ z, SplitInt.times1S x = .ok z ∧ RepS z (a - b) (b - a)) ∧
    (fits 32 (a + b + (b + a)) → fits 32 (a + b - (b + a)) →
      ∃ z, SplitInt.times1PlusS x = .ok z ∧ RepS z (a + b) (b + a)) := by
  obtain ⟨h1, h2, -⟩ := hx
  refine ⟨raw_rep ?_ ?_, raw_rep ?_ ?_, raw_rep ?_ ?_⟩ <;> (try simp only [h1, h2]) <;> ring

example : SplitInt.make 3 (-5) = .ok ⟨-2, 8⟩ ∧ RepS ⟨-2, 8⟩ 3 (-5) ∧ RepS ⟨5, -1⟩ 2 3 ∧
    SplitInt.mul ⟨-2, 8⟩ ⟨5, -1⟩ = .ok ⟨-10, -8⟩ ∧ RepS ⟨-10, -8⟩ (-9) (-1) := by
  refine ⟨by decide, ?_, ?_, by decide, ?_⟩ <;> exact ⟨by decide, by decide, by decide, by decide⟩

end Verif.Arith
