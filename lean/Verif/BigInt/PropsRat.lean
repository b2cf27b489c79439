import Verif.BigInt.RatLemmas2
/-
Property theorems C09 (gcd, lcm) and C12 (`big_rat`).  `RepQ r q` says that the
`big_rat` value `r` holds numerator and positive denominator, in lowest terms, of the
rational number `q` (Lean's `ℚ` keeps `q.num`, `q.den` in lowest terms with positive `q.den`).
-/
namespace Verif.BigInt

/-! ### C09 -/

/-- C09: `gcd` is the nonnegative greatest common divisor. -/
theorem C09_gcd {x y : Digits} {a b : Int} (hx : Rep x a) (hy : Rep y b) :
    ∃ r, gcd x y = .ok r ∧ Rep r (Int.gcd a b) := gcd_rep hx hy

/-- C09: `lcm` has the least common multiple as absolute value, and the sign of the product. -/
theorem C09_lcm {x y : Digits} {a b : Int} (hx : Rep x a) (hy : Rep y b) (h : a ≠ 0 ∨ b ≠ 0) :
    ∃ r, lcm x y = .ok r ∧ Rep r (a * b / Int.gcd a b) ∧
      (a * b / Int.gcd a b).natAbs = Int.lcm a b := by
  obtain ⟨g, d, a', b', e, hg, hd, h1, h2, hc, ⟨x', ex, hx'⟩, ⟨y', ey, hy'⟩, hone⟩ :=
    gcd_rep_split hx hy h
  have hgd : (Int.gcd a b : Int) = d := by
    obtain ⟨r', e', hr'⟩ := gcd_rep hx hy
    rw [e] at e'
    injection e' with e'
    subst e'
    exact rep_fun hr' hg
  have hval : a * b / d = d * (a' * b') := by
    rw [show a * b = d * (d * (a' * b')) by rw [h1, h2]; ring, Int.mul_ediv_cancel_left _ hd.ne']
  have habs : (a * b / Int.gcd a b).natAbs = Int.lcm a b := by
    unfold Int.lcm Nat.lcm
    rw [Int.natAbs_ediv_of_dvd (dvd_mul_of_dvd_left (Int.gcd_dvd_left ..) _), Int.natAbs_mul]
    rfl
  refine (fun ⟨r, h1, h2⟩ => ⟨r, h1, h2, habs⟩) (show ∃ r, lcm x y = .ok r ∧ Rep r _ from ?_)
  rw [hgd, hval]
  unfold lcm
  rw [e, ok_bind]
  by_cases c : eqInt g 1 = true
  · rw [if_pos c]
    have := hone.1 c
    refine ⟨_, rfl, ?_⟩
    have hm := C06_mul hx hy
    rwa [show d * (a' * b') = a * b by rw [h1, h2, this]; ring]
  · rw [if_neg c]
    by_cases c2 : x.length ≤ y.length
    · rw [if_pos c2, ex, ok_bind]
      refine ⟨_, rfl, ?_⟩
      have hm := C06_mul hx' hy
      rwa [show d * (a' * b') = a' * b by rw [h2]; ring]
    · rw [if_neg c2, ey, ok_bind]
      refine ⟨_, rfl, ?_⟩
      have hm := C06_mul hx hy'
      rwa [show d * (a' * b') = a * b' by rw [h1]; ring]

/-- C09: `lcm(0,0)` throws (division by zero), part of finding F15. -/
theorem C09_lcm_zero {x y : Digits} (hx : Rep x 0) (hy : Rep y 0) : lcm x y = .throw := by
  have h1 : x = [0] := rep_unique hx (rep_of_check (by decide))
  have h2 : y = [0] := rep_unique hy (rep_of_check (by decide))
  subst h1; subst h2; decide

example : Rep [0, 𝐁 - 6] (-6 * 2 ^ 32) ∧ Rep [15] 15 ∧ gcd [0, 𝐁 - 6] [15] = .ok [3] ∧
    lcm [0, 𝐁 - 6] [15] = .ok [0, 𝐁 - 30] :=
  ⟨rep_of_check (by decide), rep_of_check (by decide), by decide +kernel, by decide +kernel⟩

/-! ### C12 -/

/-- C12: construction from an integer. -/
theorem C12_ofInt {x : Digits} {n : Int} (hx : Rep x n) : RepQ (BigRat.ofInt x) n :=
  ⟨by simpa [BigRat.ofInt] using hx, by simpa [BigRat.ofInt] using one_rep⟩

/-- C12: construction from numerator and denominator reduces the fraction. -/
theorem C12_fromFraction {x y : Digits} {n d : Int} (hx : Rep x n) (hy : Rep y d) :
    (d ≠ 0 → ∃ s, BigRat.fromFraction x y = .ok s ∧ RepQ s ((n : ℚ) / d)) ∧
    (d = 0 → BigRat.fromFraction x y = .throw) := by
  refine ⟨fragment, fun h => ?_⟩
  · unfold BigRat.fromFraction BigRat.make
    rw [if_pos ((isZero_rep hy).2 h)]; rfl
where
  fragment := fromFraction_rep hx hy

/-- C12: addition is exact. -/
theorem C12_add {r x : BigRat} {q p : ℚ} (hr : RepQ r q) (hx : RepQ x p) :
    ∃ s, BigRat.add r x = .ok s ∧ RepQ s (q + p) := by
  have := addLike_rep hr hx plusRR 1 (.inl rfl) (fun {u v} k _ _ _ hu hv => by
    rw [one_mul]; exact (C03_plus hu hv).2.2.2)
  unfold BigRat.add
  simpa using this

theorem abs_bound {a b : Int} (ha : |a| < 2 ^ 31) (hb : |b| < 2 ^ 31) : |a * b| ≤ 2 ^ 62 - 1 := by
  rw [abs_mul]
  have h1 : |a| ≤ 2 ^ 31 - 1 := by omega
  have h2 : |b| ≤ 2 ^ 31 - 1 := by omega
  have := mul_le_mul h1 h2 (abs_nonneg b) (by norm_num)
  exact this.trans (by norm_num)

theorem short_rep {x : Digits} {a : Int} (hx : Rep x a) (h : |a| ≤ 2 ^ 62 - 1) : x.length ≤ 2 := by
  have h' := abs_le.1 h
  have := (rep_length hx 1).2 ⟨by norm_num; omega, by norm_num; omega⟩
  exact this

theorem quot_le {a k : Int} (hk : 0 < k) (ha : 0 < a) (h : a < 2 ^ 31) : |a / k| < 2 ^ 31 := by
  have h1 : 0 ≤ a / k := Int.ediv_nonneg ha.le hk.le
  have h2 : a / k ≤ a := Int.ediv_le_self _ ha.le
  rw [abs_of_nonneg h1]; omega

/-- C12, full statement for subtraction: false of the code (consequence of finding F1). -/
def C12_sub_statement : Prop :=
  ∀ (r x : BigRat) (q p : ℚ), RepQ r q → RepQ x p → ∃ s, BigRat.sub r x = .ok s ∧ RepQ s (q - p)

/-- C12 fails for subtraction: `-2 - (6·2^64 - 2^32 - 1)` is computed wrongly. -/
theorem C12_sub_false : ¬ C12_sub_statement := by
  intro h
  have h1 : Rep [𝐁 - 2] (-2) := rep_of_check (by decide)
  have h2 : Rep [𝐁 - 1, 𝐁 - 2, 5] (6 * 2 ^ 64 - 2 ^ 32 - 1) := rep_of_check (by decide)
  obtain ⟨s, e, hs⟩ := h _ _ _ _ (C12_ofInt h1) (C12_ofInt h2)
  have e2 : BigRat.sub (BigRat.ofInt [𝐁 - 2]) (BigRat.ofInt [𝐁 - 1, 𝐁 - 2, 5]) =
      .ok ⟨[𝐁 - 1, 0, 𝐁 - 7], [1]⟩ := by decide +kernel
  rw [e2] at e
  injection e with e
  subst e
  have e3 : (((-2 : Int) : ℚ) - ((6 * 2 ^ 64 - 2 ^ 32 - 1 : Int) : ℚ)).num = -6 * 2 ^ 64 + 2 ^ 32 - 1 := by
    rw [← Int.cast_sub, Rat.num_intCast]; norm_num
  have h3 := hs.1
  rw [e3] at h3
  have := check_of_rep h3
  revert this; decide

/-- C12: subtraction is exact when the left operand is not negative, or when all four
numerators and denominators are less than `2^31` in absolute value. -/
theorem C12_sub_partial {r x : BigRat} {q p : ℚ} (hr : RepQ r q) (hx : RepQ x p)
    (h : 0 ≤ q ∨ (|q.num| < 2 ^ 31 ∧ q.den < 2 ^ 31 ∧ |p.num| < 2 ^ 31 ∧ p.den < 2 ^ 31)) :
    ∃ s, BigRat.sub r x = .ok s ∧ RepQ s (q - p) := by
  have hq := den_pos q
  have hp := den_pos p
  have := addLike_rep hr hx minusRR (-1) (.inr rfl) (fun {u v} k hk h1 h2 hu hv => by
    rw [neg_one_mul, ← sub_eq_add_neg]
    refine (C05_minus_partial hu hv ?_).2
    rcases h with h | ⟨a1, a2, a3, a4⟩
    · left
      exact mul_nonneg (Rat.num_nonneg.2 h) (Int.ediv_nonneg hp.le hk.le)
    · right; left
      have := short_rep hv (abs_bound a3 (quot_le hk hq (by omega)))
      have : u ≠ [] := (rep_iff.1 hu).1.wf.1
      have : u.length ≠ 0 := by simpa using this
      omega)
  unfold BigRat.sub
  simpa [sub_eq_add_neg] using this

/-- C12: addition and multiplication mixing rational and integer. -/
theorem C12_addInt {r : BigRat} {q : ℚ} {x : Digits} {n : Int} (hr : RepQ r q) (hx : Rep x n) :
    (∃ s, BigRat.addInt r x = .ok s ∧ RepQ s (q + n)) ∧ RepQ (BigRat.addIntAssign r x) (q + n) := by
  have hq := den_pos q
  have hval : ((q.num + n * q.den : Int) : ℚ) / ((q.den : Int) : ℚ) = q + n := by
    have : ((q.den : Int) : ℚ) ≠ 0 := by exact_mod_cast hq.ne'
    conv_rhs => rw [rat_eq q]
    push_cast; field_simp
  have hco : IsCoprime (q.num + n * q.den) (q.den : Int) := (rat_coprime q).add_mul_right_left n
  have hm := C06_mul hx hr.2
  constructor
  · unfold BigRat.addInt
    rw [make_ok hr.2 hq]
    exact ⟨_, rfl, repQ_of (C03_plus hr.1 hm).2.1 hr.2 hq hco hval⟩
  · exact repQ_of (C03_addAssignMove hr.1 hm) hr.2 hq hco hval

/-- C12: `n - q`, the integer being the left operand. -/
theorem C12_intSub {r : BigRat} {q : ℚ} {x : Digits} {n : Int} (hr : RepQ r q) (hx : Rep x n) :
    ∃ s, BigRat.intSub x r = .ok s ∧ RepQ s (n - q) := by
  have hq := den_pos q
  have hval : ((n * q.den - q.num : Int) : ℚ) / ((q.den : Int) : ℚ) = n - q := by
    have : ((q.den : Int) : ℚ) ≠ 0 := by exact_mod_cast hq.ne'
    conv_rhs => rw [rat_eq q]
    push_cast; field_simp
  have hco : IsCoprime (n * q.den - q.num) (q.den : Int) := by
    have := (rat_coprime q).neg_left.add_mul_right_left n
    rwa [show n * (q.den : Int) - q.num = -q.num + n * q.den by ring]
  unfold BigRat.intSub
  rw [make_ok hr.2 hq]
  exact ⟨_, rfl, repQ_of (C04_minus (C06_mul hx hr.2) hr.1).2 hr.2 hq hco hval⟩

/-- C12: `q - n` and `q -= n`, for nonnegative `q` (otherwise finding F1 can strike). -/
theorem C12_subInt_partial {r : BigRat} {q : ℚ} {x : Digits} {n : Int} (hr : RepQ r q) (hx : Rep x n)
    (h : 0 ≤ q) :
    (∃ s, BigRat.subInt r x = .ok s ∧ RepQ s (q - n)) ∧ RepQ (BigRat.subIntAssign r x) (q - n) := by
  have hq := den_pos q
  have hval : ((q.num - n * q.den : Int) : ℚ) / ((q.den : Int) : ℚ) = q - n := by
    have : ((q.den : Int) : ℚ) ≠ 0 := by exact_mod_cast hq.ne'
    conv_rhs => rw [rat_eq q]
    push_cast; field_simp
  have hco : IsCoprime (q.num - n * q.den) (q.den : Int) := by
    have := (rat_coprime q).add_mul_right_left (-n)
    rwa [show q.num - n * (q.den : Int) = q.num + -n * q.den by ring]
  have hm := C06_mul hx hr.2
  have h0 : 0 ≤ q.num := Rat.num_nonneg.2 h
  constructor
  · unfold BigRat.subInt
    rw [make_ok hr.2 hq]
    exact ⟨_, rfl, repQ_of (C05_minus_partial hr.1 hm (.inl h0)).1 hr.2 hq hco hval⟩
  · exact repQ_of (C05_subAssignMove_partial hr.1 hm (.inl h0)) hr.2 hq hco hval

/-- C12: `q.subtract_from(n)`, for nonnegative `n`. -/
theorem C12_subtractFromInt_partial {r : BigRat} {q : ℚ} {x : Digits} {n : Int} (hr : RepQ r q)
    (hx : Rep x n) (h : 0 ≤ n) : RepQ (BigRat.subtractFromInt r x) (n - q) := by
  have hq := den_pos q
  have hval : ((n * q.den - q.num : Int) : ℚ) / ((q.den : Int) : ℚ) = n - q := by
    have : ((q.den : Int) : ℚ) ≠ 0 := by exact_mod_cast hq.ne'
    conv_rhs => rw [rat_eq q]
    push_cast; field_simp
  have hco : IsCoprime (n * q.den - q.num) (q.den : Int) := by
    have := (rat_coprime q).neg_left.add_mul_right_left n
    rwa [show n * (q.den : Int) - q.num = -q.num + n * q.den by ring]
  exact repQ_of (C05_subtractFromMove_partial hr.1 (C06_mul hx hr.2) (.inl (by positivity)))
    hr.2 hq hco hval

/-- C12: multiplication by an integer. -/
theorem C12_mulInt {r : BigRat} {q : ℚ} {x : Digits} {n : Int} (hr : RepQ r q) (hx : Rep x n) :
    (∃ s, BigRat.mulInt r x = .ok s ∧ RepQ s (q * n)) ∧
    (∃ s, BigRat.mulIntAssign r x = .ok s ∧ RepQ s (q * n)) := by
  have hq := den_pos q
  have hc := rat_coprime q
  have he := rat_eq q
  obtain ⟨g, d, m', n', e, hg, hd, h1, h2, hcc, ⟨y', ey, hy'⟩, ⟨x', ex, hx'⟩, hone⟩ :=
    gcd_rep_split hr.2 hx (.inl hq.ne')
  have hm' : 0 < m' := by by_contra hcon; nlinarith
  have hco : IsCoprime (q.num * n') m' :=
    (hc.of_isCoprime_of_dvd_right ⟨d, by rw [h1]; ring⟩).mul_left hcc.symm
  have hdQ : (d : ℚ) ≠ 0 := by exact_mod_cast hd.ne'
  have hmQ : (m' : ℚ) ≠ 0 := by exact_mod_cast hm'.ne'
  have hval : ((q.num * n' : Int) : ℚ) / m' = q * n := by
    conv_rhs => rw [he, h1, h2]
    push_cast; field_simp
  unfold BigRat.mulInt BigRat.mulIntAssign
  simp only [e, ok_bind]
  by_cases c : eqInt g 1 = true
  · simp only [if_pos c]
    have := hone.1 c
    subst this
    rw [one_mul] at h1 h2
    rw [make_ok hr.2 hq]
    have : RepQ ⟨mul r.num x, r.den⟩ (q * n) :=
      repQ_of (C06_mul hr.1 hx) hr.2 hq (by rw [h1, h2]; exact hco) (by rw [← hval, h1, h2])
    exact ⟨⟨_, rfl, this⟩, ⟨_, rfl, this⟩⟩
  · simp only [if_neg c, ex, ey, ok_bind, make_ok hy' hm']
    have : RepQ ⟨mul r.num x', y'⟩ (q * n) := repQ_of (C06_mul hr.1 hx') hy' hm' hco hval
    exact ⟨⟨_, rfl, this⟩, ⟨_, rfl, this⟩⟩

/-- C12: negation. -/
theorem C12_neg {r : BigRat} {q : ℚ} (hr : RepQ r q) : ∃ s, BigRat.neg r = .ok s ∧ RepQ s (-q) := by
  unfold BigRat.neg
  rw [make_ok hr.2 (den_pos q)]
  exact ⟨_, rfl, by simpa using C04_negate hr.1, by simpa using hr.2⟩

/-- C12: multiplication is exact. -/
theorem C12_mul {r x : BigRat} {q p : ℚ} (hr : RepQ r q) (hx : RepQ x p) :
    ∃ s, BigRat.mul r x = .ok s ∧ RepQ s (q * p) := by
  have hq := den_pos q
  have hp := den_pos p
  have cq := rat_coprime q
  have cp := rat_coprime p
  have eq := rat_eq q
  have ep := rat_eq p
  obtain ⟨g, d, a, b, e, hg, hd, h1, h2, hc, ⟨y1, ey1, hy1⟩, ⟨y2, ey2, hy2⟩, -⟩ :=
    gcd_rep_split hr.1 hx.2 (.inr hp.ne')
  obtain ⟨g', d', a', b', e', hg', hd', h1', h2', hc', ⟨z1, ez1, hz1⟩, ⟨z2, ez2, hz2⟩, -⟩ :=
    gcd_rep_split hr.2 hx.1 (.inl hq.ne')
  have hb : 0 < b := by by_contra hcon; nlinarith
  have ha' : 0 < a' := by by_contra hcon; nlinarith
  unfold BigRat.mul
  simp only [e, e', ok_bind, ey1, ey2, ez1, ez2]
  have hden := C06_mul hz1 hy2
  rw [make_ok hden (by positivity)]
  refine ⟨_, rfl, repQ_of (C06_mul hy1 hz2) hden (by positivity) ?_ ?_⟩
  · have c1 : IsCoprime a a' :=
      (cq.of_isCoprime_of_dvd_left ⟨d, by rw [h1]; ring⟩).of_isCoprime_of_dvd_right ⟨d', by rw [h1']; ring⟩
    have c2 : IsCoprime b' b :=
      (cp.of_isCoprime_of_dvd_left ⟨d', by rw [h2']; ring⟩).of_isCoprime_of_dvd_right ⟨d, by rw [h2]; ring⟩
    exact (c1.mul_right hc).mul_left (hc'.symm.mul_right c2)
  · conv_rhs => rw [eq, ep, h1, h2, h1', h2']
    have t1 : (d : ℚ) ≠ 0 := by exact_mod_cast hd.ne'
    have t2 : (d' : ℚ) ≠ 0 := by exact_mod_cast hd'.ne'
    have t3 : (b : ℚ) ≠ 0 := by exact_mod_cast hb.ne'
    have t4 : (a' : ℚ) ≠ 0 := by exact_mod_cast ha'.ne'
    push_cast; field_simp

/-- C12: inversion; zero throws. -/
theorem C12_invert {r : BigRat} {q : ℚ} (hr : RepQ r q) :
    (q ≠ 0 → ∃ s, BigRat.invert r = .ok s ∧ RepQ s q⁻¹) ∧ (q = 0 → BigRat.invert r = .throw) := by
  have hq := den_pos q
  have cq := rat_coprime q
  have eq := rat_eq q
  constructor
  · intro h0
    have hn : q.num ≠ 0 := Rat.num_ne_zero.2 h0
    unfold BigRat.invert
    rw [if_neg (fun h => hn ((isZero_rep hr.1).1 h))]
    by_cases c : isNegative r.num = true
    · rw [if_pos c]
      have := (isNeg_rep hr.1).1 c
      refine ⟨_, rfl, repQ_of (C04_negate hr.2) (C04_negate hr.1) (by omega) cq.symm.neg_neg ?_⟩
      conv_rhs => rw [eq, inv_div]
      push_cast; rw [neg_div_neg_eq]
    · rw [if_neg c]
      have : ¬ q.num < 0 := fun h => c ((isNeg_rep hr.1).2 h)
      refine ⟨_, rfl, repQ_of hr.2 hr.1 (by omega) cq.symm ?_⟩
      conv_rhs => rw [eq, inv_div]
  · intro h0
    unfold BigRat.invert
    rw [if_pos ((isZero_rep hr.1).2 (by rw [h0]; rfl))]

/-- the common core of `/` and `/=` -/
theorem div_core {d a b d' a' b' : Int} {q p : ℚ} (h1 : q.num = d * a) (h2 : p.num = d * b)
    (hc : IsCoprime a b) (h1' : (q.den : Int) = d' * a') (h2' : (p.den : Int) = d' * b')
    (hc' : IsCoprime a' b') (hd : 0 < d) (hd' : 0 < d') (hb : b ≠ 0) (ha' : 0 < a') (hb' : 0 < b') :
    IsCoprime (a * b') (a' * b) ∧ ((a * b' : Int) : ℚ) / ((a' * b : Int) : ℚ) = q / p := by
  have cq := rat_coprime q
  have cp := rat_coprime p
  have eq := rat_eq q
  have ep := rat_eq p
  constructor
  · have c1 : IsCoprime a a' :=
      (cq.of_isCoprime_of_dvd_left ⟨d, by rw [h1]; ring⟩).of_isCoprime_of_dvd_right ⟨d', by rw [h1']; ring⟩
    have c2 : IsCoprime b b' :=
      (cp.of_isCoprime_of_dvd_left ⟨d, by rw [h2]; ring⟩).of_isCoprime_of_dvd_right ⟨d', by rw [h2']; ring⟩
    exact (c1.mul_right hc).mul_left (hc'.symm.mul_right c2.symm)
  · conv_rhs => rw [eq, ep, h1, h2, h1', h2']
    have t1 : (d : ℚ) ≠ 0 := by exact_mod_cast hd.ne'
    have t2 : (d' : ℚ) ≠ 0 := by exact_mod_cast hd'.ne'
    have t3 : (b : ℚ) ≠ 0 := by exact_mod_cast hb
    have t4 : (a' : ℚ) ≠ 0 := by exact_mod_cast ha'.ne'
    have t5 : (b' : ℚ) ≠ 0 := by exact_mod_cast hb'.ne'
    push_cast; field_simp

/-- C12: division is exact; division by zero throws. -/
theorem C12_div {r x : BigRat} {q p : ℚ} (hr : RepQ r q) (hx : RepQ x p) :
    (p ≠ 0 → (∃ s, BigRat.div r x = .ok s ∧ RepQ s (q / p)) ∧
      (∃ s, BigRat.divAssignRat r x = .ok s ∧ RepQ s (q / p))) ∧
    (p = 0 → BigRat.div r x = .throw ∧ BigRat.divAssignRat r x = .throw) := by
  constructor
  · intro h0
    have hn : p.num ≠ 0 := Rat.num_ne_zero.2 h0
    have hq := den_pos q
    have hp := den_pos p
    obtain ⟨g, d, a, b, e, hg, hd, h1, h2, hc, ⟨y1, ey1, hy1⟩, ⟨y2, ey2, hy2⟩, -⟩ :=
      gcd_rep_split hr.1 hx.1 (.inr hn)
    obtain ⟨g', d', a', b', e', hg', hd', h1', h2', hc', ⟨z1, ez1, hz1⟩, ⟨z2, ez2, hz2⟩, -⟩ :=
      gcd_rep_split hr.2 hx.2 (.inl hq.ne')
    have ha' : 0 < a' := by by_contra hcon; nlinarith
    have hb' : 0 < b' := by by_contra hcon; nlinarith
    have hb : b ≠ 0 := by rintro rfl; simp at h2; exact h0 h2
    obtain ⟨hcop, hval⟩ := div_core h1 h2 hc h1' h2' hc' hd hd' hb ha' hb'
    have hz0 : ¬ isZero x.num = true := fun h => hn ((isZero_rep hx.1).1 h)
    unfold BigRat.div BigRat.divAssignRat
    simp only [hz0, Bool.false_eq_true, if_false, pure_eq, ok_bind, e, e']
    by_cases c : isNegative x.num = true
    · have hneg := (isNeg_rep hx.1).1 c
      have hbn : b < 0 := by
        by_contra hcon
        have : 0 ≤ d * b := mul_nonneg hd.le (by omega)
        omega
      simp only [if_pos c]
      obtain ⟨w1, ew1, hw1⟩ := div_exact (x := negate x.num) (d := d) (a := -b)
        (by rw [mul_neg, ← h2]; exact C04_negate hx.1) hg hd
      obtain ⟨w2, ew2, hw2⟩ := div_exact (x := negate x.den) (d := d') (a := -b')
        (by rw [mul_neg, ← h2']; exact C04_negate hx.2) hg' hd'
      obtain ⟨w3, ew3, hw3⟩ := div_exact (x := negate r.num) (d := d) (a := -a)
        (by rw [mul_neg, ← h1]; exact C04_negate hr.1) hg hd
      have hpos : 0 < a' * -b := mul_pos ha' (by omega)
      have hden := C06_mul hz1 hw1
      have hcop' : IsCoprime (-(a * b')) (-(a' * b)) := hcop.neg_neg
      have hval' : ((-(a * b') : Int) : ℚ) / ((-(a' * b) : Int) : ℚ) = q / p := by
        rw [← hval]; push_cast; rw [neg_div_neg_eq]
      simp only [ey1, ez1, ew1, ew2, ew3, ez2, ok_bind]
      rw [make_ok hden hpos]
      refine ⟨⟨_, rfl, repQ_of (C06_mul hy1 hw2) hden hpos ?_ ?_⟩,
        ⟨_, rfl, repQ_of (C06_mul hw3 hz2) hden hpos ?_ ?_⟩⟩
      · rwa [mul_neg, mul_neg]
      · rw [mul_neg, mul_neg]; exact hval'
      · rwa [neg_mul, mul_neg]
      · rw [neg_mul, mul_neg]; exact hval'
    · have hneg : ¬ p.num < 0 := fun h => c ((isNeg_rep hx.1).2 h)
      have hbn : 0 < b := by
        by_contra hcon
        have : d * b ≤ 0 := mul_nonpos_of_nonneg_of_nonpos hd.le (by omega)
        omega
      simp only [if_neg c]
      have hpos : 0 < a' * b := by positivity
      have hden := C06_mul hz1 hy2
      simp only [ey1, ez1, ey2, ez2, ok_bind]
      rw [make_ok hden hpos]
      exact ⟨⟨_, rfl, repQ_of (C06_mul hy1 hz2) hden hpos hcop hval⟩,
        ⟨_, rfl, repQ_of (C06_mul hy1 hz2) hden hpos hcop hval⟩⟩
  · intro h0
    have hz : isZero x.num = true := (isZero_rep hx.1).2 (by rw [h0]; rfl)
    unfold BigRat.div BigRat.divAssignRat
    simp [hz]

/-- the common core of the divisions mixing rational and integer: `num/n` reduced -/
theorem C12_divInt {r : BigRat} {q : ℚ} {x : Digits} {n : Int} (hr : RepQ r q) (hx : Rep x n) :
    (n ≠ 0 → (∃ s, BigRat.divInt r x = .ok s ∧ RepQ s (q / n)) ∧
      (∃ s, BigRat.divIntAssign r x = .ok s ∧ RepQ s (q / n))) ∧
    (n = 0 → BigRat.divInt r x = .throw ∧ BigRat.divIntAssign r x = .throw) := by
  constructor
  · intro h0
    have hq := den_pos q
    have cq := rat_coprime q
    have eq := rat_eq q
    have hz0 : ¬ isZero x = true := fun h => h0 ((isZero_rep hx).1 h)
    obtain ⟨g, d, a, b, e, hg, hd, h1, h2, hc, ⟨y1, ey1, hy1⟩, ⟨y2, ey2, hy2⟩, hone⟩ :=
      gcd_rep_split hr.1 hx (.inr h0)
    have hb : b ≠ 0 := by rintro rfl; simp at h2; exact h0 h2
    have hcop : IsCoprime a (q.den * b) :=
      (cq.of_isCoprime_of_dvd_left ⟨d, by rw [h1]; ring⟩).mul_right hc
    have hdQ : (d : ℚ) ≠ 0 := by exact_mod_cast hd.ne'
    have hbQ : (b : ℚ) ≠ 0 := by exact_mod_cast hb
    have hmQ : ((q.den : Int) : ℚ) ≠ 0 := by exact_mod_cast hq.ne'
    have hval : (a : ℚ) / ((q.den * b : Int) : ℚ) = q / n := by
      conv_rhs => rw [eq, h1, h2]
      push_cast at *; field_simp
    have hval' : ((-a : Int) : ℚ) / ((q.den * -b : Int) : ℚ) = q / n := by
      rw [← hval]; push_cast; rw [mul_neg, neg_div_neg_eq]
    have hcop' : IsCoprime (-a) (q.den * -b) := by rw [mul_neg]; exact hcop.neg_neg
    unfold BigRat.divInt BigRat.divIntAssign
    simp only [hz0, Bool.false_eq_true, if_false, pure_eq, ok_bind, e]
    by_cases cn : isNegative x = true
    · have hneg := (isNeg_rep hx).1 cn
      have hbn : b < 0 := by
        by_contra hcon
        have : 0 ≤ d * b := mul_nonneg hd.le (by omega)
        omega
      have hpos : (0 : Int) < q.den * -b := mul_pos hq (by omega)
      simp only [if_pos cn]
      by_cases c : eqInt g 1 = true
      · simp only [if_pos c]
        have := hone.1 c
        subst this
        rw [one_mul] at h1 h2
        have hden := C06_mul hr.2 (C04_negate hx)
        rw [h2] at hden
        have hden2 := C06_mul hr.2 hx
        rw [h2] at hden2
        have hn2 : isNegative (mul r.den x) = true := (isNeg_rep hden2).2 (by
          rw [mul_neg] at hpos; omega)
        rw [make_ok hden hpos, if_pos hn2]
        have hnum := C04_negate hr.1
        rw [h1] at hnum
        refine ⟨⟨_, rfl, repQ_of hnum hden hpos hcop' hval'⟩, ⟨_, rfl, repQ_of hnum
          (C04_negate hden2) (by rw [mul_neg] at hpos; exact hpos)
          (by rw [mul_neg] at hcop'; exact hcop') (by rw [mul_neg] at hval'; exact hval')⟩⟩
      · simp only [if_neg c]
        obtain ⟨w1, ew1, hw1⟩ := div_exact (x := negate x) (d := d) (a := -b)
          (by rw [mul_neg, ← h2]; exact C04_negate hx) hg hd
        obtain ⟨w3, ew3, hw3⟩ := div_exact (x := negate r.num) (d := d) (a := -a)
          (by rw [mul_neg, ← h1]; exact C04_negate hr.1) hg hd
        simp only [ew1, ew3, ey1, ey2, ok_bind]
        have hden := C06_mul hr.2 hw1
        have hden2 := C06_mul hr.2 hy2
        have hn2 : isNegative (mul r.den y2) = true := (isNeg_rep hden2).2 (by
          rw [mul_neg] at hpos; omega)
        rw [make_ok hden hpos, if_pos hn2]
        refine ⟨⟨_, rfl, repQ_of hw3 hden hpos hcop' hval'⟩, ⟨_, rfl, repQ_of (C04_negate hy1)
          (C04_negate hden2) (by rw [mul_neg] at hpos; exact hpos)
          (by rw [mul_neg] at hcop'; exact hcop') (by rw [mul_neg] at hval'; exact hval')⟩⟩
    · have hneg : ¬ n < 0 := fun h => cn ((isNeg_rep hx).2 h)
      have hbn : 0 < b := by
        by_contra hcon
        have : d * b ≤ 0 := mul_nonpos_of_nonneg_of_nonpos hd.le (by omega)
        omega
      have hpos : (0 : Int) < q.den * b := mul_pos hq hbn
      simp only [if_neg cn]
      by_cases c : eqInt g 1 = true
      · simp only [if_pos c]
        have := hone.1 c
        subst this
        rw [one_mul] at h1 h2
        have hden := C06_mul hr.2 hx
        rw [h2] at hden
        have hn2 : ¬ isNegative (mul r.den x) = true := fun h => by
          have := (isNeg_rep hden).1 h; omega
        rw [make_ok hden hpos, if_neg hn2]
        have hnum := hr.1
        rw [h1] at hnum
        exact ⟨⟨_, rfl, repQ_of hnum hden hpos hcop hval⟩, ⟨_, rfl, repQ_of hnum hden hpos hcop hval⟩⟩
      · simp only [if_neg c]
        simp only [ey1, ey2, ok_bind]
        have hden := C06_mul hr.2 hy2
        have hn2 : ¬ isNegative (mul r.den y2) = true := fun h => by
          have := (isNeg_rep hden).1 h; omega
        rw [make_ok hden hpos, if_neg hn2]
        exact ⟨⟨_, rfl, repQ_of hy1 hden hpos hcop hval⟩, ⟨_, rfl, repQ_of hy1 hden hpos hcop hval⟩⟩
  · intro h0
    have hz : isZero x = true := (isZero_rep hx).2 h0
    unfold BigRat.divInt BigRat.divIntAssign
    simp [hz]

/-- C12: an integer divided by a rational. -/
theorem C12_intDiv {r : BigRat} {q : ℚ} {x : Digits} {n : Int} (hr : RepQ r q) (hx : Rep x n) :
    (q ≠ 0 → ∃ s, BigRat.intDiv x r = .ok s ∧ RepQ s (n / q)) ∧
    (q = 0 → BigRat.intDiv x r = .throw) := by
  constructor
  · intro h0
    have hn : q.num ≠ 0 := Rat.num_ne_zero.2 h0
    have hq := den_pos q
    have cq := rat_coprime q
    have eq := rat_eq q
    have hz0 : ¬ isZero r.num = true := fun h => hn ((isZero_rep hr.1).1 h)
    obtain ⟨g, d, a, b, e, hg, hd, h1, h2, hc, ⟨y1, ey1, hy1⟩, ⟨y2, ey2, hy2⟩, hone⟩ :=
      gcd_rep_split hr.1 hx (.inl hn)
    have ha : a ≠ 0 := by rintro rfl; simp at h1; exact h0 h1
    have hcop : IsCoprime (b * q.den) a :=
      hc.symm.mul_left (cq.of_isCoprime_of_dvd_left ⟨d, by rw [h1]; ring⟩).symm
    have hdQ : (d : ℚ) ≠ 0 := by exact_mod_cast hd.ne'
    have haQ : (a : ℚ) ≠ 0 := by exact_mod_cast ha
    have hmQ : ((q.den : Int) : ℚ) ≠ 0 := by exact_mod_cast hq.ne'
    have hval : ((b * q.den : Int) : ℚ) / (a : ℚ) = n / q := by
      conv_rhs => rw [eq, h1, h2]
      push_cast at *; field_simp
    have hval' : ((-b * q.den : Int) : ℚ) / ((-a : Int) : ℚ) = n / q := by
      rw [← hval]; push_cast; rw [neg_mul, neg_div_neg_eq]
    have hcop' : IsCoprime (-b * q.den) (-a) := by rw [neg_mul]; exact hcop.neg_neg
    unfold BigRat.intDiv
    simp only [hz0, Bool.false_eq_true, if_false, ok_bind, e]
    by_cases cn : isNegative r.num = true
    · have hneg := (isNeg_rep hr.1).1 cn
      have han : 0 < -a := by
        by_contra hcon
        have : 0 ≤ d * a := mul_nonneg hd.le (by omega)
        omega
      simp only [if_pos cn]
      by_cases c : eqInt g 1 = true
      · simp only [if_pos c]
        have := hone.1 c
        subst this
        rw [one_mul] at h1 h2
        have hden := C04_negate hr.1
        rw [h1] at hden
        have hnum := C06_mul (C04_negate hx) hr.2
        rw [h2] at hnum
        rw [make_ok hden han]
        exact ⟨_, rfl, repQ_of hnum hden han hcop' hval'⟩
      · simp only [if_neg c]
        obtain ⟨w1, ew1, hw1⟩ := div_exact (x := negate x) (d := d) (a := -b)
          (by rw [mul_neg, ← h2]; exact C04_negate hx) hg hd
        obtain ⟨w3, ew3, hw3⟩ := div_exact (x := negate r.num) (d := d) (a := -a)
          (by rw [mul_neg, ← h1]; exact C04_negate hr.1) hg hd
        simp only [ew1, ew3, ok_bind, make_ok hw3 han]
        exact ⟨_, rfl, repQ_of (C06_mul hw1 hr.2) hw3 han hcop' hval'⟩
    · have hneg : ¬ q.num < 0 := fun h => cn ((isNeg_rep hr.1).2 h)
      have han : 0 < a := by
        by_contra hcon
        have : d * a ≤ 0 := mul_nonpos_of_nonneg_of_nonpos hd.le (by omega)
        omega
      simp only [if_neg cn]
      by_cases c : eqInt g 1 = true
      · simp only [if_pos c]
        have := hone.1 c
        subst this
        rw [one_mul] at h1 h2
        have hden := hr.1
        rw [h1] at hden
        have hnum := C06_mul hx hr.2
        rw [h2] at hnum
        rw [make_ok hden han]
        exact ⟨_, rfl, repQ_of hnum hden han hcop hval⟩
      · simp only [if_neg c, ey1, ey2, ok_bind, make_ok hy1 han]
        exact ⟨_, rfl, repQ_of (C06_mul hy2 hr.2) hy1 han hcop hval⟩
  · intro h0
    have hz : isZero r.num = true := (isZero_rep hr.1).2 (by rw [h0]; rfl)
    unfold BigRat.intDiv
    simp [hz]

theorem ratExt {q p : ℚ} : q = p ↔ q.num = p.num ∧ q.den = p.den :=
  ⟨fun h => by rw [h]; exact ⟨rfl, rfl⟩, fun h => Rat.ext h.1 h.2⟩

/-- C12: comparison and equality are those of rational numbers. -/
theorem C12_compare {r x : BigRat} {q p : ℚ} (hr : RepQ r q) (hx : RepQ x p) :
    (BigRat.lt r x = true ↔ q < p) ∧ (BigRat.beq r x = true ↔ q = p) ∧
    (∀ v : Int, -2 ^ 31 ≤ v ∧ v < 2 ^ 31 → (BigRat.eqInt r v = true ↔ q = v)) := by
  refine ⟨?_, ?_, ?_⟩
  · unfold BigRat.lt
    rw [C02_lt (C06_mul hr.1 hx.2) (C06_mul hx.1 hr.2), Rat.lt_iff]
  · unfold BigRat.beq
    rw [Bool.and_eq_true, C02_eq hr.1 hx.1, C02_eq hr.2 hx.2, ratExt]
    norm_cast
  · intro v hv
    unfold BigRat.eqInt
    rw [Bool.and_eq_true, C02_eqInt hr.2 (by norm_num), C02_eqInt hr.1 hv, ratExt,
      Rat.num_intCast, Rat.den_intCast, and_comm]
    norm_cast

theorem floor_ediv (n : Int) {d : Int} (hd : 0 < d) : ⌊(n : ℚ) / d⌋ = n / d := by
  obtain ⟨m, rfl⟩ : ∃ m : Nat, d = m := ⟨d.toNat, by omega⟩
  have := Rat.floor_intCast_div_natCast n m
  push_cast; exact this

/-- C12: `floor`, `ceil` and `frac`. -/
theorem C12_floor_ceil {r : BigRat} {q : ℚ} (hr : RepQ r q) :
    (∃ x, BigRat.floor r = .ok x ∧ Rep x ⌊q⌋) ∧ (∃ x, BigRat.ceil r = .ok x ∧ Rep x ⌈q⌉) ∧
    (∃ s, BigRat.frac r = .ok s ∧ RepQ s (Int.fract q)) := by
  have hq := den_pos q
  have eq := rat_eq q
  have cq := rat_coprime q
  refine ⟨?_, ?_, ?_⟩
  · unfold BigRat.floor
    obtain ⟨x, e, hx⟩ := div_pos_rep hr.1 hr.2 hq
    refine ⟨x, e, ?_⟩
    rw [eq, floor_ediv _ hq]; exact hx
  · unfold BigRat.ceil
    obtain ⟨x, e, hx⟩ := div_pos_rep (C04_negate hr.1) hr.2 hq
    rw [e, ok_bind]
    refine ⟨_, rfl, ?_⟩
    have : ⌈q⌉ = -(-q.num / (q.den : Int)) := by
      rw [← floor_ediv _ hq]
      conv_lhs => rw [← neg_neg q, Int.ceil_neg]
      congr 2
      conv_lhs => rw [eq]
      push_cast; ring
    rw [this]; exact C04_negate hx
  · unfold BigRat.frac
    obtain ⟨x, e, hx⟩ := mod_pos_rep hr.1 hr.2 hq
    rw [e, ok_bind]
    refine ⟨_, rfl, repQ_of hx hr.2 hq ?_ ?_⟩
    · have := cq.add_mul_left_left (-(q.num / q.den))
      rw [Int.emod_def]
      rwa [show q.num - q.den * (q.num / q.den) = q.num + q.den * -(q.num / q.den) by ring]
    · have hfl : ⌊q⌋ = q.num / (q.den : Int) := by
        rw [← floor_ediv _ hq, ← eq]
      have t : ((q.den : Int) : ℚ) ≠ 0 := by exact_mod_cast hq.ne'
      have : Int.fract q = q - ⌊q⌋ := rfl
      rw [this, hfl, Int.emod_def]
      conv_rhs => lhs; rw [eq]
      push_cast at *; field_simp

/-- C12: quotient and remainder for positive integer or rational modulus: floor division of
rational numbers.  (For negative modulus finding F2 can strike; modulus zero throws.) -/
theorem C12_quotient_partial {r x : BigRat} {q p : ℚ} (hr : RepQ r q) (hx : RepQ x p) (h0 : 0 < p) :
    (∃ y, BigRat.quotient r x = .ok y ∧ Rep y ⌊q / p⌋) ∧
    (∃ s, BigRat.mod r x = .ok s ∧ RepQ s (q - p * ⌊q / p⌋)) := by
  have hq := den_pos q
  have hp := den_pos p
  have hn : 0 < p.num := Rat.num_pos.2 h0
  have eq := rat_eq q
  have ep := rat_eq p
  have hnQ : (p.num : ℚ) ≠ 0 := by exact_mod_cast hn.ne'
  have hqQ : ((q.den : Int) : ℚ) ≠ 0 := by exact_mod_cast hq.ne'
  have hpQ : ((p.den : Int) : ℚ) ≠ 0 := by exact_mod_cast hp.ne'
  have hdiv : q / p = ((q.num * p.den : Int) : ℚ) / ((q.den * p.num : Int) : ℚ) := by
    conv_lhs => rw [eq, ep]
    push_cast at *; field_simp
  constructor
  · unfold BigRat.quotient
    have hpos : (0 : Int) < q.den * p.num := by positivity
    obtain ⟨y, e, hy⟩ := div_pos_rep (C06_mul hr.1 hx.2) (C06_mul hr.2 hx.1) hpos
    exact ⟨y, e, by rw [hdiv, floor_ediv _ hpos]; exact hy⟩
  · unfold BigRat.mod
    obtain ⟨g, d, u, v, e, hg, hd, h1, h2, hc, ⟨y1, ey1, hy1⟩, ⟨y2, ey2, hy2⟩, hone⟩ :=
      gcd_rep_split hr.2 hx.2 (.inl hq.ne')
    have hu : 0 < u := by by_contra hcon; nlinarith
    have hv : 0 < v := by by_contra hcon; nlinarith
    have huQ : (u : ℚ) ≠ 0 := by exact_mod_cast hu.ne'
    have hvQ : (v : ℚ) ≠ 0 := by exact_mod_cast hv.ne'
    have hdQ : (d : ℚ) ≠ 0 := by exact_mod_cast hd.ne'
    -- the remainder in terms of the reduced quantities
    have hpos : 0 < u * p.num := by positivity
    have hval : (((q.num * v) % (u * p.num) : Int) : ℚ) / ((u * p.den : Int) : ℚ) = q - p * ⌊q / p⌋ := by
      have hdiv' : q / p = ((q.num * v : Int) : ℚ) / ((u * p.num : Int) : ℚ) := by
        rw [hdiv, h1, h2]; push_cast; field_simp
      rw [hdiv', floor_ediv _ hpos, Int.emod_def]
      generalize (q.num * v) / (u * p.num) = f
      conv_rhs => rw [eq, ep]
      rw [h1, h2]; push_cast; field_simp
    rw [e, ok_bind]
    by_cases c : BigInt.eqInt g 1 = true
    · rw [if_pos c]
      have := hone.1 c
      subst this
      rw [one_mul] at h1 h2
      obtain ⟨z, ez, hz⟩ := mod_pos_rep (C06_mul hr.1 hx.2) (C06_mul hr.2 hx.1)
        (show (0 : Int) < q.den * p.num by positivity)
      rw [ez, ok_bind]
      obtain ⟨s, es, hs⟩ := fromFraction_rep hz (C06_mul hr.2 hx.2)
        (show (q.den : Int) * p.den ≠ 0 by positivity)
      refine ⟨s, es, ?_⟩
      rw [← hval, ← h1, ← h2]; exact hs
    · rw [if_neg c]
      simp only [ey1, ey2, ok_bind]
      obtain ⟨z, ez, hz⟩ := mod_pos_rep (C06_mul hr.1 hy2) (C06_mul hy1 hx.1) hpos
      simp only [ez, ok_bind]
      obtain ⟨s, es, hs⟩ := fromFraction_rep hz (C06_mul hy1 hx.2)
        (show u * (p.den : Int) ≠ 0 by positivity)
      refine ⟨s, es, ?_⟩
      rw [← hval]; exact hs

/-- C12, full statement for the remainder: false of the code (consequence of finding F2). -/
def C12_mod_statement : Prop :=
  ∀ (r x : BigRat) (q p : ℚ), RepQ r q → RepQ x p → p ≠ 0 →
    ∃ s, BigRat.mod r x = .ok s ∧ RepQ s (q - p * ⌊q / p⌋)

/-- C12 fails for the remainder: `(2^32+5) % -(2^32+1)` is computed as 4. -/
theorem C12_mod_false : ¬ C12_mod_statement := by
  intro h
  have h1 : Rep [5, 1] (2 ^ 32 + 5) := rep_of_check (by decide)
  have h2 : Rep [𝐁 - 1, 𝐁 - 2] (-(2 ^ 32 + 1)) := rep_of_check (by decide)
  obtain ⟨s, e, hs⟩ := h _ _ _ _ (C12_ofInt h1) (C12_ofInt h2) (by norm_num)
  have e2 : BigRat.mod (BigRat.ofInt [5, 1]) (BigRat.ofInt [𝐁 - 1, 𝐁 - 2]) = .ok ⟨[4], [1]⟩ := by
    decide +kernel
  rw [e2] at e
  injection e with e
  subst e
  have e3 : (((2 ^ 32 + 5 : Int) : ℚ) - ((-(2 ^ 32 + 1) : Int) : ℚ) *
      ((⌊((2 ^ 32 + 5 : Int) : ℚ) / ((-(2 ^ 32 + 1) : Int) : ℚ)⌋ : Int) : ℚ)) =
      ((-4294967293 : Int) : ℚ) := by
    have : ⌊((2 ^ 32 + 5 : Int) : ℚ) / ((-(2 ^ 32 + 1) : Int) : ℚ)⌋ = -2 := by
      rw [Int.floor_eq_iff]; norm_num
    rw [this]; norm_num
  have h3 := hs.1
  rw [e3, Rat.num_intCast] at h3
  have := check_of_rep h3
  revert this; decide

/-- C12: quotient and remainder by a positive integer. -/
theorem C12_quotientInt_partial {r : BigRat} {x : Digits} {q : ℚ} {n : Int} (hr : RepQ r q)
    (hx : Rep x n) (h0 : 0 < n) :
    (∃ y, BigRat.quotientInt r x = .ok y ∧ Rep y ⌊q / n⌋) ∧
    (∃ s, BigRat.modInt r x = .ok s ∧ RepQ s (q - n * ⌊q / n⌋)) := by
  have hq := den_pos q
  have eq := rat_eq q
  have cq := rat_coprime q
  have hnQ : (n : ℚ) ≠ 0 := by exact_mod_cast h0.ne'
  have hqQ : ((q.den : Int) : ℚ) ≠ 0 := by exact_mod_cast hq.ne'
  have hpos : 0 < n * (q.den : Int) := by positivity
  have hdiv : q / n = (q.num : ℚ) / ((n * q.den : Int) : ℚ) := by
    conv_lhs => rw [eq]
    push_cast at *; field_simp
  have hfl : ⌊q / n⌋ = q.num / (n * q.den) := by rw [hdiv, floor_ediv _ hpos]
  constructor
  · unfold BigRat.quotientInt
    obtain ⟨y, e, hy⟩ := div_pos_rep hr.1 (C06_mul hx hr.2) hpos
    exact ⟨y, e, by rw [hfl]; exact hy⟩
  · unfold BigRat.modInt
    obtain ⟨y, e, hy⟩ := mod_pos_rep hr.1 (C06_mul hx hr.2) hpos
    rw [e, ok_bind]
    refine ⟨_, rfl, repQ_of hy hr.2 hq ?_ ?_⟩
    · have := cq.add_mul_left_left (-(n * (q.num / (n * q.den))))
      rw [Int.emod_def]
      rwa [show q.num - n * q.den * (q.num / (n * q.den)) =
        q.num + q.den * -(n * (q.num / (n * q.den))) by ring]
    · rw [hfl, Int.emod_def]
      generalize q.num / (n * (q.den : Int)) = f
      conv_rhs => lhs; rw [eq]
      push_cast at *; field_simp

theorem powerLoop_ratRep {r : BigRat} {q : ℚ} (hr : RepQ r q) : ∀ (e : Nat) {s : BigRat} {p : ℚ},
    RepQ s p → (∃ k, p = q ^ k) → RepQ (BigRat.powerLoop r e s) (p * q ^ e)
  | 0, s, p, hs, _ => by simpa [BigRat.powerLoop] using hs
  | e + 1, s, p, hs, ⟨k, hk⟩ => by
    unfold BigRat.powerLoop
    have hnum : (p * q).num = p.num * q.num := by
      rw [hk, ← pow_succ, Rat.num_pow, Rat.num_pow, pow_succ]
    have hden : (p * q).den = p.den * q.den := by
      rw [hk, ← pow_succ, Rat.den_pow, Rat.den_pow, pow_succ]
    have hs' : RepQ ⟨mul s.num r.num, mul s.den r.den⟩ (p * q) :=
      ⟨by rw [hnum]; exact C06_mul hs.1 hr.1, by rw [hden]; push_cast; exact C06_mul hs.2 hr.2⟩
    have := powerLoop_ratRep hr e hs' ⟨k + 1, by rw [hk, pow_succ]⟩
    rwa [pow_succ', ← mul_assoc]

/-- C12: integer powers, also negative; a negative power of zero throws. -/
theorem C12_power {r : BigRat} {q : ℚ} (hr : RepQ r q) (e : Int) :
    (q ≠ 0 ∨ 0 ≤ e → ∃ s, BigRat.power r e = .ok s ∧ RepQ s (q ^ e)) ∧
    (q = 0 ∧ e < 0 → BigRat.power r e = .throw) := by
  unfold BigRat.power
  by_cases h0 : e = 0
  · subst h0
    simp only [if_true]
    refine ⟨fun _ => ⟨_, rfl, by simpa using C12_ofInt one_rep⟩, fun h => by omega⟩
  · rw [if_neg h0]
    have key := powerLoop_ratRep hr (e.natAbs - 1) hr ⟨1, (pow_one q).symm⟩
    rw [← pow_succ', show e.natAbs - 1 + 1 = e.natAbs by omega] at key
    by_cases hneg : e < 0
    · have hinv := C12_invert key
      have ee : q ^ e = (q ^ e.natAbs)⁻¹ := by
        rw [← zpow_natCast, ← zpow_neg]; congr 1; omega
      simp only [if_pos hneg]
      refine ⟨fun h => ?_, fun h => ?_⟩
      · rw [ee]
        exact hinv.1 (pow_ne_zero _ (h.resolve_right (by omega)))
      · exact hinv.2 (by rw [h.1]; exact zero_pow (by omega))
    · have ee : q ^ e = q ^ e.natAbs := by
        rw [← zpow_natCast]; congr 1; omega
      simp only [if_neg hneg]
      exact ⟨fun _ => ⟨_, rfl, by rw [ee]; exact key⟩, fun h => by omega⟩

example : RepQ ⟨[𝐁 - 3], [4]⟩ (-3 / 4) ∧ RepQ ⟨[5], [6]⟩ (5 / 6) ∧
    BigRat.add ⟨[𝐁 - 3], [4]⟩ ⟨[5], [6]⟩ = .ok ⟨[1], [12]⟩ ∧
    BigRat.mul ⟨[𝐁 - 3], [4]⟩ ⟨[5], [6]⟩ = .ok ⟨[𝐁 - 5], [8]⟩ ∧
    BigRat.div ⟨[5], [6]⟩ ⟨[𝐁 - 3], [4]⟩ = .ok ⟨[𝐁 - 10], [9]⟩ ∧
    BigRat.mod ⟨[𝐁 - 3], [4]⟩ ⟨[5], [6]⟩ = .ok ⟨[1], [12]⟩ ∧
    BigRat.power ⟨[𝐁 - 3], [4]⟩ (-3) = .ok ⟨[𝐁 - 64], [27]⟩ := by
  refine ⟨?_, ?_, by decide +kernel, by decide +kernel, by decide +kernel, by decide +kernel,
    by decide +kernel⟩
  · exact repQ_of (n := -3) (d := 4) (rep_of_check (by decide)) (rep_of_check (by decide))
      (by norm_num) (by rw [Int.isCoprime_iff_gcd_eq_one]; decide) (by norm_num)
  · exact repQ_of (n := 5) (d := 6) (rep_of_check (by decide)) (rep_of_check (by decide))
      (by norm_num) (by rw [Int.isCoprime_iff_gcd_eq_one]; decide) (by norm_num)

end Verif.BigInt
