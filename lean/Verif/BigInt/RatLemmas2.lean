import Verif.BigInt.RatLemmas
import Mathlib.RingTheory.Coprime.Lemmas
import Mathlib.RingTheory.Int.Basic
import Mathlib.Algebra.Order.Floor.Ring
import Mathlib.Data.Rat.Floor
import Mathlib.Algebra.Order.Field.Basic
/-
Helper lemmas for `big_rat`: reduced fractions.
-/
namespace Verif.BigInt

/-- `r` stores the rational number `q` by its numerator and (positive) denominator in
lowest terms, both in canonical form -/
def RepQ (r : BigRat) (q : ℚ) : Prop := Rep r.num q.num ∧ Rep r.den q.den

theorem rat_unique {n d : Int} {q : ℚ} (hd : 0 < d) (hc : IsCoprime n d) (h : (n : ℚ) / d = q) :
    q.num = n ∧ (q.den : Int) = d := by
  have hc' : Nat.Coprime n.natAbs d.natAbs := by
    have := Int.isCoprime_iff_gcd_eq_one.1 hc
    exact this
  rw [← h]
  exact ⟨Rat.num_div_eq_of_coprime hd hc', Rat.den_div_eq_of_coprime hd hc'⟩

theorem repQ_of {x y : Digits} {n d : Int} {q : ℚ} (hx : Rep x n) (hy : Rep y d) (hd : 0 < d)
    (hc : IsCoprime n d) (h : (n : ℚ) / d = q) : RepQ ⟨x, y⟩ q := by
  obtain ⟨h1, h2⟩ := rat_unique hd hc h
  exact ⟨by rw [h1]; exact hx, by rw [h2]; exact hy⟩

theorem make_ok {x y : Digits} {d : Int} (hy : Rep y d) (hd : 0 < d) :
    BigRat.make x y = .ok ⟨x, y⟩ := by
  unfold BigRat.make
  rw [if_neg]
  intro h
  have := (isZero_rep hy).1 h
  omega

theorem rat_coprime (q : ℚ) : IsCoprime q.num (q.den : Int) := by
  rw [Int.isCoprime_iff_gcd_eq_one]
  exact q.reduced

theorem rat_eq (q : ℚ) : q = (q.num : ℚ) / ((q.den : Int) : ℚ) := by
  have := Rat.num_div_den q
  rw [Int.cast_natCast]; exact this.symm

/-- greatest common divisor and cofactors -/
theorem gcd_split {a b : Int} (h : a ≠ 0 ∨ b ≠ 0) : ∃ d a' b', (Int.gcd a b : Int) = d ∧ 0 < d ∧
    a = d * a' ∧ b = d * b' ∧ IsCoprime a' b' ∧ a / d = a' ∧ b / d = b' := by
  have hg : 0 < Int.gcd a b := by
    rw [Int.gcd_pos_iff]; exact h
  obtain ⟨d, hd⟩ : ∃ d, (Int.gcd a b : Int) = d := ⟨_, rfl⟩
  obtain ⟨a', ha'⟩ := Int.gcd_dvd_left (a := a) (b := b)
  obtain ⟨b', hb'⟩ := Int.gcd_dvd_right (a := a) (b := b)
  rw [hd] at ha' hb'
  have hd0 : 0 < d := by omega
  have e1 : a / d = a' := by rw [ha', Int.mul_ediv_cancel_left _ hd0.ne']
  have e2 : b / d = b' := by rw [hb', Int.mul_ediv_cancel_left _ hd0.ne']
  refine ⟨d, a', b', hd, hd0, ha', hb', ?_, e1, e2⟩
  rw [Int.isCoprime_iff_gcd_eq_one, ← e1, ← e2, ← hd]
  exact Int.gcd_ediv_gcd_ediv_gcd hg

/-- compute a greatest common divisor, with cofactors -/
theorem gcd_rep_split {x y : Digits} {a b : Int} (hx : Rep x a) (hy : Rep y b) (h : a ≠ 0 ∨ b ≠ 0) :
    ∃ r d a' b', gcd x y = .ok r ∧ Rep r d ∧ 0 < d ∧ a = d * a' ∧ b = d * b' ∧ IsCoprime a' b' ∧
      (∃ x', divAssign x r = .ok x' ∧ Rep x' a') ∧ (∃ y', divAssign y r = .ok y' ∧ Rep y' b') ∧
      (eqInt r 1 = true ↔ d = 1) := by
  obtain ⟨r, e, hr⟩ := gcd_rep hx hy
  obtain ⟨d, a', b', h1, h2, h3, h4, h5, h6, h7⟩ := gcd_split h
  rw [h1] at hr
  obtain ⟨x', ex, hx'⟩ := div_pos_rep hx hr h2
  obtain ⟨y', ey, hy'⟩ := div_pos_rep hy hr h2
  rw [h6] at hx'; rw [h7] at hy'
  exact ⟨r, d, a', b', e, hr, h2, h3, h4, h5, ⟨x', ex, hx'⟩, ⟨y', ey, hy'⟩,
    C02_eqInt hr (by norm_num)⟩

theorem div_exact {x y : Digits} {d a : Int} (hx : Rep x (d * a)) (hy : Rep y d) (hd : 0 < d) :
    ∃ q, divAssign x y = .ok q ∧ Rep q a := by
  obtain ⟨q, e, h⟩ := div_pos_rep hx hy hd
  rw [Int.mul_ediv_cancel_left _ hd.ne'] at h
  exact ⟨q, e, h⟩

theorem den_pos (q : ℚ) : (0 : Int) < q.den := by exact_mod_cast q.den_pos

theorem coprime_of_dvd_left {a b c : Int} (h : IsCoprime a c) (hd : b ∣ a) : IsCoprime b c :=
  h.of_isCoprime_of_dvd_left hd

/-! ### arithmetic -/

theorem normalise_rep {r : BigRat} {n d : Int} (hn : Rep r.num n) (hd : Rep r.den d) (h0 : d ≠ 0) :
    ∃ s, BigRat.normalise r = .ok s ∧ RepQ s ((n : ℚ) / d) := by
  have key : ∀ {r : BigRat} {n d : Int}, Rep r.num n → Rep r.den d → 0 < d →
      ∃ s, (do
        let g ← gcd r.den r.num
        if eqInt g 1 then pure r
        else pure (⟨← divAssign r.num g, ← divAssign r.den g⟩ : BigRat) : Outcome BigRat) = .ok s ∧
        RepQ s ((n : ℚ) / d) := by
    intro r n d hn hd hpos
    obtain ⟨g, k, d', n', e, hg, hk, h1, h2, hc, ⟨y', ey, hy'⟩, ⟨x', ex, hx'⟩, h1'⟩ :=
      gcd_rep_split hd hn (.inl hpos.ne')
    have hd' : 0 < d' := by
      by_contra hcon
      nlinarith
    have hq : (n' : ℚ) / d' = (n : ℚ) / d := by
      rw [h1, h2]; push_cast
      have : (k : ℚ) ≠ 0 := by exact_mod_cast hk.ne'
      have : (d' : ℚ) ≠ 0 := by exact_mod_cast hd'.ne'
      field_simp
    rw [e, ok_bind]
    by_cases c : eqInt g 1 = true
    · rw [if_pos c]
      have hk1 := h1'.1 c
      subst hk1
      rw [one_mul] at h1 h2
      subst h1; subst h2
      exact ⟨r, rfl, repQ_of hn hd hpos hc.symm rfl⟩
    · rw [if_neg c]
      simp only [ex, ey, ok_bind, pure_eq]
      exact ⟨_, rfl, repQ_of hx' hy' hd' hc.symm hq⟩
  unfold BigRat.normalise
  by_cases hneg : isNegative r.den = true
  · rw [if_pos hneg]
    have := (isNeg_rep hd).1 hneg
    have h := key (r := ⟨negate r.num, negate r.den⟩) (C04_negate hn) (C04_negate hd) (by omega)
    have e : ((-n : Int) : ℚ) / ((-d : Int) : ℚ) = (n : ℚ) / d := by
      push_cast; rw [neg_div_neg_eq]
    rw [e] at h; exact h
  · rw [if_neg hneg]
    have : ¬ d < 0 := fun h => hneg ((isNeg_rep hd).2 h)
    exact key hn hd (by omega)

theorem fromFraction_rep {x y : Digits} {n d : Int} (hn : Rep x n) (hd : Rep y d) (h0 : d ≠ 0) :
    ∃ s, BigRat.fromFraction x y = .ok s ∧ RepQ s ((n : ℚ) / d) := by
  unfold BigRat.fromFraction BigRat.make
  rw [if_neg (fun h => h0 ((isZero_rep hd).1 h)), ok_bind]
  exact normalise_rep (r := ⟨x, y⟩) hn hd h0

/-- the reduced sum of two fractions: general form of `operator+` and `operator-` -/
theorem addLike_rep {r x : BigRat} {q p : ℚ} (hr : RepQ r q) (hx : RepQ x p) (op : Digits → Digits → Digits)
    (σ : Int) (hσ : σ = 1 ∨ σ = -1)
    (hop : ∀ {u v : Digits} (k : Int), 0 < k → k ∣ q.den → k ∣ p.den →
      Rep u (q.num * (p.den / k)) → Rep v (p.num * (q.den / k)) →
      Rep (op u v) (q.num * (p.den / k) + σ * (p.num * (q.den / k)))) :
    ∃ s, (do
      let d ← gcd r.den x.den
      if eqInt d 1 then
        BigRat.make (op (mul r.num x.den) (mul x.num r.den)) (mul r.den x.den)
      else
        let c ← divAssign x.den d
        let numer := op (mul r.num c) (mul x.num (← divAssign r.den d))
        let dd ← gcd numer d
        if eqInt dd 1 then BigRat.make numer (mul r.den c)
        else BigRat.make (← divAssign numer dd) (← divAssign (mul r.den c) dd) : Outcome BigRat) = .ok s ∧
      RepQ s (q + σ * p) := by
  have hq0 := den_pos q
  have hp0 := den_pos p
  have cq := rat_coprime q
  have cp := rat_coprime p
  have eq := rat_eq q
  have ep := rat_eq p
  obtain ⟨hrn, hrd⟩ := hr
  obtain ⟨hxn, hxd⟩ := hx
  obtain ⟨n1, hn1⟩ : ∃ n, n = q.num := ⟨_, rfl⟩
  obtain ⟨n2, hn2⟩ : ∃ n, n = p.num := ⟨_, rfl⟩
  obtain ⟨m1, hm1⟩ : ∃ n : Int, n = q.den := ⟨_, rfl⟩
  obtain ⟨m2, hm2⟩ : ∃ n : Int, n = p.den := ⟨_, rfl⟩
  simp only [← hn1, ← hn2, ← hm1, ← hm2] at *
  obtain ⟨g, d, u, v, e, hg, hd, h1, h2, hc, ⟨y1, ey1, hy1⟩, ⟨y2, ey2, hy2⟩, hone⟩ :=
    gcd_rep_split hrd hxd (.inl hq0.ne')
  have hu : 0 < u := by by_contra hcon; nlinarith
  have hv : 0 < v := by by_contra hcon; nlinarith
  have hdQ : (d : ℚ) ≠ 0 := by exact_mod_cast hd.ne'
  have huQ : (u : ℚ) ≠ 0 := by exact_mod_cast hu.ne'
  have hvQ : (v : ℚ) ≠ 0 := by exact_mod_cast hv.ne'
  have cu : IsCoprime n1 u := cq.of_isCoprime_of_dvd_right ⟨d, by rw [h1]; ring⟩
  have cv : IsCoprime n2 v := cp.of_isCoprime_of_dvd_right ⟨d, by rw [h2]; ring⟩
  have hopd := hop d hd ⟨u, h1⟩ ⟨v, h2⟩ (u := mul r.num y2) (v := mul x.num y1)
  have e1 : m1 / d = u := by rw [h1, Int.mul_ediv_cancel_left _ hd.ne']
  have e2 : m2 / d = v := by rw [h2, Int.mul_ediv_cancel_left _ hd.ne']
  rw [e1, e2] at hopd
  have hN := hopd (C06_mul hrn hy2) (C06_mul hxn hy1)
  -- the numerator is prime to both cofactors
  obtain ⟨N, hNdef⟩ : ∃ N, N = n1 * v + σ * (n2 * u) := ⟨_, rfl⟩
  rw [← hNdef] at hN
  have hσu : IsCoprime σ u ∧ IsCoprime σ v := by
    rcases hσ with rfl | rfl
    · exact ⟨isCoprime_one_left, isCoprime_one_left⟩
    · exact ⟨isCoprime_one_left.neg_left, isCoprime_one_left.neg_left⟩
  have cNu : IsCoprime N u := by
    have : IsCoprime (n1 * v) u := cu.mul_left hc.symm
    have := this.add_mul_left_left (σ * n2)
    rw [hNdef, show n1 * v + σ * (n2 * u) = n1 * v + u * (σ * n2) by ring]; exact this
  have cNv : IsCoprime N v := by
    have : IsCoprime (σ * (n2 * u)) v := hσu.2.mul_left (cv.mul_left hc)
    have := this.add_mul_left_left n1
    rw [hNdef, show n1 * v + σ * (n2 * u) = σ * (n2 * u) + v * n1 by ring]; exact this
  have hval : q + σ * p = (N : ℚ) / ((d * u * v : Int) : ℚ) := by
    rw [eq, ep, hNdef, h1, h2]; push_cast; field_simp
  rw [e, ok_bind]
  by_cases c : eqInt g 1 = true
  · rw [if_pos c]
    have hd1 := hone.1 c
    subst hd1
    rw [one_mul] at h1 h2
    have hp : Rep (mul r.den x.den) (m1 * m2) := C06_mul hrd hxd
    have hN' := hop 1 one_pos (one_dvd _) (one_dvd _) (u := mul r.num x.den) (v := mul x.num r.den)
    rw [Int.ediv_one, Int.ediv_one] at hN'
    have hN'' := hN' (C06_mul hrn hxd) (C06_mul hxn hrd)
    rw [h1, h2, ← hNdef] at hN''
    rw [make_ok hp (by positivity)]
    refine ⟨_, rfl, repQ_of hN'' hp (by positivity) ?_ ?_⟩
    · rw [h1, h2]; exact cNu.mul_right cNv
    · rw [hval, h1, h2, one_mul]
  · rw [if_neg c]
    have hmq : Rep (mul r.den y2) (m1 * v) := C06_mul hrd hy2
    have hmpos : 0 < m1 * v := by positivity
    simp only [ey1, ey2, ok_bind]
    obtain ⟨gg, k, s, t, e', hgg, hk, k1, k2, hcst, ⟨z1, ez1, hz1⟩, -, hone'⟩ :=
      gcd_rep_split hN hg (.inr hd.ne')
    rw [e', ok_bind]
    have ht : 0 < t := by by_contra hcon; nlinarith
    have cs : IsCoprime s (t * u * v) := by
      have a1 : IsCoprime s u := cNu.of_isCoprime_of_dvd_left ⟨k, by rw [k1]; ring⟩
      have a2 : IsCoprime s v := cNv.of_isCoprime_of_dvd_left ⟨k, by rw [k1]; ring⟩
      exact (hcst.mul_right a1).mul_right a2
    by_cases c' : eqInt gg 1 = true
    · rw [if_pos c', make_ok hmq hmpos]
      have hk1 := hone'.1 c'
      subst hk1
      rw [one_mul] at k1 k2
      refine ⟨_, rfl, repQ_of hN hmq hmpos ?_ ?_⟩
      · rw [h1, k1, k2]; exact cs
      · rw [hval, h1]
    · rw [if_neg c']
      obtain ⟨z2, ez2, hz2⟩ := div_exact (x := mul r.den y2) (d := k) (a := t * u * v)
        (by rw [show k * (t * u * v) = m1 * v by rw [h1, k2]; ring]; exact hmq) hgg hk
      have htuv : 0 < t * u * v := by positivity
      simp only [ez1, ez2, ok_bind]
      rw [make_ok hz2 htuv]
      refine ⟨_, rfl, repQ_of hz1 hz2 htuv cs ?_⟩
      have hkQ : (k : ℚ) ≠ 0 := by exact_mod_cast hk.ne'
      have htQ : (t : ℚ) ≠ 0 := by exact_mod_cast ht.ne'
      rw [hval, k1, k2]; push_cast; field_simp

end Verif.BigInt
