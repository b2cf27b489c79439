import Verif.Poly.Props
/-
C28, further operations of `Polynomial<C>`: upward division, tests, and scalar division.
-/
namespace Verif.Poly

open Verif _root_.Polynomial

section Ring
variable {R : Type} [CommRing R] [DecidableEq R]

omit [DecidableEq R] in
theorem coef_eq (p : List R) (i : Nat) : coef p i = (val p).coeff i := by
  rw [coeff_val, coef]
  by_cases h : i ≥ p.length
  · rw [if_pos h, List.getD_eq_default _ _ h]
  · rw [if_neg h]

/-- remainders of upward division by `1+cX` -/
def upRem (a : Nat → R) (c : R) : Nat → R
  | 0 => a 0
  | n+1 => a (n+1) - c * upRem a c n

omit [DecidableEq R] in
theorem upRem_loop (p : List R) (c : R) (n a : Nat) (r : R) (h : r = upRem (coef p) c a) :
    upLoop (fun i r => .ok (coef p i - c * r)) (a+1) n r = .ok (upRem (coef p) c (a + n)) := by
  induction n generalizing a r with
  | zero => rw [upLoop, h]; rfl
  | succ n ih =>
    rw [upLoop, Res.ok_bind, ih (a+1) _ (by rw [h]; rfl)]
    congr 2; omega

omit [DecidableEq R] in
/-- upward division: the quotient with the first `d` remainders as coefficients -/
theorem upRem_div (P : _root_.Polynomial R) (c : R) (d : Nat) (hd : ∀ i, d < i → P.coeff i = 0) :
    P = (1 + C c * X) * val ((List.range d).map (upRem P.coeff c)) + C (upRem P.coeff c d) * X ^ d := by
  have hq : ∀ i, (val ((List.range d).map (upRem P.coeff c))).coeff i = if i < d then upRem P.coeff c i else 0 := by
    intro i
    rw [coeff_val]
    by_cases h : i < d
    · simp [h]
    · rw [if_neg h, List.getD_eq_default]; simpa using h
  generalize val ((List.range d).map (upRem P.coeff c)) = Q at *
  ext n
  rw [Polynomial.coeff_add, add_mul, one_mul, Polynomial.coeff_add, Polynomial.coeff_C_mul,
    Polynomial.coeff_X_pow, mul_assoc, Polynomial.coeff_C_mul]
  cases n with
  | zero =>
    rw [Polynomial.coeff_X_mul_zero, hq, mul_zero, add_zero]
    by_cases h : 0 < d
    · rw [if_pos h, if_neg (by omega)]; simp [upRem]
    · have : d = 0 := by omega
      subst this; simp [upRem]
  | succ n =>
    rw [Polynomial.coeff_X_mul, hq, hq]
    rcases Nat.lt_trichotomy (n+1) d with h | h | h
    · rw [if_pos h, if_pos (by omega), if_neg (by omega)]
      simp only [upRem]; ring
    · subst h
      rw [if_neg (by omega), if_pos (by omega), if_pos rfl]
      simp only [upRem]; ring
    · rw [if_neg (by omega), if_neg (by omega), if_neg (by omega), hd _ h]; simp

omit [DecidableEq R] in
/-- `p.up_remainder(c,d)` is the `r` for which `p = (1+cX) Q + r X^d` with `Q` of degree below `d`,
provided `p` has degree at most `d`. -/
theorem C28_upRemainder (nd : Bool) (p : List R) (c : R) (d : Nat) (hd : p.length ≤ d + 1) :
    ∃ r, upRemainder nd p c d = .ok r ∧
      ∃ Q : _root_.Polynomial R, (∀ i, d ≤ i → Q.coeff i = 0) ∧
        val p = (1 + C c * X) * Q + C r * X ^ d := by
  unfold upRemainder
  by_cases hp : p.length = 0
  · rw [if_pos hp, List.length_eq_zero_iff.1 hp]
    exact ⟨0, rfl, 0, by simp, by simp⟩
  · rw [if_neg hp, Res.assertIn_bind nd (by simp; omega), get_getD (by omega), Res.ok_bind,
      upRem_loop p c d 0 _ (by rw [upRem, coef_eq, coeff_val])]
    have hc : coef p = (val p).coeff := funext (coef_eq p)
    refine ⟨_, rfl, val ((List.range d).map (upRem (val p).coeff c)), ?_, ?_⟩
    · intro i hi
      rw [coeff_val, List.getD_eq_default]; simpa using hi
    · rw [Nat.zero_add, hc]
      refine upRem_div (val p) c d fun i hi => ?_
      rw [coeff_val, List.getD_eq_default _ _ (by omega)]

omit [DecidableEq R] in
/-- Such an `r` is unique: the remainder is well defined. -/
theorem C28_upRemainder_unique (c : R) (d : Nat) (Q Q' : _root_.Polynomial R) (r r' : R)
    (hQ : ∀ i, d ≤ i → Q.coeff i = 0) (hQ' : ∀ i, d ≤ i → Q'.coeff i = 0)
    (h : (1 + C c * X) * Q + C r * X ^ d = (1 + C c * X) * Q' + C r' * X ^ d) : Q = Q' ∧ r = r' := by
  have hc : ∀ (Q : _root_.Polynomial R) (r : R) n, ((1 + C c * X) * Q + C r * X ^ d).coeff n =
      Q.coeff n + c * (if n = 0 then 0 else Q.coeff (n-1)) + (if n = d then r else 0) := by
    intro Q r n
    rw [Polynomial.coeff_add, add_mul, one_mul, Polynomial.coeff_add, Polynomial.coeff_C_mul,
      Polynomial.coeff_X_pow, mul_assoc, Polynomial.coeff_C_mul]
    cases n with
    | zero => simp
    | succ n => simp
  have key : ∀ n, n ≤ d → (n < d → Q.coeff n = Q'.coeff n) ∧ (n = d → r = r') := by
    intro n
    induction n using Nat.strongRecOn with
    | ind n ih =>
      intro hn
      have e := congrArg (fun P => _root_.Polynomial.coeff P n) h
      simp only [hc] at e
      have hprev : (if n = 0 then 0 else Q.coeff (n-1)) = (if n = 0 then 0 else Q'.coeff (n-1)) := by
        by_cases h0 : n = 0
        · rw [if_pos h0, if_pos h0]
        · rw [if_neg h0, if_neg h0]; exact (ih (n-1) (by omega) (by omega)).1 (by omega)
      rw [hprev] at e
      constructor
      · intro hlt
        have hnd : ¬ n = d := by omega
        simp only [if_neg hnd, add_zero] at e
        exact add_right_cancel e
      · intro hEq
        rw [if_pos hEq, if_pos hEq, hQ n (by omega), hQ' n (by omega)] at e
        exact add_left_cancel e
  refine ⟨?_, (key d (Nat.le_refl _)).2 rfl⟩
  ext n
  by_cases hn : n < d
  · exact (key n (by omega)).1 hn
  · rw [hQ n (by omega), hQ' n (by omega)]

omit [DecidableEq R] in
/-- the upward loop of divisions by `1+X^k`: every coefficient from `k` on has the coefficient
`k` places before it, already changed, subtracted from it -/
theorem upLoop_sub {k : Nat} (hk : 0 < k) {f : Nat → List R → Res (List R)}
    (hf : ∀ i l, k ≤ i → i < l.length → f i l = .ok (l.set i (l.getD i 0 - l.getD (i - k) 0)))
    (n a : Nat) (ha : k ≤ a) (l : List R) (hl : a + n ≤ l.length) :
    ∃ r, upLoop f a n l = .ok r ∧ r.length = l.length ∧
      ∀ i, r.getD i 0 = if a ≤ i ∧ i < a + n then l.getD i 0 - r.getD (i - k) 0 else l.getD i 0 := by
  induction n generalizing a l with
  | zero => exact ⟨l, rfl, rfl, fun i => by rw [if_neg (by omega)]⟩
  | succ n ih =>
    obtain ⟨r, h1, h2, h3⟩ := ih (a+1) (by omega) (l.set a (l.getD a 0 - l.getD (a - k) 0))
      (by rw [List.length_set]; omega)
    refine ⟨r, ?_, by rw [h2, List.length_set], fun i => ?_⟩
    · rw [upLoop, hf a l ha (by omega), Res.ok_bind, h1]
    · have ha' := h3 (a - k)
      rw [if_neg (by omega), getD_set _ _ _ _ (by omega), if_neg (by omega)] at ha'
      by_cases hi : i = a
      · subst hi
        rw [if_pos (by omega), ha', h3, if_neg (by omega), getD_set _ _ _ _ (by omega), if_pos rfl]
      · rw [h3 i, getD_set _ _ _ _ (by omega), if_neg hi]
        by_cases h4 : a + 1 ≤ i ∧ i < a + 1 + n
        · rw [if_pos h4, if_pos (by omega)]
        · rw [if_neg h4, if_neg (by omega)]

/-- `p.factor_by_1_plus_q_to_the(k,d)`, for `p` of degree at most `d` and `0<k<=d+1`, leaves a
canonical polynomial `q` of degree at most `d-k` such that `(1+X^k) q` agrees with `p` in degrees
up to `d-k`, and returns the excess of `p` over `(1+X^k) q` in degree `d`. -/
theorem C28_factorK (nd : Bool) {p : List R} (hp : Canon p) (k d : Nat) (hd : p.length ≤ d + 1) (hk : 0 < k)
    (hkd : k ≤ d + 1) :
    ∃ x q, factorK nd p k d = .ok (x, q) ∧ Canon q ∧ (∀ i, d < i + k → (val q).coeff i = 0) ∧
      (∀ i, i + k ≤ d → ((1 + X ^ k) * val q).coeff i = (val p).coeff i) ∧
      x = (val p - (1 + X ^ k) * val q).coeff d := by
  unfold factorK
  by_cases h0 : p.length = 0
  · rw [if_pos h0]
    refine ⟨0, p, rfl, hp, ?_⟩
    rw [List.length_eq_zero_iff.1 h0]; simp
  · rw [if_neg h0, Res.assertIn_bind nd (by simp; omega)]
    have hg : (if d > p.length - 1 then extend p (d+1) else p).length = d + 1 ∧
        ∀ i, (if d > p.length - 1 then extend p (d+1) else p).getD i 0 = p.getD i 0 := by
      by_cases h : d > p.length - 1
      · rw [if_pos h]; exact ⟨length_extend hd, fun i => getD_extend p _ i⟩
      · rw [if_neg h]; exact ⟨by omega, fun _ => rfl⟩
    obtain ⟨g1, g2⟩ := hg
    generalize (if d > p.length - 1 then extend p (d+1) else p) = p' at *
    obtain ⟨r, h1, h2, h3⟩ := upLoop_sub hk (f := fun i l => do
        let x ← Vec.get l i
        let y ← Vec.get l (i - k)
        Vec.put l i (x - y)) (by
        intro i l hi hl
        rw [get_getD hl, Res.ok_bind, get_getD (by omega), Res.ok_bind, Vec.put_ok hl])
      (d + 1 - k) k (Nat.le_refl _) p' (by omega)
    have hkill : ∀ m l, m ≤ k → l.length = d + 1 → ∃ s,
        downLoop (fun i l => if i > d then .undefined else Vec.put l (d - i) 0) m l = .ok s ∧
        s.length = d + 1 ∧ ∀ i, s.getD i (0:R) = if d < i + m then 0 else l.getD i 0 := by
      intro m
      induction m with
      | zero =>
        intro l _ hl
        refine ⟨l, rfl, hl, fun i => ?_⟩
        by_cases h : d < i + 0
        · rw [if_pos h, List.getD_eq_default _ _ (by omega)]
        · rw [if_neg h]
      | succ m ih =>
        intro l hm hl
        obtain ⟨s, k1, k2, k3⟩ := ih (l.set (d - m) 0) (by omega) (by simpa using hl)
        refine ⟨s, ?_, k2, fun i => ?_⟩
        · rw [downLoop, if_neg (by omega), Vec.put_ok (by omega), Res.ok_bind, k1]
        · rw [k3, getD_set _ _ _ _ (by omega)]
          by_cases h : d < i + m
          · rw [if_pos h, if_pos (by omega)]
          · rw [if_neg h]
            by_cases h' : i = d - m
            · rw [if_pos h', if_pos (by omega)]
            · rw [if_neg h', if_neg (by omega)]
    obtain ⟨s, k1, k2, k3⟩ := hkill k r (Nat.le_refl _) (by omega)
    simp only [h1, Res.ok_bind, get_getD (show d < r.length by omega), k1]
    have hq : ∀ i, (val (adjustSize s)).coeff i = if d < i + k then 0 else r.getD i 0 := by
      intro i; rw [coeff_val, getD_adjustSize, k3]
    have hprod : ∀ i, ((1 + X ^ k) * val (adjustSize s)).coeff i =
        (val (adjustSize s)).coeff i + if k ≤ i then (val (adjustSize s)).coeff (i - k) else 0 := by
      intro i
      rw [add_mul, one_mul, Polynomial.coeff_add, Polynomial.coeff_X_pow_mul']
    refine ⟨_, _, rfl, adjustSize_canon s, fun i hi => by rw [hq, if_pos hi], fun i hi => ?_, ?_⟩
    · rw [hprod, hq, if_neg (by omega), h3, coeff_val p, ← g2]
      by_cases hki : k ≤ i
      · rw [if_pos hki, if_pos (by omega), hq, if_neg (by omega)]; ring
      · rw [if_neg hki, if_neg (by omega), add_zero]
    · rw [Polynomial.coeff_sub, hprod, hq, if_pos (by omega), h3, coeff_val p, ← g2, zero_add]
      by_cases hki : k ≤ d
      · rw [if_pos hki, if_pos (by omega), hq, if_neg (by omega)]
      · rw [if_neg hki, if_neg (by omega), sub_zero]

omit [DecidableEq R] in
/-- the pair loop of `factor_by_1_plus_q` does what the loop on the vector alone does -/
theorem factor1_loop (n a : Nat) (l : List R) (x : R) (hx : x = l.getD a 0) (hl : a + 1 + n ≤ l.length) :
    ∃ r, upLoop (fun i (s : R × List R) => do
      let x ← Vec.get s.2 i
      let l ← Vec.put s.2 i (x - s.1)
      .ok (x - s.1, l)) (a+1) n (x, l) = .ok (r.getD (a + n) 0, r) ∧ r.length = l.length ∧
      ∀ i, r.getD i 0 = if a + 1 ≤ i ∧ i < a + 1 + n then l.getD i 0 - r.getD (i - 1) 0 else l.getD i 0 := by
  induction n generalizing a l x with
  | zero =>
    refine ⟨l, ?_, rfl, fun i => by rw [if_neg (by omega)]⟩
    rw [upLoop, hx]; rfl
  | succ n ih =>
    obtain ⟨r, h1, h2, h3⟩ := ih (a+1) (l.set (a+1) (l.getD (a+1) 0 - x)) (l.getD (a+1) 0 - x)
      (by rw [getD_set _ _ _ _ (by omega), if_pos rfl]) (by rw [List.length_set]; omega)
    refine ⟨r, ?_, by rw [h2, List.length_set], fun i => ?_⟩
    · rw [upLoop]
      simp only [get_getD (show a + 1 < l.length by omega), Res.ok_bind,
        Vec.put_ok (show a + 1 < l.length by omega)]
      rw [h1]; congr 3; omega
    · have ha' := h3 a
      rw [if_neg (by omega), getD_set _ _ _ _ (by omega), if_neg (by omega)] at ha'
      by_cases hi : i = a + 1
      · subst hi
        rw [if_pos (by omega), Nat.add_sub_cancel, ha', h3, if_neg (by omega),
          getD_set _ _ _ _ (by omega), if_pos rfl, hx]
      · rw [h3 i, getD_set _ _ _ _ (by omega), if_neg hi]
        by_cases h4 : a + 1 + 1 ≤ i ∧ i < a + 1 + 1 + n
        · rw [if_pos h4, if_pos (by omega)]
        · rw [if_neg h4, if_neg (by omega)]

/-- `p.factor_by_1_plus_q(d)`, for `p` of degree at most `d`, writes `p` as
`(1+X) q + x X^d` with `q` of degree below `d`; it returns `x` and leaves `q`. -/
theorem C28_factor1 (nd : Bool) {p : List R} (hp : Canon p) (d : Nat) (hd : p.length ≤ d + 1) :
    ∃ x q, factor1 nd p d = .ok (x, q) ∧ Canon q ∧ (∀ i, d ≤ i → (val q).coeff i = 0) ∧
      val p = (1 + X) * val q + C x * X ^ d := by
  unfold factor1
  by_cases h0 : p.length = 0
  · rw [if_pos h0]
    refine ⟨0, p, rfl, hp, ?_⟩
    rw [List.length_eq_zero_iff.1 h0]; simp
  · rw [if_neg h0, Res.assertIn_bind nd (by simp; omega)]
    have hg : (if d > p.length - 1 then extend p (d+1) else p).length = d + 1 ∧
        ∀ i, (if d > p.length - 1 then extend p (d+1) else p).getD i 0 = p.getD i 0 := by
      by_cases h : d > p.length - 1
      · rw [if_pos h]; exact ⟨length_extend hd, fun i => getD_extend p _ i⟩
      · rw [if_neg h]; exact ⟨by omega, fun _ => rfl⟩
    obtain ⟨g1, g2⟩ := hg
    generalize (if d > p.length - 1 then extend p (d+1) else p) = p' at *
    obtain ⟨r, h1, h2, h3⟩ := factor1_loop d 0 p' (p'.getD 0 0) rfl (by omega)
    simp only [get_getD (show 0 < p'.length by omega), Res.ok_bind]
    rw [h1]
    simp only [Res.ok_bind, Vec.put_ok (show d < r.length by omega), Nat.zero_add]
    have hq : ∀ i, (val (adjustSize (r.set d 0))).coeff i = if i < d then r.getD i 0 else 0 := by
      intro i; rw [coeff_val, getD_adjustSize, getD_set _ _ _ _ (by omega)]
      rcases Nat.lt_trichotomy i d with h | h | h
      · rw [if_neg (by omega), if_pos h]
      · rw [if_pos h, if_neg (by omega)]
      · rw [if_neg (by omega), if_neg (by omega), List.getD_eq_default _ _ (by omega)]
    refine ⟨_, _, rfl, adjustSize_canon _, fun i hi => by rw [hq, if_neg (by omega)], ?_⟩
    generalize val (adjustSize (r.set d 0)) = Q at *
    refine val_ext fun n => ?_
    rw [Polynomial.coeff_add, add_mul, one_mul, Polynomial.coeff_add, Polynomial.coeff_C_mul,
      Polynomial.coeff_X_pow, hq, ← g2]
    cases n with
    | zero =>
      rw [Polynomial.coeff_X_mul_zero, add_zero]
      have e := h3 0
      rw [if_neg (by omega)] at e
      by_cases h : 0 < d
      · rw [if_pos h, if_neg (by omega), mul_zero, add_zero, e]
      · have : d = 0 := by omega
        subst this; rw [if_neg (by omega), if_pos rfl, mul_one, zero_add, e]
    | succ n =>
      rw [Polynomial.coeff_X_mul, hq]
      have e := h3 (n+1)
      rcases Nat.lt_trichotomy (n+1) d with h | h | h
      · rw [if_pos (by omega)] at e
        rw [if_pos h, if_pos (by omega), if_neg (by omega), e, Nat.add_sub_cancel]; ring
      · rw [if_pos (by omega)] at e
        subst h
        rw [if_neg (by omega), if_pos (by omega), if_pos rfl, e, Nat.add_sub_cancel]; ring
      · rw [if_neg (by omega), if_neg (by omega), if_neg (by omega), List.getD_eq_default _ _ (by omega)]
        simp

theorem multiLoop_iff (p : List R) (n : Nat) : multiLoop p n = true ↔ ∃ i, i < n ∧ p.getD i 0 ≠ 0 := by
  induction n with
  | zero => simp [multiLoop]
  | succ n ih =>
    rw [multiLoop]
    by_cases h : p.getD n 0 ≠ 0
    · rw [if_pos h]; exact ⟨fun _ => ⟨n, by omega, h⟩, fun _ => rfl⟩
    · rw [if_neg h, ih]
      constructor
      · rintro ⟨i, hi, h⟩; exact ⟨i, by omega, h⟩
      · rintro ⟨i, hi, h'⟩
        refine ⟨i, ?_, h'⟩
        by_contra hc
        have : i = n := by omega
        subst this; exact h h'

/-- `multi_term()` holds exactly when two different coefficients are nonzero. -/
theorem C28_multiTerm {p : List R} (hp : Canon p) :
    multiTerm p = true ↔ ∃ i j : Nat, i ≠ j ∧ (val p).coeff i ≠ 0 ∧ (val p).coeff j ≠ 0 := by
  simp only [coeff_val]
  unfold multiTerm
  rw [canon_iff] at hp
  by_cases h0 : p.length = 0
  · rw [if_pos h0, List.length_eq_zero_iff.1 h0]; simp
  · rw [if_neg h0, multiLoop_iff]
    have hlen : ∀ i, p.getD i 0 ≠ 0 → i < p.length := by
      intro i h; by_contra hc; exact h (List.getD_eq_default _ _ (by omega))
    constructor
    · rintro ⟨i, hi, h⟩; exact ⟨i, p.length - 1, by omega, h, hp h0⟩
    · rintro ⟨i, j, hij, hi, hj⟩
      have := hlen i hi; have := hlen j hj
      rcases Nat.lt_or_gt_of_ne hij with h | h
      · exact ⟨i, by omega, hi⟩
      · exact ⟨j, by omega, hj⟩

end Ring

example : factor1 false [(1 : ℤ), 3, 2] 2 = .ok (0, [1, 2]) ∧ factor1 false [(1 : ℤ), 3, 2] 3 = .ok (0, [1, 2]) ∧
    factorK false [(1 : ℤ), 0, 3, 0, 2] 2 4 = .ok (0, [1, 0, 2]) ∧
    factorK false [(1 : ℤ), 3, 5] 1 2 = .ok (3, [1, 2]) ∧
    upRemainder false [(1 : ℤ), 3, 5] 1 2 = .ok 3 := by decide +kernel

/-- A call with `k > d+1` accesses elements outside the vector. -/
theorem C28_factorK_large_false :
    ¬ ∀ (p : List ℤ) (k d : Nat), Canon p → p.length ≤ d + 1 → 0 < k → ∃ x q, factorK true p k d = .ok (x, q) := by
  intro h
  obtain ⟨x, q, e⟩ := h [1] 3 0 (fun _ => by simp) (by simp) (by omega)
  have : factorK true [(1 : ℤ)] 3 0 = .undefined := by decide +kernel
  rw [this] at e; cases e

/-! ### `compare` and scalar division, integer coefficients -/

theorem compareLoop_iff (p q : List Int) (n : Nat) : compareLoop p q n = true ↔
    ∃ j, j < n ∧ p.getD j 0 < q.getD j 0 ∧ ∀ i, j < i → i < n → p.getD i 0 = q.getD i 0 := by
  induction n with
  | zero => simp [compareLoop]
  | succ n ih =>
    rw [compareLoop]
    by_cases h : p.getD n 0 ≠ q.getD n 0
    · rw [if_pos h, decide_eq_true_iff]
      constructor
      · intro hlt; exact ⟨n, by omega, hlt, fun i h1 h2 => by omega⟩
      · rintro ⟨j, hj, hlt, hag⟩
        by_cases hjn : j = n
        · subst hjn; exact hlt
        · exact absurd (hag n (by omega) (by omega)) h
    · rw [if_neg h, ih]
      push Not at h
      constructor
      · rintro ⟨j, hj, hlt, hag⟩
        refine ⟨j, by omega, hlt, fun i h1 h2 => ?_⟩
        by_cases hi : i = n
        · subst hi; exact h
        · exact hag i h1 (by omega)
      · rintro ⟨j, hj, hlt, hag⟩
        have : j ≠ n := by rintro rfl; omega
        exact ⟨j, by omega, hlt, fun i h1 h2 => hag i h1 (by omega)⟩

/-- `compare(p,q)` orders polynomials by degree, and for equal degree by the highest
coefficient that differs: in both cases the sign of the difference at the highest place
where the polynomials differ decides, or a longer polynomial is the larger one. -/
theorem C28_compare (p q : List Int) : compare p q = true ↔
    p.length < q.length ∨ (p.length = q.length ∧
      ∃ j, (val p).coeff j < (val q).coeff j ∧ ∀ i, j < i → (val p).coeff i = (val q).coeff i) := by
  simp only [coeff_val]
  unfold compare
  by_cases h : p.length ≠ q.length
  · rw [if_pos h, decide_eq_true_iff]; omega
  · rw [if_neg h, compareLoop_iff]
    push Not at h
    constructor
    · rintro ⟨j, hj, hlt, hag⟩
      refine Or.inr ⟨h, j, hlt, fun i hi => ?_⟩
      by_cases hi' : i < p.length
      · exact hag i hi hi'
      · rw [List.getD_eq_default _ _ (by omega), List.getD_eq_default _ _ (by omega)]
    · rintro (hc | ⟨_, j, hlt, hag⟩)
      · omega
      · refine ⟨j, ?_, hlt, fun i h1 _ => hag i h1⟩
        by_contra hj
        rw [List.getD_eq_default _ _ (by omega), List.getD_eq_default _ _ (by omega)] at hlt
        omega

/-- It is a strict total order. -/
theorem C28_compare_order (p q r : List Int) :
    compare p p = false ∧ (compare p q = true → compare q r = true → compare p r = true) ∧
    (p ≠ q → compare p q = true ∨ compare q p = true) := by
  refine ⟨?_, ?_, ?_⟩
  · rw [Bool.eq_false_iff, Ne, C28_compare]
    rintro (h | ⟨_, j, h, _⟩) <;> omega
  · simp only [C28_compare]
    rintro (h1 | ⟨h1, i, h2, h3⟩) (k1 | ⟨k1, j, k2, k3⟩)
    · left; omega
    · left; omega
    · left; omega
    · right
      refine ⟨by omega, ?_⟩
      rcases Nat.lt_trichotomy i j with h | h | h
      · exact ⟨j, by rw [h3 j h]; exact k2, fun n hn => by rw [h3 n (by omega), k3 n hn]⟩
      · subst h; exact ⟨i, by omega, fun n hn => by rw [h3 n hn, k3 n hn]⟩
      · exact ⟨i, by rw [← k3 i h]; exact h2, fun n hn => by rw [h3 n hn, k3 n (by omega)]⟩
  · intro hne
    simp only [C28_compare]
    rcases Nat.lt_trichotomy p.length q.length with h | h | h
    · exact Or.inl (Or.inl h)
    · have key : ∀ n, (∃ i, i < n ∧ (val p).coeff i ≠ (val q).coeff i) →
          ∃ j, j < n ∧ (val p).coeff j ≠ (val q).coeff j ∧ ∀ i, j < i → i < n → (val p).coeff i = (val q).coeff i := by
        intro n
        induction n with
        | zero => rintro ⟨i, hi, _⟩; omega
        | succ n ih =>
          rintro ⟨i, hi, hne⟩
          by_cases hn : (val p).coeff n = (val q).coeff n
          · obtain ⟨j, j1, j2, j3⟩ := ih ⟨i, by
              by_contra hc
              have : i = n := by omega
              subst this; exact hne hn, hne⟩
            refine ⟨j, by omega, j2, fun m h1 h2 => ?_⟩
            by_cases hm : m = n
            · subst hm; exact hn
            · exact j3 m h1 (by omega)
          · exact ⟨n, by omega, hn, fun m h1 h2 => by omega⟩
      obtain ⟨j, j1, j2, j3⟩ := key p.length (by
        by_contra hc
        push Not at hc
        refine hne (ext_getD h fun i => ?_)
        by_cases hi : i < p.length
        · rw [← coeff_val, ← coeff_val, hc i hi]
        · rw [List.getD_eq_default _ _ (by omega), List.getD_eq_default _ _ (by omega)])
      have hag : ∀ i, j < i → (val p).coeff i = (val q).coeff i := by
        intro i hi
        by_cases hi' : i < p.length
        · exact j3 i hi hi'
        · rw [coeff_val, coeff_val, List.getD_eq_default _ _ (by omega), List.getD_eq_default _ _ (by omega)]
      rcases lt_or_gt_of_ne j2 with hlt | hlt
      · exact Or.inl (Or.inr ⟨h, j, hlt, hag⟩)
      · exact Or.inr (Or.inr ⟨h.symm, j, hlt, fun i hi => (hag i hi).symm⟩)
    · exact Or.inr (Or.inl h)

example : compare [1, 2, 3] [5, 1, 3] = false ∧ compare [5, 1, 3] [1, 2, 3] = true ∧ compare [9] [0, 1] = true := by
  decide

theorem divLoop_spec (c : Int) (n : Nat) (l : List Int) (hn : n ≤ l.length) :
    ((divLoop c n l).1 = false ↔ ∀ i, i < n → c ∣ l.getD i 0) ∧ (divLoop c n l).2.length = l.length ∧
    ((divLoop c n l).1 = false →
      ∀ i, (divLoop c n l).2.getD i 0 = if i < n then (l.getD i 0).tdiv c else l.getD i 0) := by
  induction n generalizing l with
  | zero => simp [divLoop]
  | succ n ih =>
    rw [divLoop]
    by_cases h : (l.getD n 0).tmod c = 0
    · rw [if_pos h]
      obtain ⟨h1, h2, h3⟩ := ih (l.set n ((l.getD n 0).tdiv c)) (by simpa using by omega)
      have hd : c ∣ l.getD n 0 := Int.dvd_of_tmod_eq_zero h
      have hset : ∀ i, i < n → (l.set n ((l.getD n 0).tdiv c)).getD i 0 = l.getD i 0 := by
        intro i hi; rw [getD_set _ _ _ _ (by omega), if_neg (by omega)]
      refine ⟨?_, by rw [h2, List.length_set], fun ht i => ?_⟩
      · rw [h1]
        constructor
        · intro hh i hi
          by_cases e : i = n
          · subst e; exact hd
          · have := hh i (by omega); rwa [hset i (by omega)] at this
        · intro hh i hi; rw [hset i hi]; exact hh i (by omega)
      · rw [h3 ht i]
        rcases Nat.lt_trichotomy i n with h' | h' | h'
        · rw [if_pos h', if_pos (by omega), hset i h']
        · subst h'; rw [if_neg (by omega), if_pos (by omega), getD_set _ _ _ _ (by omega), if_pos rfl]
        · rw [if_neg (by omega), if_neg (by omega), getD_set _ _ _ _ (by omega), if_neg (by omega)]
    · rw [if_neg h]
      refine ⟨⟨by simp, fun hh => ?_⟩, rfl, by simp⟩
      exact absurd (Int.tmod_eq_zero_of_dvd (hh n (by omega))) h

/-- `p /= c` throws exactly when `c` is zero or does not divide every coefficient; otherwise it
leaves the exact quotient, in canonical form. -/
theorem C28_divAssign {p : List Int} (hp : Canon p) (c : Int) :
    ((divAssign p c).1 = false ↔ c ≠ 0 ∧ ∀ i, c ∣ (val p).coeff i) ∧
    ((divAssign p c).1 = false → Canon (divAssign p c).2 ∧ C c * val (divAssign p c).2 = val p) := by
  unfold divAssign
  by_cases hc : c = 0
  · rw [if_pos hc]; simp [hc]
  · rw [if_neg hc]
    obtain ⟨h1, h2, h3⟩ := divLoop_spec c p.length p (Nat.le_refl _)
    have hall : (∀ i, i < p.length → c ∣ p.getD i 0) ↔ ∀ i, c ∣ (val p).coeff i := by
      simp only [coeff_val]
      constructor
      · intro h i
        by_cases hi : i < p.length
        · exact h i hi
        · rw [List.getD_eq_default _ _ (by omega)]; exact dvd_zero c
      · intro h i _; exact h i
    refine ⟨by rw [h1, hall]; simp [hc], fun ht => ?_⟩
    have hd := hall.1 (h1.1 ht)
    have h4 : ∀ i, c * (divLoop c p.length p).2.getD i 0 = p.getD i 0 := by
      intro i
      rw [h3 ht]
      have := hd i
      rw [coeff_val] at this
      by_cases hi : i < p.length
      · rw [if_pos hi, Int.mul_tdiv_cancel' this]
      · rw [if_neg hi, List.getD_eq_default _ _ (by omega), mul_zero]
    constructor
    · rw [canon_iff] at hp ⊢
      intro hl e
      rw [h2] at hl e
      apply hp hl
      rw [← h4, e, mul_zero]
    · refine (val_ext fun i => ?_).symm
      rw [Polynomial.coeff_C_mul, coeff_val, h4]

/-- When it throws the polynomial may have been changed: the higher coefficients have been
divided. -/
theorem C28_divAssign_throw_false :
    ¬ ∀ (p : List Int) (c : Int), Canon p → (divAssign p c).1 = true → (divAssign p c).2 = p := by
  intro h
  have := h [1, 4] 2 (fun _ => by simp) (by decide)
  revert this; decide

example : divAssign [4, 0, -6] (-2) = (false, [-2, 0, 3]) ∧ (divAssign [4, 1] 2).1 = true := by decide

end Verif.Poly
