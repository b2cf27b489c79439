import Verif.Poly.Lemmas
import Mathlib.Algebra.Polynomial.Degree.Operations
import Mathlib.Algebra.Polynomial.Degree.Lemmas
import Mathlib.Data.ZMod.Basic
/-
C28 for `Polynomial<C>`: the operations compute the polynomial operations, and keep the
leading coefficient nonzero.
-/
namespace Verif.Poly

open Verif _root_.Polynomial

section Ring
variable {R : Type} [CommRing R] [DecidableEq R]

omit [DecidableEq R] in
/-- Equality of coefficient vectors (`operator==`) is equality of polynomials. -/
theorem C28_equal {p q : List R} (hp : Canon p) (hq : Canon q) : p = q ↔ val p = val q := by
  constructor
  · rintro rfl; rfl
  · intro h
    refine canon_ext hp hq fun i => ?_
    rw [← coeff_val, ← coeff_val, h]

omit [DecidableEq R] in
/-- `is_zero()` and `degree()` are what they should be. -/
theorem C28_degree {p : List R} (hp : Canon p) :
    (p.length = 0 ↔ val p = 0) ∧ (p.length ≠ 0 → (val p).natDegree = p.length - 1) := by
  rw [canon_iff] at hp
  have h0 : p.length ≠ 0 → val p ≠ 0 := by
    intro h e
    apply hp h
    rw [← coeff_val, e, Polynomial.coeff_zero]
  refine ⟨⟨fun h => ?_, fun h => ?_⟩, fun h => ?_⟩
  · rw [List.length_eq_zero_iff.1 h, val_nil]
  · by_contra h'; exact h0 h' h
  · refine Polynomial.natDegree_eq_of_le_of_coeff_ne_zero ?_ ?_
    · refine Polynomial.natDegree_le_iff_coeff_eq_zero.2 fun N hN => ?_
      rw [coeff_val, List.getD_eq_default _ _ (by omega)]
    · rw [coeff_val]; exact hp h

/-- The three constructors: a constant, a monomial with nonzero coefficient, a shifted copy. -/
theorem C28_construct :
    (∀ c : R, Canon (const c) ∧ val (const c) = C c) ∧
    (∀ nd d (c : R), c ≠ 0 → ∃ r, monomial nd d c = .ok r ∧ Canon r ∧ val r = C c * X ^ d) ∧
    (∀ d (q : List R), Canon q → Canon (shift d q) ∧ val (shift d q) = X ^ d * val q) := by
  refine ⟨fun c => ?_, fun nd d c hc => ?_, fun d q hq => ?_⟩
  · by_cases hc : c = 0
    · subst hc; rw [const, if_neg (by simp)]
      exact ⟨fun h => absurd rfl h, by simp⟩
    · rw [const, if_pos hc]
      refine ⟨fun _ => by simpa using hc, val_ext fun n => ?_⟩
      rw [Polynomial.coeff_C]
      cases n <;> simp
  · refine ⟨(List.replicate (d+1) (0:R)).set d c, ?_, ?_, val_ext fun n => ?_⟩
    · rw [monomial, Res.assertIn_bind nd (by simpa using hc), Vec.put_ok (by simp)]
    · rw [canon_iff]; intro _
      simp only [List.length_set, List.length_replicate, Nat.add_sub_cancel]
      rw [getD_set _ _ _ _ (by simp), if_pos rfl]; exact hc
    · rw [getD_set _ _ _ _ (by simp), Polynomial.coeff_C_mul, Polynomial.coeff_X_pow]
      by_cases h : n = d
      · simp [h]
      · rw [if_neg h, if_neg h, mul_zero]
        by_cases h2 : n < d + 1
        · simp [List.getD_eq_getElem?_getD, h2]
        · rw [List.getD_eq_default]; simpa using h2
  · unfold shift
    by_cases hl : q.length = 0
    · rw [if_pos hl, List.length_eq_zero_iff.1 hl]
      exact ⟨fun h => absurd rfl h, by simp⟩
    · rw [if_neg hl]
      constructor
      · intro h
        rw [List.getLast_append_of_ne_nil h (by intro e; rw [e] at hl; exact hl rfl)]
        exact hq _
      · refine val_ext fun n => ?_
        rw [Polynomial.coeff_X_pow_mul', coeff_val]
        by_cases h : d ≤ n
        · rw [if_pos h, List.getD_append_right _ _ _ _ (by simpa using h)]; simp
        · rw [if_neg h, List.getD_append _ _ _ _ (by simp; omega)]
          simp [List.getD_eq_getElem?_getD, show n < d by omega]

omit [DecidableEq R] in
/-- resizing when needed -/
theorem grow_spec (p : List R) (n : Nat) :
    n ≤ (if n > p.length then extend p n else p).length ∧
    ∀ i, (if n > p.length then extend p n else p).getD i 0 = p.getD i 0 := by
  by_cases h : n > p.length
  · rw [if_pos h]; exact ⟨Nat.le_of_eq (length_extend (by omega)).symm, fun i => getD_extend p n i⟩
  · rw [if_neg h]; exact ⟨by omega, fun _ => rfl⟩

omit [DecidableEq R] in
/-- the value of the vector read from in `p += q` and `p -= q` -/
theorem read_spec {same : Bool} {p q l : List R} {N j : Nat} (hs : same = true → q = p)
    (hl : l.length = N) (hN : q.length ≤ N) (hj : j < q.length) (e : l.getD j 0 = p.getD j 0) :
    Vec.get (if same then l else q) j = .ok (q.getD j 0) := by
  cases same with
  | false => exact get_getD hj
  | true =>
    rw [if_pos rfl, get_getD (by omega), e, hs rfl]

/-- `p += q` is the sum, canonical whenever `p` is; also when `q` is the object `p` itself. -/
theorem C28_addAssign (same : Bool) {p q : List R} (hs : same = true → q = p) (hp : Canon p) :
    ∃ r, addAssign same p q = .ok r ∧ Canon r ∧ val r = val p + val q := by
  unfold addAssign
  by_cases hq : q.length = 0
  · rw [if_pos hq, List.length_eq_zero_iff.1 hq]; exact ⟨p, rfl, hp, by simp⟩
  · rw [if_neg hq]
    obtain ⟨g1, g2⟩ := grow_spec p q.length
    generalize (if q.length > p.length then extend p q.length else p) = p' at *
    obtain ⟨r, h1, h2, h3⟩ := downLoop_pointwise (N := p'.length) (o := 0) (l0 := p') (n := q.length)
      (f := fun j l => do
        let x ← Vec.get l j
        let y ← Vec.get (if same then l else q) j
        Vec.put l j (x + y)) (g := fun j => p'.getD j 0 + q.getD j 0) (by omega) rfl (by
        intro j l hj hl hag
        have e := hag j (by omega)
        rw [get_getD (by omega), Res.ok_bind, read_spec hs hl g1 hj (e.trans (g2 j)), Res.ok_bind,
          Vec.put_ok (by omega), e, Nat.zero_add])
    simp only [h1, Res.ok_bind]
    refine ⟨_, rfl, adjustSize_canon r, val_ext fun n => ?_⟩
    rw [getD_adjustSize, h3, Polynomial.coeff_add, coeff_val, coeff_val, ← g2]
    by_cases h : n < q.length
    · rw [if_pos (by omega)]; rfl
    · rw [if_neg (by omega), List.getD_eq_default q _ (by omega), add_zero]

/-- `p -= q` is the difference, canonical whenever `p` is; also when `q` is `p` itself. -/
theorem C28_subAssign (same : Bool) {p q : List R} (hs : same = true → q = p) (hp : Canon p) :
    ∃ r, subAssign same p q = .ok r ∧ Canon r ∧ val r = val p - val q := by
  unfold subAssign
  by_cases hq : q.length = 0
  · rw [if_pos hq, List.length_eq_zero_iff.1 hq]; exact ⟨p, rfl, hp, by simp⟩
  · rw [if_neg hq]
    obtain ⟨g1, g2⟩ := grow_spec p q.length
    generalize (if q.length > p.length then extend p q.length else p) = p' at *
    obtain ⟨r, h1, h2, h3⟩ := downLoop_pointwise (N := p'.length) (o := 0) (l0 := p') (n := q.length)
      (f := fun j l => do
        let x ← Vec.get l j
        let y ← Vec.get (if same then l else q) j
        Vec.put l j (x - y)) (g := fun j => p'.getD j 0 - q.getD j 0) (by omega) rfl (by
        intro j l hj hl hag
        have e := hag j (by omega)
        rw [get_getD (by omega), Res.ok_bind, read_spec hs hl g1 hj (e.trans (g2 j)), Res.ok_bind,
          Vec.put_ok (by omega), e, Nat.zero_add])
    simp only [h1, Res.ok_bind]
    refine ⟨_, rfl, adjustSize_canon r, val_ext fun n => ?_⟩
    rw [getD_adjustSize, h3, Polynomial.coeff_sub, coeff_val, coeff_val, ← g2]
    by_cases h : n < q.length
    · rw [if_pos (by omega)]; rfl
    · rw [if_neg (by omega), List.getD_eq_default q _ (by omega), sub_zero]

/-- `t.subtract_from(p)` turns `t` into `p - t`, in canonical form. -/
theorem C28_subtractFrom (t p : List R) :
    ∃ r, subtractFrom t p = .ok r ∧ Canon r ∧ val r = val p - val t := by
  unfold subtractFrom
  obtain ⟨g1, g2⟩ := grow_spec t p.length
  generalize (if p.length > t.length then extend t p.length else t) = t' at *
  obtain ⟨r, h1, h2, h3⟩ := downLoop_pointwise (N := t'.length) (o := p.length) (l0 := t')
    (n := t'.length - p.length)
    (f := fun j l => do
      let x ← Vec.get l (p.length + j)
      Vec.put l (p.length + j) (-x)) (g := fun j => - t'.getD (p.length + j) 0) (by omega) rfl (by
      intro j l hj hl hag
      rw [get_getD (by omega), Res.ok_bind, Vec.put_ok (by omega), hag _ (by omega)])
  obtain ⟨s, k1, k2, k3⟩ := downLoop_pointwise (N := t'.length) (o := 0) (l0 := r) (n := p.length)
    (f := fun j l => do
      let x ← Vec.get p j
      let y ← Vec.get l j
      Vec.put l j (x - y)) (g := fun j => p.getD j 0 - r.getD j 0) (by omega) h2 (by
      intro j l hj hl hag
      rw [get_getD hj, Res.ok_bind, get_getD (by omega), Res.ok_bind, Vec.put_ok (by omega),
        hag _ (by omega), Nat.zero_add])
  simp only [h1, k1, Res.ok_bind]
  refine ⟨_, rfl, adjustSize_canon s, val_ext fun n => ?_⟩
  rw [getD_adjustSize, k3, Polynomial.coeff_sub, coeff_val, coeff_val, ← g2]
  by_cases h : n < p.length
  · rw [if_pos (by omega), Nat.sub_zero, h3, if_neg (by omega)]
  · rw [if_neg (by omega), List.getD_eq_default p _ (by omega), zero_sub, h3]
    by_cases h' : n < t'.length
    · rw [if_pos (by omega)]; congr 2; omega
    · rw [if_neg (by omega), List.getD_eq_default _ _ (by omega), neg_zero]

/-- `p *= c` computes the scalar multiple; it stays canonical when multiplying a nonzero
coefficient by a nonzero `c` cannot give zero. -/
theorem C28_scale {p : List R} (hp : Canon p) (c : R) :
    ∃ r, scale p c = .ok r ∧ val r = C c * val p ∧
      ((∀ x : R, x * c = 0 → x = 0 ∨ c = 0) → Canon r) := by
  unfold scale
  by_cases hc : c = 0
  · rw [if_pos hc]; exact ⟨[], rfl, by simp [hc], fun _ h => absurd rfl h⟩
  · rw [if_neg hc]
    obtain ⟨r, h1, h2, h3⟩ := downLoop_pointwise (N := p.length) (o := 0) (l0 := p) (n := p.length)
      (f := fun j l => do
        let x ← Vec.get l j
        Vec.put l j (x * c)) (g := fun j => p.getD j 0 * c) (by omega) rfl (by
        intro j l hj hl hag
        rw [get_getD (by omega), Res.ok_bind, Vec.put_ok (by omega), hag _ (by omega), Nat.zero_add])
    have h4 : ∀ n, r.getD n 0 = p.getD n 0 * c := by
      intro n; rw [h3]
      by_cases h : n < p.length
      · rw [if_pos (by omega)]; rfl
      · rw [if_neg (by omega), List.getD_eq_default _ _ (by omega), zero_mul]
    refine ⟨r, h1, val_ext fun n => ?_, fun hz => ?_⟩
    · rw [h4, Polynomial.coeff_C_mul, coeff_val, mul_comm]
    · rw [canon_iff] at hp ⊢
      intro hl e
      rw [h4, h2] at e
      rcases hz _ e with h | h
      · exact hp (by omega) h
      · exact hc h

omit [DecidableEq R] in
/-- adding `c X^j` times a polynomial to a sufficiently long vector -/
theorem mulInner_spec (q r : List R) (c : R) (j : Nat) (h : j + q.length ≤ r.length) :
    ∃ s, downLoop (fun i r => do
        let x ← Vec.get r (i + j)
        let y ← Vec.get q i
        Vec.put r (i + j) (x + c * y)) q.length r = .ok s ∧ s.length = r.length ∧
      val s = val r + C c * X ^ j * val q := by
  obtain ⟨s, h1, h2, h3⟩ := downLoop_pointwise (N := r.length) (o := j) (l0 := r) (n := q.length)
    (f := fun i r => do
      let x ← Vec.get r (i + j)
      let y ← Vec.get q i
      Vec.put r (i + j) (x + c * y)) (g := fun i => r.getD (j + i) 0 + c * q.getD i 0) (by omega) rfl (by
      intro i l hi hl hag
      rw [get_getD (by omega), Res.ok_bind, get_getD hi, Res.ok_bind, Vec.put_ok (by omega),
        hag _ (by omega), Nat.add_comm i j])
  refine ⟨s, h1, h2, val_ext fun n => ?_⟩
  rw [h3, Polynomial.coeff_add, mul_assoc, Polynomial.coeff_C_mul, Polynomial.coeff_X_pow_mul',
    coeff_val, coeff_val]
  by_cases hj : j ≤ n
  · rw [if_pos hj]
    by_cases h4 : n < j + q.length
    · rw [if_pos ⟨hj, h4⟩]; congr 2; omega
    · rw [if_neg (by omega), List.getD_eq_default q _ (by omega), mul_zero, add_zero]
  · rw [if_neg hj, if_neg (by omega), mul_zero, add_zero]

omit [DecidableEq R] in
theorem val_take_succ (p : List R) (n : Nat) (h : n < p.length) :
    val (p.take (n+1)) = val (p.take n) + C (p.getD n 0) * X ^ n := by
  refine val_ext fun i => ?_
  rw [Polynomial.coeff_add, Polynomial.coeff_C_mul, Polynomial.coeff_X_pow, coeff_val]
  simp only [List.getD_eq_getElem?_getD, List.getElem?_take]
  rcases Nat.lt_trichotomy i n with h1 | h1 | h1
  · simp [h1, show i < n + 1 by omega, show ¬ i = n by omega]
  · subst h1; simp
  · simp [show ¬ i < n by omega, show ¬ i < n + 1 by omega, show ¬ i = n by omega]

omit [DecidableEq R] in
theorem mulOuter_spec (p q : List R) (L : Nat) (hL : p.length + q.length ≤ L + 1) (n : Nat)
    (hn : n ≤ p.length) (r : List R) (hr : r.length = L) :
    ∃ s, downLoop (fun j r => do
      let c ← Vec.get p j
      downLoop (fun i r => do
        let x ← Vec.get r (i + j)
        let y ← Vec.get q i
        Vec.put r (i + j) (x + c * y)) q.length r) n r = .ok s ∧ s.length = L ∧
      val s = val r + val (p.take n) * val q := by
  induction n generalizing r with
  | zero => exact ⟨r, rfl, hr, by simp⟩
  | succ n ih =>
    obtain ⟨s, h1, h2, h3⟩ := mulInner_spec q r (p.getD n 0) n (by omega)
    obtain ⟨t, k1, k2, k3⟩ := ih (by omega) s (by omega)
    refine ⟨t, ?_, k2, ?_⟩
    · rw [downLoop, get_getD (by omega), Res.ok_bind, h1, Res.ok_bind, k1]
    · rw [k3, h3, val_take_succ _ _ (by omega)]; ring

omit [DecidableEq R] in
/-- `p * q` is the product; it is canonical when the coefficient ring has no zero divisors. -/
theorem C28_mul {p q : List R} (hp : Canon p) (hq : Canon q) :
    ∃ r, mul p q = .ok r ∧ val r = val p * val q ∧ (NoZeroDivisors R → Canon r) := by
  unfold mul
  by_cases h : p.length = 0 ∨ q.length = 0
  · rw [if_pos h]
    refine ⟨[], rfl, ?_, fun _ h => absurd rfl h⟩
    rcases h with h | h <;> rw [List.length_eq_zero_iff.1 h] <;> simp
  · rw [if_neg h]
    obtain ⟨r, h1, h2, h3⟩ := mulOuter_spec p q (p.length - 1 + (q.length - 1) + 1) (by omega) p.length
      (Nat.le_refl _) (List.replicate (p.length - 1 + (q.length - 1) + 1) 0) (by simp)
    have hv : val r = val p * val q := by
      rw [h3, List.take_length]
      have : val (List.replicate (p.length - 1 + (q.length - 1) + 1) (0:R)) = 0 := by
        refine val_ext fun n => ?_
        simp
      rw [this, zero_add]
    refine ⟨r, h1, hv, fun _ => ?_⟩
    rw [canon_iff]
    intro _ e
    rw [canon_iff] at hp hq
    rw [← coeff_val, hv, h2] at e
    have hd : ∀ (l : List R), l.length ≠ 0 → (val l).natDegree ≤ l.length - 1 := by
      intro l hl
      refine Polynomial.natDegree_le_iff_coeff_eq_zero.2 fun N hN => ?_
      rw [coeff_val, List.getD_eq_default _ _ (by omega)]
    rw [Nat.add_sub_cancel, Polynomial.coeff_mul_add_eq_of_natDegree_le (hd p (by omega)) (hd q (by omega)),
      coeff_val, coeff_val] at e
    rcases mul_eq_zero.1 e with e | e
    · exact hp (by omega) e
    · exact hq (by omega) e

/-- `p + q`, `p - q` and `-p`. -/
theorem C28_add_sub_neg {p q : List R} (hp : Canon p) (hq : Canon q) :
    (∃ r, add p q = .ok r ∧ Canon r ∧ val r = val p + val q) ∧
    (∃ r, sub p q = .ok r ∧ Canon r ∧ val r = val p - val q) ∧
    (∃ r, neg p = .ok r ∧ Canon r ∧ val r = - val p) := by
  have hneg : ∀ {p : List R}, Canon p → ∃ r, scale p (-1) = .ok r ∧ Canon r ∧ val r = - val p := by
    intro p hp
    obtain ⟨r, h1, h2, h3⟩ := C28_scale hp (-1)
    refine ⟨r, h1, h3 fun x hx => Or.inl ?_, ?_⟩
    · simpa using hx
    · rw [h2]; simp
  refine ⟨?_, ?_, hneg hp⟩
  · unfold add
    by_cases h : p.length ≥ q.length
    · rw [if_pos h]; exact C28_addAssign false (by simp) hp
    · rw [if_neg h]
      obtain ⟨r, h1, h2, h3⟩ := C28_addAssign false (q := p) (by simp) hq
      exact ⟨r, h1, h2, by rw [h3, add_comm]⟩
  · unfold sub
    by_cases h : p.length ≥ q.length
    · rw [if_pos h]; exact C28_subAssign false (by simp) hp
    · rw [if_neg h]
      obtain ⟨s, k1, k2, k3⟩ := hneg hq
      obtain ⟨r, h1, h2, h3⟩ := C28_addAssign false (q := p) (by simp) k2
      exact ⟨r, by rw [k1, Res.ok_bind, h1], h2, by rw [h3, k3]; ring⟩

end Ring

/-- The claim that products never have a zero leading coefficient fails for coefficients with
zero divisors: 2^16 * 2^16 for polynomials over `unsigned int` gives the vector (0), which is
not equal to the zero polynomial (); the same for multiplication by a constant. -/
theorem C28_canonical_zeroDivisors_false :
    ¬ (∀ p q r : List (ZMod (2^32)), Canon p → Canon q → mul p q = .ok r → Canon r) ∧
    ¬ (∀ (p r : List (ZMod (2^32))) (c : ZMod (2^32)), Canon p → scale p c = .ok r → Canon r) := by
  have h1 : Canon [(65536 : ZMod (2^32))] := fun _ => by
    show (65536 : ZMod (2^32)) ≠ 0
    decide +kernel
  have h2 : ¬ Canon [(0 : ZMod (2^32))] := fun h => h (by simp) rfl
  constructor
  · intro h
    exact h2 (h [65536] [65536] [0] h1 h1 (by decide +kernel))
  · intro h
    exact h2 (h [65536] [0] 65536 h1 (by decide +kernel))

example : Canon [(1 : ℤ), 0, 3] ∧ Canon [(5 : ℤ), 0, -3] ∧
    addAssign false [(1 : ℤ), 0, 3] [5, 0, -3] = .ok [6] ∧
    addAssign true [(1 : ℤ), 0, 3] [1, 0, 3] = .ok [2, 0, 6] ∧
    subAssign true [(1 : ℤ), 0, 3] [1, 0, 3] = .ok [] ∧
    subtractFrom [(1 : ℤ), 0, 3] [1, 4] = .ok [0, 4, -3] ∧
    sub [(1 : ℤ), 4] [1, 0, 3] = .ok [0, 4, -3] ∧
    mul [(1 : ℤ), 0, 3] [5, 0, -3] = .ok [5, 0, 12, 0, -9] ∧
    mul [(1 : ℤ), 1] [1, -1] = .ok [1, 0, -1] := by
  refine ⟨fun _ => by simp, fun _ => by simp, ?_⟩
  decide +kernel

end Verif.Poly
