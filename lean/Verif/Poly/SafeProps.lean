import Verif.Poly.Props2
/-
C28 for `Safe_Poly<C>`: overflow-checked operations are exact or throw.  Coefficients are
natural numbers below `M`.
-/
namespace Verif.Poly

open Verif _root_.Polynomial

/-- all coefficients fit the coefficient type -/
def Fits (M : Nat) (p : List Nat) : Prop := ∀ x ∈ p, x < M

theorem fits_iff {M : Nat} (hM : 0 < M) (p : List Nat) : Fits M p ↔ ∀ i, p.getD i 0 < M := by
  constructor
  · intro h i
    by_cases hi : i < p.length
    · rw [List.getD_eq_getElem _ _ hi]; exact h _ (List.getElem_mem hi)
    · rw [List.getD_eq_default _ _ (by omega)]; exact hM
  · intro h x hx
    obtain ⟨i, hi, rfl⟩ := List.getElem_of_mem hx
    rw [← List.getD_eq_getElem _ 0 hi]; exact h i

theorem safeMulC_spec {M a : Nat} (c : Nat) (ha : a < M) :
    (a * c < M → safeMulC M a c = some (a * c)) ∧ (M ≤ a * c → safeMulC M a c = none) := by
  unfold safeMulC
  by_cases h0 : a = 0
  · subst h0; rw [if_pos rfl]; simp; omega
  · rw [if_neg h0]
    have key : c > (M - 1) / a ↔ M ≤ a * c := by
      rw [gt_iff_lt, Nat.div_lt_iff_lt_mul (by omega), Nat.mul_comm c a]; omega
    constructor
    · intro h; rw [if_neg (by rw [key]; omega)]
    · intro h; rw [if_pos (key.2 h)]

theorem safeAddC_spec {M a b : Nat} (ha : a < M) :
    (a + b < M → safeAddC M a b = some (a + b)) ∧ (M ≤ a + b → safeAddC M a b = none) := by
  unfold safeAddC
  constructor
  · intro h; rw [if_neg (by omega)]
  · intro h; rw [if_pos (by omega)]

/-- the loop of `safeAdd`: with `l0` the initial contents (after resizing) -/
theorem safeAddLoop_spec {M : Nat} (same : Bool) {q l0 : List Nat} {d c : Nat} (hM : 0 < M)
    (hs : same = true → ∀ i, i < q.length → q.getD i 0 = l0.getD i 0) (hq : Fits M q) (hl0 : Fits M l0)
    (n : Nat) (hn : n ≤ q.length)
    (l : List Nat) (hl : l.length = l0.length) (hd : q.length + d ≤ l0.length)
    (hag : ∀ i, i < d + n → l.getD i 0 = l0.getD i 0) :
    ((safeAddLoop M same q d c n l).1 = false ↔ ∀ j, j < n → l0.getD (d + j) 0 + q.getD j 0 * c < M) ∧
    (safeAddLoop M same q d c n l).2.length = l.length ∧
    ((safeAddLoop M same q d c n l).1 = false → ∀ i, (safeAddLoop M same q d c n l).2.getD i 0 =
      if d ≤ i ∧ i < d + n then l0.getD i 0 + q.getD (i - d) 0 * c else l.getD i 0) := by
  rw [fits_iff hM] at hq hl0
  induction n generalizing l with
  | zero =>
    refine ⟨by simp [safeAddLoop], rfl, fun _ i => ?_⟩
    rw [if_neg (by omega)]; rfl
  | succ n ih =>
    have hread : (if same then l else q).getD n 0 = q.getD n 0 := by
      cases same with
      | false => rfl
      | true => rw [if_pos rfl, hag n (by omega), hs rfl n (by omega)]
    rw [safeAddLoop, hread]
    by_cases hmul : q.getD n 0 * c < M
    · rw [(safeMulC_spec c (hq n)).1 hmul]
      simp only
      rw [hag _ (by omega)]
      by_cases hadd : l0.getD (d + n) 0 + q.getD n 0 * c < M
      · rw [(safeAddC_spec (hl0 _)).1 hadd]
        simp only
        obtain ⟨h1, h2, h3⟩ := ih (by omega) (l.set (d + n) (l0.getD (d + n) 0 + q.getD n 0 * c))
          (by simpa using hl) (by
            intro i hi
            rw [getD_set _ _ _ _ (by omega), if_neg (by omega)]; exact hag i (by omega))
        refine ⟨?_, by rw [h2, List.length_set], fun ht i => ?_⟩
        · rw [h1]
          constructor
          · intro h j hj
            by_cases e : j = n
            · subst e; exact hadd
            · exact h j (by omega)
          · intro h j hj; exact h j (by omega)
        · rw [h3 ht, getD_set _ _ _ _ (by omega)]
          by_cases e : i = d + n
          · subst e; rw [if_neg (by omega), if_pos rfl, if_pos (by omega)]; congr 3; omega
          · rw [if_neg e]
            by_cases h4 : d ≤ i ∧ i < d + n
            · rw [if_pos h4, if_pos (by omega)]
            · rw [if_neg h4, if_neg (by omega)]
      · rw [(safeAddC_spec (hl0 _)).2 (by omega)]
        refine ⟨⟨by simp, fun h => absurd (h n (by omega)) hadd⟩, rfl, by simp⟩
    · rw [(safeMulC_spec c (hq n)).2 (by omega)]
      refine ⟨⟨by simp, fun h => ?_⟩, rfl, by simp⟩
      have := h n (by omega); omega

/-- the coefficients of `p + c X^d q` -/
theorem coeff_target (p q : List Nat) (d c i : Nat) :
    (val p + C c * X ^ d * val q).coeff i = p.getD i 0 + if d ≤ i then q.getD (i - d) 0 * c else 0 := by
  rw [Polynomial.coeff_add, mul_assoc, Polynomial.coeff_C_mul, Polynomial.coeff_X_pow_mul', coeff_val, coeff_val]
  by_cases h : d ≤ i
  · rw [if_pos h, if_pos h, Nat.mul_comm]
  · rw [if_neg h, if_neg h, Nat.mul_zero]

/-- what is common to the two versions of `safeAdd` -/
theorem safeAdd_finish {M : Nat} (hM : 0 < M) {p q p' : List Nat} {d c : Nat} {out : Bool × List Nat}
    (hp : Canon p) (hq : Canon q) (hpM : Fits M p) (hq0 : q.length ≠ 0) (hc : c ≠ 0)
    (hp' : p' = if q.length + d > p.length then extend p (q.length + d) else p)
    (h1 : out.1 = false ↔ ∀ j, j < q.length → p'.getD (d + j) 0 + q.getD j 0 * c < M)
    (h2 : out.2.length = p'.length)
    (h3 : out.1 = false → ∀ i, out.2.getD i 0 =
      if d ≤ i ∧ i < d + q.length then p'.getD i 0 + q.getD (i - d) 0 * c else p'.getD i 0) :
    (out.1 = false → Canon out.2 ∧ Fits M out.2 ∧ val out.2 = val p + C c * X ^ d * val q) ∧
    (out.1 = true ↔ ∃ i, M ≤ (val p + C c * X ^ d * val q).coeff i) := by
  have g2 : ∀ i, p'.getD i 0 = p.getD i 0 := by
    intro i; rw [hp']
    by_cases h : q.length + d > p.length
    · rw [if_pos h, getD_extend]
    · rw [if_neg h]
  have htar : ∀ i, (val p + C c * X ^ d * val q).coeff i =
      if d ≤ i ∧ i < d + q.length then p'.getD i 0 + q.getD (i - d) 0 * c else p'.getD i 0 := by
    intro i
    rw [coeff_target, ← g2]
    by_cases h : d ≤ i
    · rw [if_pos h]
      by_cases h' : i < d + q.length
      · rw [if_pos ⟨h, h'⟩]
      · rw [if_neg (by omega), List.getD_eq_default q _ (by omega), Nat.zero_mul]; rfl
    · rw [if_neg h, if_neg (by omega)]; rfl
  have hfit : out.1 = false ↔ ∀ i, (val p + C c * X ^ d * val q).coeff i < M := by
    rw [h1]
    constructor
    · intro h i
      rw [htar]
      by_cases h4 : d ≤ i ∧ i < d + q.length
      · rw [if_pos h4]
        have := h (i - d) (by omega)
        rwa [show d + (i - d) = i by omega] at this
      · rw [if_neg h4, g2]; exact (fits_iff hM p).1 hpM i
    · intro h j hj
      have := h (d + j)
      rwa [htar, if_pos (by omega), Nat.add_sub_cancel_left] at this
  refine ⟨fun ht => ?_, ?_⟩
  · have hv : val out.2 = val p + C c * X ^ d * val q := val_ext fun i => by rw [h3 ht, htar]
    refine ⟨?_, ?_, hv⟩
    · rw [canon_iff] at hp hq ⊢
      intro hl e
      have hpos : ∀ a b : Nat, a + b = 0 → a = 0 ∧ b = 0 := by omega
      rw [h2] at hl e
      rw [← coeff_val, hv, coeff_target] at e
      obtain ⟨e1, e2⟩ := hpos _ _ e
      by_cases h : q.length + d > p.length
      · have hlen : p'.length = q.length + d := by rw [hp', if_pos h, length_extend (by omega)]
        rw [hlen, if_pos (by omega), show q.length + d - 1 - d = q.length - 1 by omega] at e2
        rcases Nat.mul_eq_zero.1 e2 with e2 | e2
        · exact hq hq0 e2
        · exact hc e2
      · have hlen : p' = p := by rw [hp', if_neg h]
        rw [hlen] at e1 hl
        exact hp hl e1
    · rw [fits_iff hM]
      intro i; rw [← coeff_val, hv]; exact hfit.1 ht i
  · constructor
    · intro ht
      by_contra hc
      push Not at hc
      rw [hfit.2 hc] at ht; cases ht
    · rintro ⟨i, hi⟩
      cases ht : out.1 with
      | true => rfl
      | false => exact absurd (hfit.1 ht i) (by omega)

/-- `p.safeAdd(q,d,c)`, for polynomials over the unsigned type with values below `M`, either gives
exactly `p + c X^d q`, or throws, the latter exactly if some coefficient of the exact result does
not fit; this also when `q` is the object `p` itself. -/
theorem C28_safeAdd {M : Nat} (hM : 0 < M) (same : Bool) {p q : List Nat} (hs : same = true → q = p) (d c : Nat)
    (hp : Canon p) (hq : Canon q) (hpM : Fits M p) (hqM : Fits M q) :
    ((safeAdd M same p q d c).1 = false → Canon (safeAdd M same p q d c).2 ∧
      Fits M (safeAdd M same p q d c).2 ∧ val (safeAdd M same p q d c).2 = val p + C c * X ^ d * val q) ∧
    ((safeAdd M same p q d c).1 = true ↔ ∃ i, M ≤ (val p + C c * X ^ d * val q).coeff i) := by
  unfold safeAdd
  by_cases h0 : q.length = 0 ∨ c = 0
  · rw [if_pos h0]
    have hz : C c * X ^ d * val q = 0 := by
      rcases h0 with h | h
      · rw [List.length_eq_zero_iff.1 h]; simp
      · rw [h]; simp
    rw [hz, add_zero]
    refine ⟨fun _ => ⟨hp, hpM, rfl⟩, by simp, ?_⟩
    rintro ⟨i, hi⟩
    rw [coeff_val] at hi
    exact absurd ((fits_iff hM p).1 hpM i) (by omega)
  · rw [if_neg h0]
    have hg : ∀ i, (if q.length + d > p.length then extend p (q.length + d) else p).getD i 0 = p.getD i 0 := by
      intro i
      by_cases h : q.length + d > p.length
      · rw [if_pos h, getD_extend]
      · rw [if_neg h]
    have hlen : q.length + d ≤ (if q.length + d > p.length then extend p (q.length + d) else p).length := by
      by_cases h : q.length + d > p.length
      · rw [if_pos h, length_extend (by omega)]
      · rw [if_neg h]; omega
    obtain ⟨h1, h2, h3⟩ := safeAddLoop_spec same (q := q)
      (l0 := if q.length + d > p.length then extend p (q.length + d) else p) (d := d) (c := c) hM
      (by intro h i _; rw [hg, hs h]) hqM
      (by rw [fits_iff hM]; intro i; rw [hg]; exact (fits_iff hM p).1 hpM i)
      q.length (Nat.le_refl _) _ rfl hlen (fun _ _ => rfl)
    exact safeAdd_finish hM hp hq hpM (by tauto) (by tauto) rfl h1 h2 h3

/-- the simplified loop is the general one with `c=1` -/
theorem safeAdd1Loop_eq {M : Nat} (same : Bool) (q : List Nat) (d n : Nat) (l : List Nat) :
    safeAdd1Loop M same q d n l = safeAddLoop M same q d 1 n l ∨
    ∃ i, M ≤ (if same then l else q).getD i 0 ∨ M ≤ l.getD i 0 := by
  by_cases hbad : ∃ i, M ≤ (if same then l else q).getD i 0 ∨ M ≤ l.getD i 0
  · exact Or.inr hbad
  · left
    push Not at hbad
    induction n generalizing l with
    | zero => rfl
    | succ n ih =>
      rw [safeAdd1Loop, safeAddLoop, (safeMulC_spec 1 (hbad n).1).1 (by rw [Nat.mul_one]; exact (hbad n).1),
        Nat.mul_one]
      simp only
      by_cases h : l.getD (d+n) 0 + (if same then l else q).getD n 0 < M
      · rw [(safeAddC_spec (hbad (d+n)).2).1 h]
        simp only
        refine ih _ fun i => ?_
        have hl : ∀ i, (l.set (d+n) (l.getD (d+n) 0 + (if same then l else q).getD n 0)).getD i 0 < M := by
          intro i
          by_cases hd : d + n < l.length
          · rw [getD_set _ _ _ _ hd]
            by_cases e : i = d + n
            · rw [if_pos e]; exact h
            · rw [if_neg e]; exact (hbad i).2
          · rw [List.set_eq_of_length_le (by omega)]; exact (hbad i).2
        refine ⟨?_, hl i⟩
        cases same with
        | true => exact hl i
        | false => exact (hbad i).1
      · rw [(safeAddC_spec (hbad (d+n)).2).2 (by omega)]

/-- The version of `safeAdd` without factor does the same with factor 1. -/
theorem C28_safeAdd1 {M : Nat} (hM : 0 < M) (same : Bool) {p q : List Nat} (d : Nat)
    (hpM : Fits M p) (hqM : Fits M q) :
    safeAdd1 M same p q d = safeAdd M same p q d 1 := by
  unfold safeAdd1 safeAdd
  by_cases h0 : q.length = 0
  · rw [if_pos h0, if_pos (Or.inl h0)]
  · rw [if_neg h0, if_neg (show ¬ (q.length = 0 ∨ 1 = 0) by omega)]
    have hg : ∀ i, (if q.length + d > p.length then extend p (q.length + d) else p).getD i 0 < M := by
      intro i
      have := (fits_iff (by omega) p).1 hpM i
      by_cases h : q.length + d > p.length
      · rw [if_pos h, getD_extend]; exact this
      · rw [if_neg h]; exact this
    rcases safeAdd1Loop_eq same q d q.length
      (if q.length + d > p.length then extend p (q.length + d) else p) with h | ⟨i, h | h⟩
    · exact h
    · cases same with
      | true => exact absurd (hg i) (by simpa using h)
      | false => exact absurd ((fits_iff (by omega) q).1 hqM i) (by simpa using h)
    · exact absurd (hg i) (by omega)

example : Canon [3, 1] ∧ Fits 256 [3, 1] ∧ safeAdd 256 false [3, 1] [5, 2] 1 10 = (false, [3, 51, 20]) ∧
    safeAdd 256 true [3, 1] [3, 1] 1 10 = (false, [3, 31, 10]) ∧
    (safeAdd 256 true [3, 1] [3, 1] 1 100).1 = true := by
  refine ⟨fun _ => by simp, by simp [Fits], ?_⟩
  decide

/-- After an exception the polynomial can be left with a zero leading coefficient: for
`unsigned int` coefficients, adding `2` times the constant `2^32-1` to the zero polynomial leaves
the vector (0). -/
theorem C28_safeAdd_throw_false :
    ¬ ∀ (p q : List Nat) (d c : Nat), Canon p → Canon q → Fits (2^32) p → Fits (2^32) q → c < 2^32 →
      (safeAdd (2^32) false p q d c).1 = true → Canon (safeAdd (2^32) false p q d c).2 := by
  intro h
  have := h [] [2^32-1] 0 2 (fun h => absurd rfl h) (fun _ => by simp) (by simp [Fits]) (by simp [Fits]) (by omega)
    (by decide)
  have e : safeAdd (2^32) false [] [2^32-1] 0 2 = (true, [0]) := by decide
  rw [e] at this
  exact this (by simp) rfl

/-! ### subtraction -/

theorem safeSubC_ok (nd : Bool) {M a b : Nat} (ha : a < M) (h : b ≤ a) : safeSubC nd M a b = .ok (a - b) := by
  rw [safeSubC, Res.assertIn_bind nd (by simpa using h)]
  congr 1
  rw [show a + M - b = (a - b) + M by omega, Nat.add_mod_right, Nat.mod_eq_of_lt (by omega)]

/-- `p.safeSubtract(q,d,c)`: whenever `c X^d q` is coefficientwise at most `p`, it gives the exact
difference, in builds with and without assertions; also when `q` is `p` itself. -/
theorem C28_safeSubtract (nd : Bool) {M : Nat} (hM : 0 < M) (same : Bool) {p q : List Nat}
    (hs : same = true → q = p) (d c : Nat)
    (hp : Canon p) (hq : Canon q) (hpM : Fits M p) (hqM : Fits M q)
    (hle : ∀ i, (C c * X ^ d * val q).coeff i ≤ (val p).coeff i) :
    ∃ r, safeSubtract nd M same p q d c = .ok r ∧ Canon r ∧ Fits M r ∧ val r + C c * X ^ d * val q = val p := by
  unfold safeSubtract
  by_cases h0 : q.length = 0 ∨ c = 0
  · rw [if_pos h0]
    refine ⟨p, rfl, hp, hpM, ?_⟩
    rcases h0 with h | h
    · rw [List.length_eq_zero_iff.1 h]; simp
    · rw [h]; simp
  · rw [if_neg h0]
    have hle' : ∀ j, q.getD j 0 * c ≤ p.getD (d + j) 0 := by
      intro j
      have := hle (d + j)
      rwa [mul_assoc, Polynomial.coeff_C_mul, Polynomial.coeff_X_pow_mul', if_pos (by omega), coeff_val, coeff_val,
        Nat.add_sub_cancel_left, Nat.mul_comm] at this
    have hlen : q.length + d ≤ p.length := by
      by_contra hcon
      have := hle' (q.length - 1)
      rw [List.getD_eq_default p _ (by omega)] at this
      rw [canon_iff] at hq
      rcases Nat.mul_eq_zero.1 (Nat.le_zero.1 this) with e | e
      · exact hq (by tauto) e
      · exact h0 (Or.inr e)
    rw [Res.assertIn_bind nd (by simpa using hlen)]
    have hpM' := (fits_iff hM p).1 hpM
    obtain ⟨r, h1, h2, h3⟩ := downLoop_pointwise (N := p.length) (o := d) (l0 := p) (n := q.length)
      (f := fun j l => do
        let a ← Vec.get (if same then l else q) j
        let a ← orThrow (safeMulC M a c)
        let x ← Vec.get l (d + j)
        let y ← safeSubC nd M x a
        Vec.put l (d + j) y) (g := fun j => p.getD (d + j) 0 - q.getD j 0 * c) (by omega) rfl (by
        intro j l hj hl hag
        have hread : Vec.get (if same then l else q) j = .ok (q.getD j 0) := by
          cases same with
          | false => exact get_getD hj
          | true => rw [if_pos rfl, get_getD (by omega), hag j (by omega), hs rfl]
        rw [hread, Res.ok_bind, (safeMulC_spec c ((fits_iff hM q).1 hqM j)).1
          (Nat.lt_of_le_of_lt (hle' j) (hpM' _)), orThrow, Res.ok_bind, get_getD (by omega), Res.ok_bind,
          hag _ (by omega), safeSubC_ok nd (hpM' _) (hle' j), Res.ok_bind, Vec.put_ok (by omega)])
    simp only [h1, Res.ok_bind]
    refine ⟨_, rfl, adjustSize_canon r, ?_, ?_⟩
    · rw [fits_iff hM]
      intro i
      rw [getD_adjustSize, h3]
      have := hpM' i
      by_cases h : d ≤ i ∧ i < d + q.length
      · rw [if_pos h, show d + (i - d) = i by omega]; omega
      · rw [if_neg h]; exact this
    · refine (val_ext fun i => ?_).symm
      rw [coeff_target, getD_adjustSize, h3]
      by_cases h : d ≤ i
      · rw [if_pos h]
        by_cases h' : i < d + q.length
        · rw [if_pos ⟨h, h'⟩]
          have := hle' (i - d)
          rw [show d + (i - d) = i by omega] at this ⊢; omega
        · rw [if_neg (by omega), List.getD_eq_default q _ (by omega), Nat.zero_mul]; rfl
      · rw [if_neg h, if_neg (by omega)]; rfl

/-- a downward loop that succeeds has succeeded in each pass -/
theorem downLoop_inv {S : Type} {f : Nat → S → Res S} {n : Nat} {l r : S} (h : downLoop f n l = .ok r)
    (P : Nat → S → Prop) (hn : P n l) (hstep : ∀ j l l', j < n → P (j+1) l → f j l = .ok l' → P j l') : P 0 r := by
  induction n generalizing l with
  | zero => rw [downLoop] at h; cases h; exact hn
  | succ n ih =>
    rw [downLoop] at h
    cases e : f n l with
    | ok l' =>
      rw [e, Res.ok_bind] at h
      exact ih h (hstep n l l' (by omega) hn e) fun j l l' hj => hstep j l l' (by omega)
    | _ => rw [e] at h; cases h

/-- In a build with assertions a call of `safeSubtract` that returns has computed the exact
difference: if the difference has a negative coefficient the call does not return. -/
theorem C28_safeSubtract_checked {M : Nat} (hM : 0 < M) (same : Bool) {p q : List Nat}
    (hs : same = true → q = p) (d c : Nat) (hpM : Fits M p) (hqM : Fits M q) {r : List Nat}
    (h : safeSubtract false M same p q d c = .ok r) :
    ∀ i, (C c * X ^ d * val q).coeff i ≤ (val p).coeff i := by
  have hz : (q.length = 0 ∨ c = 0) → C c * X ^ d * val q = 0 := by
    rintro (h | h)
    · rw [List.length_eq_zero_iff.1 h]; simp
    · rw [h]; simp
  unfold safeSubtract at h
  by_cases h0 : q.length = 0 ∨ c = 0
  · intro i; rw [hz h0]; simp
  · rw [if_neg h0] at h
    by_cases hlen : q.length + d ≤ p.length
    · rw [Res.assertIn_bind false (by simpa using hlen)] at h
      cases e : downLoop (fun j l => do
          let a ← Vec.get (if same then l else q) j
          let a ← orThrow (safeMulC M a c)
          let x ← Vec.get l (d + j)
          let y ← safeSubC false M x a
          Vec.put l (d + j) y) q.length p with
      | ok s =>
        have key := downLoop_inv e (fun n l => l.length = p.length ∧ (∀ i, i < d + n → l.getD i 0 = p.getD i 0) ∧
          ∀ j, n ≤ j → j < q.length → q.getD j 0 * c ≤ p.getD (d + j) 0) ⟨rfl, fun _ _ => rfl, by omega⟩ (by
          rintro j l l' hj ⟨hl, hag, hok⟩ hf
          have hread : Vec.get (if same then l else q) j = .ok (q.getD j 0) := by
            cases same with
            | false => exact get_getD hj
            | true => rw [if_pos rfl, get_getD (by omega), hag j (by omega), hs rfl]
          rw [hread, Res.ok_bind] at hf
          by_cases hm : q.getD j 0 * c < M
          · rw [(safeMulC_spec c ((fits_iff hM q).1 hqM j)).1 hm, orThrow, Res.ok_bind,
              get_getD (by omega), Res.ok_bind, hag _ (by omega)] at hf
            by_cases hle : q.getD j 0 * c ≤ p.getD (d + j) 0
            · rw [safeSubC_ok false ((fits_iff hM p).1 hpM _) hle, Res.ok_bind, Vec.put_ok (by omega)] at hf
              cases hf
              refine ⟨by simpa using hl, ?_, ?_⟩
              · intro i hi
                rw [getD_set _ _ _ _ (by omega), if_neg (by omega)]; exact hag i (by omega)
              · intro i hi hi'
                by_cases e : i = j
                · subst e; exact hle
                · exact hok i (by omega) hi'
            · have : safeSubC false M (p.getD (d + j) 0) (q.getD j 0 * c) = .assertFail := by
                rw [safeSubC]; simp [Res.assertIn, Res.assert]; rw [if_neg (by simpa using hle)]; rfl
              rw [this] at hf; cases hf
          · rw [(safeMulC_spec c ((fits_iff hM q).1 hqM j)).2 (by omega)] at hf
            cases hf)
        intro i
        rw [mul_assoc, Polynomial.coeff_C_mul, Polynomial.coeff_X_pow_mul', coeff_val, coeff_val]
        by_cases hi : d ≤ i
        · rw [if_pos hi]
          by_cases hi' : i - d < q.length
          · have := key.2.2 (i - d) (by omega) hi'
            rw [show d + (i - d) = i by omega] at this
            rwa [Nat.mul_comm]
          · rw [List.getD_eq_default q _ (by omega), Nat.mul_zero]; exact Nat.zero_le _
        · rw [if_neg hi, Nat.mul_zero]; exact Nat.zero_le _
      | _ => rw [e] at h; cases h
    · have : Res.assertIn false (decide (q.length + d ≤ p.length)) = .assertFail := by
        simp [Res.assertIn, Res.assert, hlen]
      rw [this] at h; cases h

/-- The version without factor does the same with factor 1. -/
theorem C28_safeSubtract1 (nd : Bool) {M : Nat} (hM : 1 < M) (same : Bool) {p q : List Nat}
    (hs : same = true → q = p) (d : Nat)
    (hp : Canon p) (hq : Canon q) (hpM : Fits M p) (hqM : Fits M q)
    (hle : ∀ i, (X ^ d * val q).coeff i ≤ (val p).coeff i) :
    ∃ r, safeSubtract1 nd M same p q d = .ok r ∧ Canon r ∧ Fits M r ∧ val r + X ^ d * val q = val p := by
  have hM0 : 0 < M := by omega
  have hle1 : ∀ i, (C 1 * X ^ d * val q).coeff i ≤ (val p).coeff i := by simpa using hle
  obtain ⟨r0, e0, c0, f0, v0⟩ := C28_safeSubtract nd hM0 same hs d 1 hp hq hpM hqM hle1
  refine ⟨r0, ?_, c0, f0, by simpa using v0⟩
  rw [← e0]
  unfold safeSubtract1 safeSubtract
  by_cases h0 : q.length = 0
  · rw [if_pos h0, if_pos (Or.inl h0)]
  · rw [if_neg h0, if_neg (by simpa using h0)]
    have hle' : ∀ j, q.getD j 0 ≤ p.getD (d + j) 0 := by
      intro j
      have := hle (d + j)
      rwa [Polynomial.coeff_X_pow_mul', if_pos (by omega), coeff_val, coeff_val, Nat.add_sub_cancel_left] at this
    have hlen : q.length + d ≤ p.length := by
      by_contra hcon
      have := hle' (q.length - 1)
      rw [List.getD_eq_default p _ (by omega)] at this
      rw [canon_iff] at hq
      exact hq h0 (Nat.le_zero.1 this)
    rw [Res.assertIn_bind nd (by simpa using hlen), Res.assertIn_bind nd (by simpa using hlen)]
    have hpM' := (fits_iff hM0 p).1 hpM
    have hrd : ∀ j l, j < q.length → l.length = p.length → (∀ i, i ≤ d + j → l.getD i 0 = p.getD i 0) →
        Vec.get (if same then l else q) j = .ok (q.getD j 0) := by
      intro j l hj hl hag
      cases same with
      | false => exact get_getD hj
      | true => rw [if_pos rfl, get_getD (by omega), hag j (by omega), hs rfl]
    obtain ⟨r, h1, h2, h3⟩ := downLoop_pointwise (N := p.length) (o := d) (l0 := p) (n := q.length)
      (f := fun j l => do
        let a ← Vec.get (if same then l else q) j
        let x ← Vec.get l (d + j)
        let y ← safeSubC nd M x a
        Vec.put l (d + j) y) (g := fun j => p.getD (d + j) 0 - q.getD j 0) (by omega) rfl (by
        intro j l hj hl hag
        rw [hrd j l hj hl hag, Res.ok_bind, get_getD (by omega), Res.ok_bind,
          hag _ (by omega), safeSubC_ok nd (hpM' _) (hle' j), Res.ok_bind, Vec.put_ok (by omega)])
    obtain ⟨r', h1', h2', h3'⟩ := downLoop_pointwise (N := p.length) (o := d) (l0 := p) (n := q.length)
      (f := fun j l => do
        let a ← Vec.get (if same then l else q) j
        let a ← orThrow (safeMulC M a 1)
        let x ← Vec.get l (d + j)
        let y ← safeSubC nd M x a
        Vec.put l (d + j) y) (g := fun j => p.getD (d + j) 0 - q.getD j 0) (by omega) rfl (by
        intro j l hj hl hag
        rw [hrd j l hj hl hag, Res.ok_bind, (safeMulC_spec 1 ((fits_iff hM0 q).1 hqM j)).1
          (by rw [Nat.mul_one]; exact (fits_iff hM0 q).1 hqM j), orThrow, Res.ok_bind, Nat.mul_one,
          get_getD (by omega), Res.ok_bind,
          hag _ (by omega), safeSubC_ok nd (hpM' _) (hle' j), Res.ok_bind, Vec.put_ok (by omega)])
    rw [h1, h1']
    have : r = r' := ext_getD (by omega) fun i => by rw [h3, h3']
    rw [this]

example : safeSubtract false 256 false [3, 51, 20] [5, 2] 1 10 = .ok [3, 1] ∧
    safeSubtract false 256 false [3, 51, 20] [5, 2] 1 11 = .assertFail ∧
    safeSubtract true 256 true [3, 1] [3, 1] 0 1 = .ok [] ∧
    (∀ i, (C 1 * X ^ 0 * val [3, 1]).coeff i ≤ (val [3, 1]).coeff i) := by
  refine ⟨by decide, by decide, by decide, by simp⟩

/-! ### division -/

/-- `p.safeDivide(c)` divides exactly when that is possible; in a build with assertions it does not
return otherwise. -/
theorem C28_safeDivide (nd : Bool) {p : List Nat} (hp : Canon p) {c : Nat} (hc : c ≠ 0) :
    ((∀ i, c ∣ (val p).coeff i) →
      ∃ r, safeDivide nd p c = .ok r ∧ Canon r ∧ C c * val r = val p) ∧
    ((∃ i, ¬ c ∣ (val p).coeff i) → safeDivide false p c = .assertFail) := by
  have main : ∀ p : List Nat, (∀ i, c ∣ p.getD i 0) → ∃ r, safeDivide nd p c = .ok r ∧ r.length = p.length ∧
      ∀ i, c * r.getD i 0 = p.getD i 0 := by
    intro p
    induction p with
    | nil => intro _; exact ⟨[], rfl, rfl, by simp⟩
    | cons a l ih =>
      intro h
      obtain ⟨r, h1, h2, h3⟩ := ih fun i => by simpa using h (i+1)
      have ha : c ∣ a := by simpa using h 0
      refine ⟨a / c :: r, ?_, by simp [h2], ?_⟩
      · have : safeDivC nd a c = .ok (a / c) := by
          rw [safeDivC, Res.assertIn_bind nd (by simpa using hc),
            Res.assertIn_bind nd (by simpa using Nat.mod_eq_zero_of_dvd ha), if_neg hc]
        rw [safeDivide, this, Res.ok_bind, h1, Res.ok_bind]
      · intro i
        cases i with
        | zero => simpa using Nat.mul_div_cancel' ha
        | succ i => simpa using h3 i
  constructor
  · intro h
    simp only [coeff_val] at h
    obtain ⟨r, h1, h2, h3⟩ := main p h
    refine ⟨r, h1, ?_, ?_⟩
    · rw [canon_iff] at hp ⊢
      intro hl e
      rw [h2] at hl e
      apply hp hl
      rw [← h3, e, Nat.mul_zero]
    · refine (val_ext fun i => ?_).symm
      rw [Polynomial.coeff_C_mul, coeff_val, h3]
  · simp only [coeff_val]
    clear hp main
    induction p with
    | nil => simp
    | cons a l ih =>
      rintro ⟨i, hi⟩
      rw [safeDivide]
      by_cases ha : c ∣ a
      · have e : safeDivC false a c = .ok (a / c) := by
          rw [safeDivC, Res.assertIn_bind false (by simpa using hc),
            Res.assertIn_bind false (by simpa using Nat.mod_eq_zero_of_dvd ha), if_neg hc]
        rw [e, Res.ok_bind]
        cases i with
        | zero => exact absurd ha (by simpa using hi)
        | succ i => rw [ih ⟨i, by simpa using hi⟩]; rfl
      · have e : safeDivC false a c = .assertFail := by
          rw [safeDivC, Res.assertIn_bind false (by simpa using hc)]
          have : ¬ a % c = 0 := fun h => ha (Nat.dvd_of_mod_eq_zero h)
          simp [Res.assertIn, Res.assert, this]
        rw [e]; rfl

theorem quot_loop (nd : Bool) {M : Nat} (Q : Nat → Nat) (n a : Nat) (l : List Nat) (hM : Fits M l) (ha : 0 < a)
    (hl : a + n ≤ l.length) (hlow : ∀ i, i < a → l.getD i 0 = Q i)
    (hhigh : ∀ i, a ≤ i → i < a + n → l.getD i 0 = Q i + Q (i-1)) :
    ∃ r, upLoop (fun j l => do
      let x ← Vec.get l j
      let y ← Vec.get l (j - 1)
      let z ← safeSubC nd M x y
      Vec.put l j z) a n l = .ok r ∧ r.length = l.length ∧ ∀ i, r.getD i 0 = if i < a + n then Q i else l.getD i 0 := by
  induction n generalizing a l with
  | zero =>
    refine ⟨l, rfl, rfl, fun i => ?_⟩
    by_cases h : i < a + 0
    · rw [if_pos h, hlow i h]
    · rw [if_neg h]
  | succ n ih =>
    have hx := hhigh a (Nat.le_refl _) (by omega)
    have hy := hlow (a-1) (by omega)
    have hMa : l.getD a 0 < M := by
      rw [List.getD_eq_getElem _ _ (by omega)]; exact hM _ (List.getElem_mem _)
    obtain ⟨r, h1, h2, h3⟩ := ih (a+1) (l.set a (Q a)) (by
        intro x hx'
        rcases List.mem_or_eq_of_mem_set hx' with h | h
        · exact hM x h
        · omega) (by omega) (by rw [List.length_set]; omega) (by
        intro i hi
        rw [getD_set _ _ _ _ (by omega)]
        by_cases e : i = a
        · rw [if_pos e, e]
        · rw [if_neg e, hlow i (by omega)]) (by
        intro i hi hi'
        rw [getD_set _ _ _ _ (by omega), if_neg (by omega)]
        exact hhigh i (by omega) (by omega))
    refine ⟨r, ?_, by rw [h2, List.length_set], fun i => ?_⟩
    · rw [upLoop, get_getD (by omega), Res.ok_bind, get_getD (by omega), Res.ok_bind,
        safeSubC_ok nd hMa (by omega), Res.ok_bind, Vec.put_ok (by omega), Res.ok_bind, hx, hy, Nat.add_sub_cancel, h1]
    · rw [h3, getD_set _ _ _ _ (by omega)]
      by_cases h : i < a + 1 + n
      · rw [if_pos h, if_pos (by omega)]
      · rw [if_neg h, if_neg (by omega), if_neg (by omega)]

/-- `p.safe_quotient_by_1_plus_q(delta)`: suppose `p` is `(1+X) Q` from which the term of degree
`(delta+1)/2` is left out, where `Q` has degree at most `(delta-1)/2`.  Then the call gives `Q`. -/
theorem C28_safeQuotient (nd : Bool) {M : Nat} {p Q : List Nat} (delta : Nat) (hp : Canon p) (hQ : Canon Q)
    (hpM : Fits M p) (hdeg : 2 * Q.length ≤ delta + 1)
    (h : ∀ i, (val p).coeff i = if 2 * i = delta + 1 then 0 else ((1 + X) * val Q).coeff i) :
    safeQuotient nd M p delta = .ok Q := by
  have hco : ∀ i, ((1 + X) * val Q).coeff i = Q.getD i 0 + if i = 0 then 0 else Q.getD (i-1) 0 := by
    intro i
    rw [add_mul, one_mul, Polynomial.coeff_add, coeff_val]
    cases i with
    | zero => simp
    | succ i => rw [Polynomial.coeff_X_mul, coeff_val]; rfl
  simp only [coeff_val, hco] at h
  have hQc := hQ
  rw [canon_iff] at hp hQ
  have hlast : ∀ i, p.getD i 0 ≠ 0 → i < p.length := by
    intro i hi; by_contra hc; exact hi (List.getD_eq_default _ _ (by omega))
  by_cases hQ0 : Q.length = 0
  · -- zero quotient
    have hz : p.length = 0 := by
      by_contra hc
      apply hp hc
      rw [h]
      rw [List.length_eq_zero_iff.1 hQ0]; simp
    rw [safeQuotient, if_pos hz, List.length_eq_zero_iff.1 hz, List.length_eq_zero_iff.1 hQ0]
  · have hQl := hQ hQ0
    -- the length of p
    have hlen : p.length = if 2 * Q.length = delta + 1 then Q.length else Q.length + 1 := by
      have up : ∀ i, Q.length < i → p.getD i 0 = 0 := by
        intro i hi
        rw [h, List.getD_eq_default Q _ (by omega), List.getD_eq_default Q _ (by omega)]
        simp
      have hpl : p.length ≤ Q.length + 1 := by
        by_contra hc
        exact hp (by omega) (up _ (by omega))
      by_cases hd : 2 * Q.length = delta + 1
      · rw [if_pos hd]
        have h1 : Q.length - 1 < p.length := by
          apply hlast
          rw [h, if_neg (by omega)]
          omega
        have h2 : p.length ≠ Q.length + 1 := by
          intro e
          apply hp (by omega)
          rw [e, Nat.add_sub_cancel, h, if_pos hd]
        omega
      · rw [if_neg hd]
        have h1 : Q.length < p.length := by
          apply hlast
          rw [h, if_neg hd, if_neg hQ0]
          omega
        omega
    have hp0 : p.length ≠ 0 := by
      rw [hlen]; split_ifs <;> omega
    rw [safeQuotient, if_neg hp0]
    obtain ⟨r, h1, h2, h3⟩ := quot_loop nd (fun i => Q.getD i 0) (p.length - 1) 1 p hpM (by omega) (by omega)
      (by
        intro i hi
        have : i = 0 := by omega
        subst this
        rw [h, if_neg (by omega)]; simp)
      (by
        intro i hi hi'
        have hne : ¬ 2 * i = delta + 1 := by
          intro e
          rw [hlen] at hi'
          by_cases hd : 2 * Q.length = delta + 1
          · rw [if_pos hd] at hi'; omega
          · rw [if_neg hd] at hi'; omega
        rw [h, if_neg hne, if_neg (by omega)])
    have hr : ∀ i, r.getD i 0 = Q.getD i 0 := by
      intro i
      rw [h3]
      by_cases hi : i < 1 + (p.length - 1)
      · rw [if_pos hi]
      · rw [if_neg hi, List.getD_eq_default _ _ (by omega), List.getD_eq_default _ _]
        rw [hlen] at hi; split_ifs at hi <;> omega
    rw [h1, Res.ok_bind, get_getD (by omega), Res.ok_bind, hr, h2]
    by_cases hd : 2 * Q.length = delta + 1
    · rw [if_pos hd] at hlen
      rw [hlen, if_neg hQl, Res.assertIn_bind nd (by simp; omega)]
      exact congrArg _ (ext_getD (by omega) hr)
    · rw [if_neg hd] at hlen
      rw [hlen, Nat.add_sub_cancel, if_pos (List.getD_eq_default _ _ (by omega))]
      have : adjustSize r = Q := canon_ext (adjustSize_canon r) hQc fun i => by rw [getD_adjustSize, hr]
      simp only [this]
      rw [Res.assertIn_bind nd (by simp; omega)]

example : safeQuotient false 256 [1, 3, 2] 5 = .ok [1, 2] ∧ safeQuotient false 256 [1, 3] 3 = .ok [1, 2] ∧
    Canon [1, 3] ∧ Canon [1, 2] ∧ Fits 256 [1, 3] ∧
    (∀ i, (val [1, 3]).coeff i = if 2 * i = 3 + 1 then 0 else ((1 + X) * val [1, 2]).coeff i) := by
  refine ⟨by decide, by decide, fun _ => by simp, fun _ => by simp, by simp [Fits], ?_⟩
  intro i
  rw [add_mul, one_mul, Polynomial.coeff_add, coeff_val, coeff_val]
  match i with
  | 0 => simp
  | 1 => rw [Polynomial.coeff_X_mul, coeff_val]; simp
  | 2 => simp
  | i+3 => rw [Polynomial.coeff_X_mul, coeff_val]; simp

end Verif.Poly
