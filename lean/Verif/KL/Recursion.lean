import Verif.KL.Eigen

/-! The action of `T_s + 1` on `C_y` when `s` is not in the tau invariant of `y`. -/

set_option linter.unusedSectionVars false

namespace Verif.KL

open Polynomial LaurentPolynomial

variable {B : Type} [Fintype B] [DecidableEq B] {b : Blk B} {D : Mod B → Mod B}
  {P : B → B → ℕ[X]}

/-- the elements reached by ascending from `y` through `s` -/
def up (b : Blk B) (s : ℕ) (y : B) : Finset B :=
  match b.st s y with
  | .complexAscent => {b.cross s y}
  | .imaginaryTypeI => {(b.cay s y).1}
  | .imaginaryTypeII => {(b.cay s y).1, (b.cay s y).2}
  | _ => ∅

theorem mem_up (hb : b.WF) {s : ℕ} (hs : s < b.rank) {y z : B}
    (hz : (b.st s z).isDescent = true) :
    z ∈ up b s y ↔ match b.st s z with
      | .complexDescent => b.cross s z = y
      | .realTypeI => (b.cay s z).1 = y ∨ (b.cay s z).2 = y
      | .realTypeII => (b.cay s z).1 = y
      | _ => False := by
  have hry := hb s hs y
  have hrz := hb s hs z
  simp only [Blk.Rel] at hry hrz
  constructor
  · intro h
    unfold up at h
    cases hy : b.st s y <;> simp only [hy] at h hry
    · simp only [Finset.mem_singleton] at h
      subst h
      simp only [hry.1, hry.2.1]
    · simp at h
    · simp only [Finset.mem_singleton] at h
      subst h
      obtain ⟨_, _, _, _, c5, _, _, c8⟩ := hry
      simp only [c5]
      rcases pair_cases c8 with ⟨h, _⟩ | ⟨_, h⟩
      · left; exact h
      · right; exact h
    · simp only [Finset.mem_insert, Finset.mem_singleton] at h
      obtain ⟨_, c2, c3, _, _, _, _, c8, c9⟩ := hry
      rcases h with h | h
      · subst h; simp only [c2, c8]
      · subst h; simp only [c3, c9]
    all_goals simp at h
  · intro h
    cases hzz : b.st s z <;> simp only [hzz] at h hrz
    · unfold up
      subst h
      simp only [hrz.1, hrz.2.1, Finset.mem_singleton]
    · unfold up
      subst h
      obtain ⟨_, _, _, _, c5, _, _, c8⟩ := hrz
      simp only [c5, Finset.mem_insert, Finset.mem_singleton]
      rcases pair_cases c8 with ⟨h, _⟩ | ⟨_, h⟩
      · left; exact h.symm
      · right; exact h.symm
    · unfold up
      obtain ⟨_, c2, c3, _, _, _, _, c8, c9⟩ := hrz
      rcases h with h | h
      · subst h; simp only [c2, c8, Finset.mem_singleton]
      · subst h; simp only [c3, c9, Finset.mem_singleton]

theorem up_len (hb : b.WF) {s : ℕ} (hs : s < b.rank) {y z : B} (h : z ∈ up b s y) :
    b.len z = b.len y + 1 ∧ (b.st s z).isDescent = true ∧ (b.st s y).isDescent = false := by
  have hry := hb s hs y
  simp only [Blk.Rel] at hry
  unfold up at h
  cases hy : b.st s y <;> simp only [hy] at h hry
  · simp only [Finset.mem_singleton] at h
    subst h; rw [hry.1]; exact ⟨hry.2.2, rfl, rfl⟩
  · simp at h
  · simp only [Finset.mem_singleton] at h
    subst h; rw [hry.2.2.2.2.1]; exact ⟨hry.2.2.2.2.2.1, rfl, rfl⟩
  · simp only [Finset.mem_insert, Finset.mem_singleton] at h
    obtain ⟨_, c2, c3, _, _, c6, c7, _⟩ := hry
    rcases h with h | h
    · subst h; rw [c2]; exact ⟨c6, rfl, rfl⟩
    · subst h; rw [c3]; exact ⟨c7, rfl, rfl⟩
  all_goals simp at h

/-- the coefficient of `C_z` in `(T_s + 1) C_y` -/
noncomputable def recCoef (b : Blk B) (P : B → B → ℕ[X]) (s : ℕ) (y z : B) : ℕ[X] :=
  if (b.st s z).isDescent then
    if z ∈ up b s y then 1
    else Polynomial.C (mu b P z y) * X ^ ((b.len y + 1 - b.len z) / 2)
  else 0

theorem IsKLV.mu_co (hP : IsKLV b D P) {z y : B} (h : z ≠ y) {t : ℤ}
    (ht : 2 * t = (b.len y : ℤ) - b.len z - 1) : co (cvec P y z) t = mu b P z y := by
  rw [cvec, co_toL, mu]
  by_cases h0 : 0 ≤ t
  · rw [if_pos h0, if_pos (by omega), show t.toNat = (b.len y - b.len z - 1) / 2 by omega]
  · rw [if_neg h0]
    by_cases h1 : b.len z < b.len y ∧ (b.len y - b.len z) % 2 = 1
    · omega
    · rw [if_neg h1]; rfl

theorem IsKLV.co_zero_of (hP : IsKLV b D P) {z y : B} (h : z ≠ y) {t : ℤ}
    (ht : (b.len y : ℤ) - b.len z ≤ 2 * t) : co (cvec P y z) t = 0 := by
  by_contra hne
  have := hP.bd h t hne
  omega

theorem mu_zero {z y : B} (h : b.len y ≤ b.len z) : mu b P z y = 0 := by
  rw [mu, if_neg (by omega)]

theorem Bd.qm1 {c : ℤ} {f : L} (hf : Bd c f) : Bd (c + 2) ((q - 1) * f) := by
  rw [sub_mul, one_mul]; exact hf.qmul.sub (hf.mono (by omega))

theorem Bd.qm2 {c : ℤ} {f : L} (hf : Bd c f) : Bd (c + 2) ((q - 2) * f) := by
  rw [show (q - 2) * f = (q - 1) * f - f by ring]; exact hf.qm1.sub (hf.mono (by omega))

theorem IsKLV.bd_u (hb : b.WF) (hP : IsKLV b D P) {s : ℕ} (hs : s < b.rank) (x y : B)
    (hy : (b.st s y).isDescent = false) :
    Bd (((b.len y : ℤ) + 2) - b.len x) ((b.T s (cvec P y) + cvec P y) x) := by
  have hr := hb s hs x
  simp only [Blk.Rel] at hr
  rw [Pi.add_apply]
  refine Bd.add ?_ ((hP.bd' x y).mono (by omega))
  simp only [Blk.T]
  have hq : ∀ w : B, b.len w ≤ b.len x → b.len x ≤ b.len w + 1 →
      Bd (((b.len y : ℤ) + 2) - b.len x) (cvec P y w) :=
    fun w _ hw => (hP.bd' w y).mono (by omega)
  have hq1 : ∀ w : B, b.len w = b.len x + 1 →
      Bd (((b.len y : ℤ) + 2) - b.len x) (q * cvec P y w) :=
    fun w hw => (hP.bd' w y).qmul.mono (by omega)
  have hq2 : ∀ w : B, b.len w = b.len x + 1 →
      Bd (((b.len y : ℤ) + 2) - b.len x) ((q - 1) * cvec P y w) :=
    fun w hw => (hP.bd' w y).qm1.mono (by omega)
  have hne : (b.st s x).isDescent = true → x ≠ y := by
    rintro h rfl; rw [h] at hy; exact absurd hy (by decide)
  cases hx : b.st s x <;> simp only [hx] at hr ⊢
  · exact hq1 _ hr.2.2
  · exact (hq x (by omega) (by omega)).neg
  · exact (hq _ (by omega) (by omega)).add (hq2 _ (by omega))
  · rw [mul_add]
    exact (hq _ (by omega) (by omega)).add ((hq2 _ (by omega)).add (hq2 _ (by omega)))
  · exact (hP.bd (hne (by rw [hx]; rfl))).qmul.mono (by omega)
  · exact (hq _ (by omega) (by omega)).add ((hP.bd (hne (by rw [hx]; rfl))).qm1.mono (by omega))
  · exact ((hq _ (by omega) (by omega)).add
      ((hP.bd (hne (by rw [hx]; rfl))).qm1.mono (by omega))).sub (hq _ (by omega) (by omega))
  · exact ((hq _ (by omega) (by omega)).add (hq _ (by omega) (by omega))).add
      ((hP.bd (hne (by rw [hx]; rfl))).qm2.mono (by omega))

/-- the middle coefficient of `(T_s + 1) C_y` at a descent -/
theorem IsKLV.mid_u (hb : b.WF) (hP : IsKLV b D P) {s : ℕ} (hs : s < b.rank) (z y : B)
    (hy : (b.st s y).isDescent = false) (hz : (b.st s z).isDescent = true) {j : ℤ}
    (hj : 2 * j = (b.len y : ℤ) + 1 - b.len z) :
    co ((b.T s (cvec P y) + cvec P y) z) j =
      if z ∈ up b s y then 1 else (mu b P z y : ℤ) := by
  have hzy : z ≠ y := by rintro rfl; rw [hz] at hy; exact absurd hy (by decide)
  have hr := hb s hs z
  simp only [Blk.Rel] at hr
  have hm := mem_up hb hs (y := y) hz
  have e1 : co (cvec P y z) j = 0 := hP.co_zero_of hzy (by omega)
  have e2 : co (cvec P y z) (j - 1) = mu b P z y := hP.mu_co hzy (by omega)
  -- a neighbour one shorter
  have e3 : ∀ w : B, b.len z = b.len w + 1 → co (cvec P y w) j = if w = y then 1 else 0 := by
    intro w hw
    by_cases h : w = y
    · subst h
      rw [if_pos rfl, hP.self, co_one, if_pos (by omega)]
    · rw [if_neg h]; exact hP.co_zero_of h (by omega)
  have e4 : b.len y < b.len z → mu b P z y = 0 := fun h => mu_zero (by omega)
  simp only [Pi.add_apply, Blk.T]
  cases hx : b.st s z <;> simp only [hx, Status.isDescent, Bool.false_eq_true] at hr hz hm ⊢
  · rw [if_neg (by rw [hm]; exact id), co_add, co_T_mul, e1, e2, add_zero]
  · rw [show cvec P y (b.cross s z) + (q - 1) * cvec P y z + cvec P y z
      = cvec P y (b.cross s z) + q * cvec P y z by ring, co_add, co_T_mul, e2, e3 _ (by omega)]
    by_cases h : b.cross s z = y
    · rw [if_pos h, if_pos (hm.mpr h), e4 (by rw [← h]; omega)]; simp
    · rw [if_neg h, if_neg (fun h' => h (hm.mp h'))]; simp
  · rw [show cvec P y (b.cay s z).1 + (q - 1) * cvec P y z - cvec P y (b.cross s z) + cvec P y z
      = cvec P y (b.cay s z).1 + q * cvec P y z - cvec P y (b.cross s z) by ring, co_sub, co_add,
      co_T_mul, e2, e3 _ (by omega)]
    have hcr : b.cross s z ≠ y := by
      rintro rfl; rw [hr.1] at hy; exact absurd hy (by decide)
    rw [hP.co_zero_of hcr (by omega)]
    by_cases h : (b.cay s z).1 = y
    · rw [if_pos h, if_pos (hm.mpr h), e4 (by rw [← h]; omega)]; simp
    · rw [if_neg h, if_neg (fun h' => h (hm.mp h'))]; simp
  · rw [show cvec P y (b.cay s z).1 + cvec P y (b.cay s z).2 + (q - 2) * cvec P y z + cvec P y z
      = cvec P y (b.cay s z).1 + cvec P y (b.cay s z).2 + q * cvec P y z - cvec P y z by ring,
      co_sub, co_add, co_add, co_T_mul, e2, e1, e3 _ (by omega), e3 _ (by omega)]
    by_cases h : (b.cay s z).1 = y
    · rw [if_pos h, if_pos (hm.mpr (Or.inl h)), e4 (by rw [← h]; omega), if_neg]
      · simp
      · intro h'; exact hr.1 (h.trans h'.symm)
    · by_cases h' : (b.cay s z).2 = y
      · rw [if_neg h, if_pos h', if_pos (hm.mpr (Or.inr h')), e4 (by rw [← h']; omega)]; simp
      · rw [if_neg h, if_neg h', if_neg (fun h'' => (hm.mp h'').elim h h')]; simp

theorem toL_rec_co (s : ℕ) (y z : B) (hz : (b.st s z).isDescent = true) (i : ℤ) :
    co (toL (recCoef b P s y z)) i =
      if z ∈ up b s y then (if i = 0 then 1 else 0)
      else if i = ((b.len y + 1 - b.len z) / 2 : ℕ) then (mu b P z y : ℤ) else 0 := by
  unfold recCoef
  rw [if_pos hz]
  by_cases h : z ∈ up b s y
  · rw [if_pos h, if_pos h, map_one, co_one]
  · rw [if_neg h, if_neg h, map_mul, toL_X_pow, mul_comm, co_T_mul, co_toL, Polynomial.coeff_C]
    by_cases hi : i = ((b.len y + 1 - b.len z) / 2 : ℕ)
    · rw [if_pos hi, if_pos (by omega), if_pos (by omega)]
    · rw [if_neg hi]
      by_cases h1 : 0 ≤ i - ((b.len y + 1 - b.len z) / 2 : ℕ)
      · rw [if_pos h1, if_neg (by omega)]; rfl
      · rw [if_neg h1]

/-- `(T_s + 1) C_y` is the sum of the `C_z` with `z` above `y` through `s`, and of the terms
`mu(z,y) q^{(l(y)-l(z)+1)/2} C_z` with `s` in the tau invariant of `z` -/
theorem IsKLV.recursion (hb : b.WF) (hD : IsDuality b D) (hP : IsKLV b D P) {s : ℕ}
    (hs : s < b.rank) {y : B} (hy : (b.st s y).isDescent = false) :
    b.T s (cvec P y) + cvec P y = comb P (fun z => toL (recCoef b P s y z)) := by
  have hplus : Plus b s (b.T s (cvec P y) + cvec P y) := Blk.quadratic hb hs _
  have hdual : D (b.T s (cvec P y) + cvec P y) =
      (LaurentPolynomial.T (-((b.len y : ℤ) + 1)) : L) • (b.T s (cvec P y) + cvec P y) := by
    have h1 := hD.hecke s hs (cvec P y)
    have h2 : q • D (b.T s (cvec P y) + cvec P y) =
        (LaurentPolynomial.T (-(b.len y : ℤ)) : L) • (b.T s (cvec P y) + cvec P y) := by
      rw [hD.add, smul_add, h1, hP.dual, b.T_smul]
      funext x
      simp only [Pi.add_apply, Pi.sub_apply, Pi.smul_apply, smul_eq_mul]
      ring
    have h3 := congrArg (fun m => (LaurentPolynomial.T (-1) : L) • m) h2
    simp only [smul_smul, ← LaurentPolynomial.T_add] at h3
    simp only [neg_add_cancel, LaurentPolynomial.T_zero, one_smul] at h3
    rw [h3]; congr 2; ring
  obtain ⟨a, ha, hbd⟩ := hP.exists_comb (b.T s (cvec P y) + cvec P y)
  have hbd' := hbd _ (fun x => hP.bd_u hb hs x y hy)
  rw [ha] at hplus hdual
  have hsym := fun z => hP.sym_coord hD hdual z
  have hmid : ∀ z i, co (a z) i ≠ 0 → 2 * i = (b.len y : ℤ) + 1 - b.len z :=
    fun z i hi => sym_mid (hsym z) ((hbd' z).mono (by omega)) i hi
  have hasc := asc_zero hb hP hs hplus (fun z _ hz => hP.plus hb hD hs hz)
  rw [ha]
  congr 1
  funext z
  by_cases hz : (b.st s z).isDescent = true
  · apply co_ext
    intro i
    rw [toL_rec_co s y z hz]
    by_cases hi : 2 * i = (b.len y : ℤ) + 1 - b.len z
    · have h1 : co (a z) i = co ((b.T s (cvec P y) + cvec P y) z) i := by
        rw [ha, comb_apply, co_sum, Finset.sum_eq_single z]
        · rw [hP.self, mul_one]
        · intro w _ hw
          by_contra hne
          have := ((hbd' w).mul (hP.bd (Ne.symm hw))) i hne
          omega
        · intro h; exact absurd (Finset.mem_univ _) h
      rw [h1, hP.mid_u hb hs z y hy hz hi]
      by_cases hup : z ∈ up b s y
      · have := up_len hb hs hup
        rw [if_pos hup, if_pos hup, if_pos (by omega)]
      · rw [if_neg hup, if_neg hup]
        by_cases hlt : b.len z < b.len y + 1
        · rw [if_pos (by omega)]
        · rw [mu_zero (by omega)]; simp
    · have h0 : co (a z) i = 0 := by
        by_contra hne
        exact hi (hmid z i hne)
      rw [h0]
      by_cases hup : z ∈ up b s y
      · have := up_len hb hs hup
        rw [if_pos hup, if_neg (by omega)]
      · rw [if_neg hup]
        by_cases he : i = ((b.len y + 1 - b.len z) / 2 : ℕ)
        · rw [if_pos he, mu, if_neg (by omega)]; rfl
        · rw [if_neg he]
  · rw [hasc z (by simpa using hz)]
    unfold recCoef
    rw [if_neg hz, map_zero]

end Verif.KL
