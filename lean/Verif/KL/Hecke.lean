import Verif.KL.Laurent

/-! The Hecke module: the self-dual elements form a basis, and the action of `T_s` on them. -/

namespace Verif.KL

open Polynomial LaurentPolynomial

variable {B : Type}

theorem Blk.T_add (b : Blk B) (s : ℕ) (m n : Mod B) : b.T s (m + n) = b.T s m + b.T s n := by
  funext x
  simp only [Blk.T, Pi.add_apply]
  cases b.st s x <;> simp only <;> ring

theorem Blk.T_smul (b : Blk B) (s : ℕ) (a : L) (m : Mod B) : b.T s (a • m) = a • b.T s m := by
  funext x
  simp only [Blk.T, Pi.smul_apply, smul_eq_mul]
  cases b.st s x <;> simp only <;> ring

theorem Blk.T_zero (b : Blk B) (s : ℕ) : b.T s (0 : Mod B) = 0 := by
  have := b.T_smul s 0 (0 : Mod B)
  simpa using this

theorem Blk.T_sub (b : Blk B) (s : ℕ) (m n : Mod B) : b.T s (m - n) = b.T s m - b.T s n := by
  have h : m - n = m + (-1 : L) • n := by funext x; simp; ring
  rw [h, b.T_add, b.T_smul]
  funext x; simp; ring

theorem Blk.T_sum (b : Blk B) (s : ℕ) {ι : Type} (S : Finset ι) (f : ι → Mod B) :
    b.T s (∑ i ∈ S, f i) = ∑ i ∈ S, b.T s (f i) := by
  classical
  induction S using Finset.induction_on with
  | empty => simp [b.T_zero]
  | insert a S ha ih => rw [Finset.sum_insert ha, Finset.sum_insert ha, b.T_add, ih]

/-- the elements on which `T_s` acts by `q` -/
def Plus (b : Blk B) (s : ℕ) (m : Mod B) : Prop := b.T s m = q • m

theorem Plus.add {b : Blk B} {s : ℕ} {m n : Mod B} (hm : Plus b s m) (hn : Plus b s n) :
    Plus b s (m + n) := by
  unfold Plus at *; rw [b.T_add, hm, hn, smul_add]
theorem Plus.smul {b : Blk B} {s : ℕ} {m : Mod B} (a : L) (hm : Plus b s m) :
    Plus b s (a • m) := by
  unfold Plus at *; rw [b.T_smul, hm, smul_comm]
theorem Plus.sub {b : Blk B} {s : ℕ} {m n : Mod B} (hm : Plus b s m) (hn : Plus b s n) :
    Plus b s (m - n) := by
  unfold Plus at *; rw [b.T_sub, hm, hn, smul_sub]
theorem Plus.sum {b : Blk B} {s : ℕ} {ι : Type} (S : Finset ι) (f : ι → Mod B)
    (h : ∀ i ∈ S, Plus b s (f i)) : Plus b s (∑ i ∈ S, f i) := by
  unfold Plus at *
  rw [b.T_sum, Finset.smul_sum]
  exact Finset.sum_congr rfl h

section Coord
variable {b : Blk B} {s : ℕ} {m : Mod B} (h : Plus b s m) (x : B)
include h

theorem Plus.at' : b.T s m x = q * m x := by
  have := congrFun h x
  simpa using this

theorem Plus.complexAscent (hx : b.st s x = .complexAscent) : m x = m (b.cross s x) := by
  have h1 := Plus.at' h x
  simp only [Blk.T, hx] at h1
  exact (mul_left_cancel₀ q_ne h1).symm

theorem Plus.realNonparity (hx : b.st s x = .realNonparity) : m x = 0 := by
  have h1 := Plus.at' h x
  simp only [Blk.T, hx] at h1
  have h2 : (q + 1) * m x = 0 := by linear_combination -h1
  exact (mul_eq_zero.mp h2).resolve_left q_add_one

theorem Plus.imaginaryTypeII (hx : b.st s x = .imaginaryTypeII) :
    m x = m (b.cay s x).1 + m (b.cay s x).2 := by
  have h1 := Plus.at' h x
  simp only [Blk.T, hx] at h1
  have h2 : (q - 1) * m x = (q - 1) * (m (b.cay s x).1 + m (b.cay s x).2) := by
    linear_combination -h1
  exact mul_left_cancel₀ q_ne_one h2

theorem Plus.imaginaryTypeI (hx : b.st s x = .imaginaryTypeI) (hr : b.Rel s x) :
    m x = m (b.cay s x).1 := by
  simp only [Blk.Rel, hx] at hr
  obtain ⟨c1, _, c3, _, _, _, c7, _⟩ := hr
  have h1 := Plus.at' h x
  have h2 := Plus.at' h (b.cross s x)
  simp only [Blk.T, hx] at h1
  simp only [Blk.T, c1, c3, c7] at h2
  have h3 : (q + 1) * (m x - m (b.cross s x)) = 0 := by linear_combination h2 - h1
  have h4 := (mul_eq_zero.mp h3).resolve_left q_add_one
  have h5 : (q - 1) * m x = (q - 1) * m (b.cay s x).1 := by linear_combination -h1 - h4
  exact mul_left_cancel₀ q_ne_one h5

end Coord

theorem pair_cases {α : Type} {p : α × α} {x y : α} (h : p = (x, y) ∨ p = (y, x)) :
    (p.1 = x ∧ p.2 = y) ∨ (p.1 = y ∧ p.2 = x) := by
  rcases h with h | h
  · left; rw [h]; exact ⟨rfl, rfl⟩
  · right; rw [h]; exact ⟨rfl, rfl⟩

/-- `(T_s - q)(T_s + 1) = 0` -/
theorem Blk.quadratic {b : Blk B} (hb : b.WF) {s : ℕ} (hs : s < b.rank) (m : Mod B) :
    Plus b s (b.T s m + m) := by
  unfold Plus
  funext x
  have hr := hb s hs x
  simp only [Blk.Rel] at hr
  simp only [Blk.T, Pi.add_apply, Pi.smul_apply, smul_eq_mul]
  cases hx : b.st s x <;> simp only [hx] at hr ⊢
  · obtain ⟨c1, c2, _⟩ := hr
    simp only [c1, c2]; ring
  · ring
  · obtain ⟨c1, _, c3, _, c5, _, c7, c8⟩ := hr
    simp only [c1, c3, c5, c7]
    rcases pair_cases c8 with ⟨h1, h2⟩ | ⟨h1, h2⟩ <;> simp only [h1, h2] <;> ring
  · obtain ⟨_, c2, c3, c4, c5, _, _, c8, c9⟩ := hr
    simp only [c2, c3, c4, c5, c8, c9]; ring
  · obtain ⟨c1, c2, _⟩ := hr
    simp only [c1, c2]; ring
  · obtain ⟨c1, _, c3, _, c5, _, c7, c8⟩ := hr
    simp only [c1, c3, c5, c7]
    rcases pair_cases c8 with ⟨h1, h2⟩ | ⟨h1, h2⟩ <;> simp only [h1, h2] <;> ring
  · obtain ⟨_, c2, c3, c4, c5, _, _, c8, c9⟩ := hr
    simp only [c2, c3, c4, c5, c8, c9]; ring

section Basis
variable [Fintype B] [DecidableEq B] {b : Blk B} {D : Mod B → Mod B} {P : B → B → ℕ[X]}

theorem IsKLV.zero (hP : IsKLV b D P) {x y : B} (hxy : x ≠ y) (h : b.len y ≤ b.len x) :
    P x y = 0 := by
  ext i
  by_contra hne
  have := hP.deg x y hxy i (by simpa using hne)
  omega

theorem IsKLV.bd (hP : IsKLV b D P) {x y : B} (hxy : x ≠ y) :
    Bd ((b.len y : ℤ) - b.len x) (cvec P y x) := by
  intro i hi
  rw [cvec, co_toL] at hi
  by_cases h : 0 ≤ i
  · rw [if_pos h] at hi
    have := hP.deg x y hxy i.toNat (by exact_mod_cast hi)
    omega
  · rw [if_neg h] at hi; exact absurd rfl hi

theorem IsKLV.self (hP : IsKLV b D P) (y : B) : cvec P y y = 1 := by
  rw [cvec, hP.one, map_one]

theorem IsKLV.cvec_zero (hP : IsKLV b D P) {x y : B} (hxy : x ≠ y) (h : b.len y ≤ b.len x) :
    cvec P y x = 0 := by
  rw [cvec, hP.zero hxy h, map_zero]

/-- `P` bounded weakly: the bound at `x = y` included -/
theorem IsKLV.bd' (hP : IsKLV b D P) (x y : B) :
    Bd ((b.len y : ℤ) - b.len x + 1) (cvec P y x) := by
  by_cases h : x = y
  · subst h; rw [hP.self]; exact Bd.one.mono (by omega)
  · exact (hP.bd h).mono (by omega)

/-- the combination `Σ a_z C_z` -/
noncomputable def comb (P : B → B → ℕ[X]) (a : B → L) : Mod B := ∑ z, a z • cvec P z

theorem comb_apply (P : B → B → ℕ[X]) (a : B → L) (x : B) :
    comb P a x = ∑ z, a z * cvec P z x := by
  simp [comb, Finset.sum_apply]

theorem comb_add (P : B → B → ℕ[X]) (a c : B → L) :
    comb P (a + c) = comb P a + comb P c := by
  simp [comb, add_smul, Finset.sum_add_distrib]

theorem comb_sub (P : B → B → ℕ[X]) (a c : B → L) :
    comb P (a - c) = comb P a - comb P c := by
  simp [comb, sub_smul, Finset.sum_sub_distrib]

theorem comb_smul (P : B → B → ℕ[X]) (f : L) (a : B → L) :
    comb P (fun z => f * a z) = f • comb P a := by
  simp [comb, Finset.smul_sum, mul_smul]

theorem IsKLV.comb_top (hP : IsKLV b D P) (a : B → L) (x : B)
    (h : ∀ z, a z ≠ 0 → b.len z ≤ b.len x) : comb P a x = a x := by
  rw [comb_apply, Finset.sum_eq_single x]
  · rw [hP.self, mul_one]
  · intro z _ hz
    by_cases h0 : a z = 0
    · rw [h0, zero_mul]
    · rw [hP.cvec_zero (Ne.symm hz) (h z h0), mul_zero]
  · intro h; exact absurd (Finset.mem_univ _) h

/-- above the support the combination vanishes -/
theorem IsKLV.comb_above (hP : IsKLV b D P) (a : B → L) (x : B)
    (h : ∀ z, a z ≠ 0 → b.len z < b.len x) : comb P a x = 0 := by
  rw [hP.comb_top a x (fun z hz => (h z hz).le)]
  by_contra h0
  exact absurd (h x h0) (lt_irrefl _)

theorem exists_max {a : B → L} (b : Blk B) (h : a ≠ 0) :
    ∃ x, a x ≠ 0 ∧ ∀ z, a z ≠ 0 → b.len z ≤ b.len x := by
  classical
  obtain ⟨x0, hx0⟩ := Function.ne_iff.mp h
  obtain ⟨x, hx, hm⟩ := Finset.exists_max_image (Finset.univ.filter (fun z => a z ≠ 0)) b.len
    ⟨x0, by simpa using hx0⟩
  refine ⟨x, by simpa using hx, fun z hz => hm z (by simpa using hz)⟩

theorem IsKLV.comb_inj (hP : IsKLV b D P) {a : B → L} (h : comb P a = 0) : a = 0 := by
  by_contra hne
  obtain ⟨x, hx, hm⟩ := exists_max b hne
  have := hP.comb_top a x hm
  rw [h] at this
  exact hx this.symm

theorem IsKLV.comb_ext (hP : IsKLV b D P) {a c : B → L} (h : comb P a = comb P c) : a = c := by
  have : a - c = 0 := hP.comb_inj (by rw [comb_sub, h, sub_self])
  exact sub_eq_zero.mp this

theorem IsKLV.expand (hP : IsKLV b D P) (N : ℕ) : ∀ m : Mod B, (∀ x, m x ≠ 0 → b.len x < N) →
    ∃ a : B → L, m = comb P a ∧ ∀ k : ℤ, (∀ x, Bd (k - b.len x) (m x)) →
      ∀ z, Bd (k - b.len z) (a z) := by
  induction N with
  | zero =>
    intro m hm
    have : m = 0 := by
      funext x
      by_contra h
      exact absurd (hm x h) (Nat.not_lt_zero _)
    refine ⟨0, ?_, fun k _ z => Bd.zero _⟩
    rw [this]; simp [comb]
  | succ N ih =>
    intro m hm
    let a0 : B → L := fun z => if b.len z = N then m z else 0
    have ha0 : ∀ z, a0 z ≠ 0 → b.len z ≤ N := by
      intro z hz
      by_contra h
      exact hz (if_neg (by omega))
    have hsup : ∀ x, (m - comb P a0) x ≠ 0 → b.len x < N := by
      intro x hx
      by_contra hlt
      apply hx
      rw [Pi.sub_apply, hP.comb_top a0 x (fun z hz => by have := ha0 z hz; omega)]
      by_cases h : b.len x = N
      · simp only [a0, if_pos h, sub_self]
      · simp only [a0, if_neg h, sub_zero]
        by_contra h0
        have := hm x h0
        omega
    obtain ⟨a1, h1, h2⟩ := ih _ hsup
    refine ⟨a0 + a1, ?_, ?_⟩
    · rw [comb_add, ← h1]; abel
    · intro k hk
      have hb0 : ∀ z, Bd (k - b.len z) (a0 z) := by
        intro z
        by_cases h : b.len z = N
        · simp only [a0, if_pos h]; exact hk z
        · simp only [a0, if_neg h]; exact Bd.zero _
      intro z
      refine (hb0 z).add (h2 k ?_ z)
      intro x
      refine (hk x).sub ?_
      rw [comb_apply]
      apply Bd.sum
      intro w _
      exact ((hb0 w).mul (hP.bd' x w)).mono (by omega)

theorem IsKLV.exists_comb (hP : IsKLV b D P) (m : Mod B) :
    ∃ a : B → L, m = comb P a ∧ ∀ k : ℤ, (∀ x, Bd (k - b.len x) (m x)) →
      ∀ z, Bd (k - b.len z) (a z) :=
  hP.expand (Finset.univ.sup b.len + 1) m
    (fun x _ => Nat.lt_succ_of_le (Finset.le_sup (f := b.len) (Finset.mem_univ x)))

theorem IsDuality.zero (hD : IsDuality b D) : D 0 = 0 := by
  have := hD.smul 0 0
  simpa using this

theorem IsDuality.sum (hD : IsDuality b D) {ι : Type} (S : Finset ι) (f : ι → Mod B) :
    D (∑ i ∈ S, f i) = ∑ i ∈ S, D (f i) := by
  classical
  induction S using Finset.induction_on with
  | empty => simp [hD.zero]
  | insert a S ha ih => rw [Finset.sum_insert ha, Finset.sum_insert ha, hD.add, ih]

theorem IsKLV.D_comb (hD : IsDuality b D) (hP : IsKLV b D P) (a : B → L) :
    D (comb P a) =
      comb P (fun z => LaurentPolynomial.T (-(b.len z : ℤ)) * LaurentPolynomial.invert (a z)) := by
  rw [comb, hD.sum, comb]
  refine Finset.sum_congr rfl (fun z _ => ?_)
  rw [hD.smul, hP.dual, smul_smul, mul_comm]

/-- coordinates of an element with `D m = q^{-k} m` -/
theorem IsKLV.sym_coord (hD : IsDuality b D) (hP : IsKLV b D P) {a : B → L} {k : ℤ}
    (h : D (comb P a) = (LaurentPolynomial.T (-k) : L) • comb P a) (z : B) :
    a z = LaurentPolynomial.T (k - b.len z) * LaurentPolynomial.invert (a z) := by
  rw [hP.D_comb hD, ← comb_smul] at h
  have h1 := congrFun (hP.comb_ext h) z
  have h2 : a z = LaurentPolynomial.T k * (LaurentPolynomial.T (-k) * a z) := by
    rw [← mul_assoc, ← LaurentPolynomial.T_add]; simp
  calc a z = LaurentPolynomial.T k * (LaurentPolynomial.T (-k) * a z) := h2
    _ = LaurentPolynomial.T k *
          (LaurentPolynomial.T (-(b.len z : ℤ)) * LaurentPolynomial.invert (a z)) := by rw [← h1]
    _ = _ := by rw [← mul_assoc, ← LaurentPolynomial.T_add, ← sub_eq_add_neg]

theorem Plus.dual (hD : IsDuality b D) {s : ℕ} (hs : s < b.rank) {m : Mod B} (h : Plus b s m) :
    Plus b s (D m) := by
  have h1 := hD.hecke s hs m
  unfold Plus at *
  rw [h, hD.smul, invert_T, smul_smul, ← LaurentPolynomial.T_add] at h1
  simp only [add_neg_cancel, LaurentPolynomial.T_zero, one_smul] at h1
  have : b.T s (D m) = D m + (q - 1) • D m := by
    conv_lhs => rw [← sub_add_cancel (b.T s (D m)) ((q - 1) • D m), ← h1]
  rw [this]
  funext x; simp; ring

end Basis

end Verif.KL
