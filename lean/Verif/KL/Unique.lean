import Verif.KL.Hecke

/-! The specification determines the polynomials. -/

set_option linter.unusedSectionVars false

namespace Verif.KL

open Polynomial

variable {B : Type} [Fintype B] [DecidableEq B] {b : Blk B} {D : Mod B → Mod B}
  {P P' : B → B → ℕ[X]}

theorem mod_expand (m : Mod B) : m = ∑ z, m z • basis z := by
  funext x
  rw [Finset.sum_apply, Finset.sum_eq_single x]
  · simp [basis]
  · intro z _ hz; simp [basis, Ne.symm hz]
  · intro h; exact absurd (Finset.mem_univ _) h

theorem IsDuality.sub (hD : IsDuality b D) (m n : Mod B) : D (m - n) = D m - D n := by
  have h : m - n = m + (-1 : L) • n := by funext x; simp; ring
  rw [h, hD.add, hD.smul]
  funext x; simp; ring

/-- at an element of maximal length in its support -/
theorem IsDuality.top (hD : IsDuality b D) (m : Mod B) (x : B)
    (h : ∀ z, m z ≠ 0 → b.len z ≤ b.len x) :
    D m x = LaurentPolynomial.T (-(b.len x : ℤ)) * LaurentPolynomial.invert (m x) := by
  conv_lhs => rw [mod_expand m]
  rw [hD.sum, Finset.sum_apply, Finset.sum_eq_single x]
  · rw [hD.smul, Pi.smul_apply, hD.diag, smul_eq_mul, mul_comm]
  · intro z _ hz
    rw [hD.smul, Pi.smul_apply, smul_eq_mul]
    by_cases h0 : m z = 0
    · rw [h0, map_zero, zero_mul]
    · have : D (basis z) x = 0 := by
        by_contra hne
        rcases hD.tri z x hne with e | e
        · exact hz e.symm
        · have := h z h0; omega
      rw [this, mul_zero]
  · intro h; exact absurd (Finset.mem_univ _) h

theorem IsKLV.unique (hD : IsDuality b D) (h : IsKLV b D P) (h' : IsKLV b D P') : P = P' := by
  funext x0 y
  apply toL_inj
  have key : cvec P y - cvec P' y = 0 := by
    by_contra hne
    obtain ⟨x, hx, hm⟩ := exists_max b hne
    have h1 := hD.top _ x hm
    rw [hD.sub, h.dual, h'.dual, ← smul_sub] at h1
    rw [Pi.smul_apply, smul_eq_mul] at h1
    have hxy : x ≠ y := by
      intro e; subst e
      apply hx
      rw [Pi.sub_apply, h.self, h'.self, sub_self]
    apply hx
    apply sym_zero (k := (b.len y : ℤ) + -(b.len x : ℤ))
    · have h2 := congrArg (fun f => LaurentPolynomial.T (b.len y : ℤ) * f) h1
      simp only [← mul_assoc, ← LaurentPolynomial.T_add] at h2
      rw [add_neg_cancel, LaurentPolynomial.T_zero, one_mul] at h2
      exact h2
    · rw [Pi.sub_apply]
      exact ((h.bd hxy).sub (h'.bd hxy)).mono (by omega)
  have := congrFun (sub_eq_zero.1 key) x0
  exact this

end Verif.KL
