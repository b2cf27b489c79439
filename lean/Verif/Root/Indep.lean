import Verif.Root.Sub
/-
The simple roots of a subsystem are linearly independent.
-/
namespace Verif.Root
open Verif.Coxeter CoxeterSystem

section
variable {rk : Nat} {M : CoxeterMatrix (Fin rk)} {W : Type} [Group W] {C : Fin rk → Fin rk → ℤ}
variable {pc : Bool} {N : Nat} {R R' : Nat → Fin rk → ℤ} {S : Nat → Prop}

/-- twice the invariant form, from the pairing with a coroot -/
theorem exists_inner' [Finite W] (cs : CoxeterSystem M W) (h : IsCartan C M) : ∃ Q : (Fin rk → ℤ) → (Fin rk → ℤ) → ℤ, (∀ x y, Q x y = Q y x) ∧
    (∀ x y z, Q (x - y) z = Q x z - Q y z) ∧ (∀ (a : ℤ) x y, Q (a • x) y = a * Q x y) ∧ (∀ x, x ≠ 0 → 0 < Q x x) ∧
    ∀ {α α' : Fin rk → ℤ} {t : W}, Verif.Coxeter.IsRoot cs h α α' t → ∀ x, 2 * Q x α = form C x α' * Q α α := by
  obtain ⟨Q, q1, q2, q3, q4, q5⟩ := exists_inner cs h
  have q3r : ∀ (a : ℤ) x y, Q x (a • y) = a * Q x y := fun a x y => by rw [q1, q3, q1 y]
  refine ⟨Q, q1, q2, q3, q5, ?_⟩
  intro α α' t ha x
  have h1 := q4 t x α
  rw [ha.refl x, ha.refl α, ha.form_self] at h1
  have e : α - (2 : ℤ) • α = (-1 : ℤ) • α := by
    funext i; simp only [Pi.sub_apply, Pi.smul_apply, smul_eq_mul]; ring
  rw [e, q2, q3r, q3, q3r] at h1
  linarith

/-- vectors on one side of a hyperplane that make obtuse angles are independent -/
theorem indep_of_obtuse {Q : (Fin rk → ℤ) → (Fin rk → ℤ) → ℤ} (q1 : ∀ x y, Q x y = Q y x) (q2 : ∀ x y z, Q (x - y) z = Q x z - Q y z) (q3 : ∀ (a : ℤ) x y, Q (a • x) y = a * Q x y)
    (q5 : ∀ x, x ≠ 0 → 0 < Q x x) (A : Finset Nat) (hp : ∀ a ∈ A, 0 < lev (R a)) (ho : ∀ a ∈ A, ∀ b ∈ A, a ≠ b → Q (R a) (R b) ≤ 0) (c : Nat → ℤ)
    (hc : ∀ i, ∑ a ∈ A, c a * R a i = 0) : ∀ a ∈ A, c a = 0 := by
  have q0 : ∀ z, Q 0 z = 0 := fun z => by have := q3 0 0 z; simpa using this
  have qadd : ∀ x y z, Q (x + y) z = Q x z + Q y z := by
    intro x y z
    have h1 := q2 (x + y) y z
    rw [add_sub_cancel_right] at h1
    omega
  have qsum : ∀ (d : Nat → ℤ) z (B : Finset Nat), Q (∑ a ∈ B, d a • R a) z = ∑ a ∈ B, d a * Q (R a) z := by
    intro d z B
    induction B using Finset.induction_on with
    | empty => simp [q0]
    | insert a B ha ih => rw [Finset.sum_insert ha, Finset.sum_insert ha, qadd, q3, ih]
  let cp : Nat → ℤ := fun a => max (c a) 0
  let cm : Nat → ℤ := fun a => max (-c a) 0
  have hcp : ∀ a, 0 ≤ cp a := fun a => le_max_right _ _
  have hcm : ∀ a, 0 ≤ cm a := fun a => le_max_right _ _
  have hd : ∀ a, c a = cp a - cm a := fun a => by simp only [cp, cm]; omega
  have hz : ∀ a, cp a * cm a = 0 := by
    intro a
    rcases le_total (c a) 0 with hle | hle
    · simp only [cp, max_eq_right hle, zero_mul]
    · simp only [cm, max_eq_right (by omega : -c a ≤ 0), mul_zero]
  have he : ∑ a ∈ A, cp a • R a = ∑ a ∈ A, cm a • R a := by
    funext i
    have h1 := hc i
    simp only [hd, sub_mul, Finset.sum_sub_distrib] at h1
    simp only [Finset.sum_apply, Pi.smul_apply, smul_eq_mul]
    omega
  have hu : Q (∑ a ∈ A, cp a • R a) (∑ a ∈ A, cp a • R a) ≤ 0 := by
    nth_rewrite 2 [he]
    rw [qsum]
    refine Finset.sum_nonpos fun a ha => ?_
    rw [q1, qsum, Finset.mul_sum]
    refine Finset.sum_nonpos fun b hb => ?_
    by_cases hab : b = a
    · have := hz a
      rw [hab, ← mul_assoc, this, zero_mul]
    · exact mul_nonpos_of_nonneg_of_nonpos (hcp a) (mul_nonpos_of_nonneg_of_nonpos (hcm b) (ho b hb a ha hab))
  have hu0 : ∑ a ∈ A, cp a • R a = 0 := by
    by_contra hne
    have := q5 _ hne
    omega
  have hlev : ∀ d : Nat → ℤ, (∀ a, 0 ≤ d a) → ∑ a ∈ A, d a • R a = 0 → ∀ a ∈ A, d a = 0 := by
    intro d hd0 hs a ha
    have h1 : ∑ a ∈ A, d a * lev (R a) = 0 := by
      have : lev (∑ a ∈ A, d a • R a) = ∑ a ∈ A, d a * lev (R a) := by
        simp only [lev, Finset.sum_apply, Pi.smul_apply, smul_eq_mul, Finset.mul_sum]
        exact Finset.sum_comm
      rw [← this, hs]
      simp [lev]
    rw [Finset.sum_eq_zero_iff_of_nonneg fun b hb => mul_nonneg (hd0 b) (le_of_lt (hp b hb))] at h1
    rcases mul_eq_zero.mp (h1 a ha) with h2 | h2
    · exact h2
    · have := hp a ha
      omega
  intro a ha
  rw [hd, hlev cp hcp hu0 a ha, hlev cm hcm (he ▸ hu0) a ha, sub_zero]

theorem sub_indep [Finite W] (cs : CoxeterSystem M W) (h : IsCartan C M) (hN : Spec.Numbering C pc N R R') (hS : Spec.Subsystem C N R R' S) {l : List Nat}
    (hl : l.Pairwise (· < ·)) (hm : ∀ k ∈ l, Spec.IsSimpleIn N R S k) (c : Nat → ℤ) (hc : ∀ i, (l.map fun k => c k * R k i).sum = 0) : ∀ k ∈ l, c k = 0 := by
  obtain ⟨Q, q1, q2, q3, q5, q6⟩ := exists_inner' cs h
  have hnd : l.Nodup := hl.imp fun g => Nat.ne_of_lt g
  have := indep_of_obtuse q1 q2 q3 q5 l.toFinset (R := R) (fun a ha => (hN.lev_pos cs h (hS.lt a (hm a (by simpa using ha)).1) (hm a (by simpa using ha)).2.1).1)
    (fun a ha b hb hab => ?_) c fun i => ?_
  · intro k hk
    exact this k (by simpa using hk)
  · have hb' := hm b (by simpa using hb)
    have ho := sub_obtuse cs h hN hS hb' (hm a (by simpa using ha)) hab
    obtain ⟨t, ht⟩ := hN.isRoot cs h (hS.lt b hb'.1)
    have h1 := q6 ht (R a)
    have h2 := q5 _ ht.ne_zero
    nlinarith
  · rw [List.sum_toFinset _ hnd]
    exact hc i

end
end Verif.Root
