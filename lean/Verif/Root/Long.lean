import Verif.Root.Comps
/-
Long roots and coroots (`is_long_root`, `is_long_coroot`).
-/
namespace Verif.Root
open Verif.Coxeter CoxeterSystem

section
variable {rk : Nat} {M : CoxeterMatrix (Fin rk)} {W : Type} [Group W] {cs : CoxeterSystem M W} {C : Fin rk → Fin rk → ℤ} {h : IsCartan C M}
variable {nd pc : Bool} {N : Nat} {R R' : Nat → Fin rk → ℤ} {rs : RS}

/-- if a simple root has a pairing of absolute value at least two with some coroot, then it has such a pairing with a negative coroot -/
theorem neg_long {β β' : Fin rk → ℤ} {t : W} (hr : IsRoot cs h β β' t) {j : Fin rk} (h1 : β ≠ root j) (h2 : β ≠ -root j) (h3 : 2 ≤ |form C (root j) β'|) :
    ∃ γ γ' u, IsRoot cs h γ γ' u ∧ (∀ i, γ i ≤ 0) ∧ 2 ≤ form C (root j) γ' := by
  have main : ∀ {β β' : Fin rk → ℤ}, IsRoot cs h β β' t → β ≠ root j → 2 ≤ form C (root j) β' → ∃ γ γ' u, IsRoot cs h γ γ' u ∧ (∀ i, γ i ≤ 0) ∧ 2 ≤ form C (root j) γ' := by
    intro β β' hr h1 h3
    rcases hr.sign with hs | hs
    · have h4 := hr.simple_pos hs.1 h1
      have h5 := (hr.act (cs.simple j)).neg
      refine ⟨_, _, _, h5, fun i => ?_, ?_⟩
      · have := h4 i
        rw [geom_simple, Pi.neg_apply]
        omega
      · rw [geom_simple, srefl_apply, ← form_root_left, form_neg_right, form_sub_right, form_smul_right, form_root_root, h.diag]
        omega
    · exact ⟨_, _, _, hr, hs.1, h3⟩
  rcases le_total 0 (form C (root j) β') with h4 | h4
  · rw [abs_of_nonneg h4] at h3
    exact main hr h1 h3
  · rw [abs_of_nonpos h4] at h3
    refine main hr.neg (fun e => h2 ?_) (by rw [form_neg_right]; exact h3)
    rw [← e, neg_neg]

variable (hN : Spec.Numbering C pc N R R') (hA : Spec.Answers nd C pc N R R' rs)

include hA in
theorem longRootLoop_ok {a : Nat} (ha : a < 2 * N) : ∀ (l : List Nat), (∀ k ∈ l, k < 2 * N) → ∃ x, rs.longRootLoop a l = .ok x ∧ (x = true ↔ ∃ k ∈ l, form C (R a) (R' k) < -1)
  | [], _ => ⟨false, rfl, by simp⟩
  | k :: l, hl => by
    rw [RS.longRootLoop, hA.bracket a ha k (hl k (by simp)), Res.ok_bind]
    by_cases hc : Spec.pair C (R a) (R' k) < -1
    · rw [if_pos hc]
      exact ⟨true, rfl, iff_of_true rfl ⟨k, by simp, hc⟩⟩
    · rw [if_neg hc]
      obtain ⟨x, h1, h2⟩ := longRootLoop_ok ha l fun k hk => hl k (by simp [hk])
      refine ⟨x, h1, ?_⟩
      rw [h2]
      have hc' : ¬ form C (R a) (R' k) < -1 := hc
      simp [hc']

include hA in
theorem longCorootLoop_ok {a : Nat} (ha : a < 2 * N) : ∀ (l : List Nat), (∀ k ∈ l, k < 2 * N) → ∃ x, rs.longCorootLoop a l = .ok x ∧ (x = true ↔ ∃ k ∈ l, form C (R k) (R' a) < -1)
  | [], _ => ⟨false, rfl, by simp⟩
  | k :: l, hl => by
    rw [RS.longCorootLoop, hA.bracket k (hl k (by simp)) a ha, Res.ok_bind]
    by_cases hc : Spec.pair C (R k) (R' a) < -1
    · rw [if_pos hc]
      exact ⟨true, rfl, iff_of_true rfl ⟨k, by simp, hc⟩⟩
    · rw [if_neg hc]
      obtain ⟨x, h1, h2⟩ := longCorootLoop_ok ha l fun k hk => hl k (by simp [hk])
      refine ⟨x, h1, ?_⟩
      rw [h2]
      have hc' : ¬ form C (R k) (R' a) < -1 := hc
      simp [hc']

variable [Finite W] (cs) (h) (hrk : rk ≤ 32)
include hN hA hrk cs h

/-- what `conjugate_to_simple` gives for roots and coroots -/
theorem conj_both {a : Nat} (ha : a < 2 * N) : ∃ (w : List Nat) (j : Fin rk) (g : W), rs.conjugate nd a = .ok (w, j.1) ∧
    (R a = geom cs h g (root j) ∧ R' a = geom cs h.dual g (root j) ∨ R a = -geom cs h g (root j) ∧ R' a = -geom cs h.dual g (root j)) := by
  obtain ⟨w, j, h1, -, h2⟩ := conjugate_ok cs h hN hA hrk ha
  refine ⟨_, j, cs.wordProd w, h1, ?_⟩
  obtain ⟨t, ht⟩ := hN.isRoot cs h ha
  have e : (if N ≤ a then R a else -R a) = geom cs h (cs.wordProd w) (root j) := by
    rw [← unit_eq, ← h2, act_eq cs h, cs.wordProd_reverse, ← geom_mul, mul_inv_cancel, map_one]
    rfl
  have hg : IsRoot cs h (geom cs h (cs.wordProd w) (root j)) (geom cs h.dual (cs.wordProd w) (root j)) _ := (isRoot_simple j).act (cs.wordProd w)
  by_cases hc : N ≤ a
  · rw [if_pos hc] at e
    rw [← e] at hg
    exact .inl ⟨e, (ht.unique hg).1⟩
  · rw [if_neg hc] at e
    rw [← e] at hg
    refine .inr ⟨by rw [← e, neg_neg], ?_⟩
    rw [← (ht.neg.unique hg).1, neg_neg]

/-- `is_long_root` -/
theorem isLongRoot_ok {a : Nat} (ha : a < 2 * N) : ∃ x, rs.isLongRoot nd a = .ok x ∧
    (x = true ↔ ∃ k < 2 * N, R k ≠ R a ∧ R k ≠ -R a ∧ 2 ≤ |Spec.pair C (R a) (R' k)|) := by
  obtain ⟨w, j, g, h1, h2⟩ := conj_both cs h hN hA hrk ha
  have hle := hN.simple.1
  have hj := j.2
  obtain ⟨x, x1, x2⟩ := longRootLoop_ok hA (a := N - 1 - j) (by omega) (List.range N) fun k hk => by have := List.mem_range.mp hk; omega
  refine ⟨x, by rw [RS.isLongRoot, h1, Res.ok_bind]; dsimp only; rw [hA.numPos, x1], ?_⟩
  have hs := hN.minus (k := N + j) (by omega)
  rw [show 2 * N - 1 - (N + j) = N - 1 - j by omega] at hs
  have hs1 := (simple_of_root hN (a := N + j) (by omega) j).mpr rfl
  rw [hs1] at hs
  have habs : ∀ y, |form C (R a) y| = |form C (geom cs h g (root j)) y| := by
    intro y
    rcases h2 with ⟨e, -⟩ | ⟨e, -⟩
    · rw [e]
    · rw [e, form_neg_left, abs_neg]
  have hpm : ∀ x, (x ≠ R a ∧ x ≠ -R a) ↔ (x ≠ geom cs h g (root j) ∧ x ≠ -geom cs h g (root j)) := by
    intro x
    rcases h2 with ⟨e, -⟩ | ⟨e, -⟩
    · rw [e]
    · rw [e, neg_neg]
      exact and_comm
  rw [x2]
  constructor
  · rintro ⟨k, k1, k2⟩
    have hkN := List.mem_range.mp k1
    obtain ⟨t, ht⟩ := hN.isRoot cs h (k := k) (by omega)
    have hact := ht.act g
    obtain ⟨m, m1, m2, m3⟩ := hN.surj _ _ ((spec_isRoot cs h _ _).mpr ⟨_, hact⟩)
    rw [hs.1, form_neg_left] at k2
    refine ⟨m, m1, ?_⟩
    rw [← and_assoc, hpm, m2, pair_eq, habs, m3, form_inv]
    refine ⟨⟨fun e => ?_, fun e => ?_⟩, ?_⟩
    · have e' := geom_injective cs h g e
      have := (hN.sign cs h (k := k) (by omega)).1
      rw [e', lev_root] at this
      omega
    · rw [← map_neg] at e
      have e' := geom_injective cs h g e
      rw [e'] at ht
      have := (ht.neg.unique (β2 := root j) (by rw [neg_neg]; exact isRoot_simple j)).1
      rw [← neg_neg (R' k), this, form_neg_right, form_root_root, h.diag] at k2
      omega
    · rw [le_abs]
      omega
  · rintro ⟨k, k1, k2, k3, k4⟩
    obtain ⟨t, ht⟩ := hN.isRoot cs h k1
    have hact := ht.act g⁻¹
    obtain ⟨n1, n2⟩ := (hpm (R k)).mp ⟨k2, k3⟩
    have hgg : ∀ y, geom cs h g (geom cs h g⁻¹ y) = y := fun y => by rw [← geom_mul, mul_inv_cancel, map_one]; rfl
    have hgg' : ∀ y, geom cs h.dual g (geom cs h.dual g⁻¹ y) = y := fun y => by rw [← geom_mul, mul_inv_cancel, map_one]; rfl
    obtain ⟨γ, γ', u, u1, u2, u3⟩ := neg_long hact (j := j) (fun e => n1 (by rw [← e, hgg])) (fun e => n2 (by rw [← map_neg, ← e, hgg])) (by
      rw [← form_inv cs h g, hgg', ← habs]
      exact k4)
    obtain ⟨m, m1, m2, m3⟩ := hN.surj _ _ ((spec_isRoot cs h _ _).mpr ⟨_, u1⟩)
    refine ⟨m, ?_, ?_⟩
    · rw [List.mem_range, (hN.sign_of cs h m1).2, m2]
      exact u2
    · rw [hs.1, form_neg_left, m3]
      omega

/-- `is_long_coroot` -/
theorem isLongCoroot_ok {a : Nat} (ha : a < 2 * N) : ∃ x, rs.isLongCoroot nd a = .ok x ∧
    (x = true ↔ ∃ k < 2 * N, R k ≠ R a ∧ R k ≠ -R a ∧ 2 ≤ |Spec.pair C (R k) (R' a)|) := by
  obtain ⟨w, j, g, h1, h2⟩ := conj_both cs h hN hA hrk ha
  have hle := hN.simple.1
  have hj := j.2
  obtain ⟨x, x1, x2⟩ := longCorootLoop_ok hA (a := N - 1 - j) (by omega) (List.range N) fun k hk => by have := List.mem_range.mp hk; omega
  refine ⟨x, by rw [RS.isLongCoroot, h1, Res.ok_bind]; dsimp only; rw [hA.numPos, x1], ?_⟩
  have hs := hN.minus (k := N + j) (by omega)
  rw [show 2 * N - 1 - (N + j) = N - 1 - j by omega] at hs
  have hs1 := hN.simple.2 j
  rw [unit_eq] at hs1
  rw [hs1.1, hs1.2] at hs
  have habs : ∀ y, |form C y (R' a)| = |form C y (geom cs h.dual g (root j))| := by
    intro y
    rcases h2 with ⟨-, e⟩ | ⟨-, e⟩
    · rw [e]
    · rw [e, form_neg_right, abs_neg]
  have hpm : ∀ x, (x ≠ R a ∧ x ≠ -R a) ↔ (x ≠ geom cs h g (root j) ∧ x ≠ -geom cs h g (root j)) := by
    intro x
    rcases h2 with ⟨e, -⟩ | ⟨e, -⟩
    · rw [e]
    · rw [e, neg_neg]
      exact and_comm
  rw [x2]
  constructor
  · rintro ⟨k, k1, k2⟩
    have hkN := List.mem_range.mp k1
    obtain ⟨t, ht⟩ := hN.isRoot cs h (k := k) (by omega)
    have hact := ht.act g
    obtain ⟨m, m1, m2, m3⟩ := hN.surj _ _ ((spec_isRoot cs h _ _).mpr ⟨_, hact⟩)
    rw [hs.2, form_neg_right] at k2
    refine ⟨m, m1, ?_⟩
    rw [← and_assoc, hpm, pair_eq, habs, m2, form_inv]
    refine ⟨⟨fun e => ?_, fun e => ?_⟩, ?_⟩
    · have e' := geom_injective cs h g e
      have := (hN.sign cs h (k := k) (by omega)).1
      rw [e', lev_root] at this
      omega
    · rw [← map_neg] at e
      have e' := geom_injective cs h g e
      rw [e', form_neg_left, form_root_root, h.diag] at k2
      omega
    · rw [le_abs]
      omega
  · rintro ⟨k, k1, k2, k3, k4⟩
    obtain ⟨t, ht⟩ := hN.isRoot cs h k1
    have hact := ht.act g⁻¹
    obtain ⟨n1, n2⟩ := (hpm (R k)).mp ⟨k2, k3⟩
    have hgg : ∀ y, geom cs h g (geom cs h g⁻¹ y) = y := fun y => by rw [← geom_mul, mul_inv_cancel, map_one]; rfl
    obtain ⟨γ, γ', u, u1, u2, u3⟩ := neg_long hact.dual (j := j) (fun e => n1 (by
        have e2 := (hact.dual.unique (β2 := root j) (by rw [e]; exact isRoot_simple j)).1
        rw [← e2, hgg])) (fun e => n2 (by
        have e2 := (hact.dual.unique (β2 := -root j) (by rw [e]; exact (isRoot_simple j).neg)).1
        rw [← map_neg, ← e2, hgg])) (by
      rw [form_swap, ← form_inv cs h g, hgg, ← habs]
      exact k4)
    obtain ⟨m, m1, m2, m3⟩ := hN.surj _ _ ((spec_isRoot cs h _ _).mpr ⟨_, u1.dual⟩)
    refine ⟨m, ?_, ?_⟩
    · have hsg := (hN.sign cs h m1).2
      have : lev (R' m) ≤ 0 := Finset.sum_nonpos fun i _ => by rw [m3]; exact u2 i
      rw [List.mem_range]
      omega
    · rw [hs.2, form_neg_right, m2]
      rw [form_swap] at u3
      omega

end
end Verif.Root
