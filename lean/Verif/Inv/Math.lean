import Verif.Inv.Spec
/-
The involutions of the weights defined by twisted involutions: action on roots, conjugation, imaginary and real simple roots, sums of positive roots.
-/
namespace Verif.Inv
open Verif Verif.Root Verif.Mat Verif.Datum Verif.Weyl Verif.Coxeter CoxeterSystem
open scoped Matrix

variable {n r : Nat} {Mx : CoxeterMatrix (Fin n)} {G : Type} [Group G]
variable {nd : Bool} {cs : CoxeterSystem Mx G} {α αv : Fin n → Fin r → ℤ} {comps : List Comp} {pc : Bool} {rd : RD} {N : Nat} {R R' : Nat → Fin n → ℤ}
  {T : TWG} {φ : G → List Nat} {f : Fin n → Fin n} {θ : G →* G} {δ : Matrix (Fin r) (Fin r) ℤ} {A : G →* Matrix (Fin r) (Fin r) ℤ}

/-- the matrix of a simple reflection -/
abbrev smat (α αv : Fin n → Fin r → ℤ) (s : Fin n) := reflMat (α s) (αv s)

theorem mat_ext {m k : Nat} {B C : Matrix (Fin m) (Fin k) ℤ} (h : ∀ v, B *ᵥ v = C *ᵥ v) : B = C :=
  Matrix.ext_of_mulVec_single fun i => h _

theorem mul_reflMat (B : Matrix (Fin r) (Fin r) ℤ) (a c a' c' : Fin r → ℤ) (h1 : B *ᵥ a = a') (h2 : c' ᵥ* B = c) : B * reflMat a c = reflMat a' c' * B := by
  refine mat_ext fun v => ?_
  rw [← Matrix.mulVec_mulVec, ← Matrix.mulVec_mulVec, (reflMat_mulVec _ _ _).1, (reflMat_mulVec _ _ _).1]
  unfold Datum.refl
  rw [Matrix.mulVec_sub, Matrix.mulVec_smul, h1, ← h2]
  congr 2
  rw [dotProduct_comm, ← Matrix.dotProduct_mulVec, dotProduct_comm]

theorem smat_sq {C : CoxeterMatrix (Fin n)} (h : IsCartan (cart α αv) C) (s : Fin n) : smat α αv s * smat α αv s = 1 := by
  refine mat_ext fun v => ?_
  rw [← Matrix.mulVec_mulVec, (reflMat_mulVec _ _ _).1, (reflMat_mulVec _ _ _).1, Matrix.one_mulVec]
  unfold Datum.refl
  have : α s ⬝ᵥ αv s = 2 := h.diag s
  rw [sub_dotProduct, smul_dotProduct, this]
  funext i
  simp only [Pi.sub_apply, Pi.smul_apply, smul_eq_mul]
  ring

theorem smat_root {C : CoxeterMatrix (Fin n)} (h : IsCartan (cart α αv) C) (s : Fin n) : smat α αv s *ᵥ α s = -α s := by
  rw [(reflMat_mulVec _ _ _).1]
  unfold Datum.refl
  have : α s ⬝ᵥ αv s = 2 := h.diag s
  rw [this]
  funext i
  simp only [Pi.sub_apply, Pi.smul_apply, smul_eq_mul, Pi.neg_apply]
  ring

variable (H : Input nd cs α αv comps pc rd N R R' T φ f θ δ A)
include H

theorem Input.cartf (s t : Fin n) : cart α αv (f s) (f t) = cart α αv s t := by
  show α (f s) ⬝ᵥ αv (f t) = α s ⬝ᵥ αv t
  rw [← H.root, ← H.coroot, dotProduct_comm, ← Matrix.dotProduct_mulVec, Matrix.mulVec_mulVec, H.invol, Matrix.one_mulVec, dotProduct_comm]

theorem Input.delta_lin (x : Fin n → ℤ) : δ *ᵥ lin α x = lin α (permRoot f x) := by
  unfold Datum.lin
  rw [Matrix.mulVec_sum]
  let e : Fin n ≃ Fin n := ⟨f, f, H.twist.invol, H.twist.invol⟩
  rw [← Equiv.sum_comp e]
  refine Finset.sum_congr rfl fun i _ => ?_
  rw [Matrix.mulVec_smul, H.root]
  show x (f i) • α (f (f i)) = x (f i) • α i
  rw [H.twist.invol]

theorem Input.act_lin (w : G) (x : Fin n → ℤ) : A w *ᵥ lin α x = lin α (geom cs H.cartan w x) := by
  induction w using cs.simple_induction_left generalizing x with
  | one => simp
  | mul_simple_left w i ih =>
    rw [map_mul, ← Matrix.mulVec_mulVec, ih, geom_mul, geom_simple, H.action, (reflMat_mulVec _ _ _).1, srefl_apply, ← form_root_right, lin_refl,
      ← unit_eq, lin_unit, lin_unit]

/-- the involution on combinations of roots -/
theorem Input.inv_lin (w : G) (x : Fin n → ℤ) : invMat A δ w *ᵥ lin α x = lin α (trueInv cs H.cartan f w x) := by
  rw [invMat, ← Matrix.mulVec_mulVec, H.delta_lin, H.act_lin]; rfl

theorem Input.delta_act (w : G) : δ * A w = A (θ w) * δ := by
  induction w using cs.simple_induction_left with
  | one => simp
  | mul_simple_left w i ih =>
    rw [map_mul, map_mul, map_mul, ← mul_assoc, H.action, H.twist.simple, H.action,
      mul_reflMat δ _ _ _ _ (H.root i) (show αv (f i) ᵥ* δ = αv i by rw [H.coroot, H.twist.invol]), mul_assoc, ih, mul_assoc]

theorem Input.inv_sq {w : G} (hw : IsTI θ w) : invMat A δ w * invMat A δ w = 1 := by
  have : θ w = w⁻¹ := hw
  unfold invMat
  rw [mul_assoc, ← mul_assoc δ, H.delta_act, this, mul_assoc, H.invol, mul_one, ← map_mul, mul_inv_cancel, map_one]

theorem Input.inv_conj (w : G) (s : Fin n) : invMat A δ (cs.simple s * w * θ (cs.simple s)) = smat α αv s * invMat A δ w * smat α αv s := by
  unfold invMat
  rw [map_mul, map_mul, H.action, mul_assoc, ← H.delta_act, H.action]
  simp only [mul_assoc]

theorem Input.inv_mul (w : G) (s : Fin n) : invMat A δ (cs.simple s * w) = smat α αv s * invMat A δ w := by
  unfold invMat
  rw [map_mul, H.action, mul_assoc]

/-- simple roots that are fixed or negated come from elements that twisted-commute -/
theorem Input.commute {w : G} {s : Fin n} (h : invMat A δ w *ᵥ α s = α s ∨ invMat A δ w *ᵥ α s = -α s) : cs.simple s * w = w * θ (cs.simple s) := by
  have := H.finite
  have e : α s = lin α (Coxeter.root s) := by rw [← unit_eq, lin_unit]
  rw [e, H.inv_lin, ← Datum.lin_neg, trueInv_apply, permRoot_root H.twist] at h
  have h1 : IsRoot cs H.cartan (geom cs H.cartan w (Coxeter.root (f s))) _ _ := (isRoot_simple (f s)).act w
  have key : w * cs.simple (f s) * w⁻¹ = cs.simple s := by
    rcases h with h | h
    · have h := lin_inj cs H.cartan h
      rw [h] at h1
      exact (h1.unique (isRoot_simple s)).2
    · have h := lin_inj cs H.cartan h
      rw [h] at h1
      exact (h1.unique (isRoot_simple s).neg).2
  rw [H.twist.simple, ← key]; group

theorem Input.imaginary {w : G} (hw : IsTI θ w) (s : Fin n) : invMat A δ w *ᵥ α s = α s ↔
    cs.simple s * w = w * θ (cs.simple s) ∧ cs.length w < cs.length (cs.simple s * w) := by
  have := H.finite
  have e : α s = lin α (Coxeter.root s) := by rw [← unit_eq, lin_unit]
  have key : cs.simple s * w = w * θ (cs.simple s) → cs.length (cs.simple s * w) < cs.length w → invMat A δ w *ᵥ α s = -α s := fun h1 h2 => by
    rw [e, H.inv_lin, trueInv_real H.twist H.cartan H.cartf hw h1 h2, Datum.lin_neg]
  constructor
  · intro h
    have hc := H.commute (.inl h)
    refine ⟨hc, ?_⟩
    by_contra hl
    have := cs.length_simple_mul w s
    have h2 := key hc (by omega)
    rw [h, e, ← Datum.lin_neg] at h2
    have := congrFun (lin_inj cs H.cartan h2) s
    simp [Coxeter.root] at this
  · rintro ⟨hc, hl⟩
    have hw' : IsTI θ (cs.simple s * w) := IsTI.commute H.twist hw hc
    have h2 : invMat A δ (cs.simple s * w) *ᵥ α s = -α s := by
      rw [e, H.inv_lin, trueInv_real H.twist H.cartan H.cartf hw' _ _, Datum.lin_neg]
      · rw [cs.simple_mul_simple_cancel_left, hc, mul_assoc, H.twist.simple, cs.simple_mul_simple_self, mul_one]
      · rwa [cs.simple_mul_simple_cancel_left]
    rw [H.inv_mul, ← Matrix.mulVec_mulVec] at h2
    have h3 := congrArg (smat α αv s *ᵥ ·) h2
    simp only [Matrix.mulVec_mulVec] at h3
    rw [← mul_assoc, smat_sq H.cartan, one_mul, Matrix.mulVec_neg, smat_root H.cartan, neg_neg] at h3
    exact h3

theorem Input.real {w : G} (hw : IsTI θ w) (s : Fin n) : invMat A δ w *ᵥ α s = -α s ↔
    cs.simple s * w = w * θ (cs.simple s) ∧ cs.length (cs.simple s * w) < cs.length w := by
  have := H.finite
  have e : α s = lin α (Coxeter.root s) := by rw [← unit_eq, lin_unit]
  constructor
  · intro h
    have hc := H.commute (.inr h)
    refine ⟨hc, ?_⟩
    by_contra hl
    have := cs.length_simple_mul w s
    have h2 := (H.imaginary hw s).2 ⟨hc, by omega⟩
    rw [h, e, ← Datum.lin_neg] at h2
    have := congrFun (lin_inj cs H.cartan h2) s
    simp [Coxeter.root] at this
  · rintro ⟨h1, h2⟩
    rw [e, H.inv_lin, trueInv_real H.twist H.cartan H.cartf hw h1 h2, Datum.lin_neg]

/-- the image of a simple root is positive or negative according to the length -/
theorem Input.descent {w : G} (hw : IsTI θ w) (s : Fin n) : (cs.length (cs.simple s * w) < cs.length w → ∀ i, trueInv cs H.cartan f w (Coxeter.root s) i ≤ 0) ∧
    (cs.length w < cs.length (cs.simple s * w) → ∀ i, 0 ≤ trueInv cs H.cartan f w (Coxeter.root s) i) := by
  have := H.finite
  rw [trueInv_apply, permRoot_root H.twist]
  have hd := hw.descent H.twist s
  rw [H.twist.simple] at hd
  constructor
  · intro h
    exact geom_neg cs H.cartan (show cs.length _ < cs.length _ by rwa [hd])
  · intro h
    refine geom_pos cs H.cartan fun hn => ?_
    have hn : cs.length _ < cs.length _ := hn
    omega

/-- the involution permutes the roots -/
theorem Input.inv_root (w : G) : ∀ k < 2 * N, ∃ m < 2 * N, invMat A δ w *ᵥ lin α (R k) = lin α (R m) := by
  intro k hk
  obtain ⟨t, ht⟩ := H.datum.base.numbering.isRoot cs H.cartan hk
  obtain ⟨u, s, h1, h2, h3⟩ := ht
  rw [H.inv_lin, trueInv_apply, h1, permRoot_geom H.twist H.cartan H.cartf, permRoot_root H.twist, ← geom_mul]
  obtain ⟨m, hm, e⟩ := H.datum.base.numbering.surj _ _ ((spec_isRoot cs H.cartan _ _).2 ⟨_, w * θ u, f s, rfl, rfl, rfl⟩)
  exact ⟨m, hm, by rw [e.1]⟩

theorem Input.inv_root_inj {w : G} (hw : IsTI θ w) : ∀ k < 2 * N, ∀ l < 2 * N, invMat A δ w *ᵥ lin α (R k) = invMat A δ w *ᵥ lin α (R l) → k = l := by
  intro k hk l hl h
  refine all_inj H.datum.base hk hl (.inl ?_)
  have := congrArg (invMat A δ w *ᵥ ·) h
  simpa only [Matrix.mulVec_mulVec, H.inv_sq hw, Matrix.one_mulVec] using this

/-! ### sums of positive roots -/

/-- the sum of the positive roots -/
abbrev rho2 (α : Fin n → Fin r → ℤ) (N : Nat) (R : Nat → Fin n → ℤ) := ∑ k ∈ Finset.range N, lin α (R (N + k))

theorem Input.refl_rho (s : Fin n) : smat α αv s *ᵥ rho2 α N R = rho2 α N R - (2 : ℤ) • α s := by
  rw [(reflMat_mulVec _ _ _).1]
  unfold Datum.refl
  rw [(rho_two H.datum.base s).1]

theorem Input.delta_rho : δ *ᵥ rho2 α N R = rho2 α N R := by
  have := H.finite
  obtain ⟨x, hx⟩ : ∃ x, rho2 α N R = lin α x := by
    refine ⟨∑ k ∈ Finset.range N, R (N + k), ?_⟩
    unfold rho2 Datum.lin
    rw [Finset.sum_comm]
    refine Finset.sum_congr rfl fun s _ => ?_
    rw [Finset.sum_apply, Finset.sum_smul]
  rw [hx, H.delta_lin]
  congr 1
  have : permRoot f x - x = 0 := form_zero cs H.cartan fun s => by
    rw [← pair_lin, Datum.lin_sub, sub_dotProduct, ← H.delta_lin, ← hx, ← unit_eq, lin_unit, (rho_two H.datum.base s).1]
    rw [dotProduct_comm, Matrix.dotProduct_mulVec, H.coroot, dotProduct_comm, (rho_two H.datum.base (f s)).1]; rfl
  exact sub_eq_zero.1 this

theorem Input.act_rho (w : G) : ∃ u, A w *ᵥ rho2 α N R = rho2 α N R - (2 : ℤ) • u := by
  induction w using cs.simple_induction_left with
  | one => exact ⟨0, by simp⟩
  | mul_simple_left w i ih =>
    obtain ⟨u, hu⟩ := ih
    refine ⟨α i + smat α αv i *ᵥ u, ?_⟩
    rw [map_mul, ← Matrix.mulVec_mulVec, hu, H.action, Matrix.mulVec_sub, Matrix.mulVec_smul, H.refl_rho, smul_add]
    abel

theorem Input.inv_rho (w : G) : ∃ u, rho2 α N R + invMat A δ w *ᵥ rho2 α N R = (2 : ℤ) • u := by
  obtain ⟨u, hu⟩ := H.act_rho w
  refine ⟨rho2 α N R - u, ?_⟩
  rw [invMat, ← Matrix.mulVec_mulVec, H.delta_rho, hu, smul_sub, two_smul]
  abel

theorem Input.rho_conj {Θ : Matrix (Fin r) (Fin r) ℤ} {v : Fin r → ℤ} (s : Fin n) (h : (2 : ℤ) • v = rho2 α N R + Θ *ᵥ rho2 α N R) :
    (2 : ℤ) • (smat α αv s *ᵥ v + α s + (smat α αv s * Θ * smat α αv s) *ᵥ α s) =
      rho2 α N R + (smat α αv s * Θ * smat α αv s) *ᵥ rho2 α N R := by
  rw [smul_add, smul_add, ← Matrix.mulVec_smul, h, Matrix.mulVec_add, H.refl_rho]
  simp only [← Matrix.mulVec_mulVec]
  rw [H.refl_rho, smat_root H.cartan]
  simp only [Matrix.mulVec_sub, Matrix.mulVec_neg, Matrix.mulVec_smul, smul_neg]
  abel

end Verif.Inv
