import Verif.Canon.GenSpec
import Verif.Canon.Props
import Verif.Coxeter.Exchange
import Mathlib.LinearAlgebra.Matrix.Trace
/-
Cayley transforms of twisted involutions: the trace of the involution, generation of all classes from the identity, the longest element.
-/
set_option linter.unusedSectionVars false
namespace Verif.Canon
open Verif Verif.Root Verif.Mat Verif.Datum Verif.Weyl Verif.Inv Verif.Coxeter CoxeterSystem
open scoped Matrix

variable {n r : Nat} {Mx : CoxeterMatrix (Fin n)} {G : Type} [Group G]
variable {nd : Bool} {cs : CoxeterSystem Mx G} {α αv : Fin n → Fin r → ℤ} {comps : List Comp} {pc : Bool} {rd : RD} {N : Nat} {R R' : Nat → Fin n → ℤ}
  {T : TWG} {φ : G → List Nat} {f : Fin n → Fin n} {θ : G →* G} {δ : Matrix (Fin r) (Fin r) ℤ} {A : G →* Matrix (Fin r) (Fin r) ℤ}

/-- class `y` is obtained from class `w` by a Cayley transform -/
def Cay (cs : CoxeterSystem Mx G) (θ : G →* G) (α : Fin n → Fin r → ℤ) (A : G →* Matrix (Fin r) (Fin r) ℤ) (δ : Matrix (Fin r) (Fin r) ℤ) (w y : G) : Prop :=
  ∃ x s, InClass θ w x ∧ invMat A δ x *ᵥ α s = α s ∧ InClass θ y (cs.simple s * x)

/-- the trace of the involution -/
def tr (A : G →* Matrix (Fin r) (Fin r) ℤ) (δ : Matrix (Fin r) (Fin r) ℤ) (w : G) : ℤ := (invMat A δ w).trace

theorem cay_left {w w' y : G} (h : InClass θ w w') (hc : Cay cs θ α A δ w y) : Cay cs θ α A δ w' y := by
  obtain ⟨x, s, h1, h2, h3⟩ := hc
  exact ⟨x, s, inClass_trans (inClass_symm h) h1, h2, h3⟩

theorem cay_right {w y y' : G} (h : InClass θ y y') (hc : Cay cs θ α A δ w y) : Cay cs θ α A δ w y' := by
  obtain ⟨x, s, h1, h2, h3⟩ := hc
  exact ⟨x, s, h1, h2, inClass_trans (inClass_symm h) h3⟩

variable (H : Input nd cs α αv comps pc rd N R R' T φ f θ δ A)
include H

theorem inClass_isTI {w x : G} (hw : IsTI θ w) (h : InClass θ w x) : IsTI θ x := by
  obtain ⟨g, rfl⟩ := h
  exact hw.conj H.twist g

theorem tr_class {w x : G} (h : InClass θ w x) : tr A δ x = tr A δ w := by
  obtain ⟨g, rfl⟩ := h
  have e : invMat A δ (g * w * (θ g)⁻¹) = A g * invMat A δ w * A g⁻¹ := by
    unfold invMat
    rw [map_mul, map_mul, mul_assoc, ← map_inv, ← H.delta_act]
    simp only [mul_assoc]
  unfold tr
  rw [e, Matrix.trace_mul_comm, ← mul_assoc, ← map_mul, inv_mul_cancel, map_one, one_mul]

theorem tr_simple {w : G} {s : Fin n} (h : invMat A δ w *ᵥ α s = α s) : tr A δ (cs.simple s * w) = tr A δ w - 2 := by
  unfold tr
  rw [H.inv_mul]
  have e : smat α αv s = 1 - Matrix.vecMulVec (α s) (αv s) := by
    ext i j
    simp [smat, reflMat, Matrix.vecMulVec, Matrix.one_apply]
  rw [e, sub_mul, one_mul, Matrix.trace_sub, Matrix.vecMulVec_mul, Matrix.trace_vecMulVec, dotProduct_comm, ← Matrix.dotProduct_mulVec, h]
  have : α s ⬝ᵥ αv s = 2 := H.cartan.diag s
  rw [dotProduct_comm, this]

theorem tr_cay {w y : G} (h : Cay cs θ α A δ w y) : tr A δ y = tr A δ w - 2 := by
  obtain ⟨x, s, h1, h2, h3⟩ := h
  rw [← tr_class H h3, tr_simple H h2, tr_class H h1]

theorem cay_isTI {w y : G} (hw : IsTI θ w) (h : Cay cs θ α A δ w y) : IsTI θ y := by
  obtain ⟨x, s, h1, h2, h3⟩ := h
  have hx := inClass_isTI H hw h1
  exact inClass_isTI H (IsTI.commute H.twist hx (H.commute (.inl h2))) (inClass_symm h3)

/-- all twisted involutions are obtained from the identity -/
theorem generated {S : G → Prop} (h1 : S 1) (hc : ∀ w x, InClass θ w x → S w → S x) (hk : ∀ w y, IsTI θ w → Cay cs θ α A δ w y → S w → S y) :
    ∀ (k : ℕ) (w : G), cs.length w = k → IsTI θ w → S w := by
  have := H.finite
  intro k
  induction k using Nat.strong_induction_on with
  | _ k ih =>
    intro w hk' hw
    by_cases hw1 : w = 1
    · rw [hw1]; exact h1
    · obtain ⟨s, hs⟩ := cs.exists_leftDescent_of_ne_one hw1
      have hs : cs.length (cs.simple s * w) < cs.length w := hs
      by_cases hcm : cs.simple s * w = w * θ (cs.simple s)
      · have hti := IsTI.commute H.twist hw hcm
        have hS := ih _ (by omega) (cs.simple s * w) rfl hti
        refine hk _ _ hti ⟨_, s, inClass_refl _, (H.imaginary hti s).2 ⟨?_, by rwa [cs.simple_mul_simple_cancel_left]⟩, by rw [cs.simple_mul_simple_cancel_left]; exact inClass_refl _⟩ hS
        rw [cs.simple_mul_simple_cancel_left, hcm, mul_assoc, H.twist.simple, cs.simple_mul_simple_self, mul_one]
      · have hst := IsTI.step H.twist hw hs hcm
        have hS := ih _ (by omega) _ rfl (IsTI.conjSimple H.twist hw s)
        exact hc _ _ (inClass_symm (inClass_sc H.twist (inClass_refl w) s)) hS

/-- conjugation by steps -/
theorem steps_class {w x : G} (h : InClass θ w x) : Relation.ReflTransGen (Step cs θ α A δ) w x := by
  obtain ⟨g, rfl⟩ := h
  obtain ⟨l, rfl⟩ := cs.wordProd_surjective g
  induction l with
  | nil => simp only [cs.wordProd_nil, map_one, one_mul, inv_one, mul_one]; exact .refl
  | cons s l ih =>
    refine ih.tail ⟨s, .inl ?_⟩
    have e : (θ (cs.simple s))⁻¹ = θ (cs.simple s) := by rw [← map_inv, cs.inv_simple]
    rw [cs.wordProd_cons, map_mul, mul_inv_rev, e]
    simp only [mul_assoc]

theorem steps_cay {w y : G} (h : Cay cs θ α A δ w y) : Relation.ReflTransGen (Step cs θ α A δ) w y := by
  obtain ⟨x, s, h1, h2, h3⟩ := h
  exact ((steps_class H h1).tail ⟨s, .inr ⟨h2, rfl⟩⟩).trans (steps_class H (inClass_symm h3))

theorem step_cases {w x : G} (h : Step cs θ α A δ w x) : InClass θ w x ∨ Cay cs θ α A δ w x := by
  obtain ⟨s, rfl | ⟨h1, rfl⟩⟩ := h
  · exact .inl (inClass_sc H.twist (inClass_refl w) s)
  · exact .inr ⟨w, s, inClass_refl _, h1, inClass_refl _⟩

/-- the longest element is above all others -/
theorem steps_top {w0 : G} (h0 : ∀ g, cs.length g ≤ cs.length w0) (k : ℕ) : ∀ w, IsTI θ w → cs.length w0 - cs.length w = k → Relation.ReflTransGen (Step cs θ α A δ) w w0 := by
  have := H.finite
  induction k using Nat.strong_induction_on with
  | _ k ih =>
    intro w hw hk
    by_cases hw0 : w = w0
    · rw [hw0]
    · have hne : w * w0 ≠ 1 := fun e => hw0 (by rw [← longest_inv cs h0]; exact eq_inv_of_mul_eq_one_left e)
      obtain ⟨s, hs⟩ := cs.exists_leftDescent_of_ne_one hne
      have hs : cs.length (cs.simple s * (w * w0)) < cs.length (w * w0) := hs
      have e1 := length_mul_longest cs h0 w
      have e2 := length_mul_longest cs h0 (cs.simple s * w)
      rw [mul_assoc] at e2
      have hl := cs.length_simple_mul w s
      have hlt : cs.length w < cs.length (cs.simple s * w) := by omega
      have hmax := h0 (cs.simple s * w)
      by_cases hcm : cs.simple s * w = w * θ (cs.simple s)
      · exact (ih _ (by omega) _ (IsTI.commute H.twist hw hcm) rfl).head ⟨s, .inr ⟨(H.imaginary hw s).2 ⟨hcm, hlt⟩, rfl⟩⟩
      · have hx := IsTI.conjSimple H.twist hw s
        have hnc := (commutation_iff H.twist hw s).not.2 hcm
        have hd := hw.descent H.twist s
        have hup : cs.length w < cs.length (cs.simple s * w * θ (cs.simple s)) := by
          rw [mul_assoc]
          by_contra hle
          refine hnc ⟨fun _ => ?_, fun _ => ?_⟩ <;> omega
        have hmax' := h0 (cs.simple s * w * θ (cs.simple s))
        exact (ih _ (by omega) _ hx rfl).head ⟨s, .inl rfl⟩

theorem longest_isTI {w0 : G} (h0 : ∀ g, cs.length g ≤ cs.length w0) : IsTI θ w0 := by
  have := H.finite
  unfold IsTI
  rw [longest_inv cs h0]
  exact longest_unique cs h0 (H.twist.length w0)

/-- Cayley transforms by positive imaginary roots -/
theorem cay_iff (w y : G) : Cay cs θ α A δ w y ↔ ∃ a < 2 * N, N ≤ a ∧ invMat A δ w *ᵥ lin α (R a) = lin α (R a) ∧
    ∃ t, IsRoot cs H.cartan (R a) (R' a) t ∧ InClass θ y (t * w) := by
  have := H.finite
  have hN := H.datum.base.numbering
  have key : ∀ x : Fin n → ℤ, invMat A δ w *ᵥ lin α x = lin α x ↔ trueInv cs H.cartan f w x = x := fun x => by
    have := eig_iff H w 1 x
    rwa [one_smul, one_smul] at this
  constructor
  · rintro ⟨x, s, ⟨g, hx⟩, h2, h3⟩
    have h2' := (eig_simple H x 1 s).1 (by rw [one_smul]; exact h2)
    rw [one_smul] at h2'
    have hroot : IsRoot cs H.cartan (geom cs H.cartan g⁻¹ (Coxeter.root s)) _ _ := (isRoot_simple s).act g⁻¹
    have hw : w = g⁻¹ * x * (θ g⁻¹)⁻¹ := by rw [hx, map_inv]; group
    have hfix : trueInv cs H.cartan f w (geom cs H.cartan g⁻¹ (Coxeter.root s)) = geom cs H.cartan g⁻¹ (Coxeter.root s) := by
      rw [hw, trueInv_conj H.cartan H.twist H.cartf, h2']
    have hcl : InClass θ y ((g⁻¹ * cs.simple s * g⁻¹⁻¹) * w) := by
      refine inClass_trans h3 ⟨g⁻¹, ?_⟩
      rw [hx, map_inv]; group
    have hend : ∀ x x', IsRoot cs H.cartan x x' (g⁻¹ * cs.simple s * g⁻¹⁻¹) → (∀ i, 0 ≤ x i) → trueInv cs H.cartan f w x = x →
        ∃ a < 2 * N, N ≤ a ∧ invMat A δ w *ᵥ lin α (R a) = lin α (R a) ∧ ∃ t, IsRoot cs H.cartan (R a) (R' a) t ∧ InClass θ y (t * w) := by
      intro x x' hr hp hf
      obtain ⟨a, ha, e1, e2⟩ := hN.surj _ _ ((spec_isRoot cs H.cartan _ _).2 ⟨_, hr⟩)
      refine ⟨a, ha, (root_pos H ha).2 (by rw [e1]; exact hp), (key _).2 (by rw [e1]; exact hf), _, by rw [e1, e2]; exact hr, hcl⟩
    rcases hroot.sign with hp | hp
    · exact hend _ _ hroot hp.1 hfix
    · exact hend _ _ hroot.neg (fun i => by have := hp.1 i; simp only [Pi.neg_apply]; omega) (by rw [map_neg, hfix])
  · rintro ⟨a, ha, hpos, hfix, t, ⟨g, s, e1, e2, e3⟩, hcl⟩
    have hf := (key _).1 hfix
    refine ⟨g⁻¹ * w * (θ g⁻¹)⁻¹, s, ⟨g⁻¹, rfl⟩, ?_, ?_⟩
    · have := (eig_simple H (g⁻¹ * w * (θ g⁻¹)⁻¹) 1 s).2 (by
        rw [one_smul]
        have e4 := trueInv_conj H.cartan H.twist H.cartf g⁻¹ w (R a)
        rw [hf] at e4
        have e5 : geom cs H.cartan g⁻¹ (R a) = Coxeter.root s := by rw [e1, ← geom_mul, inv_mul_cancel, map_one]; rfl
        rwa [e5] at e4)
      rwa [one_smul] at this
    · refine inClass_trans hcl ⟨g⁻¹, ?_⟩
      rw [e3, map_inv]; group

end Verif.Canon
