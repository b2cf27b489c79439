import Verif.Coxeter.Roots
import Verif.Coxeter.Exchange
import Mathlib.Data.ZMod.Basic
import Mathlib.Algebra.Group.MinimalAxioms
import Mathlib.Algebra.Module.BigOperators
import Mathlib.Tactic.LinearCombination
/-
The Tits group of a finite Coxeter group with a Cartan matrix, constructed from the inversions of elements.
This is mathematics used in proofs, not a model.
-/
namespace Verif.Tits
set_option linter.unusedSectionVars false
open CoxeterSystem Verif.Coxeter

variable {B : Type} [Fintype B] [DecidableEq B]

/-- a vector space over `Z/2` with vectors (coroots) and linear functions (roots) whose values are the entries of a Cartan matrix -/
structure Datum (C : B → B → ℤ) (V : Type) [AddCommGroup V] [Module (ZMod 2) V] where
  m : B → V
  ev : B → V →ₗ[ZMod 2] ZMod 2
  pair : ∀ s t, ev s (m t) = (C s t : ZMod 2)

variable {C : B → B → ℤ} {V : Type} [AddCommGroup V] [Module (ZMod 2) V] (D : Datum C V)

theorem vadd (x : V) : x + x = 0 := by
  have : (2 : ZMod 2) • x = 0 := by rw [show (2 : ZMod 2) = 0 from rfl, zero_smul]
  rwa [two_smul] at this

/-- simple reflection -/
def Datum.refl (s : B) : Module.End (ZMod 2) V where
  toFun x := x + D.ev s x • D.m s
  map_add' x y := by rw [map_add, add_smul]; abel
  map_smul' a x := by rw [map_smul, RingHom.id_apply, smul_add, smul_assoc]

theorem Datum.refl_apply (s : B) (x : V) : D.refl s x = x + D.ev s x • D.m s := rfl

section
variable {M : CoxeterMatrix B} (h : IsCartan C M)
include h

theorem Datum.ev_self (s : B) : D.ev s (D.m s) = 0 := by rw [D.pair, h.diag]; rfl

theorem Datum.refl_m (s : B) : D.refl s (D.m s) = D.m s := by
  rw [D.refl_apply, D.ev_self h, zero_smul, add_zero]

theorem Datum.refl_refl (s : B) (x : V) : D.refl s (D.refl s x) = x := by
  rw [D.refl_apply s x, map_add, map_smul, D.refl_m h, D.refl_apply, add_assoc, vadd, add_zero]

theorem Datum.step (s t : B) (v : V) (p q : ZMod 2) :
    (D.refl s * D.refl t) (v + (p • D.m s + q • D.m t)) =
      v + ((p + D.ev s v + (q + D.ev t v + p * C t s) * C s t) • D.m s + (q + D.ev t v + p * C t s) • D.m t) := by
  rw [Module.End.mul_apply, D.refl_apply t]
  have e1 : v + (p • D.m s + q • D.m t) + D.ev t (v + (p • D.m s + q • D.m t)) • D.m t =
      v + (p • D.m s + (q + D.ev t v + p * C t s) • D.m t) := by
    simp only [map_add, map_smul, D.pair t s, D.ev_self h, smul_eq_mul, mul_zero, add_zero]
    simp only [add_smul]
    abel
  rw [e1, D.refl_apply]
  simp only [map_add, map_smul, D.pair s t, D.ev_self h, smul_eq_mul, mul_zero, zero_add]
  simp only [add_smul]
  abel

omit h in
/-- effect of the product of two reflections on coordinates -/
def stepF (P Q a b : ZMod 2) (x : ZMod 2 × ZMod 2) : ZMod 2 × ZMod 2 :=
  (x.1 + P + (x.2 + Q + x.1 * b) * a, x.2 + Q + x.1 * b)

theorem Datum.step_pow (s t : B) (v : V) (k : ℕ) (x : ZMod 2 × ZMod 2) :
    ((D.refl s * D.refl t) ^ k) (v + (x.1 • D.m s + x.2 • D.m t)) =
      v + (((stepF (D.ev s v) (D.ev t v) (C s t) (C t s))^[k] x).1 • D.m s +
        ((stepF (D.ev s v) (D.ev t v) (C s t) (C t s))^[k] x).2 • D.m t) := by
  induction k generalizing x with
  | zero => rfl
  | succ k ih =>
    rw [pow_succ, Module.End.mul_apply, D.step h, Function.iterate_succ_apply]
    exact ih (stepF (D.ev s v) (D.ev t v) (C s t) (C t s) x)

theorem Datum.liftable : M.IsLiftable D.refl := by
  intro s t
  by_cases hst : s = t
  · subst hst
    rw [M.diagonal, pow_one]
    exact LinearMap.ext fun v => D.refl_refl h s v
  · refine LinearMap.ext fun v => ?_
    have key := D.step_pow h s t v (M s t) (0, 0)
    have e0 : v + ((0 : ZMod 2) • D.m s + (0 : ZMod 2) • D.m t) = v := by simp
    have e1 : (stepF (D.ev s v) (D.ev t v) (C s t) (C t s))^[M s t] (0, 0) = (0, 0) := by
      generalize D.ev s v = P
      generalize D.ev t v = Q
      rcases h.cases hst with ⟨a, b, m⟩ | ⟨a, b, m⟩ | ⟨a, b, m⟩ | ⟨a, b, m⟩ | ⟨a, b, m⟩ | ⟨a, b, m⟩ <;>
      · rw [a, b, m]
        revert P Q
        decide
    rw [e1] at key
    simp only at key
    rw [e0] at key
    exact key

end

variable {M : CoxeterMatrix B} {W : Type} [Group W] (cs : CoxeterSystem M W) (h : IsCartan C M)

/-- action of the group on the vector space -/
noncomputable def Datum.rho : W →* Module.End (ZMod 2) V := cs.lift ⟨D.refl, D.liftable h⟩

theorem Datum.rho_simple (s : B) : D.rho cs h (cs.simple s) = D.refl s := cs.lift_apply_simple (D.liftable h) s

theorem Datum.rho_mul (u v : W) (x : V) : D.rho cs h (u * v) x = D.rho cs h u (D.rho cs h v x) := by rw [map_mul]; rfl

theorem Datum.rho_one (x : V) : D.rho cs h 1 x = x := by rw [map_one]; rfl

theorem Datum.rho_inv (u : W) (x : V) : D.rho cs h u⁻¹ (D.rho cs h u x) = x := by
  rw [← D.rho_mul, inv_mul_cancel, D.rho_one]

/-- image of an element of the coroot lattice -/
def Datum.kappa (x : B → ℤ) : V := ∑ s, (x s : ZMod 2) • D.m s

theorem Datum.kappa_sub (x y : B → ℤ) : D.kappa (x - y) = D.kappa x - D.kappa y := by
  simp [Datum.kappa, sub_smul, Finset.sum_sub_distrib]

theorem Datum.kappa_neg (x : B → ℤ) : D.kappa (-x) = D.kappa x := by
  unfold Datum.kappa
  refine Finset.sum_congr rfl fun s _ => ?_
  congr 1
  rw [Pi.neg_apply, Int.cast_neg]
  generalize ((x s : ℤ) : ZMod 2) = a
  revert a; decide

theorem Datum.kappa_smul_root (k : ℤ) (s : B) : D.kappa (k • root s) = (k : ZMod 2) • D.m s := by
  unfold Datum.kappa
  rw [Finset.sum_eq_single s]
  · simp [root_apply]
  · intro t _ ht; simp [root_apply, ht]
  · simp

theorem Datum.kappa_root (s : B) : D.kappa (root s) = D.m s := by
  have := D.kappa_smul_root 1 s
  rwa [one_smul, Int.cast_one, one_smul] at this

theorem Datum.ev_kappa (s : B) (x : B → ℤ) : D.ev s (D.kappa x) = ((pairing (fun s t => C t s) s x : ℤ) : ZMod 2) := by
  simp [Datum.kappa, pairing, D.pair]

theorem Datum.kappa_geom (w : W) (x : B → ℤ) : D.kappa (geom cs h.dual w x) = D.rho cs h w (D.kappa x) := by
  induction w using cs.simple_induction_left generalizing x with
  | one => rw [map_one, D.rho_one]; rfl
  | mul_simple_left w s ih =>
    rw [geom_mul, D.rho_mul, geom_simple, D.rho_simple, srefl_apply, D.kappa_sub, D.kappa_smul_root, D.refl_apply, ih, ← ih, D.ev_kappa]
    rw [sub_eq_iff_eq_add, add_assoc, vadd, add_zero]

/-- A reflection determines its root up to the sign. -/
theorem isRoot_pm {β1 β1' β2 β2' : B → ℤ} {t : W} (h1 : IsRoot cs h β1 β1' t) (h2 : IsRoot cs h β2 β2' t) : β2' = β1' ∨ β2' = -β1' := by
  have key : β2 = β1 ∨ β2 = -β1 := by
    have e1 := h1.refl β2
    have e2 := h2.refl β2
    have e3 := h2.refl β1
    have e4 := h1.refl β1
    rw [h2.form_self, e1] at e2
    rw [h1.form_self, e3] at e4
    have f1 : ∀ i, 2 * β2 i = form C β2 β1' * β1 i := by
      intro i
      have := congrFun e2 i
      simp only [Pi.sub_apply, Pi.smul_apply, smul_eq_mul] at this
      omega
    have f2 : ∀ i, 2 * β1 i = form C β1 β2' * β2 i := by
      intro i
      have := congrFun e4 i
      simp only [Pi.sub_apply, Pi.smul_apply, smul_eq_mul] at this
      omega
    obtain ⟨i, hi⟩ : ∃ i, β1 i ≠ 0 := by
      by_contra hc
      push Not at hc
      exact h1.ne_zero (funext hc)
    have hpq : form C β2 β1' * form C β1 β2' = 4 := by
      have a := f1 i
      have b := f2 i
      have : (form C β2 β1' * form C β1 β2' - 4) * β1 i = 0 := by
        linear_combination (-form C β1 β2') * a - 2 * b
      rcases mul_eq_zero.1 this with h | h
      · omega
      · exact absurd h hi
    generalize form C β2 β1' = p at *
    generalize form C β1 β2' = q at *
    have hp : p ∣ 4 := ⟨q, hpq.symm⟩
    have hp' : p.natAbs ≤ 4 := Nat.le_of_dvd (by norm_num) (Int.natAbs_dvd_natAbs.2 hp)
    have : -4 ≤ p ∧ p ≤ 4 := by omega
    obtain ⟨l, r⟩ := this
    have two : ∀ {β β' : B → ℤ} {t : W} (_ : IsRoot cs h β β' t) {γ : B → ℤ} {k : ℤ}, (k = 2 ∨ k = -2) → ¬ ∀ i, β i = k * γ i := by
      intro β β' t hr γ k hk hc
      have := hr.primitive (k := k) (x := γ) (funext hc)
      omega
    have hcase : p = 2 ∨ p = -2 ∨ p = 1 ∨ p = -1 ∨ p = 4 ∨ p = -4 := by
      interval_cases p <;> omega
    rcases hcase with rfl | rfl | rfl | rfl | rfl | rfl
    · left; funext i; have := f1 i; omega
    · right; funext i; have := f1 i; rw [Pi.neg_apply]; omega
    · exact absurd (fun i => by have := f1 i; omega) (two h1 (γ := β2) (k := 2) (Or.inl rfl))
    · exact absurd (fun i => by have := f1 i; omega) (two h1 (γ := β2) (k := -2) (Or.inr rfl))
    · exact absurd (fun i => by have := f1 i; omega) (two h2 (γ := β1) (k := 2) (Or.inl rfl))
    · exact absurd (fun i => by have := f1 i; omega) (two h2 (γ := β1) (k := -2) (Or.inr rfl))
  rcases key with rfl | rfl
  · exact Or.inl (h2.unique h1).1
  · exact Or.inr (h2.unique h1.neg).1

open Classical in
/-- the vector `m` for a reflection: the image of its coroot -/
noncomputable def Datum.mr (t : W) : V :=
  if ht : ∃ β β', IsRoot cs h β β' t then D.kappa ht.choose_spec.choose else 0

theorem Datum.mr_root {β β' : B → ℤ} {t : W} (hr : IsRoot cs h β β' t) : D.mr cs h t = D.kappa β' := by
  have ht : ∃ β β', IsRoot cs h β β' t := ⟨_, _, hr⟩
  rw [Datum.mr, dif_pos ht]
  rcases isRoot_pm cs h hr ht.choose_spec.choose_spec with e | e
  · rw [e]
  · rw [e, D.kappa_neg]

theorem Datum.mr_simple (s : B) : D.mr cs h (cs.simple s) = D.m s := by rw [D.mr_root cs h (isRoot_simple s), D.kappa_root]

theorem Datum.mr_conj (u t : W) : D.mr cs h (u * t * u⁻¹) = D.rho cs h u (D.mr cs h t) := by
  by_cases ht : ∃ β β', IsRoot cs h β β' t
  · obtain ⟨β, β', hr⟩ := ht
    rw [D.mr_root cs h hr, D.mr_root cs h (hr.act u), D.kappa_geom]
  · have ht' : ¬ ∃ β β', IsRoot cs h β β' (u * t * u⁻¹) := by
      rintro ⟨β, β', hr⟩
      have := hr.act u⁻¹
      rw [show u⁻¹ * (u * t * u⁻¹) * u⁻¹⁻¹ = t by group] at this
      exact ht ⟨_, _, this⟩
    rw [Datum.mr, dif_neg ht', Datum.mr, dif_neg ht, map_zero]

/-- the left inversions of an element -/
noncomputable def linv (u t : W) : ZMod 2 := par cs u⁻¹ t

theorem linv_mul (u v t : W) : linv cs (u * v) t = linv cs u t + linv cs v (u⁻¹ * t * u) := by
  rw [linv, mul_inv_rev, par_mul, inv_inv]; rfl

theorem linv_one (t : W) : linv cs 1 t = 0 := by rw [linv, inv_one, par_one]

theorem linv_simple (s : B) (t : W) : linv cs (cs.simple s) t = ind (t = cs.simple s) := by rw [linv, cs.inv_simple, par_simple]

variable [Fintype W]

/-- the factor that appears in the product of the canonical lifts of two elements: the product of the `m` for the positive
roots that are left inversions of the first element but not of the product -/
noncomputable def Datum.cocycle (u v : W) : V := ∑ t, (linv cs u t * (1 + linv cs (u * v) t)) • D.mr cs h t

theorem Datum.rho_cocycle (u v w : W) : D.rho cs h u (D.cocycle cs h v w) =
    ∑ t, ((linv cs u t + linv cs (u * v) t) * (1 + linv cs u t + linv cs (u * v * w) t)) • D.mr cs h t := by
  rw [Datum.cocycle, map_sum, ← Equiv.sum_comp (MulAut.conj u).toEquiv
    (fun t => ((linv cs u t + linv cs (u * v) t) * (1 + linv cs u t + linv cs (u * v * w) t)) • D.mr cs h t)]
  refine Finset.sum_congr rfl fun t _ => ?_
  have e : (MulAut.conj u).toEquiv t = u * t * u⁻¹ := rfl
  rw [e, D.mr_conj, map_smul]
  congr 1
  rw [mul_assoc u v w, linv_mul cs u v, linv_mul cs u (v * w), show u⁻¹ * (u * t * u⁻¹) * u = t by group]
  generalize linv cs u _ = a
  generalize linv cs v _ = b
  generalize linv cs (v * w) _ = c
  revert a b c; decide

theorem Datum.cocycle_assoc (u v w : W) :
    D.cocycle cs h u v + D.cocycle cs h (u * v) w = D.rho cs h u (D.cocycle cs h v w) + D.cocycle cs h u (v * w) := by
  rw [D.rho_cocycle, Datum.cocycle, Datum.cocycle, Datum.cocycle, ← Finset.sum_add_distrib, ← Finset.sum_add_distrib]
  refine Finset.sum_congr rfl fun t _ => ?_
  rw [← add_smul, ← add_smul]
  congr 1
  rw [← mul_assoc u v w]
  generalize linv cs u _ = a
  generalize linv cs (u * v) _ = b
  generalize linv cs (u * v * w) _ = c
  revert a b c; decide

theorem Datum.cocycle_one_left (v : W) : D.cocycle cs h 1 v = 0 := by
  simp [Datum.cocycle, linv_one]

theorem Datum.cocycle_one_right (v : W) : D.cocycle cs h v 1 = 0 := by
  rw [Datum.cocycle]
  refine Finset.sum_eq_zero fun t _ => ?_
  rw [mul_one]
  generalize linv cs v t = a
  have : a * (1 + a) = 0 := by revert a; decide
  rw [this, zero_smul]

/-- `s*w` shorter than `w` -/
theorem linv_eq (w : W) (s : B) : linv cs w (cs.simple s) = ind (cs.length (cs.simple s * w) < cs.length w) := by
  have h1 := par_eq_one_iff cs (cs.isReflection_simple s) w⁻¹
  have h2 : cs.length (w⁻¹ * cs.simple s) = cs.length (cs.simple s * w) := by
    rw [← cs.length_inv, mul_inv_rev, inv_inv, cs.inv_simple]
  rw [h2, cs.length_inv] at h1
  unfold linv ind
  split
  · exact h1.2 ‹_›
  · have : par cs w⁻¹ (cs.simple s) ≠ 1 := fun e => ‹¬ _› (h1.1 e)
    revert this
    generalize par cs w⁻¹ _ = a
    revert a; decide

theorem Datum.cocycle_simple_left (s : B) (w : W) :
    D.cocycle cs h (cs.simple s) w = ind (cs.length (cs.simple s * w) < cs.length w) • D.m s := by
  rw [Datum.cocycle, Finset.sum_eq_single (cs.simple s)]
  · rw [D.mr_simple, linv_mul, linv_simple, ind, if_pos rfl, cs.inv_simple, ← linv_eq, cs.simple_mul_simple_self, one_mul]
    congr 1
    rw [one_mul]
    generalize linv cs w _ = a
    revert a; decide
  · intro t _ ht
    rw [linv_simple, ind, if_neg ht, zero_mul, zero_smul]
  · simp

theorem Datum.cocycle_simple_right (w : W) (s : B) :
    D.cocycle cs h w (cs.simple s) = ind (cs.length (w * cs.simple s) < cs.length w) • D.rho cs h w (D.m s) := by
  rw [Datum.cocycle, Finset.sum_eq_single (w * cs.simple s * w⁻¹)]
  · rw [D.mr_conj, D.mr_simple, linv_mul, linv_simple, show w⁻¹ * (w * cs.simple s * w⁻¹) * w = cs.simple s by group]
    congr 1
    have e : linv cs w (w * cs.simple s * w⁻¹) = par cs w (cs.simple s) := by
      rw [linv, par_inv]; congr 1; group
    have h1 := par_eq_one_iff cs (cs.isReflection_simple s) w
    rw [e]
    unfold ind
    rw [if_pos rfl]
    split
    · rw [h1.2 ‹_›]; decide
    · have : par cs w (cs.simple s) ≠ 1 := fun e => ‹¬ _› (h1.1 e)
      revert this
      generalize par cs w _ = a
      revert a; decide
  · intro t _ ht
    rw [linv_mul, linv_simple, ind, if_neg]
    · generalize linv cs w t = a
      have : a * (1 + (a + 0)) = 0 := by revert a; decide
      rw [this, zero_smul]
    · intro e
      apply ht
      rw [← e]; group
  · simp

/-- the Tits group: pairs of a vector and an element of the Weyl group -/
structure Elt (D : Datum C V) (cs : CoxeterSystem M W) (h : IsCartan C M) where
  t : V
  w : W

variable {D cs h}

theorem Elt.ext' {a b : Elt D cs h} (h1 : a.t = b.t) (h2 : a.w = b.w) : a = b := by
  cases a; cases b; cases h1; cases h2; rfl

noncomputable instance : Mul (Elt D cs h) := ⟨fun a b => ⟨a.t + D.rho cs h a.w b.t + D.cocycle cs h a.w b.w, a.w * b.w⟩⟩
instance : One (Elt D cs h) := ⟨⟨0, 1⟩⟩
noncomputable instance : Inv (Elt D cs h) := ⟨fun a => ⟨D.rho cs h a.w⁻¹ a.t + D.cocycle cs h a.w⁻¹ a.w, a.w⁻¹⟩⟩

theorem Elt.mul_def (a b : Elt D cs h) : a * b = ⟨a.t + D.rho cs h a.w b.t + D.cocycle cs h a.w b.w, a.w * b.w⟩ := rfl
theorem Elt.one_def : (1 : Elt D cs h) = ⟨0, 1⟩ := rfl
theorem Elt.inv_def (a : Elt D cs h) : a⁻¹ = ⟨D.rho cs h a.w⁻¹ a.t + D.cocycle cs h a.w⁻¹ a.w, a.w⁻¹⟩ := rfl

noncomputable instance : Group (Elt D cs h) :=
  Group.ofLeftAxioms
    (by
      intro a b c
      rw [Elt.mul_def, Elt.mul_def a, Elt.mul_def, Elt.mul_def b]
      refine Elt.ext' ?_ (mul_assoc _ _ _)
      simp only [map_add, ← D.rho_mul]
      have := D.cocycle_assoc cs h a.w b.w c.w
      have e1 : ∀ x y z k l : V, x + y + k + z + l = x + y + z + (k + l) := by intros; abel
      have e2 : ∀ x y z k l : V, x + (y + z + k) + l = x + y + z + (k + l) := by intros; abel
      rw [e1, e2, this])
    (by
      intro a
      rw [Elt.mul_def, Elt.one_def]
      exact Elt.ext' (by simp [D.cocycle_one_left]) (one_mul _))
    (by
      intro a
      rw [Elt.mul_def, Elt.inv_def, Elt.one_def]
      refine Elt.ext' ?_ (inv_mul_cancel _)
      show D.rho cs h a.w⁻¹ a.t + D.cocycle cs h a.w⁻¹ a.w + D.rho cs h a.w⁻¹ a.t + D.cocycle cs h a.w⁻¹ a.w = 0
      have e : ∀ x y : V, x + y + x + y = (x + x) + (y + y) := by intros; abel
      rw [e, vadd, vadd, add_zero])

end Verif.Tits
