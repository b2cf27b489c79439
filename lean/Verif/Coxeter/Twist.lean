import Verif.Coxeter.Geom
import Verif.Coxeter.Exchange
import Mathlib.LinearAlgebra.Trace
/-
Twisted involutions in a Coxeter group with an involutive diagram automorphism.
-/
namespace Verif.Coxeter
open CoxeterSystem

variable {B : Type} {M : CoxeterMatrix B} {W : Type} [Group W] (cs : CoxeterSystem M W)

/-- `θ` is the automorphism of the group defined by the involution `f` of the set of generators. -/
structure IsTwist (f : B → B) (θ : W →* W) : Prop where
  simple : ∀ s, θ (cs.simple s) = cs.simple (f s)
  invol : ∀ s, f (f s) = s

variable {cs} {f : B → B} {θ : W →* W} (hθ : IsTwist cs f θ)

include hθ

theorem IsTwist.theta_theta (w : W) : θ (θ w) = w := by
  induction w using cs.simple_induction_left with
  | one => simp
  | mul_simple_left w i ih => rw [map_mul, map_mul, ih, hθ.simple, hθ.simple, hθ.invol]

theorem IsTwist.wordProd (l : List B) : θ (cs.wordProd l) = cs.wordProd (l.map f) := by
  induction l with
  | nil => simp
  | cons s l ih => rw [cs.wordProd_cons, map_mul, ih, hθ.simple, List.map_cons, cs.wordProd_cons]

theorem IsTwist.length (w : W) : cs.length (θ w) = cs.length w := by
  have key : ∀ w, cs.length (θ w) ≤ cs.length w := by
    intro w
    obtain ⟨l, h1, rfl⟩ := cs.exists_isReduced w
    rw [hθ.wordProd, h1.eq]
    exact (cs.length_wordProd_le _).trans (by simp)
  have h1 := key w
  have h2 := key (θ w)
  rw [hθ.theta_theta] at h2
  omega

omit hθ in
/-- exchange: if `t` becomes a descent by multiplication by `s` on the other side, this was conjugation -/
theorem exchange {w : W} {s t : B} (h1 : cs.length (cs.simple s * w * cs.simple t) < cs.length (cs.simple s * w))
    (h2 : cs.length w < cs.length (w * cs.simple t)) : cs.simple s * w = w * cs.simple t := by
  have e1 := (par_eq_one_iff cs (cs.isReflection_simple t) (cs.simple s * w)).mpr h1
  have e2 : par cs w (cs.simple t) ≠ 1 := fun e => by
    have := (par_eq_one_iff cs (cs.isReflection_simple t) w).mp e
    omega
  rw [par_mul, par_simple] at e1
  by_cases hc : w * cs.simple t * w⁻¹ = cs.simple s
  · rw [← hc]; simp
  · rw [show ind (w * cs.simple t * w⁻¹ = cs.simple s) = 0 from by simp [ind, hc], add_zero] at e1
    exact absurd e1 e2

omit hθ in
/-- `w` is a twisted involution -/
def IsTI (θ : W →* W) (w : W) : Prop := θ w = w⁻¹

theorem IsTI.descent {w : W} (hw : IsTI θ w) (s : B) : cs.length (w * θ (cs.simple s)) = cs.length (cs.simple s * w) := by
  rw [← hθ.length, map_mul, hw, hθ.theta_theta, ← cs.length_inv]
  simp

omit hθ in
theorem isTI_one : IsTI θ (1 : W) := by simp [IsTI]

theorem IsTI.conj {w : W} (hw : IsTI θ w) (x : W) : IsTI θ (x * w * (θ x)⁻¹) := by
  unfold IsTI at *
  rw [map_mul, map_mul, hw, map_inv, hθ.theta_theta]
  group

theorem IsTI.conjSimple {w : W} (hw : IsTI θ w) (s : B) : IsTI θ (cs.simple s * w * θ (cs.simple s)) := by
  have := IsTI.conj hθ hw (cs.simple s)
  rwa [← map_inv, cs.inv_simple] at this

theorem IsTI.commute {w : W} (hw : IsTI θ w) {s : B} (hs : cs.simple s * w = w * θ (cs.simple s)) : IsTI θ (cs.simple s * w) := by
  unfold IsTI at *
  rw [map_mul, hw, hs, hθ.simple, mul_inv_rev, cs.inv_simple]

/-- The condition computed by `hasTwistedCommutation`. -/
theorem commutation_iff {w : W} (hw : IsTI θ w) (s : B) :
    ((cs.length w < cs.length (w * θ (cs.simple s))) ↔
      cs.length (cs.simple s * (w * θ (cs.simple s))) < cs.length (w * θ (cs.simple s))) ↔
    cs.simple s * w = w * θ (cs.simple s) := by
  have hd := hw.descent hθ s
  rw [hθ.simple] at hd ⊢
  have n1 := cs.length_mul_simple w (f s)
  have n2 := cs.length_simple_mul w s
  have n3 := cs.length_simple_mul (w * cs.simple (f s)) s
  have n4 := cs.length_mul_simple (cs.simple s * w) (f s)
  rw [mul_assoc] at n4
  constructor
  · intro hiff
    rcases n1 with n1 | n1
    · have := hiff.mp (by omega)
      exact exchange (by rw [mul_assoc]; omega) (by omega)
    · have h3 : ¬ cs.length (cs.simple s * (w * cs.simple (f s))) < cs.length (w * cs.simple (f s)) := fun h => by
        have := hiff.mpr h
        omega
      have := exchange (cs := cs) (w := w * cs.simple (f s)) (s := s) (t := f s) (by
        rw [mul_assoc, mul_assoc, cs.simple_mul_simple_self, mul_one]; omega) (by
        rw [mul_assoc, cs.simple_mul_simple_self, mul_one]; omega)
      rw [mul_assoc w, cs.simple_mul_simple_self, mul_one, ← mul_assoc] at this
      have h4 := congrArg (· * cs.simple (f s)) this
      simpa using h4
  · intro e
    have e' : cs.simple s * (w * cs.simple (f s)) = w := by rw [← e]; simp
    rw [e']

/-- effect of a generator on twisted involutions -/
theorem IsTI.step {w : W} (hw : IsTI θ w) {s : B} (hs : cs.length (cs.simple s * w) < cs.length w)
    (hc : cs.simple s * w ≠ w * θ (cs.simple s)) : cs.length (cs.simple s * w * θ (cs.simple s)) + 2 = cs.length w := by
  have h1 := (commutation_iff hθ hw s).not.mpr hc
  have hd := hw.descent hθ s
  rw [hθ.simple] at hd h1 ⊢
  have n1 := cs.length_mul_simple w (f s)
  have n3 := cs.length_simple_mul (w * cs.simple (f s)) s
  rw [mul_assoc]
  by_contra hne
  apply h1
  constructor <;> omega

omit hθ in
/-- Expressions for twisted involutions: a letter `(s,false)` stands for multiplication by `s` (which must twisted commute), a letter
`(s,true)` for twisted conjugation; letters are applied from right to left, starting with the identity.  The expression is reduced if
lengths always increase. -/
inductive RedExpr (cs : CoxeterSystem M W) (θ : W →* W) : List (B × Bool) → W → Prop
  | nil : RedExpr cs θ [] 1
  | mul {l w s} : RedExpr cs θ l w → cs.simple s * w = w * θ (cs.simple s) → cs.length w < cs.length (cs.simple s * w) →
      RedExpr cs θ ((s, false) :: l) (cs.simple s * w)
  | conj {l w s} : RedExpr cs θ l w → cs.simple s * w ≠ w * θ (cs.simple s) → cs.length w < cs.length (cs.simple s * w) →
      RedExpr cs θ ((s, true) :: l) (cs.simple s * w * θ (cs.simple s))

theorem RedExpr.isTI {l : List (B × Bool)} {w : W} (h : RedExpr cs θ l w) : IsTI θ w := by
  induction h with
  | nil => exact isTI_one
  | mul _ hc _ ih => exact IsTI.commute hθ ih hc
  | conj _ _ _ ih => exact IsTI.conjSimple hθ ih _

/-- descending by one letter -/
theorem RedExpr.of_mul {w : W} {s : B} {l : List (B × Bool)} (hs : cs.length (cs.simple s * w) < cs.length w)
    (hc : cs.simple s * w = w * θ (cs.simple s)) (h : RedExpr cs θ l (cs.simple s * w)) : RedExpr cs θ ((s, false) :: l) w := by
  have := RedExpr.mul (s := s) h (by
    rw [hc, mul_assoc, hθ.simple, cs.simple_mul_simple_self, mul_one, ← hθ.simple, ← hc, cs.simple_mul_simple_cancel_left]) (by
    rw [cs.simple_mul_simple_cancel_left]; exact hs)
  rwa [cs.simple_mul_simple_cancel_left] at this

theorem RedExpr.of_conj {w : W} (hw : IsTI θ w) {s : B} {l : List (B × Bool)} (hs : cs.length (cs.simple s * w) < cs.length w)
    (hc : cs.simple s * w ≠ w * θ (cs.simple s)) (h : RedExpr cs θ l (cs.simple s * w * θ (cs.simple s))) : RedExpr cs θ ((s, true) :: l) w := by
  have e1 : cs.simple s * (cs.simple s * w * θ (cs.simple s)) = w * θ (cs.simple s) := by rw [mul_assoc, cs.simple_mul_simple_cancel_left]
  have e2 : cs.simple s * w * θ (cs.simple s) * θ (cs.simple s) = cs.simple s * w := by rw [hθ.simple]; simp
  have e3 : cs.simple s * (cs.simple s * w * θ (cs.simple s)) * θ (cs.simple s) = w := by rw [e1, hθ.simple]; simp
  have hl := hw.step hθ hs hc
  have hd := hw.descent hθ s
  have n := cs.length_simple_mul w s
  have := RedExpr.conj (s := s) h (by
    rw [e1, e2]; exact Ne.symm hc) (by rw [e1]; omega)
  rwa [e3] at this

/-- every twisted involution has a reduced expression -/
theorem exists_redExpr (w : W) (hw : IsTI θ w) : ∃ l, RedExpr cs θ l w := by
  obtain ⟨n, hn⟩ : ∃ n, cs.length w = n := ⟨_, rfl⟩
  induction n using Nat.strong_induction_on generalizing w with
  | _ n ih =>
  by_cases h1 : w = 1
  · exact ⟨[], h1 ▸ .nil⟩
  obtain ⟨s, hs⟩ := cs.exists_leftDescent_of_ne_one h1
  by_cases hc : cs.simple s * w = w * θ (cs.simple s)
  · obtain ⟨l, hl⟩ := ih _ (by rw [← hn]; exact hs) _ (IsTI.commute hθ hw hc) rfl
    exact ⟨_, hl.of_mul hθ hs hc⟩
  · have := hw.step hθ hs hc
    obtain ⟨l, hl⟩ := ih _ (by omega) _ (IsTI.conjSimple hθ hw s) rfl
    exact ⟨_, hl.of_conj hθ hw hs hc⟩

/-! ### the rank function -/

section
variable [Fintype B] [DecidableEq B] {C : B → B → ℤ} (hC : IsCartan C M) (hf : ∀ s t, C (f s) (f t) = C s t)

omit hθ [Fintype B] [DecidableEq B] in
/-- the permutation of the simple roots -/
def permRoot (f : B → B) : Module.End ℤ (B → ℤ) where
  toFun v := fun i => v (f i)
  map_add' _ _ := rfl
  map_smul' _ _ := rfl

omit [Fintype B] in
theorem permRoot_root (s : B) : permRoot f (root s) = root (f s) := by
  funext i
  show root s (f i) = root (f s) i
  rw [root_apply, root_apply]
  have : f i = s ↔ i = f s := ⟨fun e => by rw [← e, hθ.invol], fun e => by rw [e, hθ.invol]⟩
  simp only [this]

include hf in
theorem permRoot_srefl (s : B) (v : B → ℤ) : permRoot f (srefl C s v) = srefl C (f s) (permRoot f v) := by
  rw [srefl_apply, srefl_apply, map_sub, map_smul, permRoot_root hθ]
  congr 2
  show ∑ i, v i * C i s = ∑ i, v (f i) * C i (f s)
  let e : B ≃ B := ⟨f, f, hθ.invol, hθ.invol⟩
  rw [← Equiv.sum_comp e]
  refine Finset.sum_congr rfl fun i _ => ?_
  show v (f i) * C (f i) s = v (f i) * C i (f s)
  rw [← hf (f i) s, hθ.invol]

include hf in
theorem permRoot_geom (w : W) (v : B → ℤ) : permRoot f (geom cs hC w v) = geom cs hC (θ w) (permRoot f v) := by
  induction w using cs.simple_induction_left generalizing v with
  | one => simp
  | mul_simple_left w i ih =>
    rw [geom_mul, geom_simple, permRoot_srefl hθ hf, ih, map_mul, geom_mul, hθ.simple, geom_simple]

/-- the linear transformation that a twisted involution stands for -/
noncomputable def trueInv (cs : CoxeterSystem M W) (hC : IsCartan C M) (f : B → B) (w : W) : Module.End ℤ (B → ℤ) :=
  geom cs hC w * permRoot f

omit hθ in
theorem trueInv_apply (w : W) (v : B → ℤ) : trueInv cs hC f w v = geom cs hC w (permRoot f v) := rfl

include hf in
theorem trueInv_sq {w : W} (hw : IsTI θ w) (v : B → ℤ) : trueInv cs hC f w (trueInv cs hC f w v) = v := by
  rw [trueInv_apply, trueInv_apply, permRoot_geom hθ hC hf, ← geom_mul, hw, mul_inv_cancel, map_one]
  funext i
  show v (f (f i)) = v i
  rw [hθ.invol]

include hf in
/-- real roots -/
theorem trueInv_real {w : W} (hw : IsTI θ w) {s : B} (hc : cs.simple s * w = w * θ (cs.simple s)) (hs : cs.length (cs.simple s * w) < cs.length w) :
    trueInv cs hC f w (root s) = - root s := by
  obtain ⟨x, hx⟩ : ∃ x, x = trueInv cs hC f w (root s) := ⟨_, rfl⟩
  have h1 : srefl C s x = -x := by
    have : srefl C s x = geom cs hC (cs.simple s * w) (permRoot f (root s)) := by rw [geom_mul, geom_simple, hx, trueInv_apply]
    rw [this, hc, geom_mul, hθ.simple, geom_simple, ← permRoot_srefl hθ hf, srefl_root hC, map_neg, map_neg, hx, trueInv_apply]
  rw [srefl_apply] at h1
  have h2 : ∀ i, i ≠ s → x i = 0 := by
    intro i hi
    have := congrFun h1 i
    simp only [Pi.sub_apply, Pi.smul_apply, root_apply, if_neg hi, Pi.neg_apply, smul_eq_mul, mul_zero] at this
    omega
  have h3 : x = x s • root s := by
    funext i
    simp only [Pi.smul_apply, root_apply, smul_eq_mul]
    by_cases hi : i = s
    · rw [if_pos hi, hi, mul_one]
    · rw [if_neg hi, h2 i hi, mul_zero]
  have h4 : x s * x s = 1 := by
    have := congrFun (trueInv_sq hθ hC hf hw (root s)) s
    rw [← hx, h3, map_smul, ← hx, Pi.smul_apply, smul_eq_mul, root_apply, if_pos rfl] at this
    exact this
  have h5 : x s ≤ 0 := by
    rw [hx, trueInv_apply, permRoot_root hθ]
    apply geom_neg cs hC
    have := hw.descent hθ s
    rw [hθ.simple] at this
    show cs.length _ < _
    omega
  have h6 : x s = -1 := by
    rcases Int.mul_eq_one_iff_eq_one_or_neg_one.mp h4 with h | h <;> omega
  rw [← hx, h3, h6, neg_smul, one_smul]

/-- the trace of the involution -/
noncomputable def tr (cs : CoxeterSystem M W) (hC : IsCartan C M) (f : B → B) (w : W) : ℤ := LinearMap.trace ℤ (B → ℤ) (trueInv cs hC f w)

include hf in
theorem tr_conj (w : W) (s : B) : tr cs hC f (cs.simple s * w * θ (cs.simple s)) = tr cs hC f w := by
  have e : trueInv cs hC f (cs.simple s * w * θ (cs.simple s)) = geom cs hC (cs.simple s) * (trueInv cs hC f w * geom cs hC (cs.simple s)) := by
    refine LinearMap.ext fun v => ?_
    rw [trueInv_apply, geom_mul, geom_mul, Module.End.mul_apply, Module.End.mul_apply, trueInv_apply, permRoot_geom hθ hC hf]
  unfold tr
  rw [e, LinearMap.trace_mul_comm, mul_assoc, ← map_mul, cs.simple_mul_simple_self, map_one, mul_one]

include hf in
theorem tr_mul {w : W} (hw : IsTI θ w) {s : B} (hc : cs.simple s * w = w * θ (cs.simple s)) (hs : cs.length (cs.simple s * w) < cs.length w) :
    tr cs hC f (cs.simple s * w) = tr cs hC f w + 2 := by
  have e : trueInv cs hC f (cs.simple s * w) = trueInv cs hC f w - (pairing C s ∘ₗ trueInv cs hC f w).smulRight (root s) := by
    refine LinearMap.ext fun v => ?_
    rw [trueInv_apply, geom_mul, geom_simple, srefl_apply]
    rfl
  unfold tr
  rw [e, map_sub, LinearMap.trace_smulRight, LinearMap.comp_apply, trueInv_real hθ hC hf hw hc hs, map_neg, pairing_root, hC.diag]
  ring

include hf in
/-- All reduced expressions of a twisted involution have the same length, given by a formula. -/
theorem RedExpr.length {l : List (B × Bool)} {w : W} (h : RedExpr cs θ l w) :
    4 * (l.length : ℤ) = 2 * cs.length w + tr cs hC f 1 - tr cs hC f w := by
  induction h with
  | nil => simp
  | @mul l w s hl hc hlt ih =>
    have hw := hl.isTI hθ
    have := tr_mul (cs := cs) hθ hC hf (IsTI.commute hθ hw hc) (s := s) (by
      rw [hc, mul_assoc, hθ.simple, cs.simple_mul_simple_self, mul_one, ← hθ.simple, ← hc, cs.simple_mul_simple_cancel_left]) (by
      rw [cs.simple_mul_simple_cancel_left]; exact hlt)
    rw [cs.simple_mul_simple_cancel_left] at this
    have n := cs.length_simple_mul w s
    simp only [List.length_cons, Nat.cast_add, Nat.cast_one]
    omega
  | @conj l w s hl hc hlt ih =>
    have hw := hl.isTI hθ
    rw [tr_conj hθ hC hf]
    have hl2 : cs.length (cs.simple s * w * θ (cs.simple s)) = cs.length w + 2 := by
      have h1 := (commutation_iff hθ hw s).not.mpr hc
      have hd := hw.descent hθ s
      rw [hθ.simple] at hd h1 ⊢
      have n1 := cs.length_mul_simple w (f s)
      have n3 := cs.length_simple_mul (w * cs.simple (f s)) s
      rw [mul_assoc]
      by_contra hne
      apply h1
      constructor <;> omega
    rw [hl2]
    simp only [List.length_cons, Nat.cast_add, Nat.cast_one]
    omega

end

end Verif.Coxeter
