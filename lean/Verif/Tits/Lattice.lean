import Verif.Tits.CosetSpec
import Verif.Tits.Abstract
import Verif.Coxeter.Twist
/-
The action of the Weyl group on the lattice of coweights, imaginary and real simple roots.
-/
namespace Verif.Tits
open Verif Verif.F2 Verif.Weyl Verif.Coxeter CoxeterSystem
set_option linter.unusedSectionVars false

variable {n r : Nat} {C : Fin n → Fin n → Int} {Mx : CoxeterMatrix (Fin n)} {G : Type} [Group G]

/-- value of a weight -/
def wt (a : Fin r → Int) : (Fin r → Int) →ₗ[ℤ] Int where
  toFun v := ∑ i, a i * v i
  map_add' x y := by simp [mul_add, Finset.sum_add_distrib]
  map_smul' k x := by
    simp only [Pi.smul_apply, smul_eq_mul, RingHom.id_apply, Finset.mul_sum]
    exact Finset.sum_congr rfl fun i _ => by ring

theorem wt_apply (a v : Fin r → Int) : wt a v = ∑ i, a i * v i := rfl

/-- reflection of coweights -/
def zrefl (a av : Fin r → Int) : Module.End ℤ (Fin r → Int) where
  toFun v := v - wt a v • av
  map_add' x y := by rw [map_add, add_smul]; abel
  map_smul' k x := by rw [map_smul, RingHom.id_apply, smul_sub, smul_assoc]

theorem zrefl_apply (a av v : Fin r → Int) : zrefl a av v = v - wt a v • av := rfl

section
variable {α αv : Fin n → Fin r → Int} (hp : ∀ s t, ∑ i, α s i * αv t i = C s t) (h : IsCartan C Mx)
include hp h

theorem wt_self (s : Fin n) : wt (α s) (αv s) = 2 := by rw [wt_apply, hp, h.diag]

theorem zrefl_zrefl (s : Fin n) (v : Fin r → Int) : zrefl (α s) (αv s) (zrefl (α s) (αv s) v) = v := by
  rw [zrefl_apply, zrefl_apply, map_sub, map_smul, wt_self hp h, smul_eq_mul]
  funext i
  simp only [Pi.sub_apply, Pi.smul_apply, smul_eq_mul]
  ring

theorem zstep (s t : Fin n) (v : Fin r → Int) (p q : ℤ) :
    (zrefl (α s) (αv s) * zrefl (α t) (αv t)) (v + (p • αv s + q • αv t)) =
      v + ((-p - wt (α s) v - (-q - wt (α t) v - p * C t s) * C s t) • αv s + (-q - wt (α t) v - p * C t s) • αv t) := by
  have e1 : ∀ s, wt (α s) (αv s) = 2 := wt_self hp h
  have e2 : ∀ s t, wt (α s) (αv t) = C s t := hp
  simp only [Module.End.mul_apply, zrefl_apply, map_add, map_sub, map_smul, e1, e2, smul_eq_mul]
  funext i
  simp only [Pi.add_apply, Pi.sub_apply, Pi.smul_apply, smul_eq_mul]
  ring_nf

theorem zliftable : Mx.IsLiftable fun s => zrefl (α s) (αv s) := by
  intro s t
  by_cases hst : s = t
  · subst hst
    rw [Mx.diagonal, pow_one]
    exact LinearMap.ext fun v => zrefl_zrefl hp h s v
  · refine LinearMap.ext fun v => ?_
    have step := fun p q => zstep hp h s t v p q
    have e0 : v = v + ((0 : ℤ) • αv s + (0 : ℤ) • αv t) := by simp
    rw [Module.End.one_apply]
    conv_lhs => rw [e0]
    conv_rhs => rw [e0]
    rcases h.cases hst with ⟨a, b, m⟩ | ⟨a, b, m⟩ | ⟨a, b, m⟩ | ⟨a, b, m⟩ | ⟨a, b, m⟩ | ⟨a, b, m⟩ <;>
    · rw [m]
      simp only [pow_succ, pow_zero, one_mul]
      simp only [Module.End.mul_apply (zrefl _ _ * zrefl _ _), Module.End.mul_apply (_ * (zrefl _ _ * zrefl _ _)), step, a, b]
      congr 2
      · congr 1; ring
      · congr 1; ring

theorem exists_latticeAction (cs : CoxeterSystem Mx G) : ∃ ρ, IsLatticeAction cs α αv ρ :=
  ⟨cs.lift ⟨_, zliftable hp h⟩, fun s v => by rw [cs.lift_apply_simple (zliftable hp h) s]; rfl⟩

end

/-- the involution as a linear map -/
def dt (δ : Matrix (Fin r) (Fin r) Int) : Module.End ℤ (Fin r → Int) where
  toFun v := fun i => ∑ j, δ j i * v j
  map_add' x y := by funext i; simp [mul_add, Finset.sum_add_distrib]
  map_smul' k x := by
    funext i
    simp only [Pi.smul_apply, smul_eq_mul, RingHom.id_apply, Finset.mul_sum]
    exact Finset.sum_congr rfl fun i _ => by ring

/-- compatibility of the involution of the root datum with the twist -/
structure DeltaOK (f : Fin n → Fin n) (α αv : Fin n → Fin r → Int) (δ : Matrix (Fin r) (Fin r) Int) : Prop where
  invol : ∀ v, dt δ (dt δ v) = v
  coroot : ∀ s, dt δ (αv s) = αv (f s)
  root : ∀ s v, wt (α (f s)) (dt δ v) = wt (α s) v

theorem inv_eq (ρ : G →* Module.End ℤ (Fin r → Int)) (δ : Matrix (Fin r) (Fin r) Int) (w : G) (v : Fin r → Int) : inv ρ δ w v = ρ w (dt δ v) := rfl

variable {cs : CoxeterSystem Mx G} {α αv : Fin n → Fin r → Int} {ρ : G →* Module.End ℤ (Fin r → Int)} {δ : Matrix (Fin r) (Fin r) Int} {f : Fin n → Fin n}

theorem rho_mul' (u v : G) (x : Fin r → Int) : ρ (u * v) x = ρ u (ρ v x) := by rw [map_mul]; rfl

theorem rho_one' (x : Fin r → Int) : ρ 1 x = x := by rw [map_one]; rfl

section
variable (hρ : IsLatticeAction cs α αv ρ)
include hρ

theorem rho_simple' (s : Fin n) (v : Fin r → Int) : ρ (cs.simple s) v = v - wt (α s) v • αv s := hρ s v

theorem rho_dt (hd : DeltaOK f α αv δ) {θ : G →* G} (hθ : IsTwist cs f θ) (w : G) (v : Fin r → Int) : dt δ (ρ w v) = ρ (θ w) (dt δ v) := by
  induction w using cs.simple_induction_left generalizing v with
  | one => rw [rho_one', map_one, rho_one']
  | mul_simple_left w s ih =>
    rw [rho_mul', map_mul, rho_mul', hθ.simple, rho_simple' hρ, rho_simple' hρ, ← ih, map_sub, map_smul, hd.coroot, hd.root]

theorem inv_inv (hd : DeltaOK f α αv δ) {θ : G →* G} (hθ : IsTwist cs f θ) {w : G} (hw : IsTI θ w) (v : Fin r → Int) : inv ρ δ w (inv ρ δ w v) = v := by
  rw [inv_eq, inv_eq, rho_dt hρ hd hθ, hd.invol, ← rho_mul', hw, mul_inv_cancel, rho_one']

/-- image of the coroot lattice -/
def kap (αv : Fin n → Fin r → Int) (x : Fin n → Int) : Fin r → Int := ∑ s, x s • αv s

omit hρ in
theorem kap_root (s : Fin n) : kap αv (root s) = αv s := by
  unfold kap
  rw [Finset.sum_eq_single s]
  · simp [root_apply]
  · intro t _ ht; simp [root_apply, ht]
  · simp

omit hρ in
theorem kap_neg (x : Fin n → Int) : kap αv (-x) = -kap αv x := by simp [kap]

omit hρ in
theorem kap_sub (x y : Fin n → Int) : kap αv (x - y) = kap αv x - kap αv y := by simp [kap, sub_smul, Finset.sum_sub_distrib]

omit hρ in
theorem kap_smul (k : Int) (x : Fin n → Int) : kap αv (k • x) = k • kap αv x := by
  unfold kap
  rw [Finset.smul_sum]
  exact Finset.sum_congr rfl fun s _ => by rw [smul_smul]; rfl

variable (hp : ∀ s t, ∑ i, α s i * αv t i = C s t) (h : IsCartan C Mx)
include hp h

theorem kap_geom (w : G) (x : Fin n → Int) : kap αv (geom cs h.dual w x) = ρ w (kap αv x) := by
  have e2 : ∀ s t, wt (α s) (αv t) = C s t := hp
  have e : ∀ s x, wt (α s) (kap αv x) = pairing (fun s t => C t s) s x := by
    intro s x
    unfold kap
    rw [map_sum]
    exact Finset.sum_congr rfl fun t _ => by rw [map_smul, e2]; rfl
  induction w using cs.simple_induction_left generalizing x with
  | one => rw [map_one, rho_one']; rfl
  | mul_simple_left w s ih =>
    rw [geom_mul, rho_mul', geom_simple, srefl_apply, kap_sub, kap_smul, kap_root, ih, rho_simple' hρ, ← ih, e]

theorem coroot_sign {w : G} {s t : Fin n} (e : cs.simple s * w = w * cs.simple t) :
    (¬ cs.IsRightDescent w t → ρ w (αv t) = αv s) ∧ (cs.IsRightDescent w t → ρ w (αv t) = -αv s) := by
  have h1 := (isRoot_simple (cs := cs) (h := h) t).act w
  rw [← e, mul_inv_cancel_right] at h1
  have h2 := isRoot_pm cs h (isRoot_simple s) h1
  have pos : ¬ (root s : Fin n → Int) s ≤ 0 := by simp [root_apply]
  have key : ∀ x, geom cs h.dual w (root t) = x → ρ w (αv t) = kap αv x := by
    intro x hx
    rw [← hx, kap_geom hρ hp h, kap_root]
  constructor
  · intro hd
    rcases h2 with h2 | h2
    · rw [key _ h2, kap_root]
    · exfalso
      have := geom_pos cs h.dual hd s
      rw [h2, Pi.neg_apply] at this
      omega
  · intro hd
    rcases h2 with h2 | h2
    · exfalso
      have := geom_neg cs h.dual hd s
      rw [h2] at this
      exact pos this
    · rw [key _ h2, kap_neg, kap_root]

theorem coroot_ne (s : Fin n) : αv s ≠ 0 := by
  intro e
  have := wt_self hp h s
  rw [e, map_zero] at this
  omega

theorem root_comm {w : G} {s t : Fin n} (e : cs.simple s * w = w * cs.simple t) {k : Int} (hk : k * k = 1) (e2 : ρ w (αv t) = k • αv s) (v : Fin r → Int) :
    wt (α s) (ρ w v) = k * wt (α t) v := by
  have e3 : ρ (cs.simple s * w) v = ρ (w * cs.simple t) v := by rw [e]
  rw [rho_mul', rho_mul', rho_simple' hρ, rho_simple' hρ, map_sub, map_smul, e2, sub_right_inj, smul_smul] at e3
  have : (wt (α s) (ρ w v) - wt (α t) v * k) • αv s = 0 := by rw [sub_smul, e3, sub_self]
  rcases smul_eq_zero.1 this with h1 | h1
  · linarith
  · exact absurd h1 (coroot_ne hρ hp h s)

omit hρ hp h in
theorem right_of_left {θ : G →* G} {w : G} {s t : Fin n} (e : cs.simple s * w = w * cs.simple t) : cs.IsRightDescent w t ↔ cs.length (cs.simple s * w) < cs.length w := by
  rw [e]; rfl

variable (hd : DeltaOK f α αv δ)
include hd

theorem imaginary_coroot {s : Fin n} {w : G} (hi : Imaginary cs f s w) : ρ w (αv (f s)) = αv s :=
  (coroot_sign hρ hp h hi.1).1 fun e => by
    have := (right_of_left (θ := MonoidHom.id G) hi.1).1 e
    have := hi.2
    omega

theorem real_coroot {s : Fin n} {w : G} (hi : Real cs f s w) : ρ w (αv (f s)) = -αv s :=
  (coroot_sign hρ hp h hi.1).2 ((right_of_left (θ := MonoidHom.id G) hi.1).2 hi.2)

theorem imaginary_root {s : Fin n} {w : G} (hi : Imaginary cs f s w) (v : Fin r → Int) : wt (α s) (inv ρ δ w v) = wt (α s) v := by
  rw [inv_eq, root_comm hρ hp h hi.1 (k := 1) rfl (by rw [one_smul]; exact imaginary_coroot hρ hp h hd hi), one_mul, hd.root]

theorem real_root {s : Fin n} {w : G} (hi : Real cs f s w) (v : Fin r → Int) : wt (α s) (inv ρ δ w v) = -wt (α s) v := by
  rw [inv_eq, root_comm hρ hp h hi.1 (k := -1) rfl (by rw [neg_one_smul]; exact real_coroot hρ hp h hd hi), hd.root, neg_one_mul]

theorem real_inv {s : Fin n} {w : G} (hi : Real cs f s w) : inv ρ δ w (αv s) = -αv s := by
  rw [inv_eq, hd.coroot, real_coroot hρ hp h hd hi]

theorem imaginary_inv {s : Fin n} {w : G} (hi : Imaginary cs f s w) : inv ρ δ w (αv s) = αv s := by
  rw [inv_eq, hd.coroot, imaginary_coroot hρ hp h hd hi]

end

/-- a coweight negated by the involution is orthogonal to imaginary roots -/
theorem cayleyReal {s : Fin n} {w : G} (hi : Imaginary cs f s w) : Real cs f s (cs.simple s * w) := by
  refine ⟨?_, ?_⟩
  · rw [cs.simple_mul_simple_cancel_left, hi.1, cs.simple_mul_simple_cancel_right]
  · rw [cs.simple_mul_simple_cancel_left]; exact hi.2

end Verif.Tits
