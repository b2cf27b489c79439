import Verif.Tits.Lift
import Verif.Coxeter.Twist
/-
The automorphism of the Tits group defined by a twist of the generators, an involution of the torus and a grading.
-/
namespace Verif.Tits
open CoxeterSystem Verif.Coxeter
set_option linter.unusedSectionVars false

variable {B : Type} [Fintype B] [DecidableEq B]
variable {C : B → B → ℤ} {V : Type} [AddCommGroup V] [Module (ZMod 2) V] (D : Datum C V)
variable {M : CoxeterMatrix B} {W : Type} [Group W] (cs : CoxeterSystem M W) (h : IsCartan C M)

/-- the datum whose action is affine, with translations given by the grading -/
def Datum.affine (g : B → ZMod 2) : Datum C (V × ZMod 2) where
  m s := (D.m s, 0)
  ev s := { toFun := fun x => D.ev s x.1 + g s * x.2
            map_add' := fun x y => by simp only [Prod.fst_add, Prod.snd_add, map_add]; ring
            map_smul' := fun a x => by simp only [Prod.smul_fst, Prod.smul_snd, map_smul, smul_eq_mul, RingHom.id_apply]; ring }
  pair s t := by
    show D.ev s (D.m t) + g s * 0 = _
    rw [mul_zero, add_zero, D.pair]

/-- translation part of the affine action -/
noncomputable def Datum.gam (g : B → ZMod 2) (w : W) : V := ((D.affine g).rho cs h w (0, 1)).1

theorem Datum.affine_refl (g : B → ZMod 2) (s : B) (x : V) (k : ZMod 2) : (D.affine g).refl s (x, k) = (D.refl s x + (g s * k) • D.m s, k) := by
  rw [Datum.refl_apply, Datum.refl_apply]
  show (x, k) + (D.ev s x + g s * k) • (D.m s, (0 : ZMod 2)) = _
  refine Prod.ext ?_ ?_
  · simp only [Prod.fst_add, Prod.smul_fst, add_smul]; abel
  · simp

theorem Datum.affine_rho (g : B → ZMod 2) (w : W) (x : V) (k : ZMod 2) : (D.affine g).rho cs h w (x, k) = (D.rho cs h w x + k • D.gam cs h g w, k) := by
  have key : ∀ (w : W) (x : V) (k : ZMod 2), ∃ y, (D.affine g).rho cs h w (x, k) = (D.rho cs h w x + k • y, k) ∧ y = D.gam cs h g w := by
    intro w
    have : ∃ y, ∀ (x : V) (k : ZMod 2), (D.affine g).rho cs h w (x, k) = (D.rho cs h w x + k • y, k) := by
      induction w using cs.simple_induction_left with
      | one => exact ⟨0, fun x k => by rw [Datum.rho_one, Datum.rho_one, smul_zero, add_zero]⟩
      | mul_simple_left w s ih =>
        obtain ⟨y, hy⟩ := ih
        refine ⟨D.refl s y + g s • D.m s, fun x k => ?_⟩
        rw [Datum.rho_mul, hy, Datum.rho_simple, D.affine_refl, D.rho_mul, D.rho_simple, map_add, map_smul, smul_add, mul_comm, mul_smul, add_assoc]
    obtain ⟨y, hy⟩ := this
    intro x k
    refine ⟨y, hy x k, ?_⟩
    rw [Datum.gam, hy, map_zero, zero_add, one_smul]
  obtain ⟨y, h1, h2⟩ := key w x k
  rw [h1, h2]

theorem Datum.gam_one (g : B → ZMod 2) : D.gam cs h g 1 = 0 := by rw [Datum.gam, Datum.rho_one]

theorem Datum.gam_mul (g : B → ZMod 2) (u v : W) : D.gam cs h g (u * v) = D.gam cs h g u + D.rho cs h u (D.gam cs h g v) := by
  have e := D.affine_rho cs h g v 0 1
  rw [map_zero, zero_add, one_smul] at e
  rw [Datum.gam, Datum.rho_mul, e, D.affine_rho, one_smul, add_comm]

theorem Datum.gam_simple (g : B → ZMod 2) (s : B) : D.gam cs h g (cs.simple s) = g s • D.m s := by
  rw [Datum.gam, Datum.rho_simple, D.affine_refl, map_zero, zero_add, mul_one]

/-- `d` is compatible with the twist `f` of the generators -/
structure Datum.Compat (f : B → B) (d : V →ₗ[ZMod 2] V) : Prop where
  invol : ∀ x, d (d x) = x
  coroot : ∀ s, d (D.m s) = D.m (f s)
  root : ∀ s x, D.ev (f s) (d x) = D.ev s x

variable {D cs} {f : B → B} {d : V →ₗ[ZMod 2] V} (hd : D.Compat f d) {θ : W →* W} (hθ : IsTwist cs f θ)
include hd hθ

theorem Datum.Compat.rho (w : W) (x : V) : d (D.rho cs h w x) = D.rho cs h (θ w) (d x) := by
  induction w using cs.simple_induction_left generalizing x with
  | one => rw [D.rho_one, map_one, D.rho_one]
  | mul_simple_left w s ih =>
    rw [D.rho_mul, map_mul, D.rho_mul, D.rho_simple, hθ.simple, D.rho_simple, ← ih, D.refl_apply, D.refl_apply, map_add, map_smul, hd.coroot, hd.root]

theorem Datum.Compat.gam {g : B → ZMod 2} (hg : ∀ s, g (f s) = g s) (w : W) : d (D.gam cs h g w) = D.gam cs h g (θ w) := by
  induction w using cs.simple_induction_left with
  | one => rw [D.gam_one, map_one, D.gam_one, map_zero]
  | mul_simple_left w s ih =>
    rw [D.gam_mul, map_mul, D.gam_mul, D.gam_simple, hθ.simple, D.gam_simple, map_add, map_smul, hd.coroot, hg, hd.rho h hθ, ih, hθ.simple]

variable [Fintype W]

theorem Datum.Compat.cocycle (u v : W) : d (D.cocycle cs h u v) = D.cocycle cs h (θ u) (θ v) := by
  have e0 : ∀ (s : B) (w : W), d (D.cocycle cs h (cs.simple s) w) = D.cocycle cs h (θ (cs.simple s)) (θ w) := by
    intro s w
    rw [D.cocycle_simple_left, hθ.simple, D.cocycle_simple_left, map_smul, hd.coroot, ← hθ.simple, ← map_mul, hθ.length, hθ.length]
  induction u using cs.simple_induction_left generalizing v with
  | one => rw [D.cocycle_one_left, map_one, D.cocycle_one_left, map_zero]
  | mul_simple_left u s ih =>
    have e1 := D.cocycle_assoc cs h (cs.simple s) u v
    have e2 := D.cocycle_assoc cs h (θ (cs.simple s)) (θ u) (θ v)
    have e3 : ∀ a b c : V, a + b = c → b = a + c := by
      intro a b c e
      rw [← e, ← add_assoc, vadd, zero_add]
    rw [e3 _ _ _ e1, map_mul, e3 _ _ _ e2, map_add, map_add, e0, e0, hd.rho h hθ, ih, map_mul]

/-- the automorphism -/
noncomputable def tau (g : B → ZMod 2) : Elt D cs h →* Elt D cs h where
  toFun a := ⟨d a.t + D.gam cs h g (θ a.w), θ a.w⟩
  map_one' := by
    rw [Elt.one_def]
    exact Elt.ext' (by show d 0 + D.gam cs h g (θ 1) = 0; rw [map_zero, map_one, D.gam_one, add_zero]) (map_one θ)
  map_mul' a b := by
    rw [Elt.mul_def, Elt.mul_def]
    refine Elt.ext' ?_ (map_mul θ _ _)
    show d (a.t + D.rho cs h a.w b.t + D.cocycle cs h a.w b.w) + D.gam cs h g (θ (a.w * b.w)) =
      d a.t + D.gam cs h g (θ a.w) + D.rho cs h (θ a.w) (d b.t + D.gam cs h g (θ b.w)) + D.cocycle cs h (θ a.w) (θ b.w)
    rw [map_add, map_add, hd.rho h hθ, hd.cocycle h hθ, map_mul, D.gam_mul, map_add]
    abel

theorem tau_iota (g : B → ZMod 2) (x : V) : tau h hd hθ g (iota x) = (iota (d x) : Elt D cs h) := by
  refine Elt.ext' ?_ (map_one θ)
  show d x + D.gam cs h g (θ 1) = d x
  rw [map_one, D.gam_one, add_zero]

theorem tau_sigma (g : B → ZMod 2) (s : B) : tau h hd hθ g (sigma s) = (iota (g (f s) • D.m (f s)) * sigma (f s) : Elt D cs h) := by
  rw [iota_mul]
  refine Elt.ext' ?_ (hθ.simple s)
  show d 0 + D.gam cs h g (θ (cs.simple s)) = g (f s) • D.m (f s) + 0
  rw [map_zero, hθ.simple, D.gam_simple, zero_add, add_zero]

theorem tau_w (g : B → ZMod 2) (a : Elt D cs h) : (tau h hd hθ g a).w = θ a.w := rfl

theorem tau_tau {g : B → ZMod 2} (hg : ∀ s, g (f s) = g s) (a : Elt D cs h) : tau h hd hθ g (tau h hd hθ g a) = a := by
  refine Elt.ext' ?_ (hθ.theta_theta a.w)
  show d (d a.t + D.gam cs h g (θ a.w)) + D.gam cs h g (θ (θ a.w)) = a.t
  rw [map_add, hd.invol, hd.gam h hθ hg, add_assoc, vadd, add_zero]

end Verif.Tits
