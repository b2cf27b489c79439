import Verif.Tits.Lattice
/-
The laws of strong involutions represented in the Tits group, from the relations of that group.
-/
namespace Verif.Tits
open Verif Verif.F2 Verif.Weyl Verif.Coxeter CoxeterSystem
set_option linter.unusedSectionVars false

variable {n r : Nat} {C : Fin n → Fin n → Int} {Mx : CoxeterMatrix (Fin n)} {G : Type} [Group G]
variable {cs : CoxeterSystem Mx G} {α αv : Fin n → Fin r → Int} {ρ : G →* Module.End ℤ (Fin r → Int)} {δ : Matrix (Fin r) (Fin r) Int} {f : Fin n → Fin n}
variable {𝒯 : Type} [Group 𝒯] {ι : (Fin r → ZMod 2) → 𝒯} {σ : Fin n → 𝒯} {π : 𝒯 →* G} {g : Fin n → Bool} {τ : 𝒯 →* 𝒯}

theorem mod2_add (v w : Fin r → Int) : mod2 (v + w) = mod2 v + mod2 w := by funext i; simp [mod2]

theorem mod2_neg (v : Fin r → Int) : mod2 (-v) = mod2 v := by
  funext i
  simp only [mod2, Pi.neg_apply, Int.cast_neg]
  generalize ((v i : Int) : ZMod 2) = a
  revert a; decide

theorem mod2_sub (v w : Fin r → Int) : mod2 (v - w) = mod2 v + mod2 w := by rw [sub_eq_add_neg, mod2_add, mod2_neg]

theorem mod2_zero : mod2 (0 : Fin r → Int) = 0 := by funext i; simp [mod2]

theorem mod2_smul (k : Int) (v : Fin r → Int) : mod2 (k • v) = (k : ZMod 2) • mod2 v := by funext i; simp [mod2]

theorem mod2_surj (x : Fin r → ZMod 2) : ∃ v, mod2 v = x := by
  refine ⟨fun i => if x i = 1 then 1 else 0, ?_⟩
  funext i
  simp only [mod2]
  generalize x i = a
  revert a; decide

theorem mod2_wt (a v : Fin r → Int) : ((wt a v : Int) : ZMod 2) = ∑ i, mod2 a i * mod2 v i := by simp [wt_apply, mod2]

section
variable (hT : IsTits cs α αv ι σ π)
include hT

theorem io_zero : ι 0 = 1 := by
  have := hT.torus_mul 0 0
  rw [add_zero] at this
  exact left_eq_mul.1 this

theorem io_sq (x : Fin r → ZMod 2) : ι x * ι x = 1 := by
  rw [← hT.torus_mul, ← io_zero hT]
  congr 1
  funext i
  simp only [Pi.add_apply, Pi.zero_apply]
  generalize x i = a
  revert a; decide

theorem io_inv (x : Fin r → ZMod 2) : (ι x)⁻¹ = ι x := inv_eq_of_mul_eq_one_left (io_sq hT x)

theorem pi_io (x : Fin r → ZMod 2) : π (ι x) = 1 := (hT.kernel _).2 ⟨x, rfl⟩

theorem io_comm (x y : Fin r → ZMod 2) : ι x * ι y = ι y * ι x := by rw [← hT.torus_mul, ← hT.torus_mul, add_comm]

theorem pi_word (l : List (Fin n)) : π (l.map σ).prod = cs.wordProd l := by
  induction l with
  | nil => simp
  | cons s l ih => rw [List.map_cons, List.prod_cons, map_mul, ih, hT.proj_sigma, cs.wordProd_cons]

/-- every element is a torus part times a lift -/
theorem decomp (a : 𝒯) {l : List (Fin n)} (hl : cs.wordProd l = π a) : ∃ x, a = ι x * (l.map σ).prod := by
  obtain ⟨x, hx⟩ := (hT.kernel (a * (l.map σ).prod⁻¹)).1 (by rw [map_mul, map_inv, pi_word hT, hl, mul_inv_cancel])
  exact ⟨x, by rw [← hx, inv_mul_cancel_right]⟩

variable (hρ : IsLatticeAction cs α αv ρ)
include hρ

theorem sigma_io (s : Fin n) (v : Fin r → Int) : σ s * ι (mod2 v) = ι (mod2 (ρ (cs.simple s) v)) * σ s := by
  have := hT.conj s (mod2 v)
  rw [mul_inv_eq_iff_eq_mul] at this
  rw [this, rho_simple' hρ, mod2_sub, mod2_smul, mod2_wt]

theorem act_io (a : 𝒯) (v : Fin r → Int) : a * ι (mod2 v) = ι (mod2 (ρ (π a) v)) * a := by
  have key : ∀ (l : List (Fin n)) v, (l.map σ).prod * ι (mod2 v) = ι (mod2 (ρ (cs.wordProd l) v)) * (l.map σ).prod := by
    intro l
    induction l with
    | nil => intro v; rw [cs.wordProd_nil, rho_one']; simp
    | cons s l ih => intro v; rw [List.map_cons, List.prod_cons, mul_assoc, ih, ← mul_assoc, sigma_io hT hρ, mul_assoc, cs.wordProd_cons, rho_mul']
  obtain ⟨l, -, hl⟩ := cs.exists_isReduced (π a)
  obtain ⟨x, hx⟩ := decomp hT a hl.symm
  rw [hl]
  rw [hx, mul_assoc, key, ← mul_assoc, io_comm hT, mul_assoc]

variable (hB : IsBase f αv δ g ι σ τ)
include hB

omit hρ in
theorem tau_io (v : Fin r → Int) : τ (ι (mod2 v)) = ι (mod2 (dt δ v)) := by
  rw [hB.torus]
  congr 1
  funext i
  simp [mod2, dt]

theorem act_tau (a : 𝒯) (v : Fin r → Int) : a * τ (ι (mod2 v)) = ι (mod2 (inv ρ δ (π a) v)) * a := by
  rw [tau_io hT hB, act_io hT hρ]; rfl

omit hρ in
theorem pi_tau {θ : G →* G} (hθ : IsTwist cs f θ) (a : 𝒯) : π (τ a) = θ (π a) := by
  have key : ∀ l : List (Fin n), π (τ (l.map σ).prod) = θ (cs.wordProd l) := by
    intro l
    induction l with
    | nil => simp
    | cons s l ih =>
      rw [List.map_cons, List.prod_cons, map_mul, map_mul, ih, hB.sigma, map_mul, pi_io hT, one_mul, hT.proj_sigma, cs.wordProd_cons, map_mul, hθ.simple]
  obtain ⟨l, -, hl⟩ := cs.exists_isReduced (π a)
  obtain ⟨x, hx⟩ := decomp hT a hl.symm
  rw [hl, ← key]
  conv_lhs => rw [hx]
  rw [map_mul, map_mul, hB.torus, pi_io hT, one_mul]

omit hρ in
theorem ti_of_valid {θ : G →* G} (hθ : IsTwist cs f θ) {a : 𝒯} (ha : a * τ a = 1) : IsTI θ (π a) := by
  have := congrArg π ha
  rw [map_mul, map_one, pi_tau hT hB hθ] at this
  exact eq_inv_of_mul_eq_one_right this

/-! ### equivalence -/

omit hρ hB in
theorem Eqv.pi {a b : 𝒯} (h : Eqv ρ δ ι π a b) : π b = π a := by
  obtain ⟨v, -, rfl⟩ := h
  rw [map_mul, pi_io hT, one_mul]

omit hρ hB in
theorem eqv_refl (a : 𝒯) : Eqv ρ δ ι π a a := ⟨0, by rw [inv_eq, map_zero, map_zero, neg_zero], by rw [mod2_zero, io_zero hT, one_mul]⟩

omit hρ hB in
theorem eqv_symm {a b : 𝒯} (h : Eqv ρ δ ι π a b) : Eqv ρ δ ι π b a := by
  have hp := h.pi hT
  obtain ⟨v, h1, h2⟩ := h
  exact ⟨v, by rw [hp]; exact h1, by rw [h2, ← mul_assoc, io_sq hT, one_mul]⟩

omit hρ hB in
theorem eqv_trans {a b c : 𝒯} (h : Eqv ρ δ ι π a b) (h' : Eqv ρ δ ι π b c) : Eqv ρ δ ι π a c := by
  have hp := h.pi hT
  obtain ⟨v, h1, h2⟩ := h
  obtain ⟨w, h3, h4⟩ := h'
  rw [hp] at h3
  refine ⟨w + v, ?_, by rw [h4, h2, mod2_add, hT.torus_mul, mul_assoc]⟩
  rw [inv_eq] at h1 h3 ⊢
  rw [map_add, map_add, h1, h3, neg_add]

theorem valid_eqv {a b : 𝒯} (h : Eqv ρ δ ι π a b) (ha : a * τ a = 1) : b * τ b = 1 := by
  obtain ⟨v, h1, rfl⟩ := h
  rw [map_mul, mul_assoc, ← mul_assoc a, act_tau hT hρ hB, h1, mod2_neg, mul_assoc, ha, mul_one, io_sq hT]

omit hT hρ in
theorem conj_valid (a h : 𝒯) (ha : a * τ a = 1) : (h * a * (τ h)⁻¹) * τ (h * a * (τ h)⁻¹) = 1 := by
  rw [map_mul, map_mul, map_inv, hB.invol]
  rw [show h * a * (τ h)⁻¹ * (τ h * τ a * h⁻¹) = h * (a * τ a) * h⁻¹ by group, ha, mul_one, mul_inv_cancel]

variable {θ : G →* G} (hθ : IsTwist cs f θ) (hd : DeltaOK f α αv δ)
include hθ hd

theorem conj_eqv {a b : 𝒯} (h : 𝒯) (e : Eqv ρ δ ι π a b) : Eqv ρ δ ι π (h * a * (τ h)⁻¹) (h * b * (τ h)⁻¹) := by
  obtain ⟨v, h1, rfl⟩ := e
  refine ⟨ρ (π h) v, ?_, ?_⟩
  · have e : π (h * a * (τ h)⁻¹) = π h * π a * (θ (π h))⁻¹ := by rw [map_mul, map_mul, map_inv, pi_tau hT hB hθ]
    rw [e, inv_eq, rho_dt hρ hd hθ, ← rho_mul', inv_mul_cancel_right, rho_mul']
    rw [inv_eq] at h1
    rw [h1, map_neg]
  · rw [← mul_assoc h, act_io hT hρ, mul_assoc, mul_assoc, mul_assoc]

theorem torus_eqv {a : 𝒯} (ha : a * τ a = 1) (v : Fin r → Int) : Eqv ρ δ ι π a (ι (mod2 v) * a * τ (ι (mod2 v))) := by
  have hi := inv_inv hρ hd hθ (ti_of_valid hT hB hθ ha)
  refine ⟨v - inv ρ δ (π a) v, ?_, ?_⟩
  · have := hi v
    rw [inv_eq] at this ⊢
    rw [map_sub, map_sub, this, ← inv_eq, neg_sub]
  · rw [mul_assoc, act_tau hT hρ hB, ← mul_assoc, ← hT.torus_mul, mod2_sub]

theorem conj_weyl {a : 𝒯} (h h' : 𝒯) (ha : a * τ a = 1) (e : π h = π h') : Eqv ρ δ ι π (h * a * (τ h)⁻¹) (h' * a * (τ h')⁻¹) := by
  obtain ⟨x, hx⟩ := (hT.kernel (h' * h⁻¹)).1 (by rw [map_mul, map_inv, e, mul_inv_cancel])
  obtain ⟨v, rfl⟩ := mod2_surj x
  have e1 : h' = ι (mod2 v) * h := by rw [← hx, inv_mul_cancel_right]
  have := torus_eqv hT hρ hB hθ hd (conj_valid hB a h ha) v
  rw [e1, map_mul, mul_inv_rev, ← map_inv τ (ι _), io_inv hT]
  rw [show ι (mod2 v) * h * a * ((τ h)⁻¹ * τ (ι (mod2 v))) = ι (mod2 v) * (h * a * (τ h)⁻¹) * τ (ι (mod2 v)) by group]
  exact this

/-! ### Cayley transforms -/

variable (hp : ∀ s t, ∑ i, α s i * αv t i = C s t) (h : IsCartan C Mx)
include hp h

theorem imaginary_orth {s : Fin n} {w : G} (hi : Imaginary cs f s w) {v : Fin r → Int} (hv : inv ρ δ w v = -v) : wt (α s) v = 0 := by
  have := imaginary_root hρ hp h hd hi v
  rw [hv, map_neg] at this
  omega

theorem cayley_valid' {a : 𝒯} {s : Fin n} (hi : Imaginary cs f s (π a)) (hn : σ s * a * (τ (σ s))⁻¹ = ι (mod2 (αv s)) * a) (ha : a * τ a = 1) :
    (σ s * a) * τ (σ s * a) = 1 := by
  have e1 : τ (σ s) = (τ (σ s))⁻¹ * ι (mod2 (αv (f s))) := by
    rw [eq_inv_mul_iff_mul_eq, ← map_mul, hT.square, tau_io hT hB, hd.coroot]
  have e2 : a * ι (mod2 (αv (f s))) = ι (mod2 (αv s)) * a := by rw [act_io hT hρ, imaginary_coroot hρ hp h hd hi]
  rw [map_mul]
  conv_lhs => rw [e1]
  rw [show σ s * a * ((τ (σ s))⁻¹ * ι (mod2 (αv (f s))) * τ a) = (σ s * a * (τ (σ s))⁻¹) * ι (mod2 (αv (f s))) * τ a by group, hn,
    mul_assoc (ι _), e2, ← mul_assoc (ι _), io_sq hT, one_mul, ha]

theorem cayley_eqv' {a b : 𝒯} {s : Fin n} (hi : Imaginary cs f s (π a)) (e : Eqv ρ δ ι π a b) : Eqv ρ δ ι π (σ s * a) (σ s * b) := by
  obtain ⟨v, h1, rfl⟩ := e
  have h0 := imaginary_orth hT hρ hB hθ hd hp h hi h1
  have h2 : ρ (cs.simple s) v = v := by rw [rho_simple' hρ, h0, zero_smul, sub_zero]
  refine ⟨v, ?_, ?_⟩
  · rw [map_mul, hT.proj_sigma, inv_eq, rho_mul']
    rw [inv_eq] at h1
    rw [h1, map_neg, h2]
  · rw [← mul_assoc, sigma_io hT hρ, h2, mul_assoc]

end

/-! ### the grading -/

/-- products over reduced words of an element agree -/
def Canonical (cs : CoxeterSystem Mx G) (σ : Fin n → 𝒯) : Prop :=
  ∀ l l', cs.IsReduced l → cs.IsReduced l' → cs.wordProd l = cs.wordProd l' → (l.map σ).prod = (l'.map σ).prod

section
variable (hT : IsTits cs α αv ι σ π) (hρ : IsLatticeAction cs α αv ρ) (hB : IsBase f αv δ g ι σ τ) {θ : G →* G} (hθ : IsTwist cs f θ)
  (hd : DeltaOK f α αv δ) (hp : ∀ s t, ∑ i, α s i * αv t i = C s t) (h : IsCartan C Mx) (hc : Canonical cs σ) (hg : ∀ s, g (f s) = g s)
include hT hρ hB hθ hd hp h hc hg

theorem imaginary_conj {x : Fin r → ZMod 2} {l : List (Fin n)} (hl : cs.IsReduced l) {s : Fin n} (hi : Imaginary cs f s (cs.wordProd l)) :
    σ s * (ι x * (l.map σ).prod) * (τ (σ s))⁻¹ =
      ι (if g s != decide (∑ i, mod2 (α s) i * x i = 1) then mod2 (αv s) else 0) * (ι x * (l.map σ).prod) := by
  obtain ⟨v, rfl⟩ := mod2_surj x
  have e1 : σ s * (l.map σ).prod = (l.map σ).prod * σ (f s) := by
    have := hc (s :: l) (l ++ [f s]) (by
      unfold CoxeterSystem.IsReduced at hl ⊢
      rw [cs.wordProd_cons, List.length_cons]
      have := cs.length_simple_mul (cs.wordProd l) s
      have := hi.2
      omega) (by
      unfold CoxeterSystem.IsReduced at hl ⊢
      rw [cs.wordProd_append, cs.wordProd_singleton, ← hi.1, List.length_append, List.length_singleton]
      have := cs.length_simple_mul (cs.wordProd l) s
      have := hi.2
      omega) (by rw [cs.wordProd_cons, cs.wordProd_append, cs.wordProd_singleton, hi.1])
    rw [List.map_cons, List.prod_cons, List.map_append, List.prod_append] at this
    simpa using this
  have e2 : (τ (σ s))⁻¹ = (σ (f s))⁻¹ * ι (if g s then mod2 (αv (f s)) else 0) := by rw [hB.sigma, hg, mul_inv_rev, io_inv hT]
  have e3 : (l.map σ).prod * ι (if g s then mod2 (αv (f s)) else 0) = ι (if g s then mod2 (αv s) else 0) * (l.map σ).prod := by
    by_cases hgs : g s = true
    · rw [if_pos hgs, if_pos hgs, act_io hT hρ, pi_word hT, imaginary_coroot hρ hp h hd hi]
    · rw [if_neg hgs, if_neg hgs, io_zero hT, mul_one, one_mul]
  rw [e2, ← mul_assoc (σ s), sigma_io hT hρ, mul_assoc (ι _), e1, mul_assoc (ι _)]
  rw [show (l.map σ).prod * σ (f s) * ((σ (f s))⁻¹ * ι (if g s then mod2 (αv (f s)) else 0)) = (l.map σ).prod * ι (if g s then mod2 (αv (f s)) else 0) by group]
  rw [e3, ← mul_assoc, ← mul_assoc, ← hT.torus_mul, ← hT.torus_mul]
  congr 2
  rw [rho_simple' hρ, mod2_sub, mod2_smul, mod2_wt]
  generalize (∑ i, mod2 (α s) i * mod2 v i) = k
  generalize g s = b
  rw [add_assoc, add_comm]
  congr 1
  funext i
  generalize mod2 (αv s) = m
  clear e2 e3
  revert k b
  intro k b
  have hk : k = 0 ∨ k = 1 := by revert k; decide
  have h2 : m i + m i = 0 := by generalize m i = a; revert a; decide
  rcases hk with rfl | rfl <;> cases b <;> simp [h2]

theorem cayley_cross' {a : 𝒯} {s : Fin n} (hi : Imaginary cs f s (π a)) : Eqv ρ δ ι π (σ s * a) (σ s * (σ s * a * (τ (σ s))⁻¹)) := by
  obtain ⟨l, hl1, hl2⟩ := cs.exists_isReduced (π a)
  obtain ⟨x, hx⟩ := decomp hT a hl2.symm
  have hc' := imaginary_conj hT hρ hB hθ hd hp h hc hg (x := x) hl1 (s := s) (by rw [← hl2]; exact hi)
  rw [← hx] at hc'
  rw [hc']
  generalize (g s != decide (∑ i, mod2 (α s) i * x i = 1)) = b
  cases b
  · rw [if_neg (by simp), io_zero hT, one_mul]
    exact eqv_refl hT _
  · rw [if_pos rfl]
    refine ⟨αv s, ?_, ?_⟩
    · rw [map_mul, hT.proj_sigma]
      exact real_inv hρ hp h hd (cayleyReal hi)
    · rw [← mul_assoc, sigma_io hT hρ, rho_simple' hρ, wt_self hp h, mul_assoc]
      congr 2
      rw [mod2_sub, mod2_smul]
      simp only [Int.cast_ofNat]
      rw [show (2 : ZMod 2) = 0 from rfl, zero_smul, add_zero]

theorem cosetLaws : CosetLaws cs f α αv δ ρ ι σ π τ where
  involution a ha v := inv_inv hρ hd hθ (ti_of_valid hT hB hθ ha) v
  refl a := eqv_refl hT a
  symm a b e := eqv_symm hT e
  trans a b c e e' := eqv_trans hT e e'
  valid a b e ha := valid_eqv hT hρ hB e ha
  conj_valid a k ha := conj_valid hB a k ha
  conj_eqv a b k e := conj_eqv hT hρ hB hθ hd k e
  conj_weyl a k k' ha e := conj_weyl hT hρ hB hθ hd k k' ha e
  imaginary s w hi v := imaginary_root hρ hp h hd hi v
  real s w hi v := real_root hρ hp h hd hi v
  cayley_real s w hi := cayleyReal hi
  cayley_valid a s hi hn ha := cayley_valid' hT hρ hB hθ hd hp h hi hn ha
  cayley_eqv a b s hi e := cayley_eqv' hT hρ hB hθ hd hp h hi e
  cayley_cross a s hi := cayley_cross' hT hρ hB hθ hd hp h hc hg hi

end

end Verif.Tits
