import Verif.Tits.Laws
import Verif.Tits.Impl
import Verif.F2.SubProps
/-
The functions of the model compute with strong involutions.
-/
namespace Verif.Tits
open Verif Verif.F2 Verif.Weyl Verif.Coxeter CoxeterSystem
set_option linter.unusedSectionVars false

variable {n r : Nat} {C : Fin n → Fin n → Int} {Mx : CoxeterMatrix (Fin n)} {G : Type} [Group G]
variable {cs : CoxeterSystem Mx G} {α αv : Fin n → Fin r → Int} {ρ : G →* Module.End ℤ (Fin r → Int)} {δ : Matrix (Fin r) (Fin r) Int} {f : Fin n → Fin n}
variable {𝒯 : Type} [Group 𝒯] {ι : (Fin r → ZMod 2) → 𝒯} {σ : Fin n → 𝒯} {π : 𝒯 →* G} {g : Fin n → Bool} {τ : 𝒯 →* 𝒯} {ψ : 𝒯 → TE}
variable {nd : Bool} {c : TC} {φ : G → List Nat}

theorem canonical (hI : ImplementsTits nd cs c.T φ f α αv δ ι σ π ψ) : Canonical cs σ := by
  intro l l' h1 h2 e
  apply hI.injective
  have := hI.lift l h1
  have := hI.lift l' h2
  rw [← hI.lift l h1, ← hI.lift l' h2, e]

/-- elements, with their torus parts -/
theorem parts (hT : IsTits cs α αv ι σ π) (hI : ImplementsTits nd cs c.T φ f α αv δ ι σ π ψ) (a : 𝒯) :
    ∃ x l, cs.IsReduced l ∧ cs.wordProd l = π a ∧ a = ι x * (l.map σ).prod ∧ ψ a = ⟨bv x, φ (π a)⟩ := by
  obtain ⟨l, hl1, hl2⟩ := cs.exists_isReduced (π a)
  obtain ⟨x, hx⟩ := decomp hT a hl2.symm
  refine ⟨x, l, hl1, hl2.symm, hx, ?_⟩
  rw [hl2, ← hI.stored x l hl1, ← hx]

section
variable (hT : IsTits cs α αv ι σ π) (hρ : IsLatticeAction cs α αv ρ) (hB : IsBase f αv δ g ι σ τ) {θ : G →* G} (hθ : IsTwist cs f θ)
  (hd : DeltaOK f α αv δ) (hp : ∀ s t, ∑ i, α s i * αv t i = C s t) (h : IsCartan C Mx) (hg : ∀ s, g (f s) = g s)
  (hI : ImplementsTits nd cs c.T φ f α αv δ ι σ π ψ) (hW : Implements nd cs c.T.tw.W φ) (hf : ∀ s : Fin n, c.T.tw.twistedGen s = .ok (f s).1)
  (hr : r ≤ 32) (hn : n ≤ 32) (hgr : ∀ s : Fin n, c.grading.testBit s = g s)
include hT hρ hB hθ hd hp h hg hI hW hf hr hn hgr

theorem bsGrading (s : Fin n) : bsTest dim c.grading s = .ok (g s) := by
  unfold bsTest
  rw [if_pos (show s.1 < dim by unfold dim; have := s.2; omega), hgr]

theorem grading_eq {a : 𝒯} {x : Fin r → ZMod 2} {w : List Nat} (ha : ψ a = ⟨bv x, w⟩) (s : Fin n) :
    c.simpleGrading (ψ a) s = .ok (g s != decide (∑ i, mod2 (α s) i * x i = 1)) := by
  unfold TC.simpleGrading
  rw [bsGrading hT hρ hB hθ hd hp h hg hI hW hf hr hn hgr, Res.ok_bind, hI.root, Res.ok_bind, ha, bv_dot (by omega)]
  rfl

theorem grading_mul {a : 𝒯} {s : Fin n} {b : Bool} (e : c.simpleGrading (ψ a) s = .ok b) (x : Fin r → ZMod 2) :
    c.simpleGrading (ψ (ι x * a)) s = .ok (b ^^ decide (∑ i, mod2 (α s) i * x i = 1)) := by
  obtain ⟨y, l, h1, h2, h3, h4⟩ := parts hT hI a
  rw [grading_eq hT hρ hB hθ hd hp h hg hI hW hf hr hn hgr h4] at e
  have h5 : ψ (ι x * a) = ⟨bv (x + y), φ (π a)⟩ := by
    have e : ι x * a = ι (x + y) * (l.map σ).prod := by rw [h3, ← mul_assoc, ← hT.torus_mul]
    rw [e, hI.stored _ l h1, h2]
  rw [grading_eq hT hρ hB hθ hd hp h hg hI hW hf hr hn hgr h5]
  have e6 : ∑ i, mod2 (α s) i * (x + y) i = ∑ i, mod2 (α s) i * x i + ∑ i, mod2 (α s) i * y i := by simp [mul_add, Finset.sum_add_distrib]
  rw [← Res.ok.inj e]
  simp only [e6]
  generalize ∑ i, mod2 (α s) i * x i = p
  generalize ∑ i, mod2 (α s) i * y i = q
  generalize g s = k
  clear * -
  revert p q k
  decide

theorem grading_spec (a : 𝒯) (s : Fin n) : ∃ b, c.simpleGrading (ψ a) s = .ok b ∧
    (Imaginary cs f s (π a) → σ s * a * (τ (σ s))⁻¹ = ι (if b then mod2 (αv s) else 0) * a) ∧
    (∀ x, c.simpleGrading (ψ (ι x * a)) s = .ok (b ^^ decide (∑ i, mod2 (α s) i * x i = 1))) ∧
    ∀ a', Imaginary cs f s (π a) → Eqv ρ δ ι π a a' → c.simpleGrading (ψ a') s = .ok b := by
  obtain ⟨x, l, h1, h2, h3, h4⟩ := parts hT hI a
  have e := grading_eq hT hρ hB hθ hd hp h hg hI hW hf hr hn hgr h4 s
  refine ⟨_, e, ?_, fun y => grading_mul hT hρ hB hθ hd hp h hg hI hW hf hr hn hgr e y, ?_⟩
  · intro hi
    have := imaginary_conj hT hρ hB hθ hd hp h (canonical hI) hg (x := x) h1 (s := s) (by rw [h2]; exact hi)
    rw [← h3] at this
    exact this
  · rintro a' hi ⟨v, hv, rfl⟩
    rw [grading_mul hT hρ hB hθ hd hp h hg hI hW hf hr hn hgr e, ← mod2_wt, imaginary_orth hT hρ hB hθ hd hp h hi hv]
    simp

theorem strictCross_spec (a : 𝒯) (s : Fin n) : c.strictCross nd (ψ a) s = .ok (ψ (σ s * a * (τ (σ s))⁻¹)) := by
  unfold TC.strictCross
  rw [hI.twistedConjugate, Res.ok_bind, bsGrading hT hρ hB hθ hd hp h hg hI hW hf hr hn hgr, Res.ok_bind]
  have e2 : (τ (σ s))⁻¹ = (σ (f s))⁻¹ * ι (if g s then mod2 (αv (f s)) else 0) := by rw [hB.sigma, hg, mul_inv_rev, io_inv hT]
  rw [e2]
  by_cases hgs : g s = true
  · rw [if_pos hgs, if_pos hgs, hf, Res.ok_bind, hI.coroot, Res.ok_bind, hI.rightAdd, mul_assoc (σ s * a)]
  · rw [if_neg hgs, if_neg hgs, io_zero hT, mul_one]; rfl

theorem cross_spec (a : 𝒯) (s : Fin n) (ha : a * τ a = 1) : ∃ b, c.cross nd (ψ a) s = .ok (ψ b) ∧ Eqv ρ δ ι π (σ s * a * (τ (σ s))⁻¹) b := by
  unfold TC.cross
  rw [hI.twistedConjugate, Res.ok_bind, bsGrading hT hρ hB hθ hd hp h hg hI hW hf hr hn hgr, Res.ok_bind]
  have e2 : (τ (σ s))⁻¹ = (σ (f s))⁻¹ * ι (if g s then mod2 (αv (f s)) else 0) := by rw [hB.sigma, hg, mul_inv_rev, io_inv hT]
  by_cases hgs : g s = true
  · rw [if_pos hgs, hI.coroot, Res.ok_bind, hI.leftAdd]
    refine ⟨_, rfl, ?_⟩
    have hv := conj_valid hB a (σ s) ha
    have := torus_eqv hT hρ hB hθ hd hv (αv s)
    rw [tau_io hT hB, hd.coroot] at this
    refine cast (congrArg (Eqv ρ δ ι π _) ?_) this
    rw [e2, if_pos hgs, mul_assoc (ι _), ← mul_assoc (σ s * a), mul_assoc (σ s * a * _), io_sq hT, mul_one]
  · rw [if_neg hgs]
    refine ⟨_, rfl, ?_⟩
    rw [e2, if_neg hgs, io_zero hT, mul_one]
    exact eqv_refl hT _

theorem crossWord_spec (l : List (Fin n)) : ∀ (a k : 𝒯), a * τ a = 1 → π k = (cs.wordProd l)⁻¹ →
    ∃ b, c.crossWord nd (l.map Fin.val) (ψ a) = .ok (ψ b) ∧ Eqv ρ δ ι π (k * a * (τ k)⁻¹) b := by
  induction l with
  | nil =>
    intro a k ha hk
    refine ⟨a, rfl, ?_⟩
    have := conj_weyl hT hρ hB hθ hd k 1 ha (by rw [hk, cs.wordProd_nil, inv_one, map_one])
    rwa [map_one, inv_one, mul_one, one_mul] at this
  | cons s l ih =>
    intro a k ha hk
    obtain ⟨b, h1, h2⟩ := cross_spec hT hρ hB hθ hd hp h hg hI hW hf hr hn hgr a s ha
    have hb := valid_eqv hT hρ hB h2 (conj_valid hB a (σ s) ha)
    have hk' : π (k * (σ s)⁻¹) = (cs.wordProd l)⁻¹ := by
      rw [map_mul, map_inv, hk, hT.proj_sigma, cs.wordProd_cons, mul_inv_rev, cs.inv_simple, cs.simple_mul_simple_cancel_right]
    obtain ⟨d, h3, h4⟩ := ih b (k * (σ s)⁻¹) hb hk'
    refine ⟨d, ?_, ?_⟩
    · rw [List.map_cons, TC.crossWord, h1, Res.ok_bind, h3]
    · have h5 := conj_eqv hT hρ hB hθ hd (k * (σ s)⁻¹) h2
      have e : k * (σ s)⁻¹ * (σ s * a * (τ (σ s))⁻¹) * (τ (k * (σ s)⁻¹))⁻¹ = k * a * (τ k)⁻¹ := by rw [map_mul, map_inv]; group
      rw [e] at h5
      exact eqv_trans hT h5 h4

theorem crossWordLeft_spec (l : List (Fin n)) (a k : 𝒯) (ha : a * τ a = 1) (hk : π k = cs.wordProd l) :
    ∃ b, c.crossWordLeft nd (l.map Fin.val) (ψ a) = .ok (ψ b) ∧ Eqv ρ δ ι π (k * a * (τ k)⁻¹) b := by
  unfold TC.crossWordLeft
  rw [← List.map_reverse]
  exact crossWord_spec hT hρ hB hθ hd hp h hg hI hW hf hr hn hgr l.reverse a k ha (by rw [hk, cs.wordProd_reverse, _root_.inv_inv])

theorem twistedLoop_spec (l : List (Fin n)) (a : 𝒯) : c.twistedLoop nd (l.map Fin.val) (ψ a) = .ok (ψ (a * τ (l.map σ).prod)) := by
  induction l generalizing a with
  | nil => rw [List.map_nil, TC.twistedLoop, List.map_nil, List.prod_nil, map_one, mul_one]
  | cons s l ih =>
    have hcm : ι (mod2 (αv (f s))) * σ (f s) = σ (f s) * ι (mod2 (αv (f s))) := by
      rw [sigma_io hT hρ, rho_simple' hρ, wt_self hp h, mod2_sub, mod2_smul]
      simp only [Int.cast_ofNat]
      rw [show (2 : ZMod 2) = 0 from rfl, zero_smul, add_zero]
    rw [List.map_cons, TC.twistedLoop, hf, Res.ok_bind, hI.multSigma, Res.ok_bind, bsGrading hT hρ hB hθ hd hp h hg hI hW hf hr hn hgr, Res.ok_bind,
      List.map_cons, List.prod_cons, map_mul, hB.sigma]
    by_cases hgs : g (f s) = true
    · rw [if_pos hgs, if_pos hgs, hI.coroot, Res.ok_bind, hI.rightAdd, Res.ok_bind, ih, hcm]
      simp only [mul_assoc]
    · rw [if_neg hgs, if_neg hgs, io_zero hT, one_mul]
      show c.twistedLoop nd (l.map Fin.val) (ψ (a * σ (f s))) = _
      rw [ih, mul_assoc]

theorem twisted_spec (a : 𝒯) : c.twisted nd (ψ a) = .ok (ψ (τ a)) := by
  obtain ⟨x, l0, -, h2, -, h4⟩ := parts hT hI a
  obtain ⟨l, e1, e2, e3⟩ := hW.word (π a)
  have hl : cs.IsReduced l := by unfold CoxeterSystem.IsReduced; rw [e2, e3]
  obtain ⟨y, hy⟩ := decomp hT a e2
  have h5 : ψ a = ⟨bv y, φ (π a)⟩ := by rw [← e2, ← hI.stored y l hl, ← hy]
  unfold TC.twisted
  rw [h5]
  show (do let t ← c.T.twisted nd (bv y); let ww ← c.T.tw.W.word nd (φ (π a)); c.twistedLoop nd ww (c.T.torus t) : Res TE) = _
  rw [hI.twisted, Res.ok_bind, e1, Res.ok_bind, hI.torus, twistedLoop_spec hT hρ hB hθ hd hp h hg hI hW hf hr hn hgr, ← hB.torus, ← map_mul, ← hy]

theorem isValid_spec (a : 𝒯) : ∃ b, c.isValid nd none (ψ a) = .ok (b, some (ψ 1)) ∧ c.isValid nd (some (ψ 1)) (ψ a) = .ok (b, some (ψ 1)) ∧
    (b = true ↔ a * τ a = 1) := by
  obtain ⟨b, h1, -, h2⟩ := hI.eq (a * τ a) 1
  have key : ∀ e : Option TE, e.getD c.T.one = ψ 1 → c.isValid nd e (ψ a) = .ok (b, some (ψ 1)) := by
    intro e he
    unfold TC.isValid
    simp only [he]
    rw [twisted_spec hT hρ hB hθ hd hp h hg hI hW hf hr hn hgr, Res.ok_bind, hI.prod, Res.ok_bind, h1, Res.ok_bind]; rfl
  exact ⟨b, key none hI.one, key (some (ψ 1)) rfl, h2⟩

end

/-! ### subspaces -/

theorem vec_bv_mod {x y : Fin r → ZMod 2} : vec (bv x).data = vec (bv y).data ↔ x = y := by
  constructor
  · intro e
    funext i
    rw [← vec_bv x i, e, vec_bv]
  · rintro rfl; rfl

theorem vec_bv_add (x y : Fin r → ZMod 2) : vec (bv x).data + vec (bv y).data = vec (bv (x + y)).data := by
  have := bv_add true x y
  have e : (bv x).add true (bv y) = .ok ⟨(bv x).data ^^^ (bv y).data, r⟩ := add_ok' true ..
  rw [e] at this
  rw [← vec_xor]
  exact congrArg (fun v : BV => vec v.data) (Res.ok.inj this)

theorem fits_bv {v : BV} (hv : Fits r v) : ∃ x : Fin r → ZMod 2, v = bv x := ⟨fun i => vec v.data i, eq_bv hv fun _ => rfl⟩

theorem reduce_spec (hT : IsTits cs α αv ι σ π) (hI : ImplementsTits nd cs c.T φ f α αv δ ι σ π ψ) (hr : r ≤ 32) (a : 𝒯) (V : Sub)
    (hV : IsModSpace ρ δ (π a) V) : ∃ a', (ψ a).reduce nd V = .ok (ψ a') ∧ Eqv ρ δ ι π a a' ∧
      ∀ b, π b = π a → (Eqv ρ δ ι π a b ↔ (ψ b).reduce nd V = .ok (ψ a')) := by
  obtain ⟨U, h1, h2⟩ := hV
  obtain ⟨x, l, h3, h4, h5, h6⟩ := parts hT hI a
  obtain ⟨q, e1, e2, e3, -, -, e6⟩ := C34_representative nd (dim := dim) hr (by decide) h1 (bv_fits x)
  obtain ⟨y, rfl⟩ := fits_bv e2
  have hψ : ∀ z : Fin r → ZMod 2, ψ (ι z * (l.map σ).prod) = ⟨bv z, φ (π a)⟩ := fun z => by rw [hI.stored z l h3, h4]
  have hiff : ∀ z : Fin r → ZMod 2, vec (bv x).data + vec (bv z).data ∈ U ↔ Eqv ρ δ ι π a (ι z * (l.map σ).prod) := by
    intro z
    rw [vec_bv_add, h2]
    constructor
    · rintro ⟨v, k1, k2⟩
      refine ⟨v, k1, ?_⟩
      rw [h5, ← mul_assoc, ← hT.torus_mul, ← vec_bv_mod.1 k2]
      congr 2
      funext i
      simp only [Pi.add_apply]
      generalize x i = p
      generalize z i = q
      clear * -
      revert p q; decide
    · rintro ⟨v, k1, k2⟩
      refine ⟨v, k1, ?_⟩
      rw [h5, ← mul_assoc, ← hT.torus_mul] at k2
      have := hT.torus_injective (mul_right_cancel k2)
      rw [this]
      congr 3
      funext i
      simp only [Pi.add_apply]
      generalize x i = p
      generalize mod2 v i = q
      clear * -
      revert p q; decide
  refine ⟨ι y * (l.map σ).prod, ?_, (hiff y).1 e3, ?_⟩
  · unfold TE.reduce
    rw [h6, hψ]
    simp only [e1]; rfl
  · intro b hb
    obtain ⟨z, hz⟩ := decomp hT b (l := l) (by rw [h4, hb])
    rw [hz, ← hiff, ← e6 _ (bv_fits z)]
    unfold TE.reduce
    rw [hψ, hψ]
    simp only
    constructor
    · intro e; rw [e]; rfl
    · intro e
      cases k1 : V.representative nd dim (bv z) with
      | ok q =>
        rw [k1] at e
        have := Res.ok.inj e
        rw [TE.mk.injEq] at this
        rw [this.1]
      | _ => rw [k1] at e; cases e

/-! ### the inverse Cayley transform -/

theorem even_of_cast {k : Int} (e : ¬ ((k : ZMod 2) = 1)) : ∃ j, k = 2 * j := by
  have : (k : ZMod 2) = 0 := by generalize (k : ZMod 2) = a at e ⊢; revert a; decide
  exact (ZMod.intCast_zmod_eq_zero_iff_dvd k 2).1 this

section
variable (hT : IsTits cs α αv ι σ π) (hρ : IsLatticeAction cs α αv ρ) (hB : IsBase f αv δ g ι σ τ) {θ : G →* G} (hθ : IsTwist cs f θ)
  (hd : DeltaOK f α αv δ) (hp : ∀ s t, ∑ i, α s i * αv t i = C s t) (h : IsCartan C Mx)
include hT hρ hB hθ hd hp h

theorem half_eqv {b : 𝒯} {s : Fin n} (hi : Imaginary cs f s (π b)) {v : Fin r → Int} (hv : inv ρ δ (cs.simple s * π b) v = -v)
    (he : ¬ ((wt (α s) v : ZMod 2) = 1)) : Eqv ρ δ ι π b (ι (mod2 v) * b) ∨ Eqv ρ δ ι π b (ι (mod2 v + mod2 (αv s)) * b) := by
  obtain ⟨k, hk⟩ := even_of_cast he
  have h1 : inv ρ δ (π b) v = -v + (2 * k) • αv s := by
    rw [inv_eq, rho_mul', ← inv_eq ρ δ, rho_simple' hρ, imaginary_root hρ hp h hd hi, hk] at hv
    rw [← hv]; abel
  have h2 : inv ρ δ (π b) (v - k • αv s) = -(v - k • αv s) := by
    have : inv ρ δ (π b) (v - k • αv s) = inv ρ δ (π b) v - k • inv ρ δ (π b) (αv s) := by
      rw [inv_eq, map_sub, map_smul, map_sub, map_smul]; rfl
    rw [this, h1, imaginary_inv hρ hp h hd hi]
    rw [two_mul, add_smul]; abel
  have h3 : Eqv ρ δ ι π b (ι (mod2 (v - k • αv s)) * b) := ⟨_, h2, rfl⟩
  rw [mod2_sub, mod2_smul] at h3
  have hk2 : (k : ZMod 2) = 0 ∨ (k : ZMod 2) = 1 := by generalize (k : ZMod 2) = a; revert a; decide
  rcases hk2 with e | e
  · left; rwa [e, zero_smul, add_zero] at h3
  · right; rwa [e, one_smul] at h3

theorem half_eqv' {b : 𝒯} {s : Fin n} (hi : Imaginary cs f s (π b)) (hn : σ s * b * (τ (σ s))⁻¹ = ι (mod2 (αv s)) * b)
    {v : Fin r → Int} (hv : inv ρ δ (cs.simple s * π b) v = -v)
    (he : ¬ ((wt (α s) v : ZMod 2) = 1)) (x : Fin r → ZMod 2) (hx : x = mod2 v ∨ x = mod2 v + mod2 (αv s)) :
    Eqv ρ δ ι π b (ι x * b) ∨ Eqv ρ δ ι π (σ s * b * (τ (σ s))⁻¹) (ι x * b) := by
  rw [hn]
  have hm : ∀ y : Fin r → ZMod 2, Eqv ρ δ ι π b (ι y * b) → Eqv ρ δ ι π (ι (mod2 (αv s)) * b) (ι (y + mod2 (αv s)) * b) := by
    rintro y ⟨u, k1, k2⟩
    refine ⟨u, by rw [map_mul, pi_io hT, one_mul]; exact k1, ?_⟩
    rw [← mul_assoc, ← hT.torus_mul, hT.torus_injective (mul_right_cancel k2)]
  have hz : mod2 v + mod2 (αv s) + mod2 (αv s) = mod2 v := by
    funext i
    simp only [Pi.add_apply]
    generalize mod2 v i = p
    generalize mod2 (αv s) i = q
    clear * -
    revert p q; decide
  rcases half_eqv hT hρ hB hθ hd hp h hi hv he with e | e
  · rcases hx with rfl | rfl
    · exact .inl e
    · exact .inr (hm _ e)
  · rcases hx with rfl | rfl
    · have := hm _ e
      rw [hz] at this
      exact .inr this
    · exact .inl e

variable (hg : ∀ s, g (f s) = g s)
  (hI : ImplementsTits nd cs c.T φ f α αv δ ι σ π ψ) (hW : Implements nd cs c.T.tw.W φ) (hf : ∀ s : Fin n, c.T.tw.twistedGen s = .ok (f s).1)
  (hr : r ≤ 32) (hn : n ≤ 32) (hgr : ∀ s : Fin n, c.grading.testBit s = g s)
include hg hI hW hf hr hn hgr

theorem adjust_spec (s : Fin n) (a : 𝒯) : ∀ l : List BV, (∀ b ∈ l, Fits r b) →
    (∃ b ∈ l, ∃ x : Fin r → ZMod 2, b = bv x ∧ ∑ i, mod2 (α s) i * x i = 1) →
    ∃ x : Fin r → ZMod 2, bv x ∈ l ∧ ∑ i, mod2 (α s) i * x i = 1 ∧ c.adjust nd (bv (mod2 (α s))) l (ψ a) = .ok (ψ (ι x * a)) := by
  intro l
  induction l with
  | nil => rintro - ⟨b, hb, -⟩; cases hb
  | cons b l ih =>
    intro hl he
    obtain ⟨x, rfl⟩ := fits_bv (hl b (by simp))
    rw [TC.adjust, bv_dot (by omega)]
    by_cases hx : ∑ i, mod2 (α s) i * x i = 1
    · rw [if_pos (decide_eq_true hx)]
      exact ⟨x, by simp, hx, hI.leftAdd x a⟩
    · rw [if_neg (by simpa using hx)]
      obtain ⟨y, h1, h2, h3⟩ := ih (fun b hb => hl b (List.mem_cons_of_mem _ hb)) (by
        obtain ⟨b, hb, y, rfl, hy⟩ := he
        rcases List.mem_cons.1 hb with e | hb
        · refine absurd hy ?_
          have : y = x := vec_bv_mod.1 (by rw [e])
          rw [this]; exact hx
        · exact ⟨_, hb, y, rfl, hy⟩)
      exact ⟨y, List.mem_cons_of_mem _ h1, h2, h3⟩

theorem inverseCayley_spec (a b : 𝒯) (s : Fin n) (V : Sub) (hi : Imaginary cs f s (π b)) (hgb : c.simpleGrading (ψ b) s = .ok true)
    (hab : Eqv ρ δ ι π (σ s * b) a) (hV : IsModSpace ρ δ (π a) V) :
    ∃ d, c.inverseCayley nd (ψ a) s V = .ok (ψ d) ∧ (Eqv ρ δ ι π b d ∨ Eqv ρ δ ι π (σ s * b * (τ (σ s))⁻¹) d) := by
  have hnc : σ s * b * (τ (σ s))⁻¹ = ι (mod2 (αv s)) * b := by
    obtain ⟨q, k1, k2, -⟩ := grading_spec hT hρ hB hθ hd hp h hg hI hW hf hr hn hgr b s
    rw [hgb] at k1
    have := k2 hi
    rwa [← Res.ok.inj k1, if_pos rfl] at this
  have hpa := hab.pi hT
  rw [map_mul, hT.proj_sigma] at hpa
  rw [hpa] at hV
  obtain ⟨U, hU, hUV⟩ := hV
  obtain ⟨v, hv, rfl⟩ := hab
  rw [map_mul, hT.proj_sigma] at hv
  have e1 : (σ s)⁻¹ * (ι (mod2 v) * (σ s * b)) = ι (mod2 (ρ (cs.simple s) v)) * b := by
    have : ι (mod2 v) * σ s = σ s * ι (mod2 (ρ (cs.simple s) v)) := by
      rw [sigma_io hT hρ, ← rho_mul', cs.simple_mul_simple_self, rho_one']
    rw [← mul_assoc (ι _), this]; group
  have e2 : mod2 (ρ (cs.simple s) v) = mod2 v + (wt (α s) v : ZMod 2) • mod2 (αv s) := by rw [rho_simple' hρ, mod2_sub, mod2_smul]
  have e3 : ∑ i, mod2 (α s) i * mod2 (ρ (cs.simple s) v) i = (wt (α s) v : ZMod 2) := by
    rw [← mod2_wt, rho_simple' hρ, map_sub, map_smul, wt_self hp h]
    push_cast [smul_eq_mul]
    generalize (wt (α s) v : ZMod 2) = k
    clear * -
    revert k; decide
  have e4 := grading_mul hT hρ hB hθ hd hp h hg hI hW hf hr hn hgr hgb (mod2 (ρ (cs.simple s) v))
  rw [e3] at e4
  unfold TC.inverseCayley
  rw [hI.sigmaInvMult, Res.ok_bind, e1, e4, Res.ok_bind]
  by_cases ho : (wt (α s) v : ZMod 2) = 1
  · rw [if_neg (by simp [ho]), hI.root, Res.ok_bind]
    obtain ⟨y, h1, h2, h3⟩ := adjust_spec hT hρ hB hθ hd hp h hg hI hW hf hr hn hgr s (ι (mod2 (ρ (cs.simple s) v)) * b) V.basis
      hU.reduced.fits (by
        by_contra hne
        have hall : ∀ u ∈ U, ∑ i : Fin r, mod2 (α s) i * u i = 0 := by
          rw [← hU.span]
          intro u hu
          induction hu using Submodule.span_induction with
          | mem u hu =>
            obtain ⟨b, hb, rfl⟩ := hu
            obtain ⟨x, rfl⟩ := fits_bv (hU.reduced.fits b hb)
            simp only [vec_bv]
            have : ¬ ∑ i, mod2 (α s) i * x i = 1 := fun e => hne ⟨_, hb, x, rfl, e⟩
            generalize ∑ i, mod2 (α s) i * x i = k at this ⊢
            clear * - this
            revert k; decide
          | zero => simp
          | add u u' _ _ h1 h2 => simp only [Pi.add_apply, mul_add, Finset.sum_add_distrib, h1, h2, add_zero]
          | smul k u _ h1 => simp only [Pi.smul_apply, smul_eq_mul, mul_left_comm, ← Finset.mul_sum, h1, mul_zero]
        have := hall _ ((hUV _).2 ⟨v, hv, rfl⟩)
        simp only [vec_bv] at this
        rw [← mod2_wt, ho] at this
        exact one_ne_zero this)
    rw [h3, Res.ok_bind]
    have h4 := grading_mul hT hρ hB hθ hd hp h hg hI hW hf hr hn hgr e4 y
    simp only [ho, h2] at h4
    have h5 : (if nd then pure true else c.simpleGrading (ψ (ι y * (ι (mod2 (ρ (cs.simple s) v)) * b))) s : Res Bool) = .ok true := by
      cases nd
      · rw [if_neg (by simp), h4]; rfl
      · rfl
    rw [h5, Res.ok_bind, Res.assertIn_bind nd (c := true) rfl]
    refine ⟨_, rfl, ?_⟩
    obtain ⟨u, hu1, hu2⟩ := (hUV (vec (bv y).data)).1 (by rw [← hU.span]; exact Submodule.subset_span ⟨_, h1, rfl⟩)
    have hy := vec_bv_mod.1 hu2
    rw [← mul_assoc, ← hT.torus_mul]
    refine half_eqv' hT hρ hB hθ hd hp h hi hnc (v := v + u) ?_ ?_ _ (.inr ?_)
    · rw [inv_eq] at hv hu1 ⊢
      rw [map_add, map_add, hv, hu1, neg_add]
    · rw [map_add]
      push_cast
      rw [ho, mod2_wt, ← hy, h2]
      decide
    · rw [e2, ho, one_smul, hy, mod2_add]; abel
  · rw [if_pos (by simp [ho])]
    refine ⟨_, rfl, half_eqv' hT hρ hB hθ hd hp h hi hnc hv ho _ (.inl ?_)⟩
    rw [e2]
    have : (wt (α s) v : ZMod 2) = 0 := by generalize (wt (α s) v : ZMod 2) = k at ho ⊢; clear * - ho; revert k; decide
    rw [this, zero_smul, add_zero]

theorem implementsCoset : ImplementsCoset nd cs c f α αv δ g ρ ι σ π τ ψ where
  grading := grading_spec hT hρ hB hθ hd hp h hg hI hW hf hr hn hgr
  grading_lift l s hl := by
    have e : ψ (l.map σ).prod = ⟨bv (0 : Fin r → ZMod 2), φ (cs.wordProd l)⟩ := by rw [← hI.stored 0 l hl, io_zero hT, one_mul]
    rw [grading_eq hT hρ hB hθ hd hp h hg hI hW hf hr hn hgr e]
    simp
  strictCross := strictCross_spec hT hρ hB hθ hd hp h hg hI hW hf hr hn hgr
  cross := cross_spec hT hρ hB hθ hd hp h hg hI hW hf hr hn hgr
  crossWordLeft a l k := crossWordLeft_spec hT hρ hB hθ hd hp h hg hI hW hf hr hn hgr l a k
  crossWord a l k := crossWord_spec hT hρ hB hθ hd hp h hg hI hW hf hr hn hgr l a k
  twisted := twisted_spec hT hρ hB hθ hd hp h hg hI hW hf hr hn hgr
  isValid := isValid_spec hT hρ hB hθ hd hp h hg hI hW hf hr hn hgr
  cayley a s := hI.sigmaMult s a
  inverseCayley := inverseCayley_spec hT hρ hB hθ hd hp h hg hI hW hf hr hn hgr
  reduce := reduce_spec hT hI hr

end

end Verif.Tits
