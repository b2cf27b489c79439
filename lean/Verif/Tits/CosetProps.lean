import Verif.Tits.CosetImpl
import Verif.Tits.Delta
import Verif.Tits.Props
import Verif.Mat.PropsLattice
/-
C67: the class `TitsCoset` computes with strong involutions.
-/
namespace Verif.Tits
open Verif Verif.F2 Verif.Weyl Verif.Coxeter CoxeterSystem
open scoped Matrix
set_option linter.unusedSectionVars false

variable {n r : Nat} {C : Fin n → Fin n → Int} {G : Type} [Group G]

theorem deltaOK {f : Fin n → Fin n} {α αv : Fin n → Fin r → Int} {δ : Matrix (Fin r) (Fin r) Int} (hf1 : ∀ s, f (f s) = s) (h1 : δ * δ = 1)
    (h2 : ∀ s, δ *ᵥ α s = α (f s)) (h3 : ∀ s, αv s ᵥ* δ = αv (f s)) : DeltaOK f α αv δ := by
  have e : ∀ v, dt δ v = v ᵥ* δ := fun v => by
    funext i
    show ∑ j, δ j i * v j = ∑ j, v j * δ j i
    exact Finset.sum_congr rfl fun j _ => mul_comm _ _
  refine ⟨fun v => ?_, fun s => ?_, fun s v => ?_⟩
  · rw [e, e, Matrix.vecMul_vecMul, h1, Matrix.vecMul_one]
  · rw [e, h3]
  · rw [e]
    have : ∀ a v : Fin r → Int, wt a v = v ⬝ᵥ a := fun a v => by
      rw [wt_apply, dotProduct_comm]; rfl
    rw [this, this, ← Matrix.dotProduct_mulVec, h2, hf1]

/-- the map of torus parts -/
def d2 (δ : Matrix (Fin r) (Fin r) Int) : (Fin r → ZMod 2) →ₗ[ZMod 2] (Fin r → ZMod 2) where
  toFun x := fun i => ∑ j, (δ j i : ZMod 2) * x j
  map_add' x y := by funext i; simp [mul_add, Finset.sum_add_distrib]
  map_smul' a x := by
    funext i
    simp only [Pi.smul_apply, smul_eq_mul, RingHom.id_apply, Finset.mul_sum]
    exact Finset.sum_congr rfl fun j _ => by ring

theorem d2_mod2 (δ : Matrix (Fin r) (Fin r) Int) (v : Fin r → Int) : d2 δ (mod2 v) = mod2 (dt δ v) := by
  funext i
  simp [d2, mod2, dt]

theorem compat {f : Fin n → Fin n} {α αv : Fin n → Fin r → Int} {δ : Matrix (Fin r) (Fin r) Int} (hd : DeltaOK f α αv δ)
    (hp : ∀ s t, ∑ i, α s i * αv t i = C s t) : (datum α αv hp).Compat f (d2 δ) where
  invol x := by
    obtain ⟨v, rfl⟩ := mod2_surj x
    rw [d2_mod2, d2_mod2, hd.invol]
  coroot s := by rw [datum_m, datum_m, d2_mod2, hd.coroot]
  root s x := by
    obtain ⟨v, rfl⟩ := mod2_surj x
    rw [d2_mod2, datum_ev, datum_ev, ← mod2_wt, ← mod2_wt, hd.root]

section
variable {M : CoxeterMatrix (Fin n)} {cs : CoxeterSystem M G} {h : IsCartan C M} [Fintype G]

theorem isBase {f : Fin n → Fin n} {α αv : Fin n → Fin r → Int} {δ : Matrix (Fin r) (Fin r) Int} (hd : DeltaOK f α αv δ)
    (hp : ∀ s t, ∑ i, α s i * αv t i = C s t) {θ : G →* G} (hθ : IsTwist cs f θ) {g : Fin n → Bool} (hg : ∀ s, g (f s) = g s) :
    IsBase f αv δ g (iota : _ → Elt (datum α αv hp) cs h) sigma (tau h (compat hd hp) hθ fun s => if g s then 1 else 0) where
  invol a := tau_tau h (compat hd hp) hθ (fun s => by rw [hg]) a
  torus x := tau_iota h (compat hd hp) hθ _ x
  sigma s := by
    rw [tau_sigma, datum_m]
    congr 2
    by_cases e : g (f s) = true
    · rw [if_pos e, if_pos e, one_smul]
    · rw [if_neg e, if_neg e, zero_smul]

end

/-- **C67.** For a group of any semisimple type, the root datum and the twist given, and for any base grading invariant under the twist, the class
`TitsCoset` computes with strong involutions `a·δ`, where `a` is in the Tits group: there is an automorphism `τ` of this group that is conjugation by
`δ`; up to conjugation by the torus, conjugation by the Weyl group and Cayley transforms are well defined and have the expected properties, and
the functions compute them. -/
theorem C67_titsCoset (nd : Bool) {comps : List Comp} (h : IsDynkin n C comps) (hd : ∀ s, C s s = 2) (hn : ∀ s t, s ≠ t → C s t ≤ 0)
    (hz : ∀ s t, C s t = 0 → C t s = 0) {f : Fin n → Fin n} (hf1 : ∀ s, f (f s) = s) (hf2 : ∀ s t, C (f s) (f t) = C s t)
    (cs : CoxeterSystem (coxMatrix C) G) (tw : List Nat) (ht : ∀ s : Fin n, tw[s.1]? = some (f s).1)
    (hr : r ≤ 32) (α αv : Fin n → Fin r → Int) (hp : ∀ s t, ∑ i, α s i * αv t i = C s t) (δ : Matrix (Fin r) (Fin r) Int)
    (h1 : δ * δ = 1) (h2 : ∀ s, δ *ᵥ α s = α (f s)) (h3 : ∀ s, αv s ᵥ* δ = αv (f s))
    (g : Fin n → Bool) (hg : ∀ s, g (f s) = g s) (grading : Nat) (hgr : ∀ s : Fin n, grading.testBit s = g s) :
    ∃ W φ T, WG.make nd n comps = .ok W ∧ Implements nd cs W φ ∧
      TG.make nd ⟨W, tw⟩ r (List.ofFn fun s => List.ofFn (α s)) (List.ofFn fun s => List.ofFn (αv s)) (Mat.enc δ) = .ok T ∧
      ∃ (𝒯 : Type) (_ : Group 𝒯) (ι : (Fin r → ZMod 2) → 𝒯) (σ : Fin n → 𝒯) (π : 𝒯 →* G) (ψ : 𝒯 → TE)
        (ρ : G →* Module.End ℤ (Fin r → Int)) (τ : 𝒯 →* 𝒯),
        IsTits cs α αv ι σ π ∧ ImplementsTits nd cs T φ f α αv δ ι σ π ψ ∧ IsLatticeAction cs α αv ρ ∧ IsBase f αv δ g ι σ τ ∧
        CosetLaws cs f α αv δ ρ ι σ π τ ∧ ImplementsCoset nd cs ⟨T, grading⟩ f α αv δ g ρ ι σ π τ ψ := by
  obtain ⟨W, φ, θ, k1, k2, hθ, k4⟩ := C47_twisted nd h hd hn hz hf1 hf2 cs tw ht
  obtain ⟨T, e1, e2, e3, e6, e4, e5⟩ := make_ok nd ⟨W, tw⟩ hr α αv hp δ
  obtain ⟨_⟩ := Implements.fintype k2
  have hC := isCartan_of_dynkin h hd hn hz
  have hD := deltaOK hf1 h1 h2 h3
  obtain ⟨ρ, hρ⟩ := exists_latticeAction hp hC cs
  have hT := isTits α αv hp cs hC
  have hW' : Implements nd cs T.tw.W φ := by rw [e2]; exact k2
  have hf' : ∀ s : Fin n, T.tw.twistedGen s = .ok (f s).1 := by rw [e2]; exact k4.twistedGen
  have hI := implementsTits (δ := δ) e3 hC hW' hf' e4 e5 e6 e3.coroot
  have hB := isBase (cs := cs) (h := hC) hD hp hθ hg
  exact ⟨W, φ, T, k1, k2, e1, Elt (datum α αv hp) cs hC, inferInstance, iota, sigma, proj, psi φ, ρ, _, hT, hI, hρ, hB,
    cosetLaws hT hρ hB hθ hD hp hC (canonical (c := ⟨T, grading⟩) hI) hg,
    implementsCoset (c := ⟨T, grading⟩) hT hρ hB hθ hD hp hC hg hI hW' hf' hr h.rank_le hgr⟩

theorem adjointGrading_ok {T : TG} {f : Fin n → Fin n} (hf : ∀ s : Fin n, T.tw.twistedGen s = .ok (f s).1) (hn : n ≤ 32) :
    ∀ k i g0, i + k = n → ∃ g1, TC.adjointGrading T k i g0 = .ok g1 ∧ (∀ j, j < i → g1.testBit j = g0.testBit j) ∧
      ∀ s : Fin n, i ≤ s.1 → g1.testBit s = decide (f s = s) := by
  intro k
  induction k with
  | zero => intro i g0 hi; exact ⟨g0, rfl, fun _ _ => rfl, fun s hs => absurd s.2 (by omega)⟩
  | succ k ih =>
    intro i g0 hi
    rw [TC.adjointGrading, hf ⟨i, by omega⟩, Res.ok_bind, bsSet_ok (by unfold dim; omega), Res.ok_bind]
    obtain ⟨g1, k1, k2, k3⟩ := ih (i + 1) (putBit g0 i (decide ((f ⟨i, by omega⟩).1 = i))) (by omega)
    refine ⟨g1, k1, fun j hj => ?_, fun s hs => ?_⟩
    · rw [k2 j (by omega), testBit_putBit, if_neg (by omega)]
    · by_cases e : s.1 = i
      · subst e
        rw [k2 _ (by omega), testBit_putBit, if_pos rfl]
        simp only [Fin.ext_iff]
      · exact k3 s (by omega)

/-- **C67** for the adjoint group of a Cartan matrix: the base grading is true for the simple roots fixed by the twist. -/
theorem C67_adjoint (nd : Bool) {comps : List Comp} (h : IsDynkin n C comps) (hd : ∀ s, C s s = 2) (hn : ∀ s t, s ≠ t → C s t ≤ 0)
    (hz : ∀ s t, C s t = 0 → C t s = 0) {f : Fin n → Fin n} (hf1 : ∀ s, f (f s) = s) (hf2 : ∀ s t, C (f s) (f t) = C s t)
    (cs : CoxeterSystem (coxMatrix C) G) (tw : List Nat) (ht : ∀ s : Fin n, tw[s.1]? = some (f s).1) :
    ∃ W φ c, WG.make nd n comps = .ok W ∧ Implements nd cs W φ ∧ TC.makeAdjoint nd (Mat.enc (Matrix.of C)) ⟨W, tw⟩ n = .ok c ∧
      ∃ (𝒯 : Type) (_ : Group 𝒯) (ι : (Fin n → ZMod 2) → 𝒯) (σ : Fin n → 𝒯) (π : 𝒯 →* G) (ψ : 𝒯 → TE)
        (ρ : G →* Module.End ℤ (Fin n → Int)) (τ : 𝒯 →* 𝒯),
        IsTits cs (fun s i => if i = s then 1 else 0) (fun s i => C i s) ι σ π ∧
        ImplementsTits nd cs c.T φ f (fun s i => if i = s then 1 else 0) (fun s i => C i s) (Matrix.of fun i j => if i = f j then 1 else 0) ι σ π ψ ∧
        IsLatticeAction cs (fun s i => if i = s then 1 else 0) (fun s i => C i s) ρ ∧
        IsBase f (fun s i => C i s) (Matrix.of fun i j => if i = f j then 1 else 0) (fun s => decide (f s = s)) ι σ τ ∧
        CosetLaws cs f (fun s i => if i = s then 1 else 0) (fun s i => C i s) (Matrix.of fun i j => if i = f j then 1 else 0) ρ ι σ π τ ∧
        ImplementsCoset nd cs c f (fun s i => if i = s then 1 else 0) (fun s i => C i s) (Matrix.of fun i j => if i = f j then 1 else 0)
          (fun s => decide (f s = s)) ρ ι σ π τ ψ := by
  obtain ⟨W, φ, θ, k1, k2, hθ, k4⟩ := C47_twisted nd h hd hn hz hf1 hf2 cs tw ht
  obtain ⟨T, e1, e2, e3, e6, e4, e5⟩ := makeAdjoint_ok nd ⟨W, tw⟩ h.rank_le C ht
  obtain ⟨_⟩ := Implements.fintype k2
  have hC := isCartan_of_dynkin h hd hn hz
  have hinj : Function.Injective f := fun a b e => by rw [← hf1 a, e, hf1]
  have hD : DeltaOK f adjRoot (adjCoroot C) (permMatrix f) := by
    refine deltaOK hf1 ?_ (fun s => ?_) fun s => ?_
    · ext i j
      rw [Matrix.mul_apply, Finset.sum_eq_single (f j)]
      · simp [permMatrix, hf1, Matrix.one_apply]
      · intro b _ hb
        simp [permMatrix, hb]
      · simp
    · funext i
      show ∑ j, permMatrix f i j * adjRoot s j = _
      rw [Finset.sum_eq_single s]
      · simp [permMatrix, adjRoot]
      · intro b _ hb; simp [adjRoot, hb]
      · simp
    · funext i
      show ∑ j, adjCoroot C s j * permMatrix f j i = _
      rw [Finset.sum_eq_single (f i)]
      · simp only [permMatrix, adjCoroot, Matrix.of_apply, if_true, mul_one]
        rw [← hf2 (f i), hf1]
      · intro b _ hb; simp [permMatrix, hb]
      · simp
  obtain ⟨ρ, hρ⟩ := exists_latticeAction (adj_pair C) hC cs
  have hT := isTits adjRoot (adjCoroot C) (adj_pair C) cs hC
  have hW' : Implements nd cs T.tw.W φ := by rw [e2]; exact k2
  have hf' : ∀ s : Fin n, T.tw.twistedGen s = .ok (f s).1 := by rw [e2]; exact k4.twistedGen
  have hI := implementsTits (δ := permMatrix f) e3 hC hW' hf' e4 e5 e6 e3.coroot
  obtain ⟨gr, q1, -, q3⟩ := adjointGrading_ok hf' h.rank_le n 0 0 (by omega)
  have hg : ∀ s, decide (f (f s) = f s) = decide (f s = s) := fun s => by
    by_cases e : f s = s
    · simp [e]
    · rw [decide_eq_false e, decide_eq_false fun e' => e (hinj e')]
  have hB := isBase (cs := cs) (h := hC) hD (adj_pair C) hθ (g := fun s => decide (f s = s)) hg
  refine ⟨W, φ, ⟨T, gr⟩, k1, k2, ?_, Elt (datum adjRoot (adjCoroot C) (adj_pair C)) cs hC, inferInstance, iota, sigma, proj, psi φ, ρ, _, hT, hI, hρ, hB,
    cosetLaws hT hρ hB hθ hD (adj_pair C) hC (canonical (c := ⟨T, gr⟩) hI) hg,
    implementsCoset (c := ⟨T, gr⟩) hT hρ hB hθ hD (adj_pair C) hC hg hI hW' hf' h.rank_le h.rank_le fun s => q3 s (by omega)⟩
  unfold TC.makeAdjoint
  rw [e1, Res.ok_bind, q1]; rfl

theorem vec_out {x n i : Nat} (hx : x < 2 ^ n) (hi : n ≤ i) : vec x i = 0 :=
  vec_eq_zero.2 (Nat.testBit_lt_two_pow (hx.trans_le (Nat.pow_le_pow_right (by omega) hi)))

/-- **C67**: `fiber_denom` finds the subspace of the torus parts by which the representatives may be changed, the matrix of the involution of
the weights given. -/
theorem C67_fiberDenom (nd : Bool) (hr : r ≤ 32) (Θ : Matrix (Fin r) (Fin r) Int) {ρ : G →* Module.End ℤ (Fin r → Int)} {δ : Matrix (Fin r) (Fin r) Int}
    {w : G} (hΘ : ∀ v, v ᵥ* Θ = inv ρ δ w v) : ∃ V, fiberDenom nd (Mat.enc Θ) = .ok V ∧ IsModSpace ρ δ w V := by
  obtain ⟨k, K, h1, h2⟩ := Mat.C46_eigenLattice nd (by omega) Θᵀ (-1)
  obtain ⟨A, h3, h4, h5⟩ := bmOfMat_ok nd hr K
  obtain ⟨V, U, h6, h7, h8⟩ := C34_ofMatrix nd (dim := dim) hr (by decide) h4
  refine ⟨V, ?_, U, h7, fun u => ?_⟩
  · unfold fiberDenom
    rw [Mat.C45_transposed, Res.ok_bind, h1, Res.ok_bind, h3, Res.ok_bind, h6]
  · have key : ∀ c : Fin k → Int, vec (bv (mod2 (K *ᵥ c))).data = act A k fun j => if hj : j < k then (c ⟨j, hj⟩ : ZMod 2) else 0 := by
      intro c
      funext i
      unfold act
      rw [Finset.sum_range]
      by_cases hi : i < r
      · have := vec_bv (mod2 (K *ᵥ c)) ⟨i, hi⟩
        simp only at this
        rw [this, mod2, Matrix.mulVec, dotProduct]
        push_cast
        refine Finset.sum_congr rfl fun j _ => ?_
        rw [dif_pos j.2]
        exact congrArg (· * _) (h5 ⟨i, hi⟩ j).symm
      · rw [vec_out (bv_fits _).2 (by omega)]
        refine (Finset.sum_eq_zero fun j _ => ?_).symm
        rw [show entry A i j = 0 from ?_, zero_mul]
        unfold entry
        rw [List.getD_eq_getElem?_getD]
        cases e : A.cols[j.1]? with
        | none => exact vec_out (show (0 : Nat) < 2 ^ r from Nat.two_pow_pos r) (by omega)
        | some x => exact vec_out (h4.fits x (List.mem_of_getElem? e)) (by omega)
    rw [h8]
    constructor
    · rintro ⟨x, rfl⟩
      obtain ⟨c, hc⟩ := mod2_surj fun j : Fin k => x j
      refine ⟨K *ᵥ c, ?_, ?_⟩
      · have := (h2.span (K *ᵥ c)).2 ⟨c, rfl⟩
        rw [Matrix.mulVec_transpose, hΘ] at this
        rw [this, neg_one_smul]
      · rw [key]
        unfold act
        funext i
        refine Finset.sum_congr rfl fun j hj => ?_
        simp only [dif_pos (Finset.mem_range.1 hj)]
        have := congrFun hc ⟨j, Finset.mem_range.1 hj⟩
        exact congrArg (_ * ·) this.symm
    · rintro ⟨v, hv, rfl⟩
      obtain ⟨c, rfl⟩ := (h2.span v).1 (by rw [Matrix.mulVec_transpose, hΘ, hv, neg_one_smul])
      exact ⟨_, (key c).symm⟩

/-- The function `is_valid` fails an assertion for a strong involution if its first call in the program was for a group of another rank. -/
theorem C67_isValid_static_false {c c' : TC} {M : CoxeterMatrix (Fin n)} {cs : CoxeterSystem M G} {φ : G → List Nat} {f : Fin n → Fin n}
    {α αv : Fin n → Fin r → Int} {δ : Matrix (Fin r) (Fin r) Int} {𝒯 : Type} [Group 𝒯] {ι : (Fin r → ZMod 2) → 𝒯} {σ : Fin n → 𝒯} {π : 𝒯 →* G}
    {g : Fin n → Bool} {ρ : G →* Module.End ℤ (Fin r → Int)} {τ : 𝒯 →* 𝒯} {ψ : 𝒯 → TE}
    (hI : ImplementsTits false cs c.T φ f α αv δ ι σ π ψ) (hc : ImplementsCoset false cs c f α αv δ g ρ ι σ π τ ψ)
    (hr : c'.T.rank ≠ c.T.rank) {a : 𝒯} (ha : a * τ a = 1) : c.isValid false (some c'.T.one) (ψ a) = .assertFail := by
  unfold TC.isValid
  simp only [Option.getD_some]
  rw [hc.twisted, Res.ok_bind, hI.prod, Res.ok_bind, ha, ← hI.one]
  unfold TE.eq
  rw [if_pos (show c.T.one.w = c'.T.one.w from rfl)]
  have : c.T.one.t.eq false c'.T.one.t = .assertFail := by
    unfold BV.eq
    rw [show Res.assertIn false (decide (c.T.one.t.size = c'.T.one.t.size)) = .assertFail from by
      rw [decide_eq_false (show c.T.one.t.size ≠ c'.T.one.t.size from fun e => hr e.symm)]; rfl]
    rfl
  rw [this]; rfl

/-! ### an example: GL(5), with the automorphism that is minus the reversal of the coordinates -/

/-- the hypotheses of `C67_titsCoset` and `C67_isValid_static_false` are met; the other group is that of rank 3 -/
example : ∃ W T a, WG.make false 4 exCompsA = .ok W ∧
    TG.make false ⟨W, [3, 2, 1, 0]⟩ 5 (List.ofFn fun s => List.ofFn (exRoot s)) (List.ofFn fun s => List.ofFn (exRoot s)) (Mat.enc exDelta) = .ok T ∧
    ∀ c' : TC, c'.T.rank = 3 → TC.isValid false ⟨T, 9⟩ (some c'.T.one) a = .assertFail := by
  obtain ⟨W, φ, T, h1, -, h2, 𝒯, _, ι, σ, π, ψ, ρ, τ, hT, h3, -, -, -, h4⟩ :=
    C67_titsCoset false exDynkinA (by decide) (by decide) (by decide) (f := exTwist) (by decide) (by decide)
      (coxMatrix exCA).toCoxeterSystem [3, 2, 1, 0] (by decide) (r := 5) (by decide) exRoot exRoot (by decide) exDelta (by decide) (by decide) (by decide)
      (fun s => s.1 == 0 || s.1 == 3) (by decide) 9 (by decide)
  refine ⟨W, T, ψ 1, h1, h2, fun c' hc' => C67_isValid_static_false (c := ⟨T, 9⟩) h3 h4 ?_ (by rw [map_one, mul_one])⟩
  have : T.one.t.size = 5 := by
    have e := h3.stored 0 [] (by simp [CoxeterSystem.IsReduced])
    rw [io_zero hT, one_mul, List.map_nil, List.prod_nil] at e
    rw [h3.one, e]; rfl
  have h5 : T.rank = 5 := this
  show c'.T.rank ≠ T.rank
  rw [hc', h5]; decide

example := C67_adjoint false exDynkinA (by decide) (by decide) (by decide) (f := exTwist) (by decide) (by decide)
  (coxMatrix exCA).toCoxeterSystem [3, 2, 1, 0] (by decide)

/-- the hypothesis of `C67_fiberDenom` is met at the base element -/
example (ρ : Unit →* Module.End ℤ (Fin 5 → Int)) : ∃ V, fiberDenom false (Mat.enc exDelta) = .ok V ∧ IsModSpace ρ exDelta (1 : Unit) V :=
  C67_fiberDenom false (by decide) exDelta fun v => by
    rw [inv, map_one]
    funext i
    show ∑ j, v j * exDelta j i = ∑ j, exDelta j i * v j
    exact Finset.sum_congr rfl fun j _ => mul_comm _ _

end Verif.Tits
