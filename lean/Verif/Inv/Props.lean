import Verif.Inv.Y
/-
**C72**: the table of involutions that is built one Cartan class after the other.
-/
set_option linter.unusedSectionVars false

namespace Verif.Inv
open Verif Verif.Root Verif.Mat Verif.Datum Verif.Weyl Verif.Coxeter CoxeterSystem
open scoped Matrix

variable {n r : Nat} {Mx : CoxeterMatrix (Fin n)} {G : Type} [Group G]
variable {nd : Bool} {cs : CoxeterSystem Mx G} {α αv : Fin n → Fin r → ℤ} {comps : List Comp} {pc : Bool} {rd : RD} {N : Nat} {R R' : Nat → Fin n → ℤ}
  {T : TWG} {φ : G → List Nat} {f : Fin n → Fin n} {θ : G →* G} {δ : Matrix (Fin r) (Fin r) ℤ} {A : G →* Matrix (Fin r) (Fin r) ℤ}
  {c : Nat → G} {classes : List (List Nat × Nat)} {fuel K : Nat} {cns : List Nat} {o : Orbits}

section
variable (H : Input nd cs α αv comps pc rd N R R' T φ f θ δ A) (hc : IsClasses φ θ classes c) (hf : ∀ w, cs.length w < fuel)
  (hf2 : Nat.card {w // IsTI θ w} < fuel)
include H hc hf hf2

theorem addAll_ok {K : Nat} (hK : K ≤ classes.length) : ∀ (cns cls : List Nat) (ws : List G) (o : Orbits), OGood cs α αv rd N R T φ θ δ A c K cls ws o →
    (∀ cn ∈ cns, cn < K) → ∃ o' cls' ws', addAll nd fuel classes cns o = .ok o' ∧ OGood cs α αv rd N R T φ θ δ A c K cls' ws' o' ∧
      (∀ x, x ∈ cls' ↔ x ∈ cls ∨ x ∈ cns) ∧ ws <+: ws' := by
  intro cns
  induction cns with
  | nil => intro cls ws o g _; exact ⟨o, cls, ws, rfl, g, by simp, List.prefix_rfl⟩
  | cons cn l ih =>
    intro cls ws o g h
    obtain ⟨o1, ws1, a1, a2, -, a3⟩ := H.ogood_add hc hK g hf hf2 (h cn (by simp))
    obtain ⟨o2, cls2, ws2, b1, b2, b3, b4⟩ := ih _ _ _ a2 fun x hx => h x (by simp [hx])
    refine ⟨o2, cls2, ws2, by rw [addAll, a1, Res.ok_bind, b1], b2, fun x => ?_, a3.trans b4⟩
    rw [b3]
    by_cases hm : cn ∈ cls
    · rw [if_pos hm, List.mem_cons]
      constructor
      · tauto
      · rintro (h | rfl | h)
        · exact .inl h
        · exact .inl hm
        · exact .inr h
    · rw [if_neg hm, List.mem_append, List.mem_singleton, List.mem_cons]
      tauto

theorem made_good (hm : Made nd rd T δ fuel classes K cns o) : ∃ cls ws, OGood cs α αv rd N R T φ θ δ A c K cls ws o ∧ ∀ x, x ∈ cls ↔ x ∈ cns := by
  obtain ⟨h1, h2, o0, h3, h4⟩ := hm
  obtain ⟨o0', e1, e2⟩ := H.ogood_make c K
  rw [h3] at e1
  cases e1
  obtain ⟨o', cls', ws', a1, a2, a3, -⟩ := addAll_ok H hc hf hf2 h1 cns [] [] _ e2 h2
  rw [h4] at a1
  cases a1
  exact ⟨cls', ws', a2, by simpa using a3⟩

/-- **C72**: the classes may be added in any order, and more than once. -/
theorem C72_made (hK : K ≤ classes.length) (hcns : ∀ cn ∈ cns, cn < K) : ∃ o, Made nd rd T δ fuel classes K cns o := by
  obtain ⟨o0, e1, e2⟩ := H.ogood_make c K
  obtain ⟨o', cls', ws', a1, -⟩ := addAll_ok H hc hf hf2 hK cns [] [] _ e2 hcns
  exact ⟨o', hK, hcns, o0, e1, a1⟩

end

section
variable (H : Input nd cs α αv comps pc rd N R R' T φ f θ δ A)
include H

theorem describes {cls : List Nat} {ws : List G} (g : OGood cs α αv rd N R T φ θ δ A c K cls ws o)
    (hdiff : ∀ k ∈ cls, ∀ l ∈ cls, InClass θ (c k) (c l) → k = l) (hcls : ∀ x, x ∈ cls ↔ x ∈ cns) :
    Describes nd cs α αv N R φ θ δ A c cns o ws.length (fun i => ws.getD i 1) := by
  have hg : ∀ i < ws.length, ws[i]? = some (ws.getD i 1) := fun i hi => by
    rw [List.getElem?_eq_getElem hi, List.getD_eq_getElem _ _ hi]
  have hmem : ∀ x, (∃ i < ws.length, ws.getD i 1 = x) ↔ x ∈ ws := fun x => by
    constructor
    · rintro ⟨i, hi, rfl⟩
      exact List.mem_of_getElem? (hg i hi)
    · intro hx
      obtain ⟨i, hi⟩ := List.mem_iff_getElem?.1 hx
      have hl := (List.getElem?_eq_some_iff.1 hi).1
      exact ⟨i, hl, Option.some.inj ((hg i hl).symm.trans hi)⟩
  have hsz := H.size_lt g.tab
  refine ⟨H.size_eq g.tab, fun i hi j hj e => ?_, fun x => ?_, fun i hi => H.involution g.tab (hg i hi), fun i hi => H.nr_mem g.tab (hg i hi), fun x => ?_,
    fun i hi => ?_, fun ρ hρ => H.isInvTable hρ g.tab, fun cn hcn => ?_, fun i hi cn hcn hin => ?_⟩
  · rw [← H.nr_mem g.tab (hg i hi), ← H.nr_mem g.tab (hg j hj)]
    exact congrArg (fun z => o.tab.nr (φ z)) e
  · rw [hmem, g.mem]
    simp only [hcls]
  · rw [Tab.unseen, decide_eq_true_iff]
    constructor
    · intro h i hi e
      have e : ws.getD i 1 = x := e
      rw [← e, H.nr_mem g.tab (hg i hi)] at h
      rw [KGB.undefKGB] at h
      omega
    · intro h
      exact H.nr_new g.tab fun hx => by
        obtain ⟨i, h1, h2⟩ := (hmem x).2 hx
        exact h i h1 h2
  · obtain ⟨X, x1, -, x2⟩ := H.record g.tab (hg i hi)
    exact ⟨X, x1, x2⟩
  · obtain ⟨b, b1, b2, b3⟩ := H.orbits_get g ((hcls cn).2 hcn)
    have hb := Chain.get g.chain _ _ b3
    have hr := g.range _ _ b3
    rw [b2] at hr
    have hstop : b.stop = b.start + b.size := Nat.mod_eq_of_lt (by omega)
    refine ⟨b, b1, b2, hr.1, hstop, fun i hi => ?_⟩
    rw [hstop, contains_iff (by omega) (by omega)]
    exact ⟨hr.2 i _ (hg i hi), hr.2 i _ (hg i hi)⟩
  · obtain ⟨d, d1, d2, d3⟩ := H.orbits_class g (hg i hi)
    have e := hdiff d d2 cn ((hcls cn).2 hcn) (inClass_trans d3 (inClass_symm hin))
    subst e
    refine ⟨d1, ?_⟩
    unfold Orbits.cartanClassTw
    rw [H.nr_mem g.tab (hg i hi), d1]

end

section
variable (H : Input nd cs α αv comps pc rd N R R' T φ f θ δ A) (hc : IsClasses φ θ classes c) (hf : ∀ w, cs.length w < fuel)
  (hf2 : Nat.card {w // IsTI θ w} < fuel) (hm : Made nd rd T δ fuel classes K cns o)
include H hc hf hf2 hm

/-- **C72**: whatever the order in which classes were added, the table lists exactly their elements, each once, in ranges of successive numbers
for each class, with all information about each involution right. -/
theorem C72_describes : ∃ m w, Describes nd cs α αv N R φ θ δ A c cns o m w := by
  obtain ⟨cls, ws, g, h⟩ := made_good H hc hf hf2 hm
  exact ⟨_, _, describes H g (fun k hk l hl => hc.different k ((g.lt k hk).trans_le hm.1) l ((g.lt l hl).trans_le hm.1)) h⟩

theorem made_index {i : Nat} {w : G} (hi : o.tab.involution nd i = .ok (φ w)) : ∃ ws, Good cs α αv rd N R T φ θ δ A ws o.tab ∧ ws[i]? = some w := by
  obtain ⟨cls, ws, g, h⟩ := made_good H hc hf hf2 hm
  refine ⟨ws, g.tab, ?_⟩
  unfold Tab.involution at hi
  rw [H.size_eq g.tab] at hi
  by_cases hl : i < ws.length
  · have hx := List.getElem?_eq_getElem hl
    rw [Res.assertIn_bind nd (by simpa using hl), Perm.Vec.get_of (by rw [g.tab.pool, List.getElem?_map, hx]; rfl)] at hi
    rw [hx, H.weyl.injective (Res.ok.inj hi)]
  · exfalso
    have : Vec.get o.tab.pool i = .undefined := by
      unfold Vec.get
      rw [List.getElem?_eq_none (by rw [H.pool_length g.tab]; omega)]
    rw [this] at hi
    cases nd
    · simp [Res.assertIn, Res.assert, hl] at hi
    · simp [Res.assertIn] at hi

/-- **C72**: adding more classes changes nothing about those that are present: involutions keep their numbers. -/
theorem C72_stable {cns' : List Nat} {o' : Orbits} (h : ∀ cn ∈ cns', cn < K) (hadd : addAll nd fuel classes cns' o = .ok o') {i : Nat} {w : G}
    (hi : o.tab.involution nd i = .ok (φ w)) : o'.tab.involution nd i = .ok (φ w) := by
  obtain ⟨cls, ws, g, h'⟩ := made_good H hc hf hf2 hm
  obtain ⟨o2, cls2, ws2, b1, b2, -, b4⟩ := addAll_ok H hc hf hf2 hm.1 cns' _ _ _ g h
  rw [hadd] at b1
  cases b1
  obtain ⟨ws', g', hi'⟩ := made_index H hc hf hf2 hm hi
  have e : ws' = ws := List.map_injective_iff.2 H.weyl.injective (g'.pool.symm.trans g.tab.pool)
  subst e
  obtain ⟨ext, rfl⟩ := b4
  refine H.involution b2.tab ?_
  rw [List.getElem?_append_left (List.getElem?_eq_some_iff.1 hi').1]
  exact hi'

variable {i : Nat} {w : G} (hi : o.tab.involution nd i = .ok (φ w))
include hi

/-- **C72**: the status of simple reflections: complex, imaginary or real. -/
theorem C72_simple (s : Fin n) :
    (∃ b, o.tab.isComplexSimple nd i s.1 = .ok b ∧ (b = true ↔ cs.simple s * w ≠ w * θ (cs.simple s))) ∧
    (∃ b, o.tab.isImaginarySimple nd i s.1 = .ok b ∧ (b = true ↔ cs.simple s * w = w * θ (cs.simple s) ∧ cs.length w < cs.length (cs.simple s * w))) ∧
    ∃ b, o.tab.isRealSimple nd i s.1 = .ok b ∧ (b = true ↔ cs.simple s * w = w * θ (cs.simple s) ∧ cs.length (cs.simple s * w) < cs.length w) := by
  obtain ⟨ws, g, hi'⟩ := made_index H hc hf hf2 hm hi
  have hw := g.isTI w (List.mem_of_getElem? hi')
  obtain ⟨⟨b1, h1, h1'⟩, ⟨b2, h2, h2'⟩, b3, h3, h3'⟩ := H.simple_bits g hi' s
  refine ⟨⟨b1, h1, h1'.trans ?_⟩, ⟨b2, h2, h2'.trans (H.imaginary hw s)⟩, b3, h3, h3'.trans (H.real hw s)⟩
  rw [ne_eq, ne_eq, H.imaginary hw s, H.real hw s]
  have hl := cs.length_simple_mul w s
  constructor
  · rintro ⟨a, b⟩ e
    rcases hl with hl | hl
    · exact a ⟨e, by omega⟩
    · exact b ⟨e, by omega⟩
  · exact fun e => ⟨fun a => e a.1, fun a => e a.1⟩

/-- **C72**: descents. -/
theorem C72_descent : (∀ a < 2 * N, ∃ m b, o.tab.rootInvolution nd i a = .ok m ∧ m < 2 * N ∧ invMat A δ w *ᵥ lin α (R a) = lin α (R m) ∧
      o.tab.complexIsDescent nd i a = .ok b ∧ (b = true ↔ ((∀ i, 0 ≤ R a i) ↔ ∀ i, R m i ≤ 0))) ∧
    ∀ s : Fin n, ∃ b, o.tab.complexIsDescent nd i (N + s.1) = .ok b ∧ (b = true ↔ cs.length (cs.simple s * w) < cs.length w) := by
  obtain ⟨ws, g, hi'⟩ := made_index H hc hf hf2 hm hi
  exact ⟨fun a ha => H.complexIsDescent g hi' ha, fun s => H.simpleDescent g hi' s⟩

/-- **C72**: `lambda_unique` chooses one weight of each class modulo the image of `1-Θ`. -/
theorem C72_lambdaUnique : ∃ F : (Fin r → ℤ) → Fin r → ℤ,
    (∀ lam, o.tab.lambdaUnique nd i (List.ofFn lam) = .ok (List.ofFn (F lam)) ∧ ∃ u, lam - F lam = (1 - invMat A δ w) *ᵥ u) ∧
    ∀ lam mu, F lam = F mu ↔ ∃ u, lam - mu = (1 - invMat A δ w) *ᵥ u := by
  obtain ⟨ws, g, hi'⟩ := made_index H hc hf hf2 hm hi
  exact H.lambdaUnique g hi'

/-- **C72**: `y_pack` gives all vectors of bits of some size, two weights having the same just if their images by `1-Θ` differ by twice such an image;
`y_lift` finds the image by `1-Θ` of a weight with given value. -/
theorem C72_yPack : ∃ (k : Nat) (P : (Fin r → ℤ) → Fin k → ZMod 2), k ≤ 32 ∧
    (∀ lam, o.tab.yPack nd i (List.ofFn lam) = .ok (Tits.bv (P lam))) ∧ Function.Surjective P ∧
    (∀ lam mu, P lam = P mu ↔ ∃ u, (1 - invMat A δ w) *ᵥ (lam - mu) = (2 : ℤ) • (1 - invMat A δ w) *ᵥ u) ∧
    (∀ y, ∃ lam, P lam = y ∧ o.tab.yLift nd i (Tits.bv y) = .ok (List.ofFn ((1 - invMat A δ w) *ᵥ lam))) ∧
    ∀ lam, o.tab.yUnlift nd i (List.ofFn ((1 - invMat A δ w) *ᵥ lam)) = .ok (Tits.bv (P lam)) := by
  obtain ⟨ws, g, hi'⟩ := made_index H hc hf hf2 hm hi
  exact H.yPack g hi'

/-- **C72**: `y_act` finds the packed form of the image of a weight by a matrix that transforms an involution into another. -/
theorem C72_yAct {i1 : Nat} {w1 : G} (h1 : o.tab.involution nd i1 = .ok (φ w1)) {D : Matrix (Fin r) (Fin r) ℤ}
    (hD : D * invMat A δ w = invMat A δ w1 * D) (lam : Fin r → ℤ) {y : F2.BV} (hy : o.tab.yPack nd i (List.ofFn lam) = .ok y) :
    o.tab.yAct nd i i1 y (enc D) = o.tab.yPack nd i1 (List.ofFn (D *ᵥ lam)) := by
  obtain ⟨ws, g, hi'⟩ := made_index H hc hf hf2 hm hi
  obtain ⟨ws', g', hi1⟩ := made_index H hc hf hf2 hm h1
  have e : ws' = ws := List.map_injective_iff.2 H.weyl.injective (g'.pool.symm.trans g.pool)
  subst e
  exact H.yAct g hi' hi1 hD lam hy

end

end Verif.Inv
