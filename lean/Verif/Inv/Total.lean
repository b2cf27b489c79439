import Verif.Inv.Props
import Verif.KGB.Exists
/-
**C72**, continued: total sizes, the use of the table for `K\G/B`, and an instance.
-/
set_option linter.unusedSectionVars false

namespace Verif.Inv
open Verif Verif.Root Verif.Mat Verif.Datum Verif.Weyl Verif.Coxeter CoxeterSystem
open scoped Matrix

variable {n r : Nat} {Mx : CoxeterMatrix (Fin n)} {G : Type} [Group G]
variable {nd : Bool} {cs : CoxeterSystem Mx G} {α αv : Fin n → Fin r → ℤ} {comps : List Comp} {pc : Bool} {rd : RD} {N : Nat} {R R' : Nat → Fin n → ℤ}
  {T : TWG} {φ : G → List Nat} {f : Fin n → Fin n} {θ : G →* G} {δ : Matrix (Fin r) (Fin r) ℤ} {A : G →* Matrix (Fin r) (Fin r) ℤ}
  {c : Nat → G} {classes : List (List Nat × Nat)} {fuel K : Nat} {cns : List Nat} {o : Orbits}

theorem totalLoop_ok {o : Orbits} {F : Nat → Nat} : ∀ (l : List Nat) (s : Nat), (∀ cn ∈ l, ∃ b, o.get nd cn = .ok b ∧ b.size = F cn) →
    o.totalLoop nd l s = .ok (s + (l.map F).sum) := by
  intro l
  induction l with
  | nil => intro s _; rfl
  | cons cn l ih =>
    intro s h
    obtain ⟨b, h1, h2⟩ := h cn (by simp)
    rw [Orbits.totalLoop, h1, Res.ok_bind, ih _ fun x hx => h x (by simp [hx]), h2, List.map_cons, List.sum_cons, Nat.add_assoc]

theorem Chain.sum {l : List Orbit} : ∀ {a b : Nat}, Chain a l b → a + (l.map Orbit.size).sum = b := by
  induction l with
  | nil => intro a b h; exact h
  | cons o l ih => intro a b h; rw [List.map_cons, List.sum_cons, ← Nat.add_assoc]; exact ih h.2.2

section
variable (H : Input nd cs α αv comps pc rd N R R' T φ f θ δ A) (hc : IsClasses φ θ classes c) (hf : ∀ w, cs.length w < fuel)
  (hf2 : Nat.card {w // IsTI θ w} < fuel) (hm : Made nd rd T δ fuel classes K cns o)
include H hc hf hf2 hm

/-- **C72**, partial: `total_size` gives the size of the whole table if the classes that were added are those with the smallest numbers.  It does not
depend on its argument, which should select classes. -/
theorem C72_totalSize_partial {L : Nat} (hL : ∀ cn, cn ∈ cns ↔ cn < L) (B : List Bool) : o.totalSize nd B = .ok o.tab.size := by
  obtain ⟨cls, ws, g, h⟩ := made_good H hc hf hf2 hm
  have hp : (List.range L).Perm cls := (List.perm_ext_iff_of_nodup List.nodup_range g.nodup).2 fun x => by rw [List.mem_range, h, hL]
  have hlen : o.orbit.length = L := by rw [g.length_eq, ← hp.length_eq, List.length_range]
  have hget : ∀ cn ∈ List.range L, ∃ b, o.get nd cn = .ok b ∧ b.size = ((o.orbit[cls.idxOf cn]?).map Orbit.size).getD 0 := fun cn hcn => by
    obtain ⟨b, b1, -, b3⟩ := H.orbits_get g (hp.mem_iff.1 hcn)
    exact ⟨b, b1, by rw [b3]; rfl⟩
  unfold Orbits.totalSize
  rw [hlen, totalLoop_ok _ _ hget, (hp.map _).sum_eq, zero_add, H.size_eq g.tab]
  have e : cls.map (fun cn => ((o.orbit[cls.idxOf cn]?).map Orbit.size).getD 0) = o.orbit.map Orbit.size := by
    refine List.ext_getElem (by simp [g.length_eq]) fun j h1 h2 => ?_
    rw [List.length_map] at h1 h2
    rw [List.getElem_map, List.getElem_map, g.nodup.idxOf_getElem j h1, List.getElem?_eq_getElem h2]
    rfl
  rw [e]
  have := Chain.sum g.chain
  rw [zero_add] at this
  rw [this]

/-- if class 0 was not added, but another one was, then `total_size` ends by an assertion -/
theorem C72_totalSize_fails (hnd : nd = false) (h0 : 0 ∉ cns) (hne : cns ≠ []) (hK : 0 < K) (B : List Bool) : o.totalSize nd B = .assertFail := by
  obtain ⟨cls, ws, g, h⟩ := made_good H hc hf hf2 hm
  obtain ⟨x, hx⟩ := List.exists_mem_of_ne_nil _ hne
  have hpos : 0 < o.orbit.length := by rw [g.length_eq]; exact List.length_pos_of_mem ((h x).2 hx)
  unfold Orbits.totalSize
  obtain ⟨L, hL⟩ : ∃ L, o.orbit.length = L + 1 := ⟨o.orbit.length - 1, by omega⟩
  rw [hL, List.range_succ_eq_map, Orbits.totalLoop]
  have e : o.get nd 0 = .assertFail := by
    unfold Orbits.get
    rw [Perm.Vec.get_of (g.index 0 hK), Res.ok_bind, if_neg (by rw [h]; exact h0)]
    subst hnd
    rfl
  rw [e]
  rfl

end

theorem exists_weightAction {C : Fin n → Fin n → ℤ} (hp : ∀ s t, ∑ i, α s i * αv t i = C s t) (h : IsCartan C Mx) (cs : CoxeterSystem Mx G) :
    ∃ A, IsWeightAction cs α αv A := by
  obtain ⟨ρ, hρ⟩ := Tits.exists_latticeAction hp h cs
  refine ⟨⟨⟨fun w => (LinearMap.toMatrix' (ρ w⁻¹))ᵀ, by simp⟩, fun v w => ?_⟩, fun s => ?_⟩
  · show (LinearMap.toMatrix' (ρ (v * w)⁻¹))ᵀ = (LinearMap.toMatrix' (ρ v⁻¹))ᵀ * (LinearMap.toMatrix' (ρ w⁻¹))ᵀ
    rw [mul_inv_rev, map_mul, ← Matrix.transpose_mul, Module.End.mul_eq_comp, LinearMap.toMatrix'_comp]
  · show (LinearMap.toMatrix' (ρ (cs.simple s)⁻¹))ᵀ = _
    rw [cs.inv_simple]
    ext i j
    rw [Matrix.transpose_apply, LinearMap.toMatrix'_apply, hρ, reflMat, Matrix.of_apply]
    simp [Pi.single_apply, eq_comm]

/-- **C72**: the assumptions are met for every root datum of rank at most 32 with an involution that permutes simple roots and simple coroots. -/
theorem C72_input (nd pc : Bool) (hC : Spec.Cartan (cart α αv) comps) (cs : CoxeterSystem (coxMatrix (cart α αv)) G) (hr : r ≤ 32) {f : Fin n → Fin n}
    (hf : ∀ s, f (f s) = s) (tw : List Nat) (ht : ∀ s : Fin n, tw[s.1]? = some (f s).1) (δ : Matrix (Fin r) (Fin r) ℤ) (h1 : δ * δ = 1)
    (h2 : ∀ s, δ *ᵥ α s = α (f s)) (h3 : ∀ s, αv s ᵥ* δ = αv (f s)) (hcard : Nat.card G < 2 ^ 32 - 1) (hlen : ∀ w, cs.length w < 2 ^ 31) :
    ∃ W φ θ rd N R R' A, WG.make nd n comps = .ok W ∧ RD.make nd ⟨enc (colMat α), enc (colMat αv), pc⟩ = .ok rd ∧
      Input nd cs α αv comps pc rd N R R' ⟨W, tw⟩ φ f θ δ A := by
  have hcf : ∀ s t, cart α αv (f s) (f t) = cart α αv s t := fun s t => by
    unfold cart
    rw [← h2 s]
    have := h3 (f t)
    rw [hf] at this
    rw [← this, dotProduct_comm, Matrix.dotProduct_mulVec, dotProduct_comm]
  obtain ⟨W, φ, θ, w1, w2, w3, w4⟩ := C47_twisted nd hC.dynkin hC.diag hC.nonpos hC.zero hf hcf cs tw ht
  obtain ⟨rd, hrd⟩ := C69_make nd pc hC
  obtain ⟨N, R, R', hs⟩ := C69_exists hC (.make hrd)
  obtain ⟨A, hA⟩ := exists_weightAction (α := α) (αv := αv) (C := cart α αv) (fun s t => rfl) hC.isCartan cs
  obtain ⟨_⟩ := Tits.Implements.fintype w2
  have hfin : Finite G := inferInstance
  refine ⟨W, φ, θ, rd, N, R, R', A, w1, hrd, hC.isCartan, hfin, hs, hr, w2, w4, w3, h1, h2, h3, hA, ?_, hlen⟩
  exact lt_of_le_of_lt (Nat.card_le_card_of_injective _ Subtype.val_injective) hcard

/-! ### use for `K\G/B` -/

section
variable {𝒯 : Type} [Group 𝒯] {ι : (Fin r → ZMod 2) → 𝒯} {σ : Fin n → 𝒯} {π : 𝒯 →* G} {gr : Fin n → Bool} {τ : 𝒯 →* 𝒯} {ψ : 𝒯 → Tits.TE}
  {tc : Tits.TC} {ρ : G →* Module.End ℤ (Fin r → ℤ)} {seeds : List 𝒯} {M : Nat}

theorem mem_orbitNrs {l : List (Nat × Nat)} {i : Nat} : i ∈ KGB.orbitNrs l ↔ ∃ p ∈ l, p.1 ≤ i ∧ i < p.1 + p.2 := by
  induction l with
  | nil => simp [KGB.orbitNrs]
  | cons p l ih =>
    rw [KGB.orbitNrs, List.mem_append, ih, List.mem_range'_1]
    simp

/-- **C72**: the table, with the ranges of the classes of the Cartan subgroups that occur, may be used by the constructor of `KGB`, which then
gives what C68 says. -/
theorem C72_kgb (H : Input nd cs α αv comps pc rd N R R' T φ f θ δ A) (hc : IsClasses φ θ classes c) (hf : ∀ w, cs.length w < fuel)
    (hf2 : Nat.card {w // IsTI θ w} < fuel) (hm : Made nd rd T δ fuel classes K cns o)
    (hn : n ≤ 32) (hT : Tits.IsTits cs α αv ι σ π) (hI : Tits.ImplementsTits nd cs tc.T φ f α αv δ ι σ π ψ) (hW : Implements nd cs tc.T.tw.W φ)
    (hB : Tits.IsBase f αv δ gr ι σ τ) (hL : Tits.CosetLaws cs f α αv δ ρ ι σ π τ) (hC : Tits.ImplementsCoset nd cs tc f α αv δ gr ρ ι σ π τ ψ)
    (hρ : Tits.IsLatticeAction cs α αv ρ)
    (hvalid : ∀ a ∈ seeds, a * τ a = 1) (hdistinct : seeds.Pairwise fun a b => ¬ Tits.Eqv ρ δ ι π a b)
    {used : List Nat} {orbits : List (Nat × Nat)} (hu : used.Nodup) (hs : ∀ cn ∈ used, cn ∈ cns)
    (horb : List.Forall₂ (fun cn p => ∃ b, o.get nd cn = .ok b ∧ p = (b.start, b.size)) used orbits)
    (hreach : ∀ a, KGB.Reach cs f α δ gr ρ ι σ π τ seeds a → ∃ cn ∈ used, InClass θ (c cn) (π a))
    (hM : ∃ e, KGB.IsSystem (KGB.Reach cs f α δ gr ρ ι σ π τ seeds) (Tits.Eqv ρ δ ι π) M e) (hsmall : M < 2 ^ 32) :
    ∃ k e, KGB.make nd tc o.tab.toITab n M (seeds.map ψ) orbits o.tab.size = .ok k ∧
      KGB.IsSystem (KGB.Reach cs f α δ gr ρ ι σ π τ seeds) (Tits.Eqv ρ δ ι π) M e ∧
      KGB.IsKGB nd cs tc o.tab.toITab θ φ f α δ gr ρ ι σ π τ ψ k M e := by
  obtain ⟨cls, ws, g, h⟩ := made_good H hc hf hf2 hm
  have hpool : o.tab.toITab.pool.length = ws.length := H.pool_length g.tab
  have key : ∀ cn p, cn ∈ used → (∃ b, o.get nd cn = .ok b ∧ p = (b.start, b.size)) →
      p.1 + p.2 ≤ ws.length ∧ ∀ (i : Nat) w, ws[i]? = some w → (p.1 ≤ i ∧ i < p.1 + p.2 ↔ InClass θ (c cn) w) := by
    rintro cn p hcn ⟨b, b1, rfl⟩
    obtain ⟨b', e1, e2, e3⟩ := H.orbits_get g ((h cn).2 (hs cn hcn))
    rw [b1] at e1
    cases e1
    have h1 := Chain.get g.chain _ _ e3
    have h2 := g.range _ _ e3
    rw [e2] at h2
    exact ⟨h1.2.2, h2.2⟩
  have hall : ∀ p ∈ orbits, p.1 + p.2 ≤ ws.length := by
    clear hreach
    induction horb with
    | nil => simp
    | @cons cn p l l' hp hl ih =>
      intro q hq
      rcases List.mem_cons.1 hq with rfl | hq
      · exact (key cn q (by simp) hp).1
      · exact ih (List.nodup_cons.1 hu).2 (fun x hx => hs x (by simp [hx])) (fun a b ha => key a b (by simp [ha])) q hq
  have hdiff : ∀ a ∈ used, ∀ b ∈ used, ∀ x, InClass θ (c a) x → InClass θ (c b) x → a = b := fun a ha b hb x h1 h2 =>
    hc.different a ((g.lt a ((h a).2 (hs a ha))).trans_le hm.1) b ((g.lt b ((h b).2 (hs b hb))).trans_le hm.1) (inClass_trans h1 (inClass_symm h2))
  have hnd : (KGB.orbitNrs orbits).Nodup := by
    clear hreach
    induction horb with
    | nil => simp [KGB.orbitNrs]
    | @cons cn p l l' hp hl ih =>
      rw [KGB.orbitNrs, List.nodup_append]
      refine ⟨List.nodup_range', ih (List.nodup_cons.1 hu).2 (fun x hx => hs x (by simp [hx])) (fun a b ha => key a b (by simp [ha]))
        (fun q hq => hall q (by simp [hq])) (fun a ha b hb => hdiff a (by simp [ha]) b (by simp [hb])), ?_⟩
      rintro i hi j hj rfl
      rw [List.mem_range'_1] at hi
      obtain ⟨q, hq, hq'⟩ := mem_orbitNrs.1 hj
      have hlt : i < ws.length := by have := hall p (by simp); omega
      have hw := List.getElem?_eq_getElem hlt
      have h1 := ((key cn p (by simp) hp).2 i _ hw).1 hi
      obtain ⟨j, hj⟩ := List.mem_iff_getElem?.1 hq
      obtain ⟨hj1, hj2⟩ := List.getElem?_eq_some_iff.1 hj
      have hjl : j < l.length := by rw [hl.length_eq]; exact hj1
      have hrel := hl.get hjl hj1
      have hmem : l.get ⟨j, hjl⟩ ∈ cn :: l := List.mem_cons_of_mem _ (List.get_mem _ _)
      have h2 := ((key _ _ hmem hrel).2 i _ hw).1 (by rw [List.get_eq_getElem, hj2]; exact hq')
      have := hdiff cn (by simp) _ hmem _ h1 h2
      exact (List.nodup_cons.1 hu).1 (this ▸ List.get_mem _ _)
  refine KGB.C68_kgb hn hT hI hW hB hL hC (H.isInvTable hρ g.tab) hvalid hdistinct hnd (fun i hi => ?_) (by rw [hpool, H.size_eq g.tab]) (fun a ha => ?_) hM hsmall
  · obtain ⟨p, hp, hp'⟩ := mem_orbitNrs.1 hi
    have := hall p hp
    rw [hpool]
    omega
  · obtain ⟨cn, hcn, hin⟩ := hreach a ha
    obtain ⟨i, hi⟩ := List.mem_iff_getElem?.1 ((g.mem (π a)).2 ⟨cn, (h cn).2 (hs cn hcn), hin⟩)
    obtain ⟨j, hj⟩ := List.mem_iff_getElem?.1 hcn
    obtain ⟨hj1, hj2⟩ := List.getElem?_eq_some_iff.1 hj
    have hjl : j < orbits.length := by rw [← horb.length_eq]; exact hj1
    have hrel := horb.get hj1 hjl
    rw [List.get_eq_getElem, hj2] at hrel
    refine ⟨i, mem_orbitNrs.2 ⟨orbits.get ⟨j, hjl⟩, List.get_mem _ _, ((key cn _ hcn hrel).2 i _ hi).2 hin⟩, ?_⟩
    show o.tab.pool[i]? = _
    rw [g.tab.pool, List.getElem?_map, hi]
    rfl

end

/-! ### an instance: GL(5), with the automorphism that is minus the reversal of the coordinates -/

theorem exCart : cart Tits.exRoot Tits.exRoot = exCA := by decide

/-- the twisted class of the identity has only elements of even length -/
theorem even_class (ht : IsTwist cs f θ) {w : G} (h : InClass θ 1 w) : cs.lengthParity w = 1 := by
  obtain ⟨g, rfl⟩ := h
  have e : cs.lengthParity (θ g) = cs.lengthParity g := by rw [cs.lengthParity_eq_ofAdd_length, cs.lengthParity_eq_ofAdd_length, ht.length]
  rw [mul_one, map_mul, map_inv, e, mul_inv_cancel]

/-- two classes, their representatives having even and odd length -/
theorem exInput : ∃ (G : Type) (_ : Group G) (cs : CoxeterSystem (coxMatrix (cart Tits.exRoot Tits.exRoot)) G) (T : TWG) (φ : G → List Nat) (θ : G →* G) (rd : RD)
    (N : Nat) (R R' : Nat → Fin 4 → ℤ) (A : G →* Matrix (Fin 5) (Fin 5) ℤ) (classes : List (List Nat × Nat)) (c : Nat → G),
    Input false cs Tits.exRoot Tits.exRoot exCompsA true rd N R R' T φ exTwist θ Tits.exDelta A ∧ IsClasses φ θ classes c ∧ classes.length = 2 ∧
      (∀ w, cs.length w < 200) ∧ Nat.card {w // IsTI θ w} < 200 := by
  have hC : Spec.Cartan (cart Tits.exRoot Tits.exRoot) exCompsA := by rw [exCart]; exact ⟨exDynkinA, by decide, by decide, by decide⟩
  have hcd : Nat.card (coxMatrix (cart Tits.exRoot Tits.exRoot)).Group = 120 ∧ ∀ w, (coxMatrix (cart Tits.exRoot Tits.exRoot)).toCoxeterSystem.length w ≤ 10 := by
    rw [exCart]; exact KGB.exCard
  obtain ⟨W, φ, θ, rd, N, R, R', A, -, -, H⟩ := C72_input false true hC (coxMatrix (cart Tits.exRoot Tits.exRoot)).toCoxeterSystem (r := 5) (by decide)
    (f := exTwist) (by decide) [3, 2, 1, 0] (by decide) Tits.exDelta (by decide) (by decide) (by decide) (by rw [hcd.1]; decide) (fun w => by have := hcd.2 w; omega)
  set cs := (coxMatrix (cart Tits.exRoot Tits.exRoot)).toCoxeterSystem with hcs
  have hti : IsTI θ (cs.simple 1 * cs.simple 2 * θ (cs.simple 2)) := by
    have hb : cs.simple 1 * cs.simple 2 * cs.simple 1 = cs.simple 2 * cs.simple 1 * cs.simple 2 := by
      have hm : (coxMatrix (cart Tits.exRoot Tits.exRoot)) 1 2 = 3 := by rw [exCart]; decide
      have := cs.simple_mul_simple_pow 1 2
      rw [hm, pow_succ, pow_two] at this
      have h2 := mul_eq_one_iff_eq_inv.1 this
      have h3 : cs.simple 1 * cs.simple 2 * (cs.simple 1 * cs.simple 2) * cs.simple 2 = cs.simple 2 * cs.simple 1 * cs.simple 2 := by
        rw [h2, mul_inv_rev, cs.inv_simple, cs.inv_simple]
      rw [← h3]
      simp only [mul_assoc, cs.simple_mul_simple_self, mul_one]
    have e1 : exTwist 1 = 2 := rfl
    have e2 : exTwist 2 = 1 := rfl
    unfold IsTI
    rw [map_mul, map_mul, H.twist.theta_theta, H.twist.simple, H.twist.simple, e1, e2, hb]
    simp only [mul_inv_rev, cs.inv_simple, mul_assoc]
  have hodd : cs.lengthParity (cs.simple 1 * cs.simple 2 * θ (cs.simple 2)) ≠ 1 := by
    rw [H.twist.simple, map_mul, map_mul, cs.lengthParity_simple, cs.lengthParity_simple, cs.lengthParity_simple]
    decide
  refine ⟨_, inferInstance, cs, ⟨W, [3, 2, 1, 0]⟩, φ, θ, rd, N, R, R', A,
    [(φ 1, Nat.card {w // InClass θ 1 w}), (φ (cs.simple 1 * cs.simple 2 * θ (cs.simple 2)), Nat.card {w // InClass θ (cs.simple 1 * cs.simple 2 * θ (cs.simple 2)) w})],
    fun k => if k = 0 then 1 else cs.simple 1 * cs.simple 2 * θ (cs.simple 2), H, ⟨fun k x hx => ?_, fun k hk => ?_, fun k hk l hl h => ?_⟩, rfl,
    fun w => by have := hcd.2 w; omega, ?_⟩
  · match k, hx with
    | 0, hx => cases hx; rfl
    | 1, hx => cases hx; rfl
  · by_cases h0 : k = 0
    · subst h0; exact isTI_one
    · simp only [if_neg h0]; exact hti
  · simp only [List.length_cons, List.length_nil] at hk hl
    by_cases h0 : k = 0
    · by_cases h1 : l = 0
      · omega
      · simp only [if_pos h0, if_neg h1] at h
        exact absurd (even_class H.twist h) hodd
    · by_cases h1 : l = 0
      · simp only [if_neg h0, if_pos h1] at h
        exact absurd (even_class H.twist (inClass_symm h)) hodd
      · omega
  · have := H.finite
    refine lt_of_le_of_lt (Nat.card_le_card_of_injective _ Subtype.val_injective) ?_
    rw [hcd.1]; decide

/-- the hypotheses of the theorems about the table are met, for classes added in any order -/
example : ∃ (G : Type) (_ : Group G) (cs : CoxeterSystem (coxMatrix (cart Tits.exRoot Tits.exRoot)) G) (T : TWG) (φ : G → List Nat) (θ : G →* G) (rd : RD)
    (N : Nat) (R : Nat → Fin 4 → ℤ) (A : G →* Matrix (Fin 5) (Fin 5) ℤ) (classes : List (List Nat × Nat)) (c : Nat → G) (o : Orbits) (m : Nat) (w : Nat → G),
    Made false rd T Tits.exDelta 200 classes 2 [1, 0, 1] o ∧ Describes false cs Tits.exRoot Tits.exRoot N R φ θ Tits.exDelta A c [1, 0, 1] o m w ∧ 0 < m := by
  obtain ⟨G, _, cs, T, φ, θ, rd, N, R, R', A, classes, c, H, hc, hl, hf, hf2⟩ := exInput
  obtain ⟨o, ho⟩ := C72_made H hc hf hf2 (K := 2) (cns := [1, 0, 1]) (by omega) (by decide)
  obtain ⟨m, w, hd⟩ := C72_describes H hc hf hf2 ho
  refine ⟨G, _, cs, T, φ, θ, rd, N, R, A, classes, c, o, m, w, ho, hd, ?_⟩
  obtain ⟨i, hi, -⟩ := (hd.complete (c 1)).2 ⟨1, by simp, inClass_refl _⟩
  omega

/-- **C72**, refuted: `total_size` does not give the sum of the sizes of the selected classes.  If only class 1 was added then it ends by an assertion. -/
theorem C72_totalSize_false : ¬ ∀ (n r : Nat) (G : Type) (_ : Group G) (Mx : CoxeterMatrix (Fin n)) (cs : CoxeterSystem Mx G) (α αv : Fin n → Fin r → ℤ)
    (comps : List Comp) (pc : Bool) (rd : RD) (N : Nat) (R R' : Nat → Fin n → ℤ) (T : TWG) (φ : G → List Nat) (f : Fin n → Fin n) (θ : G →* G)
    (δ : Matrix (Fin r) (Fin r) ℤ) (A : G →* Matrix (Fin r) (Fin r) ℤ) (classes : List (List Nat × Nat)) (c : Nat → G) (fuel K : Nat) (cns : List Nat) (o : Orbits) (B : List Bool),
    Input false cs α αv comps pc rd N R R' T φ f θ δ A → IsClasses φ θ classes c → (∀ w, cs.length w < fuel) → Nat.card {w // IsTI θ w} < fuel →
    Made false rd T δ fuel classes K cns o → (∀ k, B[k]? = some true → k ∈ cns) →
    o.totalSize false B = .ok (∑ k ∈ (Finset.range B.length).filter fun k => B[k]? = some true, Nat.card {x // InClass θ (c k) x}) := by
  intro h
  obtain ⟨G, _, cs, T, φ, θ, rd, N, R, R', A, classes, c, H, hc, hl, hf, hf2⟩ := exInput
  obtain ⟨o, ho⟩ := C72_made H hc hf hf2 (K := 2) (cns := [1]) (by omega) (by decide)
  have h1 := h _ _ G _ _ cs _ _ _ _ rd N R R' T φ _ θ _ A classes c 200 2 [1] o [] H hc hf hf2 ho (by simp)
  rw [C72_totalSize_fails H hc hf hf2 ho rfl (by decide) (by decide) (by decide)] at h1
  cases h1

end Verif.Inv
