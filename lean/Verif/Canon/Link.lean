import Verif.Canon.Spec
import Verif.Canon.Math
import Verif.Inv.Cayley
/-
From the specification of canonical involutions to coordinates, and the functions that compute images of roots and sums of roots.
-/
namespace Verif.Canon
open Verif Verif.Root Verif.Mat Verif.Datum Verif.Weyl Verif.Inv Verif.Coxeter CoxeterSystem
open scoped Matrix

variable {n r : Nat} {Mx : CoxeterMatrix (Fin n)} {G : Type} [Group G]
variable {nd : Bool} {cs : CoxeterSystem Mx G} {α αv : Fin n → Fin r → ℤ} {comps : List Comp} {pc : Bool} {rd : RD} {N : Nat} {R R' : Nat → Fin n → ℤ}
  {T : TWG} {φ : G → List Nat} {f : Fin n → Fin n} {θ : G →* G} {δ : Matrix (Fin r) (Fin r) ℤ} {A : G →* Matrix (Fin r) (Fin r) ℤ} {Γ : Fin n → Prop}

/-- the positive roots -/
def posF (N : Nat) (R : Nat → Fin n → ℤ) : Finset (Fin n → ℤ) := (Finset.range N).image fun k => R (N + k)

theorem lin_sum {ι : Type} (S : Finset ι) (g : ι → Fin n → ℤ) : lin α (∑ k ∈ S, g k) = ∑ k ∈ S, lin α (g k) := by
  classical
  induction S using Finset.induction_on with
  | empty => simp [Datum.lin]
  | insert a S ha ih => rw [Finset.sum_insert ha, Finset.sum_insert ha, Datum.lin_add, ih]

theorem lin_pairing (x : Fin n → ℤ) (s : Fin n) : lin α x ⬝ᵥ αv s = pairing (cart α αv) s x := by
  rw [← form_root_right, ← pair_lin, ← unit_eq, lin_unit]

variable (H : Input nd cs α αv comps pc rd N R R' T φ f θ δ A)
include H

theorem isPos : IsPos cs H.cartan (posF N R) := by
  intro x
  have hN := H.datum.base.numbering
  unfold posF
  rw [Finset.mem_image]
  constructor
  · rintro ⟨k, hk, rfl⟩
    rw [Finset.mem_range] at hk
    obtain ⟨t, ht⟩ := hN.isRoot cs H.cartan (k := N + k) (by omega)
    exact ⟨⟨_, t, ht⟩, fun i => (hN.pos (N + k) (by omega) (by omega) i).1⟩
  · rintro ⟨⟨x', t, hr⟩, hp⟩
    obtain ⟨k, hk, e, -⟩ := hN.surj x x' ((spec_isRoot cs H.cartan _ _).2 ⟨t, hr⟩)
    have hNk : N ≤ k := by
      by_contra hlt
      have h1 := hN.minus hk
      have h2 := hN.pos (2 * N - 1 - k) (by omega) (by omega)
      refine hr.ne_zero (not_both hp fun i => ?_)
      have h3 := (h2 i).1
      rw [h1.1, Pi.neg_apply, e] at h3
      omega
    exact ⟨k - N, Finset.mem_range.2 (by omega), by rw [show N + (k - N) = k by omega]; exact e⟩

theorem eig_iff (w : G) (c : ℤ) (x : Fin n → ℤ) : invMat A δ w *ᵥ lin α x = c • lin α x ↔ trueInv cs H.cartan f w x = c • x := by
  have := H.finite
  rw [H.inv_lin, ← Datum.lin_smul]
  exact ⟨fun e => lin_inj cs H.cartan e, fun e => by rw [e]⟩

theorem eigSum_eq (w : G) (c : ℤ) : eigSum α N R (invMat A δ w) c = lin α (xs cs H.cartan f (posF N R) c w) := by
  classical
  have hN := H.datum.base.numbering
  unfold eigSum xs
  rw [lin_sum]
  refine Finset.sum_nbij (fun k => R (N + k)) ?_ ?_ ?_ (fun _ _ => rfl)
  · intro k hk
    rw [Finset.mem_filter, eig_iff H] at hk
    exact (mem_eig _).2 ⟨Finset.mem_image.2 ⟨k, hk.1, rfl⟩, hk.2⟩
  · intro k hk l hl e
    simp only [Finset.coe_filter, Set.mem_ofPred_eq, Finset.mem_range] at hk hl
    have := hN.inj _ (by omega) _ (by omega) e
    omega
  · intro x hx
    obtain ⟨h1, h2⟩ := (mem_eig _).1 hx
    obtain ⟨k, hk, rfl⟩ := Finset.mem_image.1 h1
    refine ⟨k, ?_, rfl⟩
    simp only [Finset.coe_filter, Set.mem_ofPred_eq]
    exact ⟨hk, (eig_iff H w c _).2 h2⟩

theorem eig_simple (w : G) (c : ℤ) (s : Fin n) : invMat A δ w *ᵥ α s = c • α s ↔ trueInv cs H.cartan f w (Coxeter.root s) = c • Coxeter.root s := by
  have := eig_iff H w c (Coxeter.root s)
  rwa [← unit_eq, lin_unit, unit_eq] at this

/-- the image of a simple root is a root -/
theorem image_root (w : G) (s : Fin n) : ∃ m < 2 * N, trueInv cs H.cartan f w (Coxeter.root s) = R m := by
  have := H.finite
  obtain ⟨m, hm, e⟩ := H.inv_root w (N + s) (H.simple_lt s)
  refine ⟨m, hm, lin_inj (α := α) cs H.cartan ?_⟩
  rw [← H.inv_lin, ← e, (simple_lin H.datum.base s).1, ← unit_eq, lin_unit]

theorem root_pos {m : Nat} (hm : m < 2 * N) : N ≤ m ↔ ∀ i, 0 ≤ R m i := by
  have hN := H.datum.base.numbering
  refine ⟨fun h i => (hN.pos m hm h i).1, fun h => ?_⟩
  by_contra hlt
  obtain ⟨t, hr⟩ := hN.isRoot cs H.cartan hm
  refine hr.ne_zero (not_both h fun i => ?_)
  have h3 := (hN.pos (2 * N - 1 - m) (by omega) (by omega) i).1
  rw [(hN.minus hm).1, Pi.neg_apply] at h3
  omega

theorem canonical_iff (w : G) : IsCanonical α αv N R Γ (invMat A δ w) ↔ Can cs H.cartan f (posF N R) Γ w := by
  have := H.finite
  have e1 : ∀ s, realSum α N R (invMat A δ w) ⬝ᵥ αv s = pairing (cart α αv) s (xs cs H.cartan f (posF N R) (-1) w) := fun s => by
    rw [realSum, eigSum_eq H, lin_pairing]
  have e2 : ∀ s, imagSum α N R (invMat A δ w) ⬝ᵥ αv s = pairing (cart α αv) s (xs cs H.cartan f (posF N R) 1 w) := fun s => by
    rw [imagSum, eigSum_eq H, lin_pairing]
  have e3 : ∀ s, (∃ k < N, invMat A δ w *ᵥ α s = lin α (R (N + k))) ↔ ∀ i, 0 ≤ trueInv cs H.cartan f w (Coxeter.root s) i := fun s => by
    obtain ⟨m, hm, e⟩ := image_root H w s
    have e' : invMat A δ w *ᵥ α s = lin α (R m) := by rw [← e, ← H.inv_lin, ← unit_eq, lin_unit]
    rw [e, e', ← root_pos H hm]
    constructor
    · rintro ⟨k, hk, h1⟩
      have := H.datum.base.numbering.inj _ hm _ (by omega) (lin_inj (α := α) cs H.cartan h1)
      omega
    · intro h
      exact ⟨m - N, by omega, by rw [show N + (m - N) = m by omega]⟩
  constructor
  · rintro ⟨h1, h2, h3⟩
    simp only [e1, e2] at h1 h2 h3
    exact ⟨fun s hs => ⟨h1 s hs, h2 s hs⟩, fun s hs a b => (e3 s).1 (h3 s hs a b)⟩
  · rintro ⟨h1, h3⟩
    refine ⟨fun s hs => ?_, fun s hs => ?_, fun s hs => ?_⟩
    · rw [e1]; exact (h1 s hs).1
    · rw [e1, e2]; exact (h1 s hs).2
    · rw [e1, e2]; exact fun a b => (e3 s).2 (h3 s hs a b)

/-! ### images of roots -/

theorem actRoot_ok (w : G) {a : Nat} (ha : a < 2 * N) : ∃ m < 2 * N, actRoot nd rd T (φ w) a = .ok m ∧ R m = geom cs H.cartan w (R a) := by
  have hN := H.datum.base.numbering
  have hst : ∀ (g : G) (x : Fin n → ℤ), (∃ k < 2 * N, R k = x) → ∃ k < 2 * N, R k = geom cs H.cartan g x := by
    rintro g x ⟨k, hk, rfl⟩
    obtain ⟨t, ht⟩ := hN.isRoot cs H.cartan hk
    obtain ⟨m, hm, e, -⟩ := hN.surj _ _ ((spec_isRoot cs H.cartan _ _).2 ⟨_, ht.act g⟩)
    exact ⟨m, hm, e⟩
  letI : MulAction G {x : Fin n → ℤ // ∃ k < 2 * N, R k = x} :=
    { smul := fun g x => ⟨geom cs H.cartan g x.1, hst g x.1 x.2⟩
      one_smul := fun x => Subtype.ext (by show geom cs H.cartan 1 x.1 = x.1; rw [map_one]; rfl)
      mul_smul := fun g h x => Subtype.ext (geom_mul cs H.cartan g h x.1) }
  have h1 := (H.weyl.act {x : Fin n → ℤ // ∃ k < 2 * N, R k = x} (fun s x => if h : s < n then .ok (cs.simple ⟨s, h⟩ • x) else .undefined)
    (fun s a => by rw [dif_pos s.2]) w ⟨R a, a, ha, rfl⟩).1
  have key := actLoop_nat nd T.W (fun x : {x : Fin n → ℤ // ∃ k < 2 * N, R k = x} => x.2.choose) _ (fun s a => rd.rs.simpleReflected s a) (by
    intro x s y h
    by_cases hs : s < n
    · rw [dif_pos hs] at h
      cases h
      obtain ⟨m, hm, g1, g2, -⟩ := H.datum.base.answers.simpleReflected ⟨s, hs⟩ _ x.2.choose_spec.1
      have hy := (cs.simple ⟨s, hs⟩ • x).2.choose_spec
      rw [show rd.rs.simpleReflected s x.2.choose = .ok m from g1]
      congr 1
      refine hN.inj _ hm _ hy.1 ?_
      rw [hy.2]
      show R m = geom cs H.cartan (cs.simple ⟨s, hs⟩) x.1
      rw [geom_simple, srefl_apply, ← form_root_right, ← x.2.choose_spec.2, ← unit_eq]
      funext i
      rw [g2, ← pair_eq]; rfl
    · rw [dif_neg hs] at h; cases h) (φ w) _ _ _ h1
  have h0 : (⟨R a, a, ha, rfl⟩ : {x : Fin n → ℤ // ∃ k < 2 * N, R k = x}).2.choose = a := by
    have := (⟨R a, a, ha, rfl⟩ : {x : Fin n → ℤ // ∃ k < 2 * N, R k = x}).2.choose_spec
    exact hN.inj _ this.1 _ ha this.2
  have hy := (w • (⟨R a, a, ha, rfl⟩ : {x : Fin n → ℤ // ∃ k < 2 * N, R k = x})).2.choose_spec
  rw [h0] at key
  exact ⟨_, hy.1, key, hy.2⟩

theorem imageSimple_ok (w : G) (s : Fin n) : ∃ m < 2 * N, imageSimple nd rd T (φ w) s = .ok m ∧ R m = trueInv cs H.cartan f w (Coxeter.root s) := by
  obtain ⟨m, hm, e1, e2⟩ := actRoot_ok H w (H.simple_lt (f s))
  refine ⟨m, hm, ?_, ?_⟩
  · unfold imageSimple
    rw [H.twisted.twistedGen, Res.ok_bind, H.datum.base.answers.simpleNbr, Res.ok_bind, e1]
  · rw [e2, (H.datum.base.numbering.simple.2 (f s)).1, trueInv_apply, permRoot_root H.twist, unit_eq]

theorem build_ok {w : G} (hw : IsTI θ w) : ∃ d, build nd rd T (φ w) = .ok d ∧ IsData α N R (invMat A δ w) d := by
  obtain ⟨d, d1, d2⟩ := Data.make_ok H.datum (H.inv_root w) (H.inv_root_inj hw)
  refine ⟨d, ?_, d2⟩
  rw [← d1]
  choose im hi1 hi2 hi3 using fun s => imageSimple_ok H w s
  have e1 : List.ofFn im = vk n fun i => if h : i < n then im ⟨i, h⟩ else 0 := ofFn_nat im
  have h1 : simpleImages nd rd T (φ w) = .ok (List.ofFn im) := by
    unfold simpleImages
    rw [Res.assertIn_bind nd (by rw [H.weyl.rank_eq, H.datum.base.answers.rank]; simp), H.weyl.rank_eq, e1]
    refine tab_ok _ fun i hi => ?_
    rw [dif_pos hi]
    exact hi2 ⟨i, hi⟩
  have h2 : rd.rootPermutation nd (enc (invMat A δ w)) = rd.rs.extend nd (List.ofFn im) := by
    have hD := C69_datum H.datum
    have htab : Mat.tab rd.ssRank (fun s => do
        let i := rd.rootIndex (← Mat.apply nd (enc (invMat A δ w)) (← rd.simpleRoot nd s))
        Res.assertIn nd (decide (i < rd.rs.numRoots))
        .ok i) = .ok (List.ofFn im) := by
      rw [show rd.ssRank = n from H.datum.base.answers.rank, e1]
      refine tab_ok _ fun i hi => ?_
      have : invMat A δ w *ᵥ α ⟨i, hi⟩ = lin α (R (im ⟨i, hi⟩)) := by rw [hi3, ← H.inv_lin, ← unit_eq, lin_unit]
      rw [dif_pos hi, show rd.simpleRoot nd i = _ from hD.simpleRoot ⟨i, hi⟩, Res.ok_bind, C45_apply, Res.ok_bind, this]
      simp only []
      rw [hD.rootIndex _ (hi1 _), H.datum.base.answers.numRoots, Res.assertIn_bind nd (by simpa using hi1 _)]
    rw [RD.rootPermutation, htab, Res.ok_bind]
  unfold build ofImages Data.make
  rw [h1, Res.ok_bind, h2]

/-! ### sums of roots -/

theorem sumLoop_ok (l : List Nat) (hl : ∀ a ∈ l, a < 2 * N) : ∀ v : Fin r → ℤ, sumLoop nd rd l (List.ofFn v) = .ok (List.ofFn (v + (l.map fun k => lin α (R k)).sum)) := by
  induction l with
  | nil => intro v; simp [sumLoop]
  | cons a l ih =>
    intro v
    rw [sumLoop, (C69_datum H.datum).root a (hl a (by simp)), Res.ok_bind, C45_vecAdd, Res.ok_bind, ih fun b hb => hl b (by simp [hb]), List.map_cons, List.sum_cons, add_assoc]

open Classical in
theorem twoRho_ok {S : List Bool} {P : Nat → Prop} (hS : Spec.Bits S (2 * N) P) :
    twoRho nd rd S = .ok (List.ofFn (∑ k ∈ (Finset.range N).filter (fun k => P (N + k)), lin α (R (N + k)))) := by
  have hp := H.datum.base.answers.posSet
  have hb : Spec.Bits (List.zipWith (· && ·) rd.rs.posSet S) (2 * N) fun k => N ≤ k ∧ P k := by
    refine ⟨by rw [List.length_zipWith, hp.1, hS.1, min_self], fun k hk => ?_⟩
    have h1 := hp.2 k hk
    have h2 := hS.2 k hk
    simp only [] at h1 ⊢
    rw [← root_pos H hk] at h1
    rw [← h1, ← h2]
    unfold RS.bit
    rw [List.getElem?_zipWith, List.getElem?_eq_getElem (by rw [hp.1]; exact hk), List.getElem?_eq_getElem (by rw [hS.1]; exact hk)]
    simp
  have hz : List.replicate rd.rank (0 : ℤ) = List.ofFn (0 : Fin r → ℤ) := by
    rw [(C69_datum H.datum).rank]
    exact (List.ofFn_const r 0).symm
  unfold twoRho rootSum
  rw [hz, sumLoop_ok H _ (fun a ha => ((bits_mem hb a).1 ha).1), zero_add]
  congr 2
  have hnd : (Root.members (List.zipWith (· && ·) rd.rs.posSet S)).Nodup := (members_sorted _).imp fun h => Nat.ne_of_lt h
  rw [← List.sum_toFinset _ hnd]
  have e : (Root.members (List.zipWith (· && ·) rd.rs.posSet S)).toFinset = (Finset.range (2 * N)).filter fun k => N ≤ k ∧ P k := by
    ext k
    rw [List.mem_toFinset, bits_mem hb, Finset.mem_filter, Finset.mem_range]
  rw [e, Finset.sum_filter, two_mul, Finset.sum_range_add, Finset.sum_eq_zero, zero_add, Finset.sum_filter]
  · refine Finset.sum_congr rfl fun k _ => ?_
    have : (N ≤ N + k ∧ P (N + k)) ↔ P (N + k) := ⟨And.right, fun h => ⟨by omega, h⟩⟩
    simp only [this]
  · intro k hk
    rw [Finset.mem_range] at hk
    rw [if_neg (by omega)]

end Verif.Canon
