import Verif.Inv.Orbits
import Verif.KGB.Exists
/-
The table as used by `KGB`, and the accessors for simple reflections.
-/
set_option linter.unusedSectionVars false

namespace Verif.Inv
open Verif Verif.Root Verif.Mat Verif.Datum Verif.Weyl Verif.Coxeter CoxeterSystem
open scoped Matrix

variable {n r : Nat} {Mx : CoxeterMatrix (Fin n)} {G : Type} [Group G]
variable {nd : Bool} {cs : CoxeterSystem Mx G} {α αv : Fin n → Fin r → ℤ} {comps : List Comp} {pc : Bool} {rd : RD} {N : Nat} {R R' : Nat → Fin n → ℤ}
  {T : TWG} {φ : G → List Nat} {f : Fin n → Fin n} {θ : G →* G} {δ : Matrix (Fin r) (Fin r) ℤ} {A : G →* Matrix (Fin r) (Fin r) ℤ}
variable {ws : List G} {t : Tab}

variable (H : Input nd cs α αv comps pc rd N R R' T φ f θ δ A)
include H

theorem Input.coact {ρ : G →* Module.End ℤ (Fin r → Int)} (hρ : Tits.IsLatticeAction cs α αv ρ) (w : G) (v : Fin r → ℤ) : v ᵥ* A w⁻¹ = ρ w v := by
  obtain ⟨l, -, rfl⟩ := cs.exists_isReduced w
  induction l generalizing v with
  | nil => simp
  | cons s l ih =>
    rw [cs.wordProd_cons, mul_inv_rev, map_mul, map_mul, ← Matrix.vecMul_vecMul, ih, cs.inv_simple, H.action]
    rw [Module.End.mul_apply, hρ]
    generalize (ρ (cs.wordProd l)) v = u
    ext j
    simp only [Matrix.vecMul, dotProduct, reflMat, Matrix.of_apply, Pi.sub_apply, Pi.smul_apply, smul_eq_mul, mul_sub, Finset.sum_sub_distrib, Finset.sum_mul]
    congr 1
    · simp
    · exact Finset.sum_congr rfl fun i _ => by ring

theorem Input.inv_coweight {ρ : G →* Module.End ℤ (Fin r → Int)} (hρ : Tits.IsLatticeAction cs α αv ρ) {w : G} (hw : IsTI θ w) (v : Fin r → ℤ) :
    v ᵥ* invMat A δ w = Tits.inv ρ δ w v := by
  have e : invMat A δ w = δ * A w⁻¹ := by
    rw [H.delta_act, map_inv, hw, inv_inv]; rfl
  rw [e, ← Matrix.vecMul_vecMul, H.coact hρ, Tits.inv]
  congr 1
  ext i
  simp only [Matrix.vecMul, dotProduct, mul_comm]

/-- what `KGB` requires of the table -/
theorem Input.isInvTable {ρ : G →* Module.End ℤ (Fin r → Int)} (hρ : Tits.IsLatticeAction cs α αv ρ) (g : Good cs α αv rd N R T φ θ δ A ws t) :
    KGB.IsInvTable cs θ φ δ ρ t.toITab := by
  have key : ∀ (i : Nat) w X, t.toITab.pool[i]? = some (φ w) → t.toITab.recs[i]? = some X →
      ∃ Y, IsRec cs θ α N R (invMat A δ w) w Y ∧ IsTI θ w ∧ X = ⟨Y.modSpace, Y.length, Y.wLength⟩ := fun i w X h1 h2 => by
    have h1 : t.pool[i]? = some (φ w) := h1
    have h2 : (t.recs.map _)[i]? = some X := h2
    rw [g.pool, List.getElem?_map] at h1
    rw [List.getElem?_map] at h2
    obtain ⟨w', e1, e2⟩ := Option.map_eq_some_iff.1 h1
    obtain ⟨Y, e3, e4⟩ := Option.map_eq_some_iff.1 h2
    cases H.weyl.injective e2
    exact ⟨Y, g.recs i _ Y e1 e3, g.isTI _ (List.mem_of_getElem? e1), e4.symm⟩
  refine ⟨H.pool_nodup g, ?_, ?_, ?_, ?_, ?_, ?_⟩
  · show (t.recs.map _).length = t.pool.length
    rw [List.length_map, g.len, H.pool_length g]
  · show t.pool.length < _
    rw [H.pool_length g]; exact H.size_lt g
  · intro x hx
    have hx : x ∈ t.pool := hx
    rw [g.pool] at hx
    obtain ⟨w, -, e⟩ := List.mem_map.1 hx
    exact ⟨w, e.symm⟩
  · intro i w X h1 h2
    obtain ⟨Y, hY, hw, rfl⟩ := key i w X h1 h2
    obtain ⟨U, u1, u2⟩ := hY.modSpace
    refine ⟨U, u1, fun u => ?_⟩
    rw [u2]
    simp only [H.inv_coweight hρ hw]
  · intro i w X h1 h2
    obtain ⟨Y, hY, hw, rfl⟩ := key i w X h1 h2
    exact ⟨hY.wLength, by show Y.wLength < _; rw [hY.wLength]; exact H.len w⟩
  · intro i w X h1 h2
    obtain ⟨Y, hY, hw, rfl⟩ := key i w X h1 h2
    obtain ⟨l, l1, l2⟩ := hY.length
    exact ⟨by show Y.length < _; rw [l2]; exact lt_of_le_of_lt (KGB.redExpr_le H.twist l1) (H.len w), l, l1, l2.symm⟩

variable (g : Good cs α αv rd N R T φ θ δ A ws t)
include g

theorem Input.record {i : Nat} {w : G} (hi : ws[i]? = some w) : ∃ X, t.record nd i = .ok X ∧ t.recs[i]? = some X ∧ IsRec cs θ α N R (invMat A δ w) w X := by
  have hl := (List.getElem?_eq_some_iff.1 hi).1
  have hX := List.getElem?_eq_getElem (l := t.recs) (i := i) (by rw [g.len]; exact hl)
  refine ⟨_, ?_, hX, g.recs i w _ hi hX⟩
  unfold Tab.record
  rw [Res.assertIn_bind nd (by rw [H.size_eq g]; simpa using hl), Perm.Vec.get_of hX]

theorem Input.simple_root (s : Fin n) : t.rd.rs.simpleNbr nd s.1 = .ok (N + s.1) ∧ lin α (R (N + s.1)) = α s := by
  have h1 := simple_lin H.datum.base s
  rw [g.rd_eq]
  exact ⟨H.datum.base.answers.simpleNbr s, h1.1⟩

theorem Input.simple_bits {i : Nat} {w : G} (hi : ws[i]? = some w) (s : Fin n) :
    (∃ b, t.isComplexSimple nd i s.1 = .ok b ∧ (b = true ↔ invMat A δ w *ᵥ α s ≠ α s ∧ invMat A δ w *ᵥ α s ≠ -α s)) ∧
    (∃ b, t.isImaginarySimple nd i s.1 = .ok b ∧ (b = true ↔ invMat A δ w *ᵥ α s = α s)) ∧
    ∃ b, t.isRealSimple nd i s.1 = .ok b ∧ (b = true ↔ invMat A δ w *ᵥ α s = -α s) := by
  obtain ⟨X, x1, -, hX⟩ := H.record g hi
  obtain ⟨e1, e2⟩ := H.simple_root g s
  have hlt := H.simple_lt s
  refine ⟨⟨_, by unfold Tab.isComplexSimple Tab.complexRoots; rw [x1, Res.ok_bind, Res.ok_bind, e1, Res.ok_bind], ?_⟩,
    ⟨_, by unfold Tab.isImaginarySimple Tab.imaginaryRoots; rw [x1, Res.ok_bind, Res.ok_bind, e1, Res.ok_bind], ?_⟩,
    ⟨_, by unfold Tab.isRealSimple Tab.realRoots; rw [x1, Res.ok_bind, Res.ok_bind, e1, Res.ok_bind], ?_⟩⟩
  · exact (hX.cx.2 _ hlt).trans (by simp only [e2])
  · exact (hX.im.2 _ hlt).trans (by simp only [e2])
  · exact (hX.re.2 _ hlt).trans (by simp only [e2])

theorem Input.complexIsDescent {i : Nat} {w : G} (hi : ws[i]? = some w) {a : Nat} (ha : a < 2 * N) :
    ∃ m b, t.rootInvolution nd i a = .ok m ∧ m < 2 * N ∧ invMat A δ w *ᵥ lin α (R a) = lin α (R m) ∧ t.complexIsDescent nd i a = .ok b ∧
      (b = true ↔ ((∀ i, 0 ≤ R a i) ↔ ∀ i, R m i ≤ 0)) := by
  obtain ⟨X, x1, -, hX⟩ := H.record g hi
  obtain ⟨m, m1, m2, m3⟩ := hX.perm a ha
  have hr : t.rootInvolution nd i a = .ok m := by
    unfold Tab.rootInvolution
    rw [x1, Res.ok_bind, Perm.Vec.get_of m2]
  refine ⟨m, _, hr, m1, m3, by unfold Tab.complexIsDescent; rw [hr, Res.ok_bind], ?_⟩
  rw [g.rd_eq, beq_iff_eq, ← H.datum.base.answers.isPos a ha, ← H.datum.base.answers.isNeg m m1, Bool.eq_iff_iff]

theorem Input.simpleDescent {i : Nat} {w : G} (hi : ws[i]? = some w) (s : Fin n) :
    ∃ b, t.complexIsDescent nd i (N + s.1) = .ok b ∧ (b = true ↔ cs.length (cs.simple s * w) < cs.length w) := by
  have := H.finite
  obtain ⟨m, b, -, m1, m2, b1, b2⟩ := H.complexIsDescent g hi (H.simple_lt s)
  refine ⟨b, b1, b2.trans ?_⟩
  obtain ⟨-, e2⟩ := H.simple_root g s
  have hw := g.isTI w (List.mem_of_getElem? hi)
  have er : R (N + s.1) = Coxeter.root s := by
    have e : α s = lin α (Coxeter.root s) := by rw [← unit_eq, lin_unit]
    exact lin_inj cs H.cartan (e2.trans e)
  rw [er, H.inv_lin] at m2
  have em := lin_inj cs H.cartan m2
  obtain ⟨d1, d2⟩ := H.descent hw s
  rw [er, ← em]
  have hp : ∀ i, 0 ≤ Coxeter.root s i := fun i => by rw [Coxeter.root_apply]; split <;> simp
  rw [iff_true_left hp]
  refine ⟨fun h => ?_, d1⟩
  by_contra hn
  have hl := cs.length_simple_mul w s
  have h' := d2 (by omega)
  have h0 : R m = 0 := by rw [← em]; exact funext fun i => le_antisymm (h i) (h' i)
  have hneg := H.datum.base.numbering.neg m m1
  have := H.datum.base.numbering.inj (2 * N - 1 - m) (by omega) m m1 (funext fun i => by rw [hneg.1, h0]; simp)
  omega

end Verif.Inv
