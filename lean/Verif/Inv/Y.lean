import Verif.Inv.Access
/-
Representatives of weights modulo the image of `1-Θ`, and the packed form of their classes.
-/
set_option linter.unusedSectionVars false

namespace Verif.Inv
open Verif Verif.Root Verif.Mat Verif.Datum Verif.Weyl Verif.Coxeter CoxeterSystem
open scoped Matrix

section
variable {r k : Nat} {Θ : Matrix (Fin r) (Fin r) ℤ} {L : Matrix (Fin r) (Fin k) ℤ} {M : Matrix (Fin k) (Fin r) ℤ}

/-- the factorisation of `1-Θ` that is stored -/
structure Fact (Θ : Matrix (Fin r) (Fin r) ℤ) (L : Matrix (Fin r) (Fin k) ℤ) (M : Matrix (Fin k) (Fin r) ℤ) : Prop where
  sq : Θ * Θ = 1
  mul : L * M = 1 - Θ
  inj : Function.Injective (L *ᵥ ·)
  surj : Function.Surjective (M *ᵥ ·)

variable (h : Fact Θ L M)
include h

theorem Fact.lm (v : Fin r → ℤ) : L *ᵥ (M *ᵥ v) = (1 - Θ) *ᵥ v := by rw [Matrix.mulVec_mulVec, h.mul]

theorem Fact.ml (v : Fin k → ℤ) : M *ᵥ (L *ᵥ v) = (2 : ℤ) • v := by
  obtain ⟨u, rfl⟩ := h.surj v
  apply h.inj
  simp only []
  rw [h.lm, h.lm, Matrix.mulVec_smul, h.lm]
  rw [Matrix.mulVec_mulVec, sub_mul, mul_sub, mul_sub, one_mul, mul_one, one_mul, h.sq]
  rw [← Matrix.smul_mulVec]
  congr 1
  rw [two_smul]
  abel

theorem Fact.exists_image (v : Fin k → ℤ) : ∃ u, L *ᵥ v = (1 - Θ) *ᵥ u := by
  obtain ⟨u, rfl⟩ := h.surj v
  exact ⟨u, h.lm u⟩

theorem Fact.unique (lam mu : Fin r → ℤ) :
    lam - L *ᵥ (fun i => (M *ᵥ lam) i / 2) = mu - L *ᵥ (fun i => (M *ᵥ mu) i / 2) ↔ ∃ u, lam - mu = (1 - Θ) *ᵥ u := by
  constructor
  · intro e
    obtain ⟨u, hu⟩ := h.exists_image ((fun i => (M *ᵥ lam) i / 2) - fun i => (M *ᵥ mu) i / 2)
    refine ⟨u, ?_⟩
    rw [← hu, Matrix.mulVec_sub]
    rw [sub_eq_sub_iff_add_eq_add] at e
    rw [sub_eq_sub_iff_add_eq_add, e, add_comm]
  · rintro ⟨u, hu⟩
    have e : lam = mu + L *ᵥ (M *ᵥ u) := by rw [h.lm, ← hu]; abel
    have e2 : (fun i => (M *ᵥ lam) i / 2) = (fun i => (M *ᵥ mu) i / 2) + M *ᵥ u := by
      funext i
      rw [e, Matrix.mulVec_add, h.ml]
      simp only [Pi.add_apply, Pi.smul_apply, smul_eq_mul]
      omega
    rw [e2, Matrix.mulVec_add, e]
    abel

theorem Fact.pack (lam mu : Fin r → ℤ) : Tits.mod2 (M *ᵥ lam) = Tits.mod2 (M *ᵥ mu) ↔ ∃ u, (1 - Θ) *ᵥ (lam - mu) = (2 : ℤ) • (1 - Θ) *ᵥ u := by
  constructor
  · intro e
    have hd : ∀ i, (2 : ℤ) ∣ (M *ᵥ lam) i - (M *ᵥ mu) i := fun i => by
      have := congrFun e i
      simp only [Tits.mod2] at this
      have e0 : (((M *ᵥ lam) i - (M *ᵥ mu) i : ℤ) : ZMod 2) = 0 := by rw [Int.cast_sub, this, sub_self]
      exact (ZMod.intCast_zmod_eq_zero_iff_dvd _ 2).1 e0
    choose v hv using hd
    obtain ⟨u, hu⟩ := h.surj v
    refine ⟨u, ?_⟩
    rw [← h.lm, ← h.lm, show M *ᵥ u = v from hu, ← Matrix.mulVec_smul, Matrix.mulVec_sub]
    congr 1
    funext i
    exact hv i
  · rintro ⟨u, hu⟩
    rw [← h.lm, ← h.lm, ← Matrix.mulVec_smul] at hu
    have := h.inj hu
    rw [Matrix.mulVec_sub] at this
    funext i
    have h2 := congrFun this i
    simp only [Pi.sub_apply, Pi.smul_apply, smul_eq_mul] at h2
    simp only [Tits.mod2]
    rw [show (M *ᵥ lam) i = (M *ᵥ mu) i + 2 * (M *ᵥ u) i by omega]
    push_cast
    rw [show (2 : ZMod 2) = 0 from by decide, zero_mul, add_zero]

omit h in
/-- the lift of a vector of bits to a vector of integers 0 and 1 -/
def lift01 (x : Fin k → ZMod 2) : Fin k → ℤ := fun j => if x j = 1 then 1 else 0

omit h in
theorem mod2_lift (x : Fin k → ZMod 2) : Tits.mod2 (lift01 x) = x := by
  funext i
  simp only [Tits.mod2, lift01]
  generalize x i = a
  revert a; decide

omit h in
theorem liftLoop_ok (nd : Bool) (hk : k ≤ 32) (x : Fin k → ZMod 2) : ∀ (d j : Nat), j + d = k → ∀ v : Fin r → ℤ,
    Tab.liftLoop nd (enc L) (Tits.bv x) (List.range' j d) (List.ofFn v) = .ok (List.ofFn (v + L *ᵥ fun i => if j ≤ i.1 then lift01 x i else 0)) := by
  intro d
  induction d with
  | zero =>
    intro j hj v
    have e : (fun i : Fin k => if j ≤ i.1 then lift01 x i else 0) = 0 := funext fun i => if_neg (by have := i.2; omega)
    rw [e, Matrix.mulVec_zero, add_zero]
    rfl
  | succ d ih =>
    intro j hj v
    have hjk : j < k := by omega
    rw [List.range'_succ, Tab.liftLoop]
    have hg : (Tits.bv x).get nd Tits.dim j = .ok ((Tits.bv x).data.testBit j) := F2.get_ok' nd _ hjk hk
    have hx : (Tits.bv x).data.testBit j = decide (x ⟨j, hjk⟩ = 1) := Nat.testBit_ofBits_lt _ _ hjk
    rw [hg, Res.ok_bind, hx]
    have e : (fun i : Fin k => if j ≤ i.1 then lift01 x i else 0) = lift01 x ⟨j, hjk⟩ • Pi.single ⟨j, hjk⟩ 1 + fun i : Fin k => if j + 1 ≤ i.1 then lift01 x i else 0 := by
      funext i
      simp only [Pi.add_apply, Pi.smul_apply, Pi.single_apply, smul_eq_mul]
      by_cases hi : i = ⟨j, hjk⟩
      · subst hi; simp
      · have : i.1 ≠ j := fun e => hi (Fin.ext e)
        rw [if_neg hi]
        by_cases h1 : j ≤ i.1
        · rw [if_pos h1, if_pos (by omega)]; simp
        · rw [if_neg h1, if_neg (by omega)]; simp
    rw [e, Matrix.mulVec_add, Matrix.mulVec_smul, Matrix.mulVec_single_one, ← add_assoc]
    by_cases hb : x ⟨j, hjk⟩ = 1
    · rw [if_pos (decide_eq_true hb)]
      have ht : (Mat.tab (List.ofFn v).length fun i => do .ok ((← Vec.get (List.ofFn v) i) + (← (enc L).get i j)) : Res (List ℤ)) =
          .ok (List.ofFn (v + L.col ⟨j, hjk⟩)) := by
        rw [List.length_ofFn, ofFn_vk (v + _)]
        refine tab_ok _ fun i hi => ?_
        rw [ofFn_vk, get_vk _ hi, Res.ok_bind, C45_get L ⟨i, hi⟩ ⟨j, hjk⟩, Res.ok_bind, exv_lt _ hi, exv_lt _ hi]
        rfl
      rw [ht, Res.ok_bind, ih (j + 1) (by omega), lift01, if_pos hb, one_smul]
    · rw [if_neg (by simp [hb]), ih (j + 1) (by omega), lift01, if_neg hb, zero_smul, add_zero]

end

variable {n r : Nat} {Mx : CoxeterMatrix (Fin n)} {G : Type} [Group G]
variable {nd : Bool} {cs : CoxeterSystem Mx G} {α αv : Fin n → Fin r → ℤ} {comps : List Comp} {pc : Bool} {rd : RD} {N : Nat} {R R' : Nat → Fin n → ℤ}
  {T : TWG} {φ : G → List Nat} {f : Fin n → Fin n} {θ : G →* G} {δ : Matrix (Fin r) (Fin r) ℤ} {A : G →* Matrix (Fin r) (Fin r) ℤ}
variable {ws : List G} {t : Tab}

variable (H : Input nd cs α αv comps pc rd N R R' T φ f θ δ A) (g : Good cs α αv rd N R T φ θ δ A ws t)
include H g

theorem Input.fact {i : Nat} {w : G} (hi : ws[i]? = some w) : ∃ X, Vec.get t.recs i = .ok X ∧ ∃ (k : Nat) (L : Matrix (Fin r) (Fin k) ℤ)
    (M : Matrix (Fin k) (Fin r) ℤ), k ≤ 32 ∧ X.lift = enc L ∧ X.mReal = enc M ∧ Fact (invMat A δ w) L M := by
  obtain ⟨X, -, x2, hX⟩ := H.record g hi
  obtain ⟨k, L, M, h1, h2, h3, h4, h5, h6⟩ := hX.image
  exact ⟨X, Perm.Vec.get_of x2, k, L, M, h1.trans H.rank, h2, h3, H.inv_sq (g.isTI w (List.mem_of_getElem? hi)), h4, h5, h6⟩

/-- `lambda_unique` chooses one weight of each class -/
theorem Input.lambdaUnique {i : Nat} {w : G} (hi : ws[i]? = some w) : ∃ F : (Fin r → ℤ) → Fin r → ℤ,
    (∀ lam, t.lambdaUnique nd i (List.ofFn lam) = .ok (List.ofFn (F lam)) ∧ ∃ u, lam - F lam = (1 - invMat A δ w) *ᵥ u) ∧
    ∀ lam mu, F lam = F mu ↔ ∃ u, lam - mu = (1 - invMat A δ w) *ᵥ u := by
  obtain ⟨X, x1, k, L, M, hk, e1, e2, h⟩ := H.fact g hi
  refine ⟨fun lam => lam - L *ᵥ fun i => (M *ᵥ lam) i / 2, fun lam => ⟨?_, ?_⟩, h.unique⟩
  · unfold Tab.lambdaUnique
    rw [x1, Res.ok_bind, e2, C45_apply, Res.ok_bind, C45_vecDivide_partial _ _ (by norm_num), Res.ok_bind, e1, C45_apply, Res.ok_bind, C45_vecSub]
  · obtain ⟨u, hu⟩ := h.exists_image fun i => (M *ᵥ lam) i / 2
    exact ⟨u, by rw [← hu, sub_sub_cancel]⟩

/-- `y_pack`, `y_lift` and `y_unlift` -/
theorem Input.yPack {i : Nat} {w : G} (hi : ws[i]? = some w) : ∃ (k : Nat) (P : (Fin r → ℤ) → Fin k → ZMod 2), k ≤ 32 ∧
    (∀ lam, t.yPack nd i (List.ofFn lam) = .ok (Tits.bv (P lam))) ∧ Function.Surjective P ∧
    (∀ lam mu, P lam = P mu ↔ ∃ u, (1 - invMat A δ w) *ᵥ (lam - mu) = (2 : ℤ) • (1 - invMat A δ w) *ᵥ u) ∧
    (∀ y, ∃ lam, P lam = y ∧ t.yLift nd i (Tits.bv y) = .ok (List.ofFn ((1 - invMat A δ w) *ᵥ lam))) ∧
    ∀ lam, t.yUnlift nd i (List.ofFn ((1 - invMat A δ w) *ᵥ lam)) = .ok (Tits.bv (P lam)) := by
  obtain ⟨X, x1, k, L, M, hk, e1, e2, h⟩ := H.fact g hi
  refine ⟨k, fun lam => Tits.mod2 (M *ᵥ lam), hk, fun lam => ?_, fun y => ?_, h.pack, fun y => ?_, fun lam => ?_⟩
  · unfold Tab.yPack
    rw [x1, Res.ok_bind, e2, C45_apply, Res.ok_bind, Tits.bvOfInts_ok nd hk]
  · obtain ⟨lam, hl⟩ := h.surj (lift01 y)
    refine ⟨lam, ?_⟩
    simp only []
    rw [show M *ᵥ lam = lift01 y from hl, mod2_lift]
  · obtain ⟨lam, hl⟩ := h.surj (lift01 y)
    have hl : M *ᵥ lam = lift01 y := hl
    refine ⟨lam, by show Tits.mod2 (M *ᵥ lam) = y; rw [hl, mod2_lift], ?_⟩
    unfold Tab.yLift
    rw [x1, Res.ok_bind, e1, ← h.lm, hl]
    have e0 : List.replicate (enc L).rows (0 : ℤ) = List.ofFn (0 : Fin r → ℤ) := by
      rw [show (enc L).rows = r from rfl]
      exact (List.ofFn_const r 0).symm
    rw [e0, show (Tits.bv y).size = k from rfl, List.range_eq_range', liftLoop_ok nd hk y k 0 (by omega), zero_add]
    simp only [Nat.zero_le, if_true]
  · unfold Tab.yUnlift
    rw [x1, Res.ok_bind, e2, ← h.lm, C45_apply, Res.ok_bind, h.ml, C45_vecDivExact, if_neg, Res.ok_bind]
    · rw [← Tits.bvOfInts_ok nd hk]
      congr 2
      funext j
      simp
    · rintro (h0 | ⟨j, hj⟩)
      · norm_num at h0
      · exact hj ⟨_, rfl⟩

/-- `y_act` -/
theorem Input.yAct {i0 i1 : Nat} {w0 w1 : G} (h0 : ws[i0]? = some w0) (h1 : ws[i1]? = some w1) {D : Matrix (Fin r) (Fin r) ℤ}
    (hD : D * invMat A δ w0 = invMat A δ w1 * D) (lam : Fin r → ℤ) {y : F2.BV} (hy : t.yPack nd i0 (List.ofFn lam) = .ok y) :
    t.yAct nd i0 i1 y (enc D) = t.yPack nd i1 (List.ofFn (D *ᵥ lam)) := by
  obtain ⟨k, P, -, p1, -, p3, p4, -⟩ := H.yPack g h0
  obtain ⟨k', P', -, q1, -, q3, -, q5⟩ := H.yPack g h1
  rw [p1] at hy
  cases hy
  obtain ⟨mu, m1, m2⟩ := p4 (P lam)
  have e : ∀ v, D *ᵥ ((1 - invMat A δ w0) *ᵥ v) = (1 - invMat A δ w1) *ᵥ (D *ᵥ v) := fun v => by
    rw [Matrix.mulVec_mulVec, Matrix.mulVec_mulVec, mul_sub, sub_mul, hD, mul_one, one_mul]
  unfold Tab.yAct
  rw [m2, Res.ok_bind, C45_apply, Res.ok_bind, e, q5, q1]
  congr 2
  rw [q3]
  obtain ⟨u, hu⟩ := (p3 mu lam).1 m1
  refine ⟨D *ᵥ u, ?_⟩
  rw [← Matrix.mulVec_sub, ← e, ← e, hu, Matrix.mulVec_smul]

end Verif.Inv
