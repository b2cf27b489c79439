import Verif.Inv.Cross
import Verif.KGB.Exists
/-
The record made by `add_cross`: matrices, spaces and lengths.
-/
namespace Verif.Inv
open Verif Verif.Root Verif.Mat Verif.Datum Verif.Weyl Verif.Coxeter CoxeterSystem
open scoped Matrix

variable {n r : Nat} {Mx : CoxeterMatrix (Fin n)} {G : Type} [Group G]
variable {nd : Bool} {cs : CoxeterSystem Mx G} {α αv : Fin n → Fin r → ℤ} {comps : List Comp} {pc : Bool} {rd : RD} {N : Nat} {R R' : Nat → Fin n → ℤ}
  {T : TWG} {φ : G → List Nat} {f : Fin n → Fin n} {θ : G →* G} {δ : Matrix (Fin r) (Fin r) ℤ} {A : G →* Matrix (Fin r) (Fin r) ℤ}

theorem act_mod2 {m k : Nat} {K : Matrix (Fin m) (Fin k) ℤ} {B : F2.BM} (h4 : F2.IsMatrix m k B) (h5 : ∀ (i : Fin m) (j : Fin k), F2.entry B i j = K i j) (c : Fin k → ℤ) :
    F2.act B k (F2.vec (Tits.bv (Tits.mod2 c)).data) = F2.vec (Tits.bv (Tits.mod2 (K *ᵥ c))).data := by
  funext i
  unfold F2.act
  rw [Finset.sum_range]
  by_cases hi : i < m
  · have := Tits.vec_bv (Tits.mod2 (K *ᵥ c)) ⟨i, hi⟩
    simp only at this
    rw [this, Tits.mod2, Matrix.mulVec, dotProduct]
    push_cast
    refine Finset.sum_congr rfl fun j _ => ?_
    rw [Tits.vec_bv]
    exact congrArg (· * _) (h5 ⟨i, hi⟩ j)
  · rw [Tits.vec_out (Tits.bv_fits _).2 (by omega)]
    refine (Finset.sum_eq_zero fun j _ => ?_)
    rw [show F2.entry B i j = 0 from ?_, zero_mul]
    unfold F2.entry
    rw [List.getD_eq_getElem?_getD]
    cases e : B.cols[j.1]? with
    | none => exact Tits.vec_out (show (0 : Nat) < 2 ^ m from Nat.two_pow_pos m) (by omega)
    | some x => exact Tits.vec_out (h4.fits x (List.mem_of_getElem? e)) (by omega)

/-- the stored reflection matrices -/
def IsRefl (α αv : Fin n → Fin r → ℤ) (l : List F2.BM) : Prop := ∀ s : Fin n, ∃ B, l[s.1]? = some B ∧ F2.IsMatrix r r B ∧
  ∀ i j : Fin r, F2.entry B i j = (smat α αv s)ᵀ i j

theorem negSpace_conj (nd : Bool) (hr : r ≤ 32) {S Θ : Matrix (Fin r) (Fin r) ℤ} (hS : S * S = 1) {B : F2.BM} (h4 : F2.IsMatrix r r B)
    (h5 : ∀ i j : Fin r, F2.entry B i j = Sᵀ i j) {V : F2.Sub} (hV : IsNegSpace Θ V) : ∃ V', V.apply nd Tits.dim B = .ok V' ∧ IsNegSpace (S * Θ * S) V' := by
  obtain ⟨U, hU, hm⟩ := hV
  obtain ⟨V', e1, e2⟩ := F2.C34_apply nd (dim := Tits.dim) hr hr (by decide) hU h4
  have hST : ∀ v : Fin r → ℤ, Sᵀ *ᵥ v = v ᵥ* S := fun v => Matrix.mulVec_transpose S v
  refine ⟨V', e1, _, e2, fun u => ?_⟩
  rw [Submodule.mem_map]
  constructor
  · rintro ⟨x, hx, rfl⟩
    obtain ⟨v, hv, rfl⟩ := (hm x).1 hx
    refine ⟨v ᵥ* S, ?_, ?_⟩
    · rw [Matrix.vecMul_vecMul, ← mul_assoc, ← mul_assoc, hS, one_mul, ← Matrix.vecMul_vecMul, hv, Matrix.neg_vecMul]
    · rw [F2.actL_apply, act_mod2 h4 h5, hST]
  · rintro ⟨v, hv, rfl⟩
    refine ⟨_, (hm _).2 ⟨v ᵥ* S, ?_, rfl⟩, ?_⟩
    · have := congrArg (· ᵥ* S) hv
      simp only [Matrix.vecMul_vecMul, Matrix.neg_vecMul] at this
      rw [mul_assoc, mul_assoc, hS, mul_one] at this
      rw [Matrix.vecMul_vecMul, this]
    · rw [F2.actL_apply, act_mod2 h4 h5, hST, Matrix.vecMul_vecMul, hS, Matrix.vecMul_one]

theorem addInt_ok {a b : Nat} {d : ℤ} (h : (b : ℤ) = a + d) (hb : b < 2 ^ 32) : Tab.addInt a d = b := by
  unfold Tab.addInt
  rw [← h]
  have : (b : ℤ).emod 4294967296 = b := Int.emod_eq_of_lt (by omega) (by omega)
  rw [this, Int.toNat_natCast]

variable (H : Input nd cs α αv comps pc rd N R R' T φ f θ δ A)
include H

theorem Input.redExpr_conj {w : G} {s : Fin n} {l l' : List (Fin n × Bool)} (h1 : RedExpr cs θ l w) (h2 : RedExpr cs θ l' (cs.simple s * w * θ (cs.simple s))) :
    (cs.length (cs.simple s * w * θ (cs.simple s)) : ℤ) - cs.length w = 2 * ((l'.length : ℤ) - l.length) := by
  have := H.finite
  have e1 := h1.length H.twist H.cartan H.cartf
  have e2 := h2.length H.twist H.cartan H.cartf
  rw [tr_conj H.twist H.cartan H.cartf] at e2
  omega

theorem Input.crossRec {t : Tab} (h1 : t.rd = rd) (h2 : IsRefl α αv t.refl) {w : G} (hw : IsTI θ w) {s : Fin n} (hne : cs.simple s * w * θ (cs.simple s) ≠ w) {X : Rec}
    (hX : IsRec cs θ α N R (invMat A δ w) w X) :
    ∃ Y, t.crossRec nd s X ((cs.length (cs.simple s * w * θ (cs.simple s)) : ℤ) - cs.length w) = .ok Y ∧
      IsRec cs θ α N R (invMat A δ (cs.simple s * w * θ (cs.simple s))) (cs.simple s * w * θ (cs.simple s)) Y := by
  have hr := H.rank
  have hnc : ¬ cs.simple s * w = w * θ (cs.simple s) := fun h => hne (by
    rw [h, mul_assoc, ← map_mul, cs.simple_mul_simple_self, map_one, mul_one])
  have hcx : invMat A δ w *ᵥ α s ≠ α s ∧ invMat A δ w *ᵥ α s ≠ -α s := ⟨fun h => hnc (H.commute (.inl h)), fun h => hnc (H.commute (.inr h))⟩
  have hD := C69_datum H.datum
  have hsq := smat_sq H.cartan s
  obtain ⟨pi, σ, p1, p2⟩ := sperm H.datum s
  obtain ⟨d, d1, d2⟩ := crossAct_ok H.datum p2 (d := X.data) ⟨hX.perm_length, hX.perm, hX.im, hX.re, hX.cx, hX.simpleIm, hX.simpleRe⟩ hcx
  obtain ⟨B, b1, b2, b3⟩ := h2 s
  obtain ⟨V, v1, v2⟩ := negSpace_conj nd hr hsq b2 b3 hX.modSpace
  obtain ⟨k, L, M, i0, i1, i2, i3, i4, i5⟩ := hX.image
  obtain ⟨v, w1, w2⟩ := hX.th1rho
  obtain ⟨l, l1, l2⟩ := hX.length
  obtain ⟨l', l1'⟩ := exists_redExpr H.twist (cs := cs) _ (IsTI.conjSimple H.twist hw s)
  have hlen := H.redExpr_conj l1 l1'
  have hs2 := H.simple_lt s
  obtain ⟨m, hm, m1, m2⟩ := d2.perm _ hs2
  rw [(simple_lin H.datum.base s).1] at m2
  have hc := H.inv_conj w s
  rw [hc]
  refine ⟨⟨d, enc (smat α αv s * invMat A δ w * smat α αv s), enc (M * smat α αv s), enc (smat α αv s * L),
    List.ofFn (smat α αv s *ᵥ v + α s + (smat α αv s * invMat A δ w * smat α αv s) *ᵥ α s), V, l'.length, cs.length (cs.simple s * w * θ (cs.simple s))⟩, ?_,
    ⟨rfl, d2.perm_length, d2.perm, d2.im, d2.re, d2.cx, d2.simpleIm, d2.simpleRe, ⟨k, _, _, i0, rfl, rfl, ?_, ?_, ?_⟩, ⟨_, rfl, H.rho_conj s w2⟩, v2, ⟨l', l1', rfl⟩, rfl⟩⟩
  · unfold Tab.crossRec
    rw [h1, p1, Res.ok_bind, d1, Res.ok_bind, hX.theta, hD.simpleReflectLeft, Res.ok_bind, hD.simpleReflectRight, Res.ok_bind, i2, hD.simpleReflectRight, Res.ok_bind, i1,
      hD.simpleReflectLeft, Res.ok_bind, w1, hD.simpleReflect, Res.ok_bind, H.datum.base.answers.simpleNbr, Res.ok_bind, Perm.Vec.get_of m1, Res.ok_bind, hD.root _ hs2, Res.ok_bind,
      (simple_lin H.datum.base s).1, C45_vecAdd, Res.ok_bind, hD.root _ hm, Res.ok_bind, ← m2, C45_vecAdd, Res.ok_bind, Perm.Vec.get_of b1, Res.ok_bind, v1, Res.ok_bind]
    rw [addInt_ok (b := l'.length) (by
      rw [l2, hlen, Int.mul_tdiv_cancel_left _ (by omega)]
      omega) (by
      have := KGB.redExpr_le H.twist l1'
      have := H.len (cs.simple s * w * θ (cs.simple s))
      omega), hX.wLength, addInt_ok (b := cs.length (cs.simple s * w * θ (cs.simple s))) (by omega) (by
      have := H.len (cs.simple s * w * θ (cs.simple s))
      omega)]
    rw [add_zero, (reflMat_mulVec _ _ _).1]
    rfl
  · rw [Matrix.mul_assoc, ← Matrix.mul_assoc L, i3, ← Matrix.mul_assoc, mul_sub, mul_one, sub_mul, hsq]
  · intro x y h
    have h := congrArg (smat α αv s *ᵥ ·) h
    simp only [Matrix.mulVec_mulVec, ← Matrix.mul_assoc] at h
    rw [hsq, Matrix.one_mul] at h
    exact i4 h
  · intro y
    obtain ⟨x, hx⟩ := i5 y
    refine ⟨smat α αv s *ᵥ x, ?_⟩
    simp only [Matrix.mulVec_mulVec, Matrix.mul_assoc] at hx ⊢
    rw [hsq, Matrix.mul_one, hx]

theorem Input.reflLoop (k d : Nat) (hd : k + d = n) (l : List F2.BM) (hl : l.length = k) (h : ∀ s : Fin n, s.1 < k → ∃ B, l[s.1]? = some B ∧ F2.IsMatrix r r B ∧
    ∀ i j : Fin r, F2.entry B i j = (smat α αv s)ᵀ i j) : ∃ l', reflLoop nd rd (List.range' k d) l = .ok l' ∧ IsRefl α αv l' := by
  induction d generalizing k l with
  | zero => exact ⟨l, rfl, fun s => h s (by have := s.2; omega)⟩
  | succ d ih =>
    have hD := C69_datum H.datum
    obtain ⟨B, h1, h2, h3⟩ := Tits.bmOfMat_ok nd H.rank (smat α αv ⟨k, by omega⟩)ᵀ
    have e := hD.simpleReflectLeft r 1 ⟨k, by omega⟩
    rw [mul_one] at e
    obtain ⟨l', g1, g2⟩ := ih (k + 1) (by omega) (l ++ [B]) (by simp [hl]) (fun s hs => by
      by_cases hk : s.1 = k
      · refine ⟨B, by rw [List.getElem?_append_right (by omega)]; simp [hk, hl], h2, ?_⟩
        have : s = ⟨k, by omega⟩ := Fin.ext hk
        rw [this]; exact h3
      · rw [List.getElem?_append_left (by omega)]
        exact h s (by omega))
    refine ⟨l', ?_, g2⟩
    rw [List.range'_succ, Inv.reflLoop, hD.rank, C45_identity, Res.ok_bind]
    simp only [] at e
    rw [e, Res.ok_bind, C45_transposed, Res.ok_bind, h1, Res.ok_bind, g1]

end Verif.Inv
