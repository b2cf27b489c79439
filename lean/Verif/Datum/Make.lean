import Verif.Datum.Lat
import Verif.Mat.PropsDiag
import Verif.Mat.PropsEchelon
import Mathlib.LinearAlgebra.InvariantBasisNumber
import Mathlib.LinearAlgebra.Matrix.ToLinearEquiv
/-
What the constructors of root data compute.
-/
namespace Verif.Datum
open Verif Verif.Mat Verif.Root Verif.Coxeter CoxeterSystem
open scoped Matrix

variable {n r : Nat} {α αv : Fin n → Fin r → ℤ}

theorem colMat_mulVec (α : Fin n → Fin r → ℤ) (x : Fin n → ℤ) : colMat α *ᵥ x = lin α x := by
  funext i
  simp [colMat, Matrix.mulVec, dotProduct, lin, Finset.sum_apply, mul_comm]

theorem vecMul_colMat (α : Fin n → Fin r → ℤ) (y : Fin r → ℤ) : y ᵥ* colMat α = fun s => y ⬝ᵥ α s := by
  funext s
  simp [colMat, Matrix.vecMul, dotProduct]

/-! ### saturation -/

theorem diag_mulVec {m k : Nat} (D : List Int) (hk : D.length ≤ k) (z : Fin k → ℤ) (i : Fin m) :
    (diagMat m k D *ᵥ z) i = if h : i.1 < D.length then D[i.1] * z ⟨i.1, by omega⟩ else 0 := by
  simp only [diagMat, Matrix.mulVec, dotProduct, Matrix.of_apply]
  by_cases h : i.1 < D.length
  · rw [dif_pos h, Finset.sum_eq_single ⟨i.1, by omega⟩]
    · rw [if_pos rfl, List.getElem?_eq_getElem h]; rfl
    · intro b _ hb
      rw [if_neg (fun e => hb (Fin.ext e.symm)), zero_mul]
    · intro hh; exact absurd (Finset.mem_univ _) hh
  · rw [dif_neg h]
    refine Finset.sum_eq_zero fun b _ => ?_
    rw [List.getElem?_eq_none (by omega)]
    simp

theorem statusOf_ok (nd : Bool) (α : Fin n → Fin r → ℤ) : ∃ b, statusOf nd r (List.ofFn fun s => List.ofFn (α s)) = .ok b ∧ (b = true ↔ Saturated α) := by
  obtain ⟨D, P, C, h1, h2, h3, h4, h5, h6, h7⟩ := C37_diagonalise_partial nd (colMat α)
  have hcols : (List.ofFn fun s => List.ofFn (α s)) = cols (colMat α) := rfl
  refine ⟨D.all fun x => decide (x.natAbs = 1), ?_, ?_⟩
  · rw [statusOf, hcols, ofColumnRange_cols, Res.ok_bind, h1, Res.ok_bind]
  · have hP : IsUnit P.det := Int.isUnit_iff.2 h4
    have hC : IsUnit C.det := by rw [h3]; exact isUnit_one
    have hPi : P⁻¹ * P = 1 := Matrix.nonsing_inv_mul P hP
    have hPi' : P * P⁻¹ = 1 := Matrix.mul_nonsing_inv P hP
    have hCi : C * C⁻¹ = 1 := Matrix.mul_nonsing_inv C hC
    have e1 : ∀ z, P *ᵥ (colMat α *ᵥ (C *ᵥ z)) = diagMat r n D *ᵥ z := fun z => by rw [← h2, Matrix.mulVec_mulVec, Matrix.mulVec_mulVec]
    have e2 : ∀ x, P *ᵥ lin α x = diagMat r n D *ᵥ (C⁻¹ *ᵥ x) := fun x => by
      rw [← e1, ← colMat_mulVec]
      congr 2
      rw [Matrix.mulVec_mulVec, hCi, Matrix.one_mulVec]
    have inj : ∀ u v, P *ᵥ u = P *ᵥ v → u = v := fun u v e => by
      have := congrArg (P⁻¹ *ᵥ ·) e
      simpa [Matrix.mulVec_mulVec, hPi] using this
    rw [List.all_eq_true]
    constructor
    · intro hD v m hm ⟨x, hx⟩
      let z : Fin n → ℤ := fun j => if h : j.1 < D.length then D[j.1] * (P *ᵥ v) ⟨j.1, by omega⟩ else 0
      refine ⟨C *ᵥ z, inj _ _ ?_⟩
      rw [← colMat_mulVec, e1]
      funext i
      have hi := congrFun (e2 x) i
      rw [← hx, Matrix.mulVec_smul, Pi.smul_apply, smul_eq_mul, diag_mulVec D h6] at hi
      rw [diag_mulVec D h6]
      by_cases h : i.1 < D.length
      · rw [dif_pos h]
        simp only [z, dif_pos h]
        have h1 : D[i.1].natAbs = 1 := by simpa using hD D[i.1] (List.getElem_mem h)
        have h2 : D[i.1] * D[i.1] = 1 := by rcases Int.natAbs_eq D[i.1] with h | h <;> rw [h, h1] <;> rfl
        rw [← mul_assoc, h2, one_mul]
      · rw [dif_neg h] at hi ⊢
        exact (mul_eq_zero.1 hi).resolve_left hm
    · intro hS d hd
      obtain ⟨i, hi, rfl⟩ := List.getElem_of_mem hd
      have hir : i < r := by omega
      have hin : i < n := by omega
      let v : Fin r → ℤ := P⁻¹ *ᵥ Pi.single ⟨i, hir⟩ 1
      have hv : P *ᵥ v = Pi.single ⟨i, hir⟩ 1 := by simp only [v]; rw [Matrix.mulVec_mulVec, hPi', Matrix.one_mulVec]
      obtain ⟨x, hx⟩ := hS v D[i] (h7 i hi).1 ⟨C *ᵥ Pi.single ⟨i, hin⟩ 1, by
        apply inj
        rw [Matrix.mulVec_smul, hv, ← colMat_mulVec, e1]
        funext j
        rw [diag_mulVec D h6]
        by_cases hj : j.1 = i
        · subst hj
          rw [dif_pos hi]
          simp
        · have h1 : j ≠ ⟨i, hir⟩ := fun e => hj (congrArg Fin.val e)
          simp only [Pi.smul_apply, Pi.single_eq_of_ne h1, smul_zero]
          by_cases hl : j.1 < D.length
          · rw [dif_pos hl, Pi.single_eq_of_ne (fun e => hj (by simpa using congrArg Fin.val e)), mul_zero]
          · rw [dif_neg hl]⟩
      have h1 := congrFun (e2 x) ⟨i, hir⟩
      rw [← hx, hv, diag_mulVec D h6, dif_pos hi] at h1
      simp only [Pi.single_eq_same] at h1
      have h2 : IsUnit D[i] := IsUnit.of_mul_eq_one _ h1.symm
      simpa using Int.isUnit_iff_natAbs_eq.1 h2

/-! ### the Cartan matrix -/

theorem cartan_ok (nd : Bool) (α αv : Fin n → Fin r → ℤ) (pc : Bool) :
    Pre.cartan nd ⟨enc (colMat α), enc (colMat αv), pc⟩ = .ok (enc (Matrix.of (cart α αv))) := by
  have hcol : (enc (colMat α)).cols = n := rfl
  rw [Pre.cartan]
  simp only [hcol]
  rw [blank_tb, enc_tb (Matrix.of (cart α αv))]
  refine fill_tb _ (ex (Matrix.of (cart α αv))) _ ?_
  intro i j hi hj g
  rw [C45_column nd (colMat α) ⟨i, hi⟩, Res.ok_bind, C45_column nd (colMat αv) ⟨j, hj⟩, Res.ok_bind, C45_dot, Res.ok_bind, set_tb _ hi hj]
  congr 2
  funext a b
  by_cases h : a = i ∧ b = j
  · rw [if_pos h, if_pos h, ex_lt _ hi hj]; rfl
  · rw [if_neg h, if_neg h]

theorem det_ne {W : Type} [Group W] [Finite W] {M : CoxeterMatrix (Fin n)} {C : Fin n → Fin n → ℤ} (cs : CoxeterSystem M W) (h : IsCartan C M) : (Matrix.of C).det ≠ 0 := by
  intro h0
  obtain ⟨v, hv, hz⟩ := Matrix.exists_vecMul_eq_zero_iff.2 h0
  refine hv (form_zero cs h fun s => ?_)
  have := congrFun hz s
  rw [form]
  simp only [Matrix.vecMul, dotProduct, Matrix.of_apply, Pi.zero_apply] at this
  rw [← this]
  refine Finset.sum_congr rfl fun i _ => ?_
  rw [Finset.sum_eq_single s]
  · simp [root]
  · intro b _ hb
    simp [root, hb]
  · simp

theorem rank_le {W : Type} [Group W] [Finite W] {M : CoxeterMatrix (Fin n)} (cs : CoxeterSystem M W) (h : IsCartan (cart α αv) M) : n ≤ r := by
  have := card_le_of_injective ℤ (Matrix.mulVecLin (colMat α)) (fun x y e => by
    simp only [Matrix.mulVecLin_apply, colMat_mulVec] at e
    exact lin_inj cs h e)
  simpa using this

theorem perp_zero {W : Type} [Group W] [Finite W] {M : CoxeterMatrix (Fin n)} (cs : CoxeterSystem M W) (h : IsCartan (cart α αv) M) (hr : ¬ n < r) {y : Fin r → ℤ} (hy : ∀ s, y ⬝ᵥ α s = 0) : y = 0 := by
  have : n = r := by have := rank_le cs h; omega
  subst this
  have e : Matrix.of (cart α αv) = (colMat α)ᵀ * colMat αv := by
    ext i j
    simp [colMat, Matrix.mul_apply, dotProduct]
  have hd := det_ne cs h
  rw [e, Matrix.det_mul, Matrix.det_transpose] at hd
  refine Matrix.eq_zero_of_vecMul_eq_zero (left_ne_zero_of_mul hd) ?_
  rw [vecMul_colMat]
  exact funext hy

/-! ### roots -/

section
variable {nd pc : Bool} {comps : List Weyl.Comp} {rs : RS} {N : Nat} {R R' : Nat → Fin n → ℤ}

theorem minus_eq {C : Fin n → Fin n → ℤ} (hs : Spec.System nd C comps pc rs N R R') {k : Nat} (hk : k < 2 * N) : rs.minus k = 2 * N - 1 - k := by
  obtain ⟨h1, h2⟩ := hs.answers.minus k hk
  refine hs.numbering.inj _ h1 _ (by omega) (funext fun i => ?_)
  rw [h2, (hs.numbering.neg k hk).1]

/-- the state after `j` positive roots -/
def midState (α αv : Fin n → Fin r → ℤ) (N : Nat) (R R' : Nat → Fin n → ℤ) (j : Nat) : List (List Int) × List (List Int) × List Int × List Int :=
  (vk (2 * N) fun k => if N - j ≤ k ∧ k < N + j then List.ofFn (lin α (R k)) else [],
   vk (2 * N) fun k => if N - j ≤ k ∧ k < N + j then List.ofFn (lin αv (R' k)) else [],
   List.ofFn (∑ k ∈ Finset.range j, lin α (R (N + k))), List.ofFn (∑ k ∈ Finset.range j, lin αv (R' (N + k))))

theorem put_two {N j : Nat} (hj : j < N) (f : Nat → List Int) (x y : List Int) (hx : x = f (N + j)) (hy : y = f (2 * N - 1 - (N + j))) :
    (Vec.put (vk (2 * N) fun k => if N - j ≤ k ∧ k < N + j then f k else []) (N + j) x >>= fun l => Vec.put l (2 * N - 1 - (N + j)) y) =
      .ok (vk (2 * N) fun k => if N - (j + 1) ≤ k ∧ k < N + (j + 1) then f k else []) := by
  rw [put_vk _ (by omega), Res.ok_bind, put_vk _ (by omega)]
  congr 1
  refine vk_congr fun k hk => ?_
  by_cases h1 : k = 2 * N - 1 - (N + j)
  · rw [if_pos h1, if_pos (by omega), hy, h1]
  · rw [if_neg h1]
    by_cases h2 : k = N + j
    · rw [if_pos h2, if_pos (by omega), hx, h2]
    · rw [if_neg h2]
      by_cases h3 : N - j ≤ k ∧ k < N + j
      · rw [if_pos h3, if_pos (by omega)]
      · rw [if_neg h3, if_neg (by omega)]

theorem rootLoop_ok (pc' : Bool) (hs : Spec.System nd (cart α αv) comps pc rs N R R') : ∀ m j, j + m = N →
    rootLoop nd ⟨enc (colMat α), enc (colMat αv), pc'⟩ rs (List.range' (N + j) m) (midState α αv N R R' j) = .ok (midState α αv N R R' N) := by
  intro m
  induction m with
  | zero => intro j hj; simp only [Nat.add_zero] at hj; subst hj; rfl
  | succ m ih =>
    intro j hj
    rw [List.range'_succ, midState, rootLoop]
    have hk : N + j < 2 * N := by omega
    rw [hs.answers.rootExpr _ hk, Res.ok_bind, C45_apply, Res.ok_bind, hs.answers.corootExpr _ hk, Res.ok_bind, C45_apply, Res.ok_bind]
    rw [colMat_mulVec, colMat_mulVec]
    rw [put_vk _ hk, Res.ok_bind, put_vk _ hk, Res.ok_bind, C45_vecAdd, Res.ok_bind, C45_vecAdd, Res.ok_bind, C45_vecNeg, Res.ok_bind, minus_eq hs hk]
    have e1 := put_two (show j < N by omega) (fun k => List.ofFn (lin α (R k))) (List.ofFn (lin α (R (N + j)))) (List.ofFn (-lin α (R (N + j)))) rfl
      (by rw [(hs.numbering.minus hk).1, lin_neg])
    have e2 := put_two (show j < N by omega) (fun k => List.ofFn (lin αv (R' k))) (List.ofFn (lin αv (R' (N + j)))) (List.ofFn (-lin αv (R' (N + j)))) rfl
      (by rw [(hs.numbering.minus hk).2, lin_neg])
    rw [put_vk _ hk, Res.ok_bind] at e1 e2
    rw [e1, Res.ok_bind, C45_vecNeg, Res.ok_bind, e2, Res.ok_bind]
    have := ih (j + 1) (by omega)
    rw [midState, Finset.sum_range_succ, Finset.sum_range_succ] at this
    exact this

/-- what the data members are -/
structure Holds (nd : Bool) (α αv : Fin n → Fin r → ℤ) (comps : List Weyl.Comp) (pc : Bool) (N : Nat) (R R' : Nat → Fin n → ℤ) (rd : RD) : Prop where
  sys : Spec.System nd (cart α αv) comps pc rd.rs N R R'
  rank : rd.rank = r
  roots : rd.roots = vk (2 * N) fun k => List.ofFn (lin α (R k))
  coroots : rd.coroots = vk (2 * N) fun k => List.ofFn (lin αv (R' k))
  inv : ∃ A : Matrix (Fin n) (Fin n) ℤ, rd.invC = enc A ∧ (n ≠ 0 → 0 < rd.denom) ∧ Matrix.of (cart α αv) * A = rd.denom • 1 ∧ A * Matrix.of (cart α αv) = rd.denom • 1 ∧
    rd.weightNumer = List.ofFn (fun s => List.ofFn (lin α (A s))) ∧ rd.coweightNumer = List.ofFn (fun s => List.ofFn (lin αv (Aᵀ s)))
  radical : ∃ (k : Nat) (K : Matrix (Fin r) (Fin k) ℤ), rd.radical = cols K ∧ IsBasis K fun y => ∀ s, y ⬝ᵥ α s = 0
  coradical : ∃ (k : Nat) (K : Matrix (Fin r) (Fin k) ℤ), rd.coradical = cols K ∧ IsBasis K fun y => ∀ s, y ⬝ᵥ αv s = 0
  twoRho : rd.twoRho = List.ofFn (∑ k ∈ Finset.range N, lin α (R (N + k)))
  dualTwoRho : rd.dualTwoRho = List.ofFn (∑ k ∈ Finset.range N, lin αv (R' (N + k)))
  isAdjoint : rd.isAdjoint = true ↔ Saturated α
  isSimplyConnected : rd.isSimplyConnected = true ↔ Saturated αv

theorem simpleOf_ok {C : Fin n → Fin n → ℤ} (hs : Spec.System nd C comps pc rs N R R') :
    RD.simpleOf rs (vk (2 * N) fun k => List.ofFn (lin α (R k))) = .ok (List.ofFn fun s => List.ofFn (α s)) ∧
    RD.simpleOf rs (vk (2 * N) fun k => List.ofFn (lin αv (R' k))) = .ok (List.ofFn fun s => List.ofFn (αv s)) := by
  have h1 := hs.numbering.simple.1
  rw [RD.simpleOf, RD.simpleOf, hs.answers.numPos, hs.answers.rank, slice_vk _ (by omega) (by omega), slice_vk _ (by omega) (by omega), Nat.add_sub_cancel_left, vk_ofFn, vk_ofFn]
  constructor
  · congr 2; funext s; rw [(hs.numbering.simple.2 s).1, lin_unit]
  · congr 2; funext s; rw [(hs.numbering.simple.2 s).2, lin_unit]

theorem fillStatus_ok {C : Fin n → Fin n → ℤ} {rd : RD} (hs : Spec.System nd C comps pc rd.rs N R R') (hr : rd.rank = r)
    (h1 : rd.roots = vk (2 * N) fun k => List.ofFn (lin α (R k))) (h2 : rd.coroots = vk (2 * N) fun k => List.ofFn (lin αv (R' k))) :
    ∃ a b, RD.fillStatus nd rd = .ok { rd with isAdjoint := a, isSimplyConnected := b } ∧ (a = true ↔ Saturated α) ∧ (b = true ↔ Saturated αv) := by
  obtain ⟨a, ha, ha'⟩ := statusOf_ok nd α
  obtain ⟨b, hb, hb'⟩ := statusOf_ok nd αv
  refine ⟨a, b, ?_, ha', hb'⟩
  rw [RD.fillStatus, h1, (simpleOf_ok (α := α) (αv := αv) hs).1, Res.ok_bind, hr, ha, Res.ok_bind, h2, (simpleOf_ok (α := α) (αv := αv) hs).2, Res.ok_bind, hb, Res.ok_bind]

theorem make_ok (nd pc : Bool) (hC : Spec.Cartan (cart α αv) comps) : ∃ rd N R R', RD.make nd ⟨enc (colMat α), enc (colMat αv), pc⟩ = .ok rd ∧ Holds nd α αv comps pc N R R' rd := by
  have := hC.finite
  have cs := (Weyl.coxMatrix (cart α αv)).toCoxeterSystem
  have h := hC.isCartan
  obtain ⟨rs, hrs⟩ : ∃ rs, RS.make nd (List.ofFn fun i => List.ofFn (cart α αv i)) pc = .ok rs := by
    obtain ⟨rs, _, _, _, h1, -⟩ := C48_make nd pc hC
    exact ⟨rs, h1⟩
  obtain ⟨N, R, R', hs⟩ := C49_exists hC (Spec.Built.make hrs)
  obtain ⟨A, d, hinv, hpos, hr, hl⟩ : ∃ A d, invCartan nd (enc (Matrix.of (cart α αv))) = .ok (enc A, d) ∧ (n ≠ 0 → 0 < d) ∧
      Matrix.of (cart α αv) * A = d • 1 ∧ A * Matrix.of (cart α αv) = d • 1 := by
    have hrows : (enc (Matrix.of (cart α αv))).rows = n := rfl
    by_cases hn : n = 0
    · subst hn
      refine ⟨0, 0, ?_, fun h => absurd rfl h, Subsingleton.elim _ _, Subsingleton.elim _ _⟩
      rw [invCartan, if_pos hrows, C45_zero]
    · have hn' : n ≤ 32 := hC.dynkin.rank_le
      obtain ⟨A, d, h1, h2⟩ := C36_inverse nd (by omega) _ (det_ne cs h)
      exact ⟨A, d, by rw [invCartan, if_neg (by rw [hrows]; exact hn), h1], fun _ => h2.pos, h2.right, h2.left⟩
  obtain ⟨k, K, hK, hKb⟩ := C46_perp nd (colMat α)
  obtain ⟨k', K', hK', hKb'⟩ := C46_perp nd (colMat αv)
  rw [show (fun y => y ᵥ* colMat α = 0) = fun y => ∀ s, y ⬝ᵥ α s = 0 from funext fun y => by rw [vecMul_colMat, funext_iff]; rfl] at hKb
  rw [show (fun y => y ᵥ* colMat αv = 0) = fun y => ∀ s, y ⬝ᵥ αv s = 0 from funext fun y => by rw [vecMul_colMat, funext_iff]; rfl] at hKb'
  have hd : IsCartan (cart αv α) (Weyl.coxMatrix (cart α αv)) := by
    have := h.dual
    have e2 : (fun s t => cart α αv t s) = cart αv α := by funext s t; exact dotProduct_comm _ _
    exact e2 ▸ this
  have hzero : ∀ β βv : Fin n → Fin r → ℤ, IsCartan (cart β βv) (Weyl.coxMatrix (cart α αv)) → ¬ n < r → IsBasis (0 : Matrix (Fin r) (Fin 0) ℤ) fun y => ∀ s, y ⬝ᵥ β s = 0 := by
    intro β βv hβ hlt
    refine ⟨fun v => ⟨fun hv => ⟨0, by rw [perp_zero cs hβ hlt hv, Matrix.zero_mulVec]⟩, ?_⟩, fun x y _ => Subsingleton.elim _ _⟩
    rintro ⟨c, rfl⟩ s
    rw [Matrix.zero_mulVec, zero_dotProduct]
  have hloop := rootLoop_ok pc hs N 0 (by omega)
  have hst : (List.replicate rs.numRoots [], List.replicate rs.numRoots [], List.replicate r 0, List.replicate r 0) = midState α αv N R R' 0 := by
    rw [midState, hs.answers.numRoots, replicate_vk, replicate_vk]
    refine Prod.ext (vk_congr fun k _ => by rw [if_neg (by omega)]) (Prod.ext (vk_congr fun k _ => by rw [if_neg (by omega)]) (Prod.ext ?_ ?_))
    · exact (vk_ofFn (n := r) fun _ => (0 : ℤ)).trans (by rw [Finset.sum_range_zero]; rfl)
    · exact (vk_ofFn (n := r) fun _ => (0 : ℤ)).trans (by rw [Finset.sum_range_zero]; rfl)
  have hfin : midState α αv N R R' N = (vk (2 * N) fun k => List.ofFn (lin α (R k)), vk (2 * N) fun k => List.ofFn (lin αv (R' k)),
      List.ofFn (∑ k ∈ Finset.range N, lin α (R (N + k))), List.ofFn (∑ k ∈ Finset.range N, lin αv (R' (N + k)))) := by
    rw [midState]
    refine Prod.ext (vk_congr fun k _ => by rw [if_pos (by omega)]) (Prod.ext (vk_congr fun k _ => by rw [if_pos (by omega)]) rfl)
  have hrank : (enc (colMat α)).rows = r := rfl
  have key : ∃ rad corad, ((if rs.rk < r then do
      let corad ← perp nd false (enc (colMat αv))
      let rad ← perp nd false (enc (colMat α))
      .ok (rad, corad)
    else .ok ([], []) : Res (List (List Int) × List (List Int))) = .ok (rad, corad)) ∧
    (∃ (k : Nat) (K : Matrix (Fin r) (Fin k) ℤ), rad = cols K ∧ IsBasis K fun y => ∀ s, y ⬝ᵥ α s = 0) ∧
    (∃ (k : Nat) (K : Matrix (Fin r) (Fin k) ℤ), corad = cols K ∧ IsBasis K fun y => ∀ s, y ⬝ᵥ αv s = 0) := by
    rw [hs.answers.rank]
    by_cases hlt : n < r
    · rw [if_pos hlt, hK', Res.ok_bind, hK, Res.ok_bind]
      exact ⟨_, _, rfl, ⟨k, K, rfl, hKb⟩, ⟨k', K', rfl, hKb'⟩⟩
    · rw [if_neg hlt]
      exact ⟨_, _, rfl, ⟨0, 0, rfl, hzero α αv h hlt⟩, ⟨0, 0, rfl, hzero αv α hd hlt⟩⟩
  obtain ⟨rad, corad, hrad, hb1, hb2⟩ := key
  have hw : (colMat α * Aᵀ) = Matrix.of fun i s => lin α (A s) i := by
    ext i s
    have := congrFun (colMat_mulVec α (A s)) i
    rw [Matrix.of_apply, ← this]
    simp [Matrix.mul_apply, Matrix.mulVec, dotProduct]
  have hcw : (colMat αv * A) = Matrix.of fun i s => lin αv (Aᵀ s) i := by
    ext i s
    have := congrFun (colMat_mulVec αv (Aᵀ s)) i
    rw [Matrix.of_apply, ← this]
    simp [Matrix.mul_apply, Matrix.mulVec, dotProduct]
  obtain ⟨a, b, hfs, ha, hb⟩ := fillStatus_ok (α := α) (αv := αv) (rd := ⟨rs, enc A, d, r, vk (2 * N) fun k => List.ofFn (lin α (R k)), vk (2 * N) fun k => List.ofFn (lin αv (R' k)),
    List.ofFn (fun s => List.ofFn (lin α (A s))), List.ofFn (fun s => List.ofFn (lin αv (Aᵀ s))), rad, corad,
    List.ofFn (∑ k ∈ Finset.range N, lin α (R (N + k))), List.ofFn (∑ k ∈ Finset.range N, lin αv (R' (N + k))), false, false⟩) hs rfl rfl rfl
  refine ⟨_, N, R, R', (?_ : RD.make _ _ = _).trans hfs, ?_⟩
  · rw [RD.make, cartan_ok, Res.ok_bind, hinv, Res.ok_bind]
    simp only []
    rw [C45_rows, Res.ok_bind]
    have hrs' : RS.make nd (List.ofFn fun i => List.ofFn (Matrix.of (cart α αv) i)) pc = .ok rs := hrs
    rw [hrs', Res.ok_bind]
    simp only [hrank]
    rw [hst, hs.answers.numPos]
    rw [show List.range' N N = List.range' (N + 0) N from rfl, hloop, Res.ok_bind, hfin]
    simp only []
    rw [C45_transposed, Res.ok_bind, C45_mul, Res.ok_bind, C45_columns, Res.ok_bind, C45_mul, Res.ok_bind, C45_columns, Res.ok_bind, hrad, Res.ok_bind]
    simp only [hw, hcw, Matrix.of_apply]
  · exact ⟨hs, rfl, rfl, rfl, ⟨A, rfl, hpos, hr, hl, rfl, rfl⟩, hb1, hb2, rfl, rfl, ha, hb⟩

theorem cart_swap : (fun i j => cart α αv j i) = cart αv α := by funext s t; exact dotProduct_comm _ _

theorem dual_ok {rd : RD} (H : Holds nd α αv comps pc N R R' rd) : ∃ rd', RD.dual nd rd = .ok rd' ∧ ∃ N R R', Spec.System nd (cart α αv) comps pc rd.rs N R' R ∧ Holds nd αv α comps (!pc) N R R' rd' := by
  obtain ⟨rs', N1, R1, R1', e1, n1, a1, n2, a2⟩ := C48_dual H.sys.cartan H.sys.built
  have hN : N1 = N := by rw [← a1.numPos, H.sys.answers.numPos]
  subst hN
  have hR : ∀ k < 2 * N1, R1 k = R k := fun k hk => by
    have h1 := a1.rootExpr k hk
    rw [H.sys.answers.rootExpr k hk] at h1
    exact (List.ofFn_injective (Res.ok.inj h1)).symm
  have hR' : ∀ k < 2 * N1, R1' k = R' k := fun k hk => by
    have h1 := a1.corootExpr k hk
    rw [H.sys.answers.corootExpr k hk] at h1
    exact (List.ofFn_injective (Res.ok.inj h1)).symm
  rw [cart_swap] at n2 a2
  have hB : Spec.Built nd (cart αv α) (!pc) rs' := cart_swap (α := α) (αv := αv) ▸ Spec.Built.dual H.sys.built e1
  have hC : Spec.Cartan (cart αv α) comps := cart_swap (α := α) (αv := αv) ▸ H.sys.cartan.dual
  have hs : Spec.System nd (cart αv α) comps (!pc) rs' N1 R1' R1 := ⟨hC, hB, n2, a2⟩
  have hro : rd.roots = vk (2 * N1) fun k => List.ofFn (lin α (R1 k)) := by
    rw [H.roots]; exact vk_congr fun k hk => by rw [hR k hk]
  have hco : rd.coroots = vk (2 * N1) fun k => List.ofFn (lin αv (R1' k)) := by
    rw [H.coroots]; exact vk_congr fun k hk => by rw [hR' k hk]
  obtain ⟨A, i1, i2, i3, i4, i5, i6⟩ := H.inv
  obtain ⟨a, b, hfs, ha, hb⟩ := fillStatus_ok (α := αv) (αv := α) (rd := ⟨rs', enc Aᵀ, rd.denom, rd.rank, rd.coroots, rd.roots, rd.coweightNumer, rd.weightNumer,
    rd.coradical, rd.radical, rd.dualTwoRho, rd.twoRho, false, false⟩) hs H.rank hco hro
  have ea : a = rd.isSimplyConnected := by rw [Bool.eq_iff_iff, ha, H.isSimplyConnected]
  have eb : b = rd.isAdjoint := by rw [Bool.eq_iff_iff, hb, H.isAdjoint]
  refine ⟨_, (?_ : RD.dual nd rd = _).trans hfs, N1, R1', R1, ⟨H.sys.cartan, H.sys.built, n1, a1⟩, hs, H.rank, hco, hro, ⟨Aᵀ, rfl, i2, ?_, ?_, i6, ?_⟩, H.coradical, H.radical, ?_, ?_, ha, hb⟩
  · rw [RD.dual, e1, Res.ok_bind, i1, C45_transposed, Res.ok_bind, hfs, Res.ok_bind, Res.assertIn_bind nd (by simp [ea]), Res.assertIn_bind nd (by simp [eb])]
  · have := congrArg Matrix.transpose i4
    rw [Matrix.transpose_mul, Matrix.transpose_smul, Matrix.transpose_one] at this
    rw [← cart_swap]; exact this
  · have := congrArg Matrix.transpose i3
    rw [Matrix.transpose_mul, Matrix.transpose_smul, Matrix.transpose_one] at this
    rw [← cart_swap]; exact this
  · rw [Matrix.transpose_transpose]; exact i5
  · show rd.dualTwoRho = _
    rw [H.dualTwoRho]
    congr 1
    refine Finset.sum_congr rfl fun k hk => ?_
    have := Finset.mem_range.1 hk
    rw [hR' _ (by omega)]
  · show rd.twoRho = _
    rw [H.twoRho]
    congr 1
    refine Finset.sum_congr rfl fun k hk => ?_
    have := Finset.mem_range.1 hk
    rw [hR _ (by omega)]

theorem built_ok {rd : RD} (hC : Spec.Cartan (cart α αv) comps) (hB : Built nd α αv pc rd) : ∃ N R R', Holds nd α αv comps pc N R R' rd := by
  induction hB with
  | make e =>
    obtain ⟨rd', N, R, R', h1, h2⟩ := make_ok nd _ hC
    rw [e] at h1
    cases h1
    exact ⟨N, R, R', h2⟩
  | dual hB e ih =>
    obtain ⟨N, R, R', h1⟩ := ih (by rw [← cart_swap]; exact hC.dual)
    obtain ⟨rd', h2, N, R, R', -, h3⟩ := dual_ok h1
    rw [e] at h2
    cases h2
    exact ⟨N, R, R', h3⟩

end

end Verif.Datum
