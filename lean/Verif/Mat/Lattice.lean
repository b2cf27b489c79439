import Verif.Mat.Smith
import Verif.Mat.PropsEchelon

/-!
Lattices: `baseChange`, `inverseBaseChange`, `perp`, `kernel`, `eigen_lattice` and `row_saturate` (sources/structure/lattice.cpp).
-/

open Finset
open scoped Matrix

namespace Verif.Mat

variable {m n k : Nat}

/-- the list of columns of a matrix -/
def cols (A : Matrix (Fin m) (Fin n) Int) : List (List Int) := List.ofFn fun j => List.ofFn fun i => A i j

/-- the columns of `K` form a basis of the lattice of vectors `v` with `S v` -/
structure IsBasis (K : Matrix (Fin m) (Fin k) Int) (S : (Fin m → Int) → Prop) : Prop where
  span : ∀ v, S v ↔ ∃ c, K *ᵥ c = v
  indep : Function.Injective (K *ᵥ ·)

theorem mulVec_sub (P : Matrix (Fin m) (Fin m) Int) {e : Fin k → Fin m} (he : Function.Injective e) (c : Fin k → Int) :
    P.submatrix id e *ᵥ c = P *ᵥ Function.extend e c 0 := by
  funext r
  rw [Matrix.mulVec, Matrix.mulVec, dotProduct, dotProduct]
  refine Finset.sum_of_injOn e he.injOn (fun _ _ => Finset.mem_coe.2 (Finset.mem_univ _)) ?_ ?_
  · intro i _ hi
    rw [Function.extend_apply' _ _ _ (by
      rintro ⟨a, ha⟩
      exact hi ⟨a, Finset.mem_coe.2 (Finset.mem_univ _), ha⟩), Pi.zero_apply, mul_zero]
  · intro i _
    rw [he.extend_apply]; rfl

theorem basis_of_unit {P : Matrix (Fin m) (Fin m) Int} (hP : IsUnit P.det) {e : Fin k → Fin m} (he : Function.Injective e)
    {S : (Fin m → Int) → Prop} (hS : ∀ z, S (P *ᵥ z) ↔ ∀ i, (∀ t, e t ≠ i) → z i = 0) : IsBasis (P.submatrix id e) S where
  span v := by
    have hv : v = P *ᵥ (P⁻¹ *ᵥ v) := by rw [Matrix.mulVec_mulVec, Matrix.mul_nonsing_inv _ hP, Matrix.one_mulVec]
    constructor
    · intro h
      rw [hv] at h
      refine ⟨fun t => (P⁻¹ *ᵥ v) (e t), ?_⟩
      rw [mulVec_sub P he]
      conv_rhs => rw [hv]
      congr 1
      funext i
      by_cases c : ∃ t, e t = i
      · obtain ⟨t, rfl⟩ := c
        rw [he.extend_apply]
      · rw [Function.extend_apply' _ _ _ c, (hS _).1 h i (fun t ht => c ⟨t, ht⟩)]; rfl
    · rintro ⟨c, rfl⟩
      rw [mulVec_sub P he, hS]
      intro i hi
      rw [Function.extend_apply' _ _ _ (by rintro ⟨t, ht⟩; exact hi t ht)]; rfl
  indep c d h := by
    simp only at h
    rw [mulVec_sub P he, mulVec_sub P he] at h
    have := Matrix.mulVec_injective_of_isUnit ((Matrix.isUnit_iff_isUnit_det P).2 hP) h
    funext t
    rw [← he.extend_apply c 0 t, this, he.extend_apply]

theorem ofColumnRange_cols (A : Matrix (Fin m) (Fin n) Int) : ofColumnRange (cols A) m = .ok (enc A) := by
  have := ofColumnRange_tb (R := Int) m n (fun j i => ex A i j) (fun _ => m) (fun _ _ => le_rfl)
  rw [enc_tb, ← this]
  congr 1
  rw [cols, vk_ofFn]
  congr 1; funext j
  rw [vk_ofFn]
  congr 1; funext i
  rw [ex_lt _ i.2 j.2]

theorem get_cols (A : Matrix (Fin m) (Fin n) Int) (j : Fin n) : Vec.get (cols A) j = .ok (List.ofFn fun i => A i j) := by
  rw [cols, Vec.get_ok (by simp)]; simp

theorem tab_cols {f : Nat → Res (List Int)} (A : Matrix (Fin m) (Fin n) Int) (h : ∀ j : Fin n, f j = .ok (List.ofFn fun i => A i j)) :
    tab n f = .ok (cols A) := by
  refine tab_eq (by simp [cols]) fun i hi => ?_
  have hi' : i < n := by simpa [cols] using hi
  rw [h ⟨i, hi'⟩]; simp [cols]

/-- a loop that throws an error at some stage, and has a result at the other ones -/
theorem tab_throw {α : Type} {f : Nat → Res α} {n : Nat} (h : ∀ i, i < n → f i = .throw ∨ ∃ r, f i = .ok r) (ht : ∃ i, i < n ∧ f i = .throw) :
    tab n f = .throw := by
  obtain ⟨t, htn, ht⟩ := ht
  have key : ∀ k a (l : List α), a + k = n → a ≤ t → forUp (fun i v => do let x ← f i; pure (v ++ [x])) k a l = .throw := by
    intro k
    induction k with
    | zero => intro a l h1 h2; omega
    | succ k ih =>
      intro a l h1 h2
      rw [forUp]
      rcases h a (by omega) with hf | ⟨r, hf⟩
      · simp only [hf, Res.throw_bind]
      · simp only [hf, Res.ok_bind]
        refine ih (a + 1) (l ++ [r]) (by omega) ?_
        rcases Nat.lt_or_ge a t with c | c
        · omega
        · obtain rfl : a = t := by omega
          rw [ht] at hf; cases hf
  exact key n 0 [] (by omega) (by omega)

theorem baseChange_spec (nd : Bool) (hn : n < 2 ^ 64) (B : Matrix (Fin n) (Fin n) Int) (V : Matrix (Fin n) (Fin k) Int) :
    (B.det ≠ 0 ∧ ∃ X, B * X = V ∧ baseChange nd (cols V) (cols B) = .ok (cols X)) ∨
    (B.det ≠ 0 ∧ (¬ ∃ X, B * X = V) ∧ baseChange nd (cols V) (cols B) = .throw) ∨
    (B.det = 0 ∧ (0 < k → baseChange nd (cols V) (cols B) = .throw) ∧ (k = 0 → baseChange nd (cols V) (cols B) = .ok [])) := by
  have e1 : (cols B).length = n := by simp [cols]
  have e2 : (cols V).length = k := by simp [cols]
  rw [baseChange, e1, ofColumnRange_cols, Res.ok_bind, e2]
  rcases inverse_spec nd hn B with ⟨N, d, h1, h2⟩ | ⟨h1, h2⟩
  · have hdet : B.det ≠ 0 := by
      intro h
      have := congrArg Matrix.det h2.right
      rw [Matrix.det_mul, h, zero_mul, Matrix.det_smul, Matrix.det_one, mul_one] at this
      exact pow_ne_zero _ h2.pos.ne' this.symm
    rw [h1, Res.ok_bind]
    simp only
    have hf : ∀ j : Fin k, (do vecDivExact (← apply nd (enc N) (← Vec.get (cols V) j)) d) =
        if ∃ i, ¬ d ∣ (N * V) i j then .throw else .ok (List.ofFn fun i => (N * V) i j / d) := by
      intro j
      rw [get_cols, Res.ok_bind, C45_apply, Res.ok_bind, C45_vecDivExact]
      have : ∀ i, (N *ᵥ fun i => V i j) i = (N * V) i j := fun i => rfl
      simp only [this, h2.pos.ne', false_or]
    by_cases c : ∃ j i, ¬ d ∣ (N * V) i j
    · refine .inr (.inl ⟨hdet, ?_, ?_⟩)
      · rintro ⟨X, rfl⟩
        obtain ⟨j, i, hc⟩ := c
        rw [← Matrix.mul_assoc, h2.left, Matrix.smul_mul, Matrix.one_mul] at hc
        exact hc ⟨X i j, rfl⟩
      · obtain ⟨j, hc⟩ := c
        refine tab_throw ?_ ⟨j.val, j.2, ?_⟩
        · intro i hi
          have := hf ⟨i, hi⟩
          simp only at this
          rw [this]
          by_cases c : ∃ r, ¬ d ∣ (N * V) r ⟨i, hi⟩
          · rw [if_pos c]; exact .inl rfl
          · rw [if_neg c]; exact .inr ⟨_, rfl⟩
        · rw [hf, if_pos hc]
    · push Not at c
      refine .inl ⟨hdet, Matrix.of fun i j => (N * V) i j / d, ?_, ?_⟩
      · have hX : d • (Matrix.of fun i j => (N * V) i j / d) = N * V := by
          ext i j
          rw [Matrix.smul_apply, Matrix.of_apply, smul_eq_mul, Int.mul_ediv_cancel' (c j i)]
        have : d • (B * (Matrix.of fun i j => (N * V) i j / d)) = d • V := by
          rw [← Matrix.mul_smul, hX, ← Matrix.mul_assoc, h2.right, Matrix.smul_mul, Matrix.one_mul]
        ext i j
        have := congrFun (congrFun this i) j
        rw [Matrix.smul_apply, Matrix.smul_apply, smul_eq_mul, smul_eq_mul] at this
        exact mul_left_cancel₀ h2.pos.ne' this
      · refine tab_cols _ fun j => ?_
        rw [hf, if_neg (by push Not; exact c j)]; rfl
  · refine .inr (.inr ⟨h2, ?_, ?_⟩)
    · intro hk
      rw [h1, Res.ok_bind]
      have : ∀ j, j < k → (do vecDivExact (← apply nd (enc (0 : Matrix (Fin n) (Fin n) Int)) (← Vec.get (cols V) j)) 0) = .throw := by
        intro j hj
        have := get_cols V ⟨j, hj⟩
        simp only at this
        rw [this, Res.ok_bind, C45_apply, Res.ok_bind, C45_vecDivExact, if_pos (.inl rfl)]
      exact tab_throw (fun j hj => .inl (this j hj)) ⟨0, hk, this 0 hk⟩
    · rintro rfl
      rw [h1, Res.ok_bind]; rfl

theorem inverseBaseChange_spec (nd : Bool) (B : Matrix (Fin n) (Fin n) Int) (X : Matrix (Fin n) (Fin k) Int) :
    inverseBaseChange nd (cols X) (cols B) = .ok (cols (B * X)) := by
  have e1 : (cols B).length = n := by simp [cols]
  have e2 : (cols X).length = k := by simp [cols]
  rw [inverseBaseChange, e1, ofColumnRange_cols, Res.ok_bind, e2]
  refine tab_cols _ fun j => ?_
  rw [get_cols, Res.ok_bind, C45_apply]; rfl

theorem diagMat_transpose (D : List Int) : (diagMat m n D)ᵀ = diagMat n m D := by
  ext i j
  simp only [diagMat, Matrix.transpose_apply, Matrix.of_apply]
  by_cases h : j.val = i.val
  · rw [if_pos h, if_pos h.symm, h]
  · rw [if_neg h, if_neg (fun e => h e.symm)]

theorem perp_spec (nd fix : Bool) (A : Matrix (Fin m) (Fin n) Int) :
    ∃ (k : Nat) (K : Matrix (Fin m) (Fin k) Int), perp nd fix (enc A) = .ok (cols K) ∧ IsBasis K (fun y => y ᵥ* A = 0) := by
  obtain ⟨D, R, C, h1, hm, hn, h2, hC, hR, -, hD⟩ := diagonalise_spec nd fix A
  rw [perp, h1, Res.ok_bind]
  let e : Fin (m - D.length) → Fin m := fun t => ⟨D.length + t.val, by omega⟩
  have he : Function.Injective e := fun a b h => Fin.ext (by have : D.length + a.val = D.length + b.val := congrArg Fin.val h; omega)
  refine ⟨m - D.length, Rᵀ.submatrix id e, ?_, basis_of_unit (by rwa [Matrix.det_transpose]) he ?_⟩
  · refine tab_cols (n := m - D.length) _ fun j => ?_
    have hj : D.length + j.val < m := (e j).2
    simp only
    rw [enc_tb R, row_tb _ hj, vk_ofFn]
    congr 2; funext i
    rw [ex_lt _ hj i.2]; rfl
  · intro z
    have hCT : IsUnit Cᵀ.det := by rw [Matrix.det_transpose, hC]; exact isUnit_one
    have e3 : (Rᵀ *ᵥ z) ᵥ* A = 0 ↔ diagMat n m D *ᵥ z = 0 := by
      rw [← diagMat_transpose, ← h2, Matrix.transpose_mul, Matrix.transpose_mul, ← Matrix.mulVec_transpose, ← Matrix.mulVec_mulVec,
        ← Matrix.mulVec_mulVec]
      constructor
      · intro h; rw [h, Matrix.mulVec_zero]
      · intro h
        refine Matrix.mulVec_injective_of_isUnit ((Matrix.isUnit_iff_isUnit_det _).2 hCT) ?_
        rw [h, Matrix.mulVec_zero]
    rw [e3]
    constructor
    · intro h i hi
      have hlt : i.val < D.length := by
        by_contra c
        exact hi ⟨i.val - D.length, by omega⟩ (Fin.ext (by show D.length + (i.val - D.length) = i.val; omega))
      have := congrFun h ⟨i.val, by omega⟩
      rw [diagMat_mulVec hm, dif_pos hlt, Pi.zero_apply] at this
      exact (mul_eq_zero.1 this).resolve_left (hD i.val hlt).1
    · intro h
      funext i
      rw [diagMat_mulVec hm, Pi.zero_apply]
      by_cases c : i.val < D.length
      · rw [dif_pos c, h, mul_zero]
        intro t ht
        have : D.length + t.val = i.val := congrArg Fin.val ht
        omega
      · rw [dif_neg c]

theorem kernel_spec (nd : Bool) (hn : n < 2 ^ 64) (A : Matrix (Fin m) (Fin n) Int) :
    ∃ (k : Nat) (K : Matrix (Fin n) (Fin k) Int), kernel nd (enc A) = .ok (enc K) ∧ IsBasis K (fun x => A *ᵥ x = 0) := by
  obtain ⟨k, piv, E, C, flip, h1, hE, hdet, hk, hAC⟩ := columnEchelon_spec nd hn A
  have hCu : IsUnit C.det := by rw [hdet]; exact sgn_unit _
  rw [kernel, h1, Res.ok_bind]
  simp only [show (enc E).cols = k from rfl, show (enc A).cols = n from rfl]
  let e : Fin (n - k) → Fin n := fun t => ⟨k + t.val, by omega⟩
  have he : Function.Injective e := fun a b h => Fin.ext (by have : k + a.val = k + b.val := congrArg Fin.val h; omega)
  refine ⟨n - k, C.submatrix id e, ?_, basis_of_unit hCu he ?_⟩
  · rw [enc_tb C, block_tb nd _ (Nat.zero_le n) le_rfl hk le_rfl, Nat.sub_zero, enc_tb]
    refine congrArg Res.ok (tb_congr fun r c hr hc => ?_)
    rw [Nat.zero_add, ex_lt _ hr (by omega), ex_lt _ hr hc]; rfl
  · intro z
    have key : A *ᵥ (C *ᵥ z) = E *ᵥ fun j => z (j.castLE hk) := by
      rw [Matrix.mulVec_mulVec]
      funext i
      simp only [Matrix.mulVec, dotProduct]
      rw [← Finset.sum_subset (Finset.subset_univ (univ.map (Fin.castLEEmb hk))), Finset.sum_map]
      · refine Finset.sum_congr rfl fun t _ => ?_
        rw [hAC, dif_pos (show (Fin.castLEEmb hk t).val < k from t.2)]; rfl
      · intro j _ hj
        rw [hAC, dif_neg, zero_mul]
        intro h
        exact hj (Finset.mem_map.2 ⟨⟨j.val, h⟩, Finset.mem_univ _, Fin.ext rfl⟩)
    rw [key]
    constructor
    · intro h i hi
      have hlt : i.val < k := by
        by_contra c
        exact hi ⟨i.val - k, by omega⟩ (Fin.ext (by show k + (i.val - k) = i.val; omega))
      exact hE.zero_of_rows (i := 0) (fun r _ => by rw [h]; rfl) ⟨i.val, hlt⟩ (Nat.zero_le _)
    · intro h
      rw [show (fun j : Fin k => z (j.castLE hk)) = 0 from ?_, Matrix.mulVec_zero]
      funext j
      refine h _ fun t ht => ?_
      have : k + t.val = j.val := congrArg Fin.val ht
      omega

theorem eigenLattice_spec (nd : Bool) (hn : n < 2 ^ 64) (A : Matrix (Fin n) (Fin n) Int) (lambda : Int) :
    ∃ (k : Nat) (K : Matrix (Fin n) (Fin k) Int), eigenLattice nd (enc A) lambda = .ok (enc K) ∧ IsBasis K (fun x => A *ᵥ x = lambda • x) := by
  obtain ⟨k, K, h1, h2⟩ := kernel_spec nd hn (A - lambda • 1)
  refine ⟨k, K, ?_, ⟨fun v => ?_, h2.indep⟩⟩
  · rw [eigenLattice, C45_subScalar, Res.ok_bind, h1]
  · rw [← h2.span, Matrix.sub_mulVec, Matrix.smul_mulVec, Matrix.one_mulVec, sub_eq_zero]

theorem rowSaturate_spec (nd : Bool) (A : Matrix (Fin m) (Fin n) Int) :
    ∃ (k : Nat) (S : Matrix (Fin k) (Fin n) Int), rowSaturate nd (enc A) = .ok (enc S) ∧
      IsBasis Sᵀ (fun y => ∃ d : Int, d ≠ 0 ∧ ∃ x, x ᵥ* A = d • y) := by
  obtain ⟨B, D, U, h1, hm, hn, h2, hU, hB, hpos⟩ := adaptedBasis_spec nd Aᵀ
  rw [rowSaturate, C45_transposed, Res.ok_bind, h1, Res.ok_bind]
  simp only [show (enc A).cols = n from rfl]
  have he : Function.Injective (Fin.castLE hm) := fun a b h => Fin.ext (by simpa using congrArg Fin.val h)
  refine ⟨D.length, (B.submatrix id (Fin.castLE hm))ᵀ, ?_, ?_⟩
  · rw [blank_tb, enc_tb, enc_tb]
    refine forUp_ok (fun t => tb D.length n fun r c => if r < t then ex B c r else 0) ?_ ?_ ?_
    · exact tb_congr fun r c _ _ => by simp
    · refine tb_congr fun r c hr hc => ?_
      rw [if_pos (by omega), ex_lt _ hc (by omega), ex_lt _ hr hc]; rfl
    · intro t _ ht
      rw [column_tb nd _ (by omega), Res.ok_bind, setRow_tb nd _ (by omega)]
      refine congrArg Res.ok (tb_congr fun r c hr hc => ?_)
      grind
  · rw [Matrix.transpose_transpose]
    refine basis_of_unit hB he fun z => ?_
    have hinj := Matrix.mulVec_injective_of_isUnit ((Matrix.isUnit_iff_isUnit_det _).2 hB)
    constructor
    · rintro ⟨d, hd, x, hx⟩ i hi
      rw [← Matrix.mulVec_transpose, ← Matrix.mulVec_smul, show Aᵀ = B * diagMat n m D * U⁻¹ by
        rw [← h2, Matrix.mul_assoc, Matrix.mul_nonsing_inv _ hU, Matrix.mul_one], Matrix.mul_assoc, ← Matrix.mulVec_mulVec] at hx
      have := congrFun (hinj hx) i
      rw [← Matrix.mulVec_mulVec, diagMat_mulVec hn, dif_neg, Pi.smul_apply, smul_eq_mul] at this
      · exact (mul_eq_zero.1 this.symm).resolve_left hd
      · intro c
        exact hi ⟨i.val, c⟩ (Fin.ext rfl)
    · intro hz
      have hprod : D.prod ≠ 0 := by
        rw [Ne, List.prod_eq_zero_iff]
        intro h
        exact (hpos 0 h).ne rfl
      refine ⟨D.prod, hprod, U *ᵥ fun j => if h : j.val < D.length then D.prod / D[j.val] * z ⟨j.val, by omega⟩ else 0, ?_⟩
      rw [← Matrix.mulVec_transpose, Matrix.mulVec_mulVec, h2, ← Matrix.mulVec_mulVec, ← Matrix.mulVec_smul]
      congr 1
      funext i
      rw [diagMat_mulVec hn, Pi.smul_apply, smul_eq_mul]
      by_cases c : i.val < D.length
      · rw [dif_pos c, dif_pos c, ← mul_assoc, Int.mul_ediv_cancel' (List.dvd_prod (List.getElem_mem c))]
      · rw [dif_neg c, hz i fun t ht => c (by rw [← ht]; exact t.2), mul_zero]

end Verif.Mat
