import Mathlib.LinearAlgebra.Matrix.NonsingularInverse
import Mathlib.LinearAlgebra.Matrix.Block
import Mathlib.LinearAlgebra.Matrix.Notation
import Mathlib.Data.List.OfFn
import Verif.Mat.Store3

/-!
C45: the classes `Vector` and `Matrix` (sources/utilities/matrix.h, matrix.cpp) compute as linear algebra says, and the
matrix parts of C26 (permutations acting on matrices).

The specification is Mathlib's `Matrix (Fin m) (Fin n) R` over any commutative ring; the only link with the model is
`enc`, which writes the rows of a matrix one after another, and `List.ofFn` for vectors.
-/

open Finset Verif.Perm
open scoped Matrix

namespace Verif.Mat

variable {R : Type} {m n p : Nat}

/-- the representation of a matrix: its dimensions, and its rows one after another -/
def enc (A : Matrix (Fin m) (Fin n) R) : Mat R := ⟨m, n, (List.ofFn fun i => List.ofFn (A i)).flatten⟩

example : enc !![1, 2, 3; 4, 5, (6 : Int)] = ⟨2, 3, [1, 2, 3, 4, 5, 6]⟩ := by decide

/-! ### auxiliary: functions on all natural numbers -/

/-- the matrix as function on all natural numbers -/
def ex [Zero R] (A : Matrix (Fin m) (Fin n) R) (i j : Nat) : R := if h : i < m ∧ j < n then A ⟨i, h.1⟩ ⟨j, h.2⟩ else 0

/-- the vector as function on all natural numbers -/
def exv [Zero R] (v : Fin n → R) (i : Nat) : R := if h : i < n then v ⟨i, h⟩ else 0

@[simp] theorem ex_fin [Zero R] (A : Matrix (Fin m) (Fin n) R) (i : Fin m) (j : Fin n) : ex A i.val j.val = A i j := by
  rw [ex, dif_pos ⟨i.2, j.2⟩]

theorem ex_lt [Zero R] (A : Matrix (Fin m) (Fin n) R) {i j : Nat} (hi : i < m) (hj : j < n) : ex A i j = A ⟨i, hi⟩ ⟨j, hj⟩ := by
  rw [ex, dif_pos ⟨hi, hj⟩]

@[simp] theorem exv_fin [Zero R] (v : Fin n → R) (i : Fin n) : exv v i.val = v i := by
  rw [exv, dif_pos i.2]

theorem exv_lt [Zero R] (v : Fin n → R) {i : Nat} (hi : i < n) : exv v i = v ⟨i, hi⟩ := by
  rw [exv, dif_pos hi]

theorem vk_ofFn (g : Nat → R) : vk n g = List.ofFn fun i : Fin n => g i := by
  rw [List.ofFn_eq_map]
  refine List.ext_getElem (by simp [vk]) ?_
  intro i h1 h2
  simp [vk]

theorem ofFn_vk [Zero R] (v : Fin n → R) : List.ofFn v = vk n (exv v) := by
  rw [vk_ofFn]; congr 1; funext i; simp

theorem tb_enc (f : Nat → Nat → R) : tb m n f = enc (Matrix.of fun (i : Fin m) (j : Fin n) => f i j) := by
  rw [tb, enc, vk_ofFn]
  congr 1
  rw [List.ofFn_mul]
  congr 2
  funext i
  congr 1
  funext j
  show f ((i * n + j) / n) ((i * n + j) % n) = f i j
  rw [idx_div j.2, idx_mod j.2]

theorem enc_tb [Zero R] (A : Matrix (Fin m) (Fin n) R) : enc A = tb m n (ex A) := by
  rw [tb_enc]; congr 1; ext i j; simp

theorem enc_inj [Zero R] {A B : Matrix (Fin m) (Fin n) R} (h : enc A = enc B) : A = B := by
  rw [enc_tb, enc_tb] at h
  ext i j
  have := tb_inj h i.2 j.2
  simpa using this

/-! ### the theorems -/

section ring
variable [CommRing R]

/-- C45: reading and writing an entry. -/
theorem C45_get (A : Matrix (Fin m) (Fin n) R) (i : Fin m) (j : Fin n) : (enc A).get i j = .ok (A i j) := by
  rw [enc_tb, get_tb _ i.2 j.2, ex_fin]

theorem C45_set (A : Matrix (Fin m) (Fin n) R) (i : Fin m) (j : Fin n) (x : R) :
    (enc A).set i j x = .ok (enc (A.updateRow i (Function.update (A i) j x))) := by
  rw [enc_tb, set_tb _ i.2 j.2, tb_enc]
  congr 2; ext r c
  simp only [Matrix.of_apply, Matrix.updateRow_apply, Function.update_apply, ex_fin, ← Fin.ext_iff]
  by_cases h1 : r = i <;> by_cases h2 : c = j <;> simp [h1, h2]

/-- C45: two matrices compare equal exactly if they have the same dimensions and the same entries. -/
theorem C45_equal [DecidableEq R] (A B : Matrix (Fin m) (Fin n) R) : (enc A).eq (enc B) = true ↔ A = B := by
  rw [enc_tb, enc_tb, eq_tb]
  constructor
  · rintro ⟨_, _, h⟩
    ext i j
    have := h i j i.2 j.2
    simpa using this
  · rintro rfl; exact ⟨rfl, rfl, fun _ _ _ _ => rfl⟩

theorem C45_equal_dim [DecidableEq R] {m' n' : Nat} (A : Matrix (Fin m) (Fin n) R) (B : Matrix (Fin m') (Fin n') R)
    (h : (enc A).eq (enc B) = true) : m = m' ∧ n = n' := by
  rw [enc_tb, enc_tb, eq_tb] at h
  exact ⟨h.1, h.2.1⟩

/-- C45: `is_zero`. -/
theorem C45_isZero [DecidableEq R] (A : Matrix (Fin m) (Fin n) R) : isZero (enc A) = true ↔ A = 0 := by
  rw [enc_tb, isZero_tb]
  constructor
  · intro h; ext i j
    have := h i j i.2 j.2
    simpa using this
  · rintro rfl i j hi hj
    rw [ex_lt _ hi hj]; rfl

/-- C45: the constructors: identity matrix, zero matrix, row matrix, column matrix, and matrix with given columns. -/
theorem C45_identity (n : Nat) : (identity n : Res (Mat R)) = .ok (enc (1 : Matrix (Fin n) (Fin n) R)) := by
  rw [identity_tb, tb_enc]; congr 2; ext i j
  simp [Matrix.one_apply, Fin.ext_iff]

theorem C45_zero (m n : Nat) : (blank m n : Mat R) = enc (0 : Matrix (Fin m) (Fin n) R) := by
  rw [blank_tb, tb_enc]; rfl

theorem C45_rowMatrix (v : Fin n → R) : rowMatrix (List.ofFn v) = .ok (enc (Matrix.of fun (_ : Fin 1) j => v j)) := by
  rw [ofFn_vk, rowMatrix_tb, tb_enc]; simp

theorem C45_columnMatrix (v : Fin n → R) : columnMatrix (List.ofFn v) = .ok (enc (Matrix.of fun i (_ : Fin 1) => v i)) := by
  rw [ofFn_vk, columnMatrix_tb, tb_enc]; simp

theorem C45_ofColumns (nd : Bool) (b : Fin n → Fin m → R) :
    ofColumns nd (List.ofFn fun j => List.ofFn (b j)) m = .ok (enc (Matrix.of fun i j => b j i)) := by
  have : (List.ofFn fun j => List.ofFn (b j)) = vk n fun j => vk m fun i => ex (Matrix.of b) j i := by
    rw [vk_ofFn]; congr 1; funext j; rw [vk_ofFn]; congr 1; funext i; simp
  rw [this, ofColumns_tb, tb_enc]; congr 2; ext i j; simp

/-- C45: rows and columns are extracted and replaced. -/
theorem C45_row (nd : Bool) (A : Matrix (Fin m) (Fin n) R) (i : Fin m) : getRow nd (enc A) i = .ok (List.ofFn (A i)) := by
  rw [enc_tb, getRow_tb nd _ i.2, vk_ofFn]; simp

theorem C45_column (nd : Bool) (A : Matrix (Fin m) (Fin n) R) (j : Fin n) :
    column nd (enc A) j = .ok (List.ofFn fun i => A i j) := by
  rw [enc_tb, column_tb nd _ j.2, vk_ofFn]; simp

theorem C45_rows (nd : Bool) (A : Matrix (Fin m) (Fin n) R) : allRows nd (enc A) = .ok (List.ofFn fun i => List.ofFn (A i)) := by
  rw [enc_tb, allRows_tb, vk_ofFn]
  refine congrArg (fun x => Res.ok (List.ofFn x)) (funext fun i => ?_)
  rw [vk_ofFn]; simp

theorem C45_columns (nd : Bool) (A : Matrix (Fin m) (Fin n) R) :
    allColumns nd (enc A) = .ok (List.ofFn fun j => List.ofFn fun i => A i j) := by
  rw [enc_tb, allColumns_tb, vk_ofFn]
  refine congrArg (fun x => Res.ok (List.ofFn x)) (funext fun i => ?_)
  rw [vk_ofFn]; simp

theorem C45_setRow (nd : Bool) (A : Matrix (Fin m) (Fin n) R) (i : Fin m) (v : Fin n → R) :
    setRow nd (enc A) i (List.ofFn v) = .ok (enc (A.updateRow i v)) := by
  rw [enc_tb, ofFn_vk, setRow_tb nd _ i.2, tb_enc]
  congr 2; ext r c
  simp [Matrix.updateRow_apply, Fin.ext_iff]

theorem C45_setColumn (nd : Bool) (A : Matrix (Fin m) (Fin n) R) (j : Fin n) (v : Fin m → R) :
    setColumn nd (enc A) j (List.ofFn v) = .ok (enc (A.updateCol j v)) := by
  rw [enc_tb, ofFn_vk, setColumn_tb nd _ j.2, tb_enc]
  congr 2; ext r c
  simp [Matrix.updateCol_apply, Fin.ext_iff]

/-- C45: `add_row` and `add_column` put the vector below or to the right (sizes must stay below `2^32`). -/
theorem C45_addRow (nd : Bool) (A : Matrix (Fin m) (Fin n) R) (v : Fin n → R) (hs : (m + 1) * n < 2 ^ 32) :
    addRow nd (enc A) (List.ofFn v) = .ok (enc (Matrix.of (Fin.snoc A v : Fin (m + 1) → Fin n → R))) := by
  rw [enc_tb, ofFn_vk, addRow_tb nd _ _ hs, tb_enc]
  congr 2; ext r c
  refine Fin.lastCases ?_ (fun r => ?_) r
  · rw [Matrix.of_apply, Matrix.of_apply, if_pos (show (Fin.last m).val = m from rfl), exv_fin]
    exact (congrFun (Fin.snoc_last (α := fun _ => Fin n → R) v A) c).symm
  · rw [Matrix.of_apply, Matrix.of_apply, if_neg (by simp; omega)]
    refine (ex_fin A r c).trans (congrFun (Fin.snoc_castSucc (α := fun _ => Fin n → R) v A r) c).symm

theorem C45_addColumn (nd : Bool) (A : Matrix (Fin m) (Fin n) R) (v : Fin m → R) (hs : m * (n + 1) < 2 ^ 32) :
    addColumn nd (enc A) (List.ofFn v) = .ok (enc (Matrix.of fun i => (Fin.snoc (A i) (v i) : Fin (n + 1) → R))) := by
  rw [enc_tb, ofFn_vk, addColumn_tb nd _ _ hs, tb_enc]
  congr 2; ext r c
  refine Fin.lastCases ?_ (fun c => ?_) c
  · simp
  · rw [Matrix.of_apply, Matrix.of_apply, if_neg (by simp; omega)]; simp

/-- C45: `eraseRow` and `eraseColumn`. -/
theorem C45_eraseRow (nd : Bool) (A : Matrix (Fin (m + 1)) (Fin n) R) (i : Fin (m + 1)) (hs : (m + 1) * n < 2 ^ 32) :
    eraseRow nd (enc A) i = .ok (enc (A.submatrix i.succAbove id)) := by
  rw [enc_tb, eraseRow_tb nd _ i.2 hs, tb_enc]
  congr 2; ext r c
  rw [Matrix.of_apply, Matrix.submatrix_apply]
  have : (if r.val < i.val then r.val else r.val + 1) = (i.succAbove r).val := by
    rw [Fin.succAbove]
    by_cases h : r.val < i.val
    · rw [if_pos h, if_pos (show r.castSucc < i from h)]; rfl
    · rw [if_neg h, if_neg (show ¬ r.castSucc < i from h)]; rfl
  rw [this, ex_fin]; rfl

theorem C45_eraseColumn (nd : Bool) (A : Matrix (Fin m) (Fin (n + 1)) R) (j : Fin (n + 1)) :
    eraseColumn nd (enc A) j = .ok (enc (A.submatrix id j.succAbove)) := by
  rw [enc_tb, eraseColumn_tb nd _ j.2, tb_enc]
  congr 2; ext r c
  rw [Matrix.of_apply, Matrix.submatrix_apply]
  have : (if c.val < j.val then c.val else c.val + 1) = (j.succAbove c).val := by
    rw [Fin.succAbove]
    by_cases h : c.val < j.val
    · rw [if_pos h, if_pos (show c.castSucc < j from h)]; rfl
    · rw [if_neg h, if_neg (show ¬ c.castSucc < j from h)]; rfl
  rw [this, ex_fin]; rfl

/-- C45: the sum, difference, scalar multiple and negative. -/
theorem C45_add (nd : Bool) (A B : Matrix (Fin m) (Fin n) R) : addMat nd (enc A) (enc B) = .ok (enc (A + B)) := by
  rw [enc_tb, enc_tb, addMat_tb, tb_enc]; congr 2; ext i j; simp

theorem C45_sub (nd : Bool) (A B : Matrix (Fin m) (Fin n) R) : subMat nd (enc A) (enc B) = .ok (enc (A - B)) := by
  rw [enc_tb, enc_tb, subMat_tb, tb_enc]; congr 2; ext i j; simp

theorem C45_scale (A : Matrix (Fin m) (Fin n) R) (c : R) : scale (enc A) c = .ok (enc (c • A)) := by
  rw [enc_tb, scale_tb, tb_enc]; congr 2; ext i j; simp [mul_comm]

theorem C45_negate (A : Matrix (Fin m) (Fin n) R) : negate (enc A) = .ok (enc (-A)) := by
  rw [enc_tb, negate_tb, tb_enc]; congr 2; ext i j; simp

theorem C45_addScalar (A : Matrix (Fin n) (Fin n) R) (c : R) : addScalar (enc A) c = .ok (enc (A + c • 1)) := by
  rw [enc_tb, addScalar_tb, tb_enc]; congr 2; ext i j
  by_cases h : i = j
  · subst h; simp
  · simp [h, Fin.ext_iff.not.1 h]

theorem C45_subScalar (A : Matrix (Fin n) (Fin n) R) (c : R) : subScalar (enc A) c = .ok (enc (A - c • 1)) := by
  rw [subScalar, C45_addScalar]; congr 2; rw [neg_smul, sub_eq_add_neg]

theorem C45_scalarSub (A : Matrix (Fin n) (Fin n) R) (c : R) : scalarSub c (enc A) = .ok (enc (c • 1 - A)) := by
  rw [scalarSub, C45_negate, Res.ok_bind, C45_addScalar]; congr 2; rw [sub_eq_neg_add]

/-- C45: the product of matrices. -/
theorem C45_mul (nd : Bool) (A : Matrix (Fin m) (Fin n) R) (B : Matrix (Fin n) (Fin p) R) :
    mul nd (enc A) (enc B) = .ok (enc (A * B)) := by
  rw [enc_tb, enc_tb, mul_tb, tb_enc]; congr 2; ext i j
  rw [Matrix.of_apply, Matrix.mul_apply, Finset.sum_range]
  simp

/-- C45: in builds with assertions, multiplying matrices whose dimensions do not fit is caught. -/
theorem C45_mul_assert {m' n' : Nat} (A : Matrix (Fin m) (Fin n) R) (B : Matrix (Fin m') (Fin n') R) (h : n ≠ m') :
    mul false (enc A) (enc B) = .assertFail := by
  have hd : decide ((enc A).cols = (enc B).rows) = false := decide_eq_false h
  rw [mul, hd]; rfl

/-- C45: a matrix times a vector, and a vector times a matrix. -/
theorem C45_apply (nd : Bool) (A : Matrix (Fin m) (Fin n) R) (v : Fin n → R) :
    apply nd (enc A) (List.ofFn v) = .ok (List.ofFn (A *ᵥ v)) := by
  rw [enc_tb, ofFn_vk, apply_tb, vk_ofFn]; congr 2; funext i
  rw [Finset.sum_range]
  simp [Matrix.mulVec, dotProduct]

theorem C45_rightProd (nd : Bool) (A : Matrix (Fin m) (Fin n) R) (v : Fin m → R) :
    rightProd nd (enc A) (List.ofFn v) = .ok (List.ofFn (v ᵥ* A)) := by
  rw [enc_tb, ofFn_vk, rightProd_tb, vk_ofFn]; congr 2; funext i
  rw [Finset.sum_range]
  simp [Matrix.vecMul, dotProduct]

/-- C45: the scalar product of vectors, and their sum, difference, multiples and negatives. -/
theorem C45_dot (nd : Bool) (u v : Fin n → R) : dot nd (List.ofFn u) (List.ofFn v) = .ok (u ⬝ᵥ v) := by
  rw [ofFn_vk, ofFn_vk, dot_vk, Finset.sum_range]; simp [dotProduct]

theorem C45_vecAdd (nd : Bool) (u v : Fin n → R) : vecAdd nd (List.ofFn u) (List.ofFn v) = .ok (List.ofFn (u + v)) := by
  rw [ofFn_vk, ofFn_vk, vecAdd_vk, vk_ofFn]; congr 2; funext i; simp

theorem C45_vecSub (nd : Bool) (u v : Fin n → R) : vecSub nd (List.ofFn u) (List.ofFn v) = .ok (List.ofFn (u - v)) := by
  rw [ofFn_vk, ofFn_vk, vecSub_vk, vk_ofFn]; congr 2; funext i; simp

theorem C45_vecNegAdd (nd : Bool) (u v : Fin n → R) : vecNegAdd nd (List.ofFn u) (List.ofFn v) = .ok (List.ofFn (v - u)) := by
  rw [ofFn_vk, ofFn_vk, vecNegAdd_vk, vk_ofFn]; congr 2; funext i; simp

theorem C45_vecScale (u : Fin n → R) (c : R) : vecScale (List.ofFn u) c = .ok (List.ofFn (c • u)) := by
  rw [ofFn_vk, vecScale_vk, vk_ofFn]; congr 2; funext i; simp [mul_comm]

theorem C45_vecNeg (u : Fin n → R) : vecNeg (List.ofFn u) = .ok (List.ofFn (-u)) := by
  rw [ofFn_vk, vecNeg_vk, vk_ofFn]; congr 2; funext i; simp

theorem C45_vecAddMul [DecidableEq R] (u v : Fin n → R) (c : R) :
    vecAddMul (List.ofFn u) (List.ofFn v) c = .ok (List.ofFn (u + c • v)) := by
  rw [ofFn_vk, ofFn_vk, vecAddMul_vk _ _ _ le_rfl, vk_ofFn]; congr 2; funext i; simp [mul_comm]

theorem C45_vecSubMul [DecidableEq R] (u v : Fin n → R) (c : R) :
    vecSubMul (List.ofFn u) (List.ofFn v) c = .ok (List.ofFn (u - c • v)) := by
  rw [vecSubMul, C45_vecAddMul, neg_smul, sub_eq_add_neg]

/-- C45: transposition, as new matrix, in place, and with change of sign. -/
theorem C45_transposed (A : Matrix (Fin m) (Fin n) R) : transposed (enc A) = .ok (enc Aᵀ) := by
  rw [enc_tb, transposed_tb, tb_enc]; congr 2; ext i j; simp

theorem C45_transpose (A : Matrix (Fin m) (Fin n) R) : transpose (enc A) = .ok (enc Aᵀ) := by
  rw [enc_tb, transpose_tb, tb_enc]; congr 2; ext i j; simp

theorem C45_negTransposed (A : Matrix (Fin m) (Fin n) R) : negTransposed (enc A) = .ok (enc (-Aᵀ)) := by
  rw [enc_tb, negTransposed_tb, tb_enc]; congr 2; ext i j; simp

/-- C45: blocks. -/
theorem C45_block (nd : Bool) (A : Matrix (Fin m) (Fin n) R) {i0 j0 i1 j1 : Nat}
    (hi : i0 ≤ i1) (hi' : i1 ≤ m) (hj : j0 ≤ j1) (hj' : j1 ≤ n) :
    block nd (enc A) i0 j0 i1 j1 = .ok (enc (Matrix.of fun (i : Fin (i1 - i0)) (j : Fin (j1 - j0)) =>
      A ⟨i0 + i, by omega⟩ ⟨j0 + j, by omega⟩)) := by
  rw [enc_tb, block_tb nd _ hi hi' hj hj', tb_enc]; congr 2; ext i j
  rw [Matrix.of_apply, Matrix.of_apply, ex_lt]

theorem C45_transposedBlock (nd : Bool) (A : Matrix (Fin m) (Fin n) R) {i0 j0 i1 j1 : Nat}
    (hi : i0 ≤ i1) (hi' : i1 ≤ n) (hj : j0 ≤ j1) (hj' : j1 ≤ m) :
    transposedBlock nd (enc A) i0 j0 i1 j1 = .ok (enc (Matrix.of fun (i : Fin (i1 - i0)) (j : Fin (j1 - j0)) =>
      A ⟨j0 + j, by omega⟩ ⟨i0 + i, by omega⟩)) := by
  rw [enc_tb, transposedBlock_tb nd _ hi hi' hj hj', tb_enc]; congr 2; ext i j
  rw [Matrix.of_apply, Matrix.of_apply, ex_lt]

theorem C45_getBlock (nd : Bool) {m' n' : Nat} (A : Matrix (Fin m) (Fin n) R) (B : Matrix (Fin m') (Fin n') R) {k l : Nat}
    (hk : k + m' ≤ m) (hl : l + n' ≤ n) :
    getBlock nd (enc A) (enc B) k l = .ok (enc (Matrix.of fun (i : Fin m') (j : Fin n') =>
      A ⟨k + i, by omega⟩ ⟨l + j, by omega⟩)) := by
  rw [enc_tb, enc_tb, getBlock_tb nd _ _ hk hl, tb_enc]; congr 2; ext i j
  rw [Matrix.of_apply, Matrix.of_apply, ex_lt]

theorem C45_setBlock (nd : Bool) {m' n' : Nat} (A : Matrix (Fin m) (Fin n) R) (B : Matrix (Fin m') (Fin n') R) {k l : Nat}
    (hk : k + m' ≤ m) (hl : l + n' ≤ n) :
    setBlock nd (enc A) k l (enc B) = .ok (enc (Matrix.of fun i j =>
      if h : (k ≤ i.val ∧ i.val < k + m') ∧ (l ≤ j.val ∧ j.val < l + n') then B ⟨i - k, by omega⟩ ⟨j - l, by omega⟩ else A i j)) := by
  rw [enc_tb, enc_tb, setBlock_tb nd _ _ hk hl, tb_enc]; congr 2; ext i j
  rw [Matrix.of_apply, Matrix.of_apply]
  by_cases h : (k ≤ i.val ∧ i.val < k + m') ∧ (l ≤ j.val ∧ j.val < l + n')
  · rw [if_pos (by tauto), dif_pos h, ex_lt]
  · rw [if_neg (by tauto), dif_neg h, ex_fin]

/-- C45: row and column operations. -/
theorem C45_rowOp [DecidableEq R] (nd : Bool) (A : Matrix (Fin m) (Fin n) R) (i k : Fin m) (c : R) :
    rowOp nd (enc A) i k c = .ok (enc (A.updateRow i (A i + c • A k))) := by
  rw [enc_tb, rowOp_tb nd _ i.2 k.2, tb_enc]; congr 2; ext r s
  simp [Matrix.updateRow_apply, Fin.ext_iff]

theorem C45_colOp [DecidableEq R] (nd : Bool) (A : Matrix (Fin m) (Fin n) R) (j k : Fin n) (c : R) :
    colOp nd (enc A) j k c = .ok (enc (A.updateCol j (fun i => A i j + c * A i k))) := by
  rw [enc_tb, colOp_tb nd _ j.2 k.2, tb_enc]; congr 2; ext r s
  simp [Matrix.updateCol_apply, Fin.ext_iff]

theorem C45_rowMul [DecidableEq R] (nd : Bool) (A : Matrix (Fin m) (Fin n) R) (i : Fin m) (c : R) :
    rowMul nd (enc A) i c = .ok (enc (A.updateRow i (c • A i))) := by
  rw [enc_tb, rowMul_tb nd _ i.2, tb_enc]; congr 2; ext r s
  simp [Matrix.updateRow_apply, Fin.ext_iff, mul_comm]

theorem C45_colMul [DecidableEq R] (nd : Bool) (A : Matrix (Fin m) (Fin n) R) (j : Fin n) (c : R) :
    colMul nd (enc A) j c = .ok (enc (A.updateCol j (fun i => c * A i j))) := by
  rw [enc_tb, colMul_tb nd _ j.2, tb_enc]; congr 2; ext r s
  simp [Matrix.updateCol_apply, Fin.ext_iff, mul_comm]

theorem C45_swapRows (nd : Bool) (A : Matrix (Fin m) (Fin n) R) (i k : Fin m) :
    swapRows nd (enc A) i k = .ok (enc (A.submatrix (Equiv.swap i k) id)) := by
  rw [enc_tb, swapRows_tb nd _ i.2 k.2, tb_enc]; congr 2; ext r s
  rw [Matrix.of_apply, Matrix.submatrix_apply, Equiv.swap_apply_def]
  simp only [← Fin.ext_iff, ex_fin, id]
  by_cases h1 : r = i <;> by_cases h2 : r = k <;> simp [h1, h2]
  all_goals grind

theorem C45_swapCols (nd : Bool) (A : Matrix (Fin m) (Fin n) R) (j k : Fin n) :
    swapCols nd (enc A) j k = .ok (enc (A.submatrix id (Equiv.swap j k))) := by
  rw [enc_tb, swapCols_tb nd _ j.2 k.2, tb_enc]; congr 2; ext r s
  rw [Matrix.of_apply, Matrix.submatrix_apply, Equiv.swap_apply_def]
  simp only [← Fin.ext_iff, ex_fin, id]
  by_cases h1 : s = j <;> by_cases h2 : s = k <;> simp [h1, h2]
  all_goals grind

/-- C45: `row_apply` multiplies the block of rows from `i` on by `ops` on the left, `column_apply` the block of columns from
`j` on by `ops` on the right; other rows (columns) are unchanged. -/
theorem C45_rowApply (nd : Bool) {k : Nat} (A : Matrix (Fin m) (Fin n) R) (ops : Matrix (Fin k) (Fin k) R) {i : Nat} (hi : i + k ≤ m) :
    ∃ B : Matrix (Fin m) (Fin n) R, rowApply nd (enc A) (enc ops) i = .ok (enc B) ∧
      (∀ (r : Fin k) (c : Fin n), B ⟨i + r, by omega⟩ c = ∑ t : Fin k, ops r t * A ⟨i + t, by omega⟩ c) ∧
      ∀ r : Fin m, (r.val < i ∨ i + k ≤ r.val) → B r = A r := by
  rw [enc_tb, enc_tb, rowApply_tb nd _ _ hi, tb_enc]
  refine ⟨_, rfl, ?_, ?_⟩
  · intro r c
    rw [Matrix.of_apply, if_pos ⟨by simp, by simp⟩, Finset.sum_range]
    refine Finset.sum_congr rfl fun t _ => ?_
    rw [ex_lt A (show i + t.val < m by omega) c.2]
    simp
  · intro r hr
    funext c
    rw [Matrix.of_apply, if_neg (by omega), ex_fin]

theorem C45_columnApply (nd : Bool) {k : Nat} (A : Matrix (Fin m) (Fin n) R) (ops : Matrix (Fin k) (Fin k) R) {j : Nat} (hj : j + k ≤ n) :
    ∃ B : Matrix (Fin m) (Fin n) R, columnApply nd (enc A) (enc ops) j = .ok (enc B) ∧
      (∀ (r : Fin m) (c : Fin k), B r ⟨j + c, by omega⟩ = ∑ t : Fin k, A r ⟨j + t, by omega⟩ * ops t c) ∧
      ∀ (r : Fin m) (c : Fin n), (c.val < j ∨ j + k ≤ c.val) → B r c = A r c := by
  rw [enc_tb, enc_tb, columnApply_tb nd _ _ hj, tb_enc]
  refine ⟨_, rfl, ?_, ?_⟩
  · intro r c
    rw [Matrix.of_apply, if_pos ⟨by simp, by simp⟩, Finset.sum_range]
    refine Finset.sum_congr rfl fun t _ => ?_
    rw [ex_lt A r.2 (show j + t.val < n by omega)]
    simp
  · intro r c hr
    rw [Matrix.of_apply, if_neg (by omega), ex_fin]

/-- C45: `upper_triangular_inverse` inverts an upper triangular matrix with diagonal entries 1. -/
theorem C45_inverseUpper [DecidableEq R] (A : Matrix (Fin n) (Fin n) R) (hu : A.BlockTriangular id) (hd : ∀ i, A i i = 1) :
    ∃ B : Matrix (Fin n) (Fin n) R, inverseUpper (enc A) = .ok (enc B) ∧ A * B = 1 ∧ B * A = 1 ∧ B.BlockTriangular id := by
  rw [enc_tb]
  obtain ⟨s, h1, h2, h3⟩ := inverseUpper_tb (ex A) (n := n) (fun i hi => by rw [ex_lt A hi hi]; exact hd _)
  have hAB : A * Matrix.of (fun (i : Fin n) (j : Fin n) => s i j) = 1 := by
    ext i j
    rw [Matrix.mul_apply, Matrix.one_apply]
    have := h3 i j i.2 j.2
    rw [Finset.sum_range] at this
    simp only [← Fin.ext_iff] at this
    rw [← this]
    refine Finset.sum_congr rfl fun k _ => ?_
    rw [ex_fin, Matrix.of_apply]
    by_cases c : i.val ≤ k.val
    · rw [if_pos c]
    · rw [if_neg c, hu (show k < i by exact Nat.lt_of_not_le c)]
  refine ⟨_, by rw [h1, tb_enc], hAB, mul_eq_one_comm.1 hAB, ?_⟩
  intro i j hij
  exact h2 i j i.2 j.2 hij

/-- C45: `lower_triangular_inverse` inverts a lower triangular matrix with diagonal entries 1. -/
theorem C45_inverseLower [DecidableEq R] (A : Matrix (Fin n) (Fin n) R) (hu : Aᵀ.BlockTriangular id) (hd : ∀ i, A i i = 1) :
    ∃ B : Matrix (Fin n) (Fin n) R, inverseLower (enc A) = .ok (enc B) ∧ A * B = 1 ∧ B * A = 1 ∧ Bᵀ.BlockTriangular id := by
  rw [enc_tb]
  obtain ⟨s, h1, h2, h3⟩ := inverseLower_tb (ex A) (n := n) (fun i hi => by rw [ex_lt A hi hi]; exact hd _)
  have hAB : Matrix.of (fun (i : Fin n) (j : Fin n) => s i j) * A = 1 := by
    ext i j
    rw [Matrix.mul_apply, Matrix.one_apply]
    have := h3 i j i.2 j.2
    rw [Finset.sum_range] at this
    simp only [← Fin.ext_iff] at this
    rw [← this]
    refine Finset.sum_congr rfl fun k _ => ?_
    rw [ex_fin, Matrix.of_apply]
    by_cases c : j.val ≤ k.val
    · rw [if_pos c]
    · have := hu (show k < j by exact Nat.lt_of_not_le c)
      rw [Matrix.transpose_apply] at this
      rw [if_neg c, this]
  refine ⟨_, by rw [h1, tb_enc], mul_eq_one_comm.1 hAB, hAB, ?_⟩
  intro i j hij
  exact h2 j i j.2 i.2 hij

/-- C45: both throw an error if some diagonal entry is not `1`, or if the matrix is not square. -/
theorem C45_inverse_throw [DecidableEq R] (A : Matrix (Fin n) (Fin n) R) (hd : ∃ i, A i i ≠ 1) :
    inverseUpper (enc A) = .throw ∧ inverseLower (enc A) = .throw := by
  obtain ⟨i, hi⟩ := hd
  have : ∃ i, i < n ∧ ex A i i ≠ 1 := ⟨i, i.2, by rw [ex_fin]; exact hi⟩
  rw [enc_tb]
  exact ⟨inverseUpper_throw _ this, inverseLower_throw _ this⟩

theorem C45_inverse_notSquare [DecidableEq R] (A : Matrix (Fin m) (Fin n) R) (h : m ≠ n) :
    inverseUpper (enc A) = .throw ∧ inverseLower (enc A) = .throw := by
  constructor
  · rw [inverseUpper, if_pos (show (enc A).rows ≠ (enc A).cols from h)]
  · rw [inverseLower, if_pos (show (enc A).rows ≠ (enc A).cols from h)]

/-- C45: `standard_basis`. -/
theorem C45_standardBasis (r : Nat) : (standardBasis r : Res (List (List R))) =
    .ok (List.ofFn fun i : Fin r => List.ofFn (Pi.single i (1 : R))) := by
  rw [standardBasis_vk, vk_ofFn]
  refine congrArg (fun x => Res.ok (List.ofFn x)) (funext fun i => ?_)
  rw [vk_ofFn]; congr 1; funext j
  simp [Pi.single_apply, Fin.ext_iff]

/-! ### C26: permutations acting on matrices -/

theorem pf_fin {l : List Nat} (h : IsPerm n l) (i : Fin n) : pf h i = (h.toPerm i).val := by
  rw [pf, dif_pos i.2]

theorem qf_fin {l : List Nat} (h : IsPerm n l) (i : Fin n) : qf h i = (h.toPerm⁻¹ i).val := by
  rw [qf, dif_pos i.2]; rfl

/-- C26: `conjugate` gives the matrix whose entry at `(π i, π j)` is the entry of `M` at `(i,j)`. -/
theorem C26_conjugate (nd : Bool) {l : List Nat} (h : IsPerm n l) (A : Matrix (Fin n) (Fin n) R) :
    ∃ B : Matrix (Fin n) (Fin n) R, conjugate nd l (enc A) = .ok (enc B) ∧ ∀ i j, B (h.toPerm i) (h.toPerm j) = A i j := by
  rw [enc_tb, conjugate_tb h, tb_enc]
  refine ⟨_, rfl, fun i j => ?_⟩
  rw [Matrix.of_apply, qf_fin, qf_fin, ex_fin]; simp

/-- C26: `inv_conjugate` gives the matrix whose entry at `(i,j)` is the entry of `M` at `(π i, π j)`. -/
theorem C26_invConjugate (nd : Bool) {l : List Nat} (h : IsPerm n l) (A : Matrix (Fin n) (Fin n) R) :
    invConjugate nd l (enc A) = .ok (enc (A.submatrix h.toPerm h.toPerm)) := by
  rw [enc_tb, invConjugate_tb h, tb_enc]; congr 2; ext i j
  rw [Matrix.of_apply, pf_fin, pf_fin, ex_fin]; rfl

/-- C26: the two operations undo each other. -/
theorem C26_conjugate_inv (nd : Bool) {l : List Nat} (h : IsPerm n l) (A : Matrix (Fin n) (Fin n) R) :
    (conjugate nd l (enc A) >>= invConjugate nd l) = .ok (enc A) ∧ (invConjugate nd l (enc A) >>= conjugate nd l) = .ok (enc A) := by
  constructor
  · obtain ⟨B, h1, h2⟩ := C26_conjugate nd h A
    rw [h1, Res.ok_bind, C26_invConjugate nd h]
    congr 2; ext i j; exact h2 i j
  · rw [C26_invConjugate nd h, Res.ok_bind]
    obtain ⟨B, h1, h2⟩ := C26_conjugate nd h (A.submatrix h.toPerm h.toPerm)
    rw [h1]
    congr 2; ext i j
    have := h2 (h.toPerm⁻¹ i) (h.toPerm⁻¹ j)
    simpa using this

/-- C26: `pull_back_columns` makes column `π j` of the matrix its column `j`, and leaves columns beyond the degree of the
permutation alone. -/
theorem C26_pullBackColumns (nd : Bool) {k : Nat} {l : List Nat} (h : IsPerm k l) (hk : k ≤ n) (A : Matrix (Fin m) (Fin n) R) :
    ∃ B : Matrix (Fin m) (Fin n) R, pullBackColumns nd (enc A) l = .ok (enc B) ∧
      (∀ i (j : Fin k), B i (j.castLE hk) = A i ((h.toPerm j).castLE hk)) ∧ ∀ i (j : Fin n), k ≤ j.val → B i j = A i j := by
  rw [enc_tb, pullBackColumns_tb h nd hk, tb_enc]
  refine ⟨_, rfl, ?_, ?_⟩
  · intro i j
    rw [Matrix.of_apply]
    show (if j.val < k then ex A i.val (pf h j.val) else ex A i.val j.val) = _
    rw [if_pos j.2, pf_fin, ex_lt A i.2 (by have := (h.toPerm j).2; omega)]; rfl
  · intro i j hj
    rw [Matrix.of_apply, if_neg (by omega), ex_fin]

end ring

/-! ### division of integral vectors and matrices -/

open Classical in
/-- C45: `/=` divides all entries if all are divisible, and otherwise (or if the divisor is `0`) throws an error. -/
theorem C45_vecDivExact (v : Fin n → Int) (c : Int) :
    vecDivExact (List.ofFn v) c = if c = 0 ∨ ∃ i, ¬ c ∣ v i then .throw else .ok (List.ofFn fun i => v i / c) := by
  rw [vecDivExact]
  by_cases hc : c = 0
  · rw [if_pos hc, if_pos (.inl hc)]
  · rw [if_neg hc]
    by_cases hd : ∃ i, ¬ c ∣ v i
    · rw [if_pos (.inr hd), tab]
      have hd' : ∃ i, ∃ h : i < n, ¬ c ∣ v ⟨i, h⟩ := by
        obtain ⟨i, hi⟩ := hd; exact ⟨i.val, i.2, hi⟩
      classical
      obtain ⟨ht, hdt⟩ := Nat.find_spec hd'
      have hmin := fun i (hi : i < Nat.find hd') => Nat.find_min hd' hi
      generalize Nat.find hd' = t at ht hdt hmin
      have key : ∀ k a (l : List Int), a + k = n → a ≤ t → forUp (fun i (l : List Int) => do
          let x ← (do
            let x ← Vec.get (List.ofFn v) i
            if x.tmod c = 0 then pure (x.tdiv c) else (.throw : Res Int))
          pure (l ++ [x])) k a l = .throw := by
        intro k
        induction k with
        | zero => intro a l h1 h2; omega
        | succ k ih =>
          intro a l h1 h2
          rw [forUp, ofFn_vk, get_vk _ (by omega : a < n), exv_lt v (by omega), Res.ok_bind]
          by_cases e : a = t
          · subst e
            rw [if_neg (by intro e; exact hdt (Int.dvd_of_tmod_eq_zero e)), Res.throw_bind, Res.throw_bind]
          · have : c ∣ v ⟨a, by omega⟩ := by
              by_contra hcon
              exact hmin a (by omega) ⟨by omega, hcon⟩
            rw [if_pos (Int.tmod_eq_zero_of_dvd this), Res.pure_eq, Res.ok_bind, Res.pure_eq, Res.ok_bind, ← ofFn_vk]
            exact ih (a + 1) _ (by omega) (by omega)
      rw [show (List.ofFn v).length = n by simp]
      exact key n 0 [] (by omega) (by omega)
    · push Not at hd
      rw [if_neg (by push Not; exact ⟨hc, hd⟩)]
      have e : (List.ofFn fun i => v i / c) = vk n (exv fun i => v i / c) := ofFn_vk _
      rw [e, show (List.ofFn v).length = n by simp]
      apply tab_ok
      intro i hi
      rw [ofFn_vk, get_vk _ hi, exv_lt v hi, exv_lt _ hi, Res.ok_bind, if_pos (Int.tmod_eq_zero_of_dvd (hd _)), Res.pure_eq,
        Int.tdiv_eq_ediv_of_dvd (hd _)]

open Classical in
/-- C45: dividing a matrix by an integer is exact division of all entries, or an error. -/
theorem C45_divScalar (A : Matrix (Fin m) (Fin n) Int) (c : Int) :
    divScalar (enc A) c = if c = 0 ∨ ∃ i j, ¬ c ∣ A i j then .throw else .ok (enc (A.map (· / c))) := by
  rw [divScalar]
  by_cases h1 : c = 1
  · rw [if_neg (by simp [h1]), if_neg (by subst h1; simp), Res.pure_eq]
    subst h1; congr 2; ext i j; simp
  · rw [if_pos h1]
    have e : (enc A).data = List.ofFn fun k : Fin (m * n) => A k.divNat k.modNat := by
      rw [enc_tb, data_tb, vk_ofFn]; congr 1; funext k
      exact ex_lt A (idx_split k.2).1 (idx_split k.2).2.1
    have e' : (enc (A.map (· / c))).data = List.ofFn fun k : Fin (m * n) => A k.divNat k.modNat / c := by
      rw [enc_tb, data_tb, vk_ofFn]; congr 1; funext k
      rw [ex_lt _ (idx_split k.2).1 (idx_split k.2).2.1]; rfl
    rw [e, C45_vecDivExact]
    have hiff : (∃ k : Fin (m * n), ¬ c ∣ A k.divNat k.modNat) ↔ ∃ i j, ¬ c ∣ A i j := by
      constructor
      · rintro ⟨k, hk⟩; exact ⟨_, _, hk⟩
      · rintro ⟨i, j, hk⟩
        refine ⟨finProdFinEquiv (i, j), ?_⟩
        have := finProdFinEquiv.symm_apply_apply (i, j)
        have h1 : (finProdFinEquiv (i, j)).divNat = i := congrArg Prod.fst this
        have h2 : (finProdFinEquiv (i, j)).modNat = j := congrArg Prod.snd this
        rw [h1, h2]; exact hk
    by_cases hb : c = 0 ∨ ∃ i j, ¬ c ∣ A i j
    · rw [if_pos hb, if_pos (by rw [hiff]; exact hb), Res.throw_bind]
    · rw [if_neg hb, if_neg (by rw [hiff]; exact hb), Res.ok_bind, ← e']; rfl

/-- C45: `divisible`, for a nonzero divisor. -/
theorem C45_divisible (A : Matrix (Fin m) (Fin n) Int) (c : Int) (hc : c ≠ 0) :
    ∃ b, divisible (enc A) c = .ok b ∧ (b = true ↔ ∀ i j, c ∣ A i j) := by
  have hmem : ∀ x, x ∈ (enc A).data ↔ ∃ i j, A i j = x := by
    intro x; simp [enc, List.mem_ofFn]
  rw [divisible]
  by_cases h : (enc A).data = []
  · refine ⟨true, by rw [if_pos h], ?_⟩
    simp only [true_iff]
    intro i j
    have := (hmem (A i j)).2 ⟨i, j, rfl⟩
    rw [h] at this; cases this
  · refine ⟨_, by rw [if_neg h, if_neg hc, Res.pure_eq], ?_⟩
    rw [List.all_eq_true]
    constructor
    · intro h i j
      have := h (A i j) ((hmem _).2 ⟨i, j, rfl⟩)
      exact Int.dvd_of_tmod_eq_zero (of_decide_eq_true this)
    · intro h x hx
      obtain ⟨i, j, rfl⟩ := (hmem x).1 hx
      exact decide_eq_true (Int.tmod_eq_zero_of_dvd (h i j))

/-- C45: `divide` by a positive integer rounds every entry down. -/
theorem C45_vecDivide_partial (v : Fin n → Int) (c : Int) (hc : 0 < c) :
    vecDivide (List.ofFn v) c = .ok (List.ofFn fun i => v i / c) := by
  rw [vecDivide, if_neg (by omega), if_pos hc, ofFn_vk, ofFn_vk, length_vk]
  apply tab_ok
  intro i hi
  rw [get_vk _ hi, Res.ok_bind, Res.pure_eq, exv_lt _ hi, exv_lt _ hi, Int.fdiv_eq_ediv_of_nonneg _ hc.le]

/-- C45 (F14): for a negative divisor the entries are rounded up: `divide([1],-2)` gives `0`, although the quotient rounded
down is `-1`. -/
theorem C45_vecDivide_negative_false : ¬ ∀ (v : List Int) (c : Int), c ≠ 0 → vecDivide v c = .ok (v.map fun x => x.fdiv c) := by
  intro h
  have := h [1] (-2) (by decide)
  revert this; decide

/-- C45: `%=` leaves the nonnegative remainder. -/
theorem C45_vecMod (v : Fin n → Int) (c : Int) (hc : c ≠ 0) :
    vecMod (List.ofFn v) c = .ok (List.ofFn fun i => v i % c) := by
  rw [vecMod, if_neg hc, ofFn_vk, ofFn_vk, length_vk]
  apply tab_ok
  intro i hi
  rw [get_vk _ hi, Res.ok_bind, Res.pure_eq, exv_lt _ hi, exv_lt _ hi, Int.fmod_eq_emod_of_nonneg _ (by omega)]
  congr 1
  rcases Int.natAbs_eq c with h | h
  · rw [← h]
  · conv_rhs => rw [h, Int.emod_neg]

/-! ### concrete cases -/

example : mul true (enc !![1, 2; 3, 4; (5 : Int), 6]) (enc !![0, 1, 2; 3, 4, (5 : Int)]) = .ok (enc !![6, 9, 12; 12, 19, 26; 18, 29, 40]) := by
  decide
example : inverseUpper (enc !![1, 2, 3; 0, 1, 4; 0, 0, (1 : Int)]) = .ok (enc !![1, -2, 5; 0, 1, -4; 0, 0, 1]) := by decide
example : inverseLower (enc !![1, 0; 3, (1 : Int)]) = .ok (enc !![1, 0; -3, 1]) := by decide
example : conjugate false [1, 2, 0] (enc !![1, 2, 3; 4, 5, 6; 7, 8, (9 : Int)]) = .ok (enc !![9, 7, 8; 3, 1, 2; 6, 4, 5]) := by decide
example : pullBackColumns false (enc !![1, 2, 3, 4; 5, 6, 7, (8 : Int)]) [1, 2, 0] = .ok (enc !![2, 3, 1, 4; 6, 7, 5, 8]) := by decide
example : IsPerm 3 [1, 2, 0] := by unfold IsPerm; decide

end Verif.Mat
