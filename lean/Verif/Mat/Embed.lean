import Mathlib.LinearAlgebra.Matrix.Block
import Verif.Mat.Gcd

/-!
Applying a square matrix of operations to a window of rows or columns is multiplication by a matrix with the same determinant.
-/

open Finset
open scoped Matrix

namespace Verif.Mat

variable {R : Type} [CommRing R] {m n k : Nat}

/-- the matrix with `ops` on the diagonal from position `a` on, elsewhere as the identity matrix -/
def embed (n a : Nat) (ops : Matrix (Fin k) (Fin k) R) : Matrix (Fin n) (Fin n) R := Matrix.of fun r c =>
  if h : (a ≤ r.val ∧ r.val < a + k) ∧ (a ≤ c.val ∧ c.val < a + k) then ops ⟨r.val - a, by omega⟩ ⟨c.val - a, by omega⟩
  else if r = c then 1 else 0

theorem embed_in {a : Nat} (h : a + k ≤ n) (ops : Matrix (Fin k) (Fin k) R) (r c : Fin k) :
    embed n a ops ⟨a + r.val, by omega⟩ ⟨a + c.val, by omega⟩ = ops r c := by
  rw [embed, Matrix.of_apply, dif_pos ⟨⟨by simp, by simp⟩, by simp, by simp⟩]
  congr 1 <;> ext <;> simp

theorem embed_out {a : Nat} (ops : Matrix (Fin k) (Fin k) R) {r c : Fin n}
    (h : ¬ ((a ≤ r.val ∧ r.val < a + k) ∧ (a ≤ c.val ∧ c.val < a + k))) : embed n a ops r c = if r = c then 1 else 0 := by
  rw [embed, Matrix.of_apply, dif_neg h]

/-- the indices of the window -/
def window {a : Nat} (h : a + k ≤ n) : Fin k ≃ {i : Fin n // a ≤ i.val ∧ i.val < a + k} where
  toFun i := ⟨⟨a + i.val, by omega⟩, by simp⟩
  invFun i := ⟨i.1.val - a, by have := i.2; omega⟩
  left_inv i := by ext; simp
  right_inv i := by
    obtain ⟨i, h1, h2⟩ := i
    ext; simp; omega

theorem det_embed {a : Nat} (h : a + k ≤ n) (ops : Matrix (Fin k) (Fin k) R) : (embed n a ops).det = ops.det := by
  rw [Matrix.twoBlockTriangular_det (embed n a ops) (fun i => a ≤ i.val ∧ i.val < a + k)]
  · have h1 : ((embed n a ops).toSquareBlockProp fun i => a ≤ i.val ∧ i.val < a + k).submatrix (window h) (window h) = ops := by
      ext i j
      exact embed_in h ops i j
    have h2 : ((embed n a ops).toSquareBlockProp fun i => ¬ (a ≤ i.val ∧ i.val < a + k)) = 1 := by
      ext i j
      rw [Matrix.one_apply]
      show embed n a ops i.1 j.1 = _
      rw [embed_out ops (fun c => i.2 c.1)]
      simp [Subtype.ext_iff]
    rw [h2, Matrix.det_one, mul_one, ← Matrix.det_submatrix_equiv_self (window h), h1]
  · intro i hi j hj
    rw [embed_out ops (fun c => hi c.1), if_neg]
    rintro rfl; exact hi hj

theorem embed_one (a : Nat) : embed n a (1 : Matrix (Fin k) (Fin k) R) = 1 := by
  ext r c
  rw [embed, Matrix.of_apply, Matrix.one_apply]
  by_cases h : (a ≤ r.val ∧ r.val < a + k) ∧ (a ≤ c.val ∧ c.val < a + k)
  · rw [dif_pos h, Matrix.one_apply]
    congr 1
    simp only [Fin.ext_iff, eq_iff_iff]; omega
  · rw [dif_neg h]

/-- multiplication on the right -/
theorem mul_embed_in {a : Nat} (h : a + k ≤ n) (A : Matrix (Fin m) (Fin n) R) (ops : Matrix (Fin k) (Fin k) R) (r : Fin m) (c : Fin k) :
    (A * embed n a ops) r ⟨a + c.val, by omega⟩ = ∑ t : Fin k, A r ⟨a + t.val, by omega⟩ * ops t c := by
  rw [Matrix.mul_apply]
  rw [← Finset.sum_subset (Finset.subset_univ (univ.filter fun t : Fin n => a ≤ t.val ∧ t.val < a + k))]
  · rw [← Finset.sum_subtype_eq_sum_filter, Finset.subtype_univ, ← (window h).sum_comp]
    refine Finset.sum_congr rfl fun t _ => ?_
    rw [show ((window h t : {i : Fin n // a ≤ i.val ∧ i.val < a + k}) : Fin n) = ⟨a + t.val, by omega⟩ from rfl, embed_in h]
  · intro t _ ht
    rw [Finset.mem_filter] at ht
    rw [embed_out ops (fun e => ht ⟨Finset.mem_univ _, e.1⟩), if_neg, mul_zero]
    rintro rfl
    exact ht ⟨Finset.mem_univ _, by simp⟩

theorem mul_embed_out {a : Nat} (A : Matrix (Fin m) (Fin n) R) (ops : Matrix (Fin k) (Fin k) R) (r : Fin m) {c : Fin n}
    (hc : ¬ (a ≤ c.val ∧ c.val < a + k)) : (A * embed n a ops) r c = A r c := by
  rw [Matrix.mul_apply, Finset.sum_eq_single c]
  · rw [embed_out ops (fun e => hc e.2), if_pos rfl, mul_one]
  · intro t _ ht
    rw [embed_out ops (fun e => hc e.2), if_neg ht, mul_zero]
  · intro h; exact absurd (Finset.mem_univ c) h

theorem embed_transpose (a : Nat) (ops : Matrix (Fin k) (Fin k) R) : (embed n a ops)ᵀ = embed n a opsᵀ := by
  ext r c
  rw [Matrix.transpose_apply, embed, embed, Matrix.of_apply, Matrix.of_apply]
  by_cases h : (a ≤ r.val ∧ r.val < a + k) ∧ (a ≤ c.val ∧ c.val < a + k)
  · rw [dif_pos h, dif_pos ⟨h.2, h.1⟩, Matrix.transpose_apply]
  · rw [dif_neg h, dif_neg (fun e => h ⟨e.2, e.1⟩)]
    simp only [eq_comm]

theorem embed_mul_in {a : Nat} (h : a + k ≤ m) (A : Matrix (Fin m) (Fin n) R) (ops : Matrix (Fin k) (Fin k) R) (r : Fin k) (c : Fin n) :
    (embed m a ops * A) ⟨a + r.val, by omega⟩ c = ∑ t : Fin k, ops r t * A ⟨a + t.val, by omega⟩ c := by
  have := mul_embed_in h Aᵀ opsᵀ c r
  rw [← embed_transpose, ← Matrix.transpose_mul, Matrix.transpose_apply] at this
  rw [this]
  exact Finset.sum_congr rfl fun t _ => mul_comm _ _

theorem embed_mul_out {a : Nat} (A : Matrix (Fin m) (Fin n) R) (ops : Matrix (Fin k) (Fin k) R) {r : Fin m} (c : Fin n)
    (hr : ¬ (a ≤ r.val ∧ r.val < a + k)) : (embed m a ops * A) r c = A r c := by
  have := mul_embed_out Aᵀ opsᵀ c hr
  rwa [← embed_transpose, ← Matrix.transpose_mul, Matrix.transpose_apply] at this

/-- `column_apply` -/
theorem columnApply_embed (nd : Bool) {a : Nat} (h : a + k ≤ n) (A : Matrix (Fin m) (Fin n) R) (ops : Matrix (Fin k) (Fin k) R) :
    columnApply nd (enc A) (enc ops) a = .ok (enc (A * embed n a ops)) := by
  obtain ⟨B, h1, h2, h3⟩ := C45_columnApply nd A ops h
  rw [h1]
  congr 2
  ext r c
  by_cases hc : a ≤ c.val ∧ c.val < a + k
  · have e : c = ⟨a + (⟨c.val - a, by omega⟩ : Fin k).val, by have := c.2; show a + (c.val - a) < n; omega⟩ := by
      ext; show c.val = a + (c.val - a); omega
    rw [e, mul_embed_in h, h2]
  · rw [mul_embed_out A ops r hc, h3 r c (by omega)]

/-- `row_apply` -/
theorem rowApply_embed (nd : Bool) {a : Nat} (h : a + k ≤ m) (A : Matrix (Fin m) (Fin n) R) (ops : Matrix (Fin k) (Fin k) R) :
    rowApply nd (enc A) (enc ops) a = .ok (enc (embed m a ops * A)) := by
  obtain ⟨B, h1, h2, h3⟩ := C45_rowApply nd A ops h
  rw [h1]
  congr 2
  ext r c
  by_cases hr : a ≤ r.val ∧ r.val < a + k
  · have e : r = ⟨a + (⟨r.val - a, by omega⟩ : Fin k).val, by have := r.2; show a + (r.val - a) < m; omega⟩ := by
      ext; show r.val = a + (r.val - a); omega
    rw [e, embed_mul_in h, h2]
  · rw [embed_mul_out A ops c hr, h3 r (by omega)]

end Verif.Mat
