import Verif.Mat.Smith

/-!
C36: `has_solution` and `find_solution`.  C37: `diagonalise`, `adapted_basis` and `Smith_basis` (sources/utilities/matreduc.cpp).

`diagMat m n D` is the `m` by `n` diagonal matrix with the entries of `D`, extended with zeros.  An integral matrix is invertible if its
determinant is 1 or -1.
-/

open Finset
open scoped Matrix

namespace Verif.Mat

variable {m n : Nat}

/-! ### C36: integral systems of equations -/

/-- C36: `has_solution` tells whether the system has an integral solution. -/
theorem C36_hasSolution (nd : Bool) (A : Matrix (Fin m) (Fin n) Int) (b : Fin m → Int) :
    ∃ r, hasSolution nd false (enc A) (List.ofFn b) = .ok r ∧ (r = true ↔ ∃ x, A *ᵥ x = b) := hasSolution_spec nd false A b

/-- C36: `find_solution` returns an integral solution if there is one. -/
theorem C36_findSolution (nd : Bool) (A : Matrix (Fin m) (Fin n) Int) (b : Fin m → Int) (h : ∃ x, A *ᵥ x = b) :
    ∃ x, findSolution nd false (enc A) (List.ofFn b) = .ok (List.ofFn x) ∧ A *ᵥ x = b := by
  rcases findSolution_spec nd false A b with h' | h'
  · exact h'
  · exact absurd h h'.2

/-- C36: `find_solution` throws an error if there is no integral solution. -/
theorem C36_findSolution_throw (nd : Bool) (A : Matrix (Fin m) (Fin n) Int) (b : Fin m → Int) (h : ¬ ∃ x, A *ᵥ x = b) :
    findSolution nd false (enc A) (List.ofFn b) = .throw := by
  rcases findSolution_spec nd false A b with ⟨x, _, h'⟩ | h'
  · exact absurd ⟨x, h'⟩ h
  · exact h'.1

/-- a system with and a system without solution -/
example : hasSolution false false (enc (!![2, 4; 0, 6] : Matrix (Fin 2) (Fin 2) Int)) [2, 6] = .ok true ∧
    hasSolution false false (enc (!![2, 4; 0, 6] : Matrix (Fin 2) (Fin 2) Int)) [1, 6] = .ok false ∧
    findSolution false false (enc (!![2, 4; 0, 6] : Matrix (Fin 2) (Fin 2) Int)) [2, 6] = .ok [-1, 1] ∧
    findSolution false false (enc (!![2, 4; 0, 6] : Matrix (Fin 2) (Fin 2) Int)) [1, 6] = .throw := by decide +kernel

/-! ### C37: diagonal forms -/

/-- C37: `diagonalise` returns invertible matrices `R` and `C`, the latter of determinant 1, such that `R * A * C` is diagonal; the
diagonal entries returned are nonzero, and those after the first are positive.  (Missing: `R` has determinant 1, see
`C37_diagonalise_false`.) -/
theorem C37_diagonalise_partial (nd : Bool) (A : Matrix (Fin m) (Fin n) Int) :
    ∃ (D : List Int) (R : Matrix (Fin m) (Fin m) Int) (C : Matrix (Fin n) (Fin n) Int), diagonalise nd false (enc A) = .ok (D, enc R, enc C) ∧
      R * A * C = diagMat m n D ∧ C.det = 1 ∧ (R.det = 1 ∨ R.det = -1) ∧ D.length ≤ m ∧ D.length ≤ n ∧
      ∀ i (h : i < D.length), D[i] ≠ 0 ∧ (0 < i → 0 < D[i]) := by
  obtain ⟨D, R, C, h1, hm, hn, h2, h3, h4, -, h5⟩ := diagonalise_spec nd false A
  exact ⟨D, R, C, h1, h2, h3, Int.isUnit_iff.1 h4, hm, hn, h5⟩

/-- C37: the claim made for `diagonalise`, that `R` has determinant 1, is false: assigning to `row_minus` in line 172 of matreduc.cpp
forgets what it recorded for earlier pivots. -/
theorem C37_diagonalise_false : ¬ ∀ (A : Matrix (Fin 2) (Fin 2) Int), ∃ (D : List Int) (R C : Matrix (Fin 2) (Fin 2) Int),
    diagonalise false false (enc A) = .ok (D, enc R, enc C) ∧ R.det = 1 := by
  intro h
  obtain ⟨D, R, C, h1, h2⟩ := h !![0, 1; 1, 0]
  have e : diagonalise false false (enc !![0, 1; 1, 0]) =
      .ok ([1, 1], enc !![0, 1; 1, 0], enc (1 : Matrix (Fin 2) (Fin 2) Int)) := by decide +kernel
  rw [e] at h1
  obtain rfl : !![0, 1; 1, 0] = R := by
    injection h1 with h1
    injection h1 with _ h1
    injection h1 with h1 _
    exact enc_inj h1
  revert h2
  rw [Matrix.det_fin_two_of]; decide

/-- C37: with `^=` in that line, the claim is true. -/
theorem C37_diagonalise_corrected (nd : Bool) (A : Matrix (Fin m) (Fin n) Int) :
    ∃ (D : List Int) (R : Matrix (Fin m) (Fin m) Int) (C : Matrix (Fin n) (Fin n) Int), diagonalise nd true (enc A) = .ok (D, enc R, enc C) ∧
      R * A * C = diagMat m n D ∧ C.det = 1 ∧ R.det = 1 ∧ D.length ≤ m ∧ D.length ≤ n ∧
      ∀ i (h : i < D.length), D[i] ≠ 0 ∧ (0 < i → 0 < D[i]) := by
  obtain ⟨D, R, C, h1, hm, hn, h2, h3, -, h4, h5⟩ := diagonalise_spec nd true A
  exact ⟨D, R, C, h1, h2, h3, h4 rfl, hm, hn, h5⟩

example : diagonalise false false (enc (!![4, 6, 2; 6, 3, 9] : Matrix (Fin 2) (Fin 3) Int)) =
    .ok ([1, 24], enc !![1, -1; -15, 14], enc !![-2, -3, -2; -1, -2, 1; 0, 0, 1]) := by decide +kernel

/-- C37: `adapted_basis` returns an invertible matrix `B` and positive diagonal entries `D`, such that the columns of `B` multiplied
by these entries form a basis of the lattice spanned by the columns of `A`. -/
theorem C37_adaptedBasis (nd : Bool) (A : Matrix (Fin m) (Fin n) Int) :
    ∃ (B : Matrix (Fin m) (Fin m) Int) (D : List Int), adaptedBasis nd (enc A) = .ok (enc B, D) ∧ (B.det = 1 ∨ B.det = -1) ∧ (∀ d ∈ D, 0 < d) ∧
      D.length ≤ m ∧ D.length ≤ n ∧ ∃ U : Matrix (Fin n) (Fin n) Int, IsUnit U.det ∧ A * U = B * diagMat m n D := by
  obtain ⟨B, D, U, h1, hm, hn, h2, hU, hB, hpos⟩ := adaptedBasis_spec nd A
  exact ⟨B, D, h1, Int.isUnit_iff.1 hB, hpos, hm, hn, U, hU, h2⟩

/-- the vectors of a lattice with an adapted basis -/
theorem adapted_span {A : Matrix (Fin m) (Fin n) Int} {B : Matrix (Fin m) (Fin m) Int} {D : List Int} {U : Matrix (Fin n) (Fin n) Int} (hm : D.length ≤ m)
    (hn : D.length ≤ n) (hU : IsUnit U.det) (h : A * U = B * diagMat m n D) (v : Fin m → Int) :
    (∃ x, A *ᵥ x = v) ↔ ∃ y : Fin D.length → Int, v = ∑ i, (y i * D[i]) • fun r => B r (i.castLE hm) := by
  have key : ∀ z : Fin n → Int, B *ᵥ (diagMat m n D *ᵥ z) = ∑ i : Fin D.length, (z (i.castLE hn) * D[i]) • fun r => B r (i.castLE hm) := by
    intro z
    funext r
    rw [Matrix.mulVec, dotProduct, Finset.sum_apply, ← Finset.sum_subset (Finset.subset_univ (univ.map (Fin.castLEEmb hm))), Finset.sum_map]
    · refine Finset.sum_congr rfl fun i _ => ?_
      rw [diagMat_mulVec hn, dif_pos (show (Fin.castLEEmb hm i).val < D.length from i.2), Pi.smul_apply, smul_eq_mul]
      show B r (i.castLE hm) * (D[i.val] * z (i.castLE hn)) = z (i.castLE hn) * D[i.val] * B r (i.castLE hm)
      ring
    · intro x _ hx
      rw [diagMat_mulVec hn, dif_neg, mul_zero]
      intro hlt
      exact hx (Finset.mem_map.2 ⟨⟨x.val, hlt⟩, Finset.mem_univ _, Fin.ext rfl⟩)
  constructor
  · rintro ⟨x, rfl⟩
    refine ⟨fun i => (U⁻¹ *ᵥ x) (i.castLE hn), ?_⟩
    rw [← key, Matrix.mulVec_mulVec, ← h, Matrix.mulVec_mulVec, Matrix.mul_assoc, Matrix.mul_nonsing_inv _ hU, Matrix.mul_one]
  · rintro ⟨y, rfl⟩
    refine ⟨U *ᵥ fun j => if hj : j.val < D.length then y ⟨j.val, hj⟩ else 0, ?_⟩
    rw [Matrix.mulVec_mulVec, h, ← Matrix.mulVec_mulVec, key]
    refine Finset.sum_congr rfl fun i _ => ?_
    rw [dif_pos (show (Fin.castLE hn i).val < D.length from i.2)]; rfl

/-- C37: the lattice spanned by the columns of `A`, in terms of the result of `adapted_basis`: a vector is in it if and only if it is an
integral linear combination of the first columns of `B` multiplied by the diagonal entries. -/
theorem C37_adaptedBasis_span (nd : Bool) (A : Matrix (Fin m) (Fin n) Int) :
    ∃ (B : Matrix (Fin m) (Fin m) Int) (D : List Int) (hm : D.length ≤ m), adaptedBasis nd (enc A) = .ok (enc B, D) ∧
      ∀ v, (∃ x, A *ᵥ x = v) ↔ ∃ y : Fin D.length → Int, v = ∑ i, (y i * D[i]) • fun r => B r (i.castLE hm) := by
  obtain ⟨B, D, U, h1, hm, hn, h2, hU, hB, hpos⟩ := adaptedBasis_spec nd A
  exact ⟨B, D, hm, h1, adapted_span hm hn hU h2⟩

/-- C37: `Smith_basis` does the same, and each diagonal entry divides the next one, provided that the exponent of the torsion subgroup
of the quotient by the lattice is less than `2^64`. -/
theorem C37_smithBasis (nd : Bool) (A : Matrix (Fin m) (Fin n) Int) {L : Nat} (hL : 0 < L) (h64 : L < 2 ^ 64) (hA : KillsTorsion A L) :
    ∃ (B : Matrix (Fin m) (Fin m) Int) (D : List Int), smithBasis nd (enc A) = .ok (enc B, D) ∧ (B.det = 1 ∨ B.det = -1) ∧ (∀ d ∈ D, 0 < d) ∧
      (∀ t (h : t + 1 < D.length), D[t] ∣ D[t + 1]) ∧
      D.length ≤ m ∧ D.length ≤ n ∧ ∃ U : Matrix (Fin n) (Fin n) Int, IsUnit U.det ∧ A * U = B * diagMat m n D := by
  obtain ⟨B, D, U, h1, hm, hn, h2, hU, hB, hpos, hdvd⟩ := smithBasis_spec nd A hL h64 hA
  exact ⟨B, D, h1, Int.isUnit_iff.1 hB, hpos, hdvd, hm, hn, U, hU, h2⟩

theorem C37_smithBasis_span (nd : Bool) (A : Matrix (Fin m) (Fin n) Int) {L : Nat} (hL : 0 < L) (h64 : L < 2 ^ 64) (hA : KillsTorsion A L) :
    ∃ (B : Matrix (Fin m) (Fin m) Int) (D : List Int) (hm : D.length ≤ m), smithBasis nd (enc A) = .ok (enc B, D) ∧
      ∀ v, (∃ x, A *ᵥ x = v) ↔ ∃ y : Fin D.length → Int, v = ∑ i, (y i * D[i]) • fun r => B r (i.castLE hm) := by
  obtain ⟨B, D, U, h1, hm, hn, h2, hU, hB, hpos, hdvd⟩ := smithBasis_spec nd A hL h64 hA
  exact ⟨B, D, hm, h1, adapted_span hm hn hU h2⟩

/-- a square matrix of nonzero determinant has a quotient annihilated by that determinant -/
theorem killsTorsion_det (A : Matrix (Fin n) (Fin n) Int) : KillsTorsion A A.det := by
  intro v c _ _
  refine ⟨A.adjugate *ᵥ v, ?_⟩
  rw [Matrix.mulVec_mulVec, Matrix.mul_adjugate, Matrix.smul_mulVec, Matrix.one_mulVec]

/-- the hypotheses of `C37_smithBasis` are met: the Cartan matrix of type D4, of determinant 4 -/
example : ∃ L : Nat, 0 < L ∧ L < 2 ^ 64 ∧ KillsTorsion !![2, -1, 0, 0; -1, 2, -1, -1; 0, -1, 2, 0; 0, -1, 0, (2 : Int)] L := by
  refine ⟨4, by decide, by decide, ?_⟩
  have := killsTorsion_det !![2, -1, 0, 0; -1, 2, -1, -1; 0, -1, 2, 0; 0, -1, 0, (2 : Int)]
  rwa [show (!![2, -1, 0, 0; -1, 2, -1, -1; 0, -1, 2, 0; 0, -1, 0, (2 : Int)]).det = ((4 : Nat) : Int) by decide +kernel] at this

example : smithBasis false ⟨4, 4, [2, -1, 0, 0, -1, 2, -1, -1, 0, -1, 2, 0, 0, -1, 0, 2]⟩ =
      .ok (⟨4, 4, [1, 0, 0, 0, -2, 1, 0, 0, 1, -2, 1, 0, 1, 0, -1, 1]⟩, [1, 1, 2, 2]) ∧
    adaptedBasis false ⟨2, 2, [6, 0, 0, 4]⟩ = .ok (⟨2, 2, [1, 0, 0, 1]⟩, [6, 4]) ∧
    smithBasis false ⟨2, 2, [6, 0, 0, 4]⟩ = .ok (⟨2, 2, [3, -1, -2, 1]⟩, [2, 12]) := by decide +kernel

end Verif.Mat
