import Verif.Mat.Lattice

/-!
C46: lattices (sources/structure/lattice.cpp).

`cols A` is the list of columns of the matrix `A`, and `IsBasis K S` means that the columns of `K` form a basis of the lattice of vectors
satisfying `S`: the vectors satisfying `S` are the integral linear combinations of the columns, and the coefficients are unique.
-/

open scoped Matrix

namespace Verif.Mat

variable {m n k : Nat}

/-- C46: `baseChange` finds the coefficients of vectors in terms of a basis of a sublattice of full rank. -/
theorem C46_baseChange (nd : Bool) (hn : n < 2 ^ 64) (B : Matrix (Fin n) (Fin n) Int) (hB : B.det ≠ 0) (X : Matrix (Fin n) (Fin k) Int) :
    baseChange nd (cols (B * X)) (cols B) = .ok (cols X) := by
  rcases baseChange_spec nd hn B (B * X) with ⟨-, X', h1, h2⟩ | ⟨-, h1, -⟩ | ⟨h1, -⟩
  · rw [h2]
    have : X' = X := by
      have := congrArg (B.adjugate * ·) h1
      simp only [← Matrix.mul_assoc, Matrix.adjugate_mul, Matrix.smul_mul, Matrix.one_mul] at this
      ext i j
      have := congrFun (congrFun this i) j
      rw [Matrix.smul_apply, Matrix.smul_apply, smul_eq_mul, smul_eq_mul] at this
      exact mul_left_cancel₀ hB this
    rw [this]
  · exact absurd ⟨X, rfl⟩ h1
  · exact absurd h1 hB

/-- C46: `baseChange` throws an error if some vector is not in the sublattice, or if the sublattice is not of full rank. -/
theorem C46_baseChange_throw (nd : Bool) (hn : n < 2 ^ 64) (B : Matrix (Fin n) (Fin n) Int) (V : Matrix (Fin n) (Fin k) Int)
    (h : (¬ ∃ X, B * X = V) ∨ (B.det = 0 ∧ 0 < k)) : baseChange nd (cols V) (cols B) = .throw := by
  rcases baseChange_spec nd hn B V with ⟨h0, X', h1, h2⟩ | ⟨-, -, h2⟩ | ⟨h1, h2, h3⟩
  · rcases h with h | h
    · exact absurd ⟨X', h1⟩ h
    · exact absurd h.1 h0
  · exact h2
  · rcases h with h | h
    · refine h2 ?_
      rcases Nat.eq_zero_or_pos k with rfl | c
      · exact absurd ⟨0, by ext i j; exact j.elim0⟩ h
      · exact c
    · exact h2 h.2

example : baseChange false [[3, 1], [0, 4]] [[1, 1], [1, -1]] = .ok [[2, 1], [2, -2]] ∧
    baseChange false [[3, 1], [0, 3]] [[1, 1], [1, -1]] = .throw ∧
    baseChange false [[3, 3]] [[1, 1], [1, 1]] = .throw := by decide +kernel

/-- C46: `inverseBaseChange` finds the vectors with given coefficients. -/
theorem C46_inverseBaseChange (nd : Bool) (B : Matrix (Fin n) (Fin n) Int) (X : Matrix (Fin n) (Fin k) Int) :
    inverseBaseChange nd (cols X) (cols B) = .ok (cols (B * X)) := inverseBaseChange_spec nd B X

/-- C46: `perp` finds a basis of the lattice of vectors orthogonal to the columns of a matrix. -/
theorem C46_perp (nd : Bool) (A : Matrix (Fin m) (Fin n) Int) :
    ∃ (k : Nat) (K : Matrix (Fin m) (Fin k) Int), perp nd false (enc A) = .ok (cols K) ∧ IsBasis K (fun y => y ᵥ* A = 0) := perp_spec nd false A

/-- C46: `kernel` finds a basis of the lattice of vectors that a matrix maps to zero. -/
theorem C46_kernel (nd : Bool) (hn : n < 2 ^ 64) (A : Matrix (Fin m) (Fin n) Int) :
    ∃ (k : Nat) (K : Matrix (Fin n) (Fin k) Int), kernel nd (enc A) = .ok (enc K) ∧ IsBasis K (fun x => A *ᵥ x = 0) := kernel_spec nd hn A

/-- C46: `eigen_lattice` finds a basis of the lattice of eigenvectors for an integral eigenvalue. -/
theorem C46_eigenLattice (nd : Bool) (hn : n < 2 ^ 64) (A : Matrix (Fin n) (Fin n) Int) (lambda : Int) :
    ∃ (k : Nat) (K : Matrix (Fin n) (Fin k) Int), eigenLattice nd (enc A) lambda = .ok (enc K) ∧ IsBasis K (fun x => A *ᵥ x = lambda • x) :=
  eigenLattice_spec nd hn A lambda

/-- C46: `row_saturate` finds a matrix whose rows form a basis of the smallest lattice containing the rows of the given matrix and having
a quotient without torsion: it consists of the vectors with a nonzero multiple in the lattice spanned by those rows. -/
theorem C46_rowSaturate (nd : Bool) (A : Matrix (Fin m) (Fin n) Int) :
    ∃ (k : Nat) (S : Matrix (Fin k) (Fin n) Int), rowSaturate nd (enc A) = .ok (enc S) ∧
      IsBasis Sᵀ (fun y => ∃ d : Int, d ≠ 0 ∧ ∃ x, x ᵥ* A = d • y) := rowSaturate_spec nd A

example : kernel false ⟨2, 3, [1, 2, 3, 2, 4, 6]⟩ = .ok ⟨3, 2, [-3, -2, 0, 1, 1, 0]⟩ ∧
    perp false false ⟨3, 2, [2, 4, 6, 2, 8, 6]⟩ = .ok [[-1, -1, 1]] ∧
    eigenLattice false ⟨2, 2, [0, 1, 1, 0]⟩ (-1) = .ok ⟨2, 1, [-1, 1]⟩ ∧
    rowSaturate false ⟨2, 3, [2, 4, 6, 2, 8, 6]⟩ = .ok ⟨2, 3, [1, 2, 3, 0, 1, 0]⟩ := by decide +kernel

end Verif.Mat
