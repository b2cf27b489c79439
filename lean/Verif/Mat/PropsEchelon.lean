import Verif.Mat.Inverse

/-!
C36: `gcd`, `column_echelon`, `echelon_solve` (sources/utilities/matreduc.h), `inverse` and `on_basis`
(sources/utilities/matrix.h, matrix.cpp).

The specification is in terms of Mathlib's matrices over the integers; `enc` and `List.ofFn` are the representations of
C45, and `sgn` is the sign given by a flag.  The number of columns is less than `2^64`, as it is for any matrix that can be stored.
-/

open Finset
open scoped Matrix

namespace Verif.Mat

variable {m n k : Nat}

/-- C36: `gcd` with a recording matrix returns the greatest common divisor of the entries, and records column operations that turn
the row into one with this divisor at position `dest` and zeros elsewhere; `flip` is changed exactly if the operations have
determinant -1. -/
theorem C36_gcd (nd : Bool) (r : Fin n → Int) (flip : Bool) (dest : Fin n) :
    ∃ C flip', gcd nd (List.ofFn r) true flip dest = .ok (univ.gcd r, some (enc C), flip') ∧
      r ᵥ* C = Pi.single dest (univ.gcd r) ∧ C.det = sgn (xor flip flip') := by
  obtain ⟨g, C, flip', h1, h2⟩ := gcd_spec nd r flip dest.val (.inl dest.2)
  obtain rfl := h2.value (.inl dest.2)
  refine ⟨C, flip', h1, ?_, h2.det⟩
  rw [h2.row]; funext j
  by_cases e : j = dest
  · subst e; rw [Pi.single_eq_same, if_pos rfl]
  · rw [Pi.single_eq_of_ne e, if_neg (fun e' => e (Fin.ext e'))]

/-- C36: without recording matrix `gcd` just returns the greatest common divisor. -/
theorem C36_gcd_value (nd : Bool) (r : Fin n → Int) (flip : Bool) (dest : Nat) :
    ∃ flip', gcd nd (List.ofFn r) false flip dest = .ok (univ.gcd r, none, flip') := gcd_none_spec nd r flip dest

example : gcd false [6, -10, 15] true false 1 = .ok (1, some (enc !![-5, -4, 10; -3, -1, 3; 0, 1, (-2 : Int)]), true) := by decide +kernel

/-- C36: `column_echelon` returns the set of pivot rows, and leaves a matrix in echelon form which, with zero columns added, is
`A * C` for the matrix `C` recorded, of determinant 1 or -1 as `flip` tells. -/
theorem C36_columnEchelon (nd : Bool) (hn : n < 2 ^ 64) (A : Matrix (Fin m) (Fin n) Int) :
    ∃ (k : Nat) (piv : Fin k → Fin m) (E : Matrix (Fin m) (Fin k) Int) (C : Matrix (Fin n) (Fin n) Int) (flip : Bool),
      columnEchelon nd (enc A) = .ok (List.ofFn fun i => decide (i ∈ Set.range piv), enc E, enc C, flip) ∧
      IsEchelon E piv ∧ C.det = sgn flip ∧ k ≤ n ∧
      ∀ i (j : Fin n), (A * C) i j = if h : j.val < k then E i ⟨j.val, h⟩ else 0 := columnEchelon_spec nd hn A

/-- C36: the lattice spanned by the columns is not changed by `column_echelon`. -/
theorem C36_columnEchelon_span (nd : Bool) (hn : n < 2 ^ 64) (A : Matrix (Fin m) (Fin n) Int) :
    ∃ (k : Nat) (bits : List Bool) (E : Matrix (Fin m) (Fin k) Int) (col : Mat Int) (flip : Bool),
      columnEchelon nd (enc A) = .ok (bits, enc E, col, flip) ∧ Set.range (E *ᵥ ·) = Set.range (A *ᵥ ·) ∧
      Function.Injective (E *ᵥ ·) := by
  obtain ⟨k, piv, E, C, flip, h1, hE, hdet, hk, hAC⟩ := columnEchelon_spec nd hn A
  have hCu : IsUnit C.det := by rw [hdet]; exact sgn_unit _
  -- the columns of `E` and zero columns
  have key : ∀ y : Fin n → Int, (A * C) *ᵥ y = E *ᵥ fun j => y (j.castLE hk) := by
    intro y
    funext i
    simp only [Matrix.mulVec, dotProduct]
    rw [← Finset.sum_subset (Finset.subset_univ (univ.map (Fin.castLEEmb hk))), Finset.sum_map]
    · refine Finset.sum_congr rfl fun t _ => ?_
      rw [hAC, dif_pos (show (Fin.castLEEmb hk t).val < k from t.2)]; rfl
    · intro j _ hj
      rw [hAC, dif_neg, zero_mul]
      intro h
      exact hj (Finset.mem_map.2 ⟨⟨j.val, h⟩, Finset.mem_univ _, Fin.ext rfl⟩)
  refine ⟨k, _, E, _, flip, h1, ?_, ?_⟩
  · ext v
    constructor
    · rintro ⟨y, rfl⟩
      refine ⟨C *ᵥ fun j => if h : j.val < k then y ⟨j.val, h⟩ else 0, ?_⟩
      simp only
      rw [Matrix.mulVec_mulVec, key]
      congr 1; funext j
      rw [dif_pos (show (j.castLE hk).val < k from j.2)]; rfl
    · rintro ⟨x, rfl⟩
      refine ⟨fun j => (C⁻¹ *ᵥ x) (j.castLE hk), ?_⟩
      simp only
      rw [← key, Matrix.mulVec_mulVec, Matrix.mul_assoc, Matrix.mul_nonsing_inv C hCu, Matrix.mul_one]
  · intro y z hyz
    have : E *ᵥ (y - z) = 0 := by rw [Matrix.mulVec_sub, sub_eq_zero]; exact hyz
    funext t
    have := hE.zero_of_rows (i := 0) (fun r _ => by rw [this]; rfl) t (Nat.zero_le _)
    rwa [Pi.sub_apply, sub_eq_zero] at this

example : columnEchelon false (enc !![4, 6, 2; 1, 3, 5]) =
    .ok ([true, true], enc !![6, 4; 0, 1], enc !![3, 1, 4; -1, 0, -3; 0, 0, (1 : Int)], false) := by decide +kernel

variable {E : Matrix (Fin m) (Fin k) Int} {piv : Fin k → Fin m}

/-- C36: `echelon_solve` finds a solution of `E x = f b` for the smallest positive scale factor `f`, which divides all factors for
which there is a solution, or throws an error; -/
theorem C36_echelonSolve (nd : Bool) (hE : IsEchelon E piv) (b : Fin m → Int) :
    (∃ x f, echelonSolve nd (enc E) (List.ofFn fun i => decide (i ∈ Set.range piv)) (List.ofFn b) = .ok (List.ofFn x, f) ∧
      0 < f ∧ E *ᵥ x = f • b ∧ ∀ (g : Int) y, E *ᵥ y = g • b → f ∣ g) ∨
    echelonSolve nd (enc E) (List.ofFn fun i => decide (i ∈ Set.range piv)) (List.ofFn b) = .throw := by
  rcases echelonSolve_spec nd hE b with h | h
  · exact .inl h
  · exact .inr h.1

/-- the error is thrown exactly if there is no rational solution. -/
theorem C36_echelonSolve_throw (nd : Bool) (hE : IsEchelon E piv) (b : Fin m → Int) :
    echelonSolve nd (enc E) (List.ofFn fun i => decide (i ∈ Set.range piv)) (List.ofFn b) = .throw ↔
      ¬ ∃ (f : Int) (x : Fin k → Int), f ≠ 0 ∧ E *ᵥ x = f • b := by
  rcases echelonSolve_spec nd hE b with ⟨x, f, h1, h2, h3, _⟩ | ⟨h1, h2⟩
  · rw [h1]
    constructor
    · intro h; simp at h
    · intro h; exact absurd ⟨f, x, h2.ne', h3⟩ h
  · rw [h1]
    refine ⟨fun _ ⟨f, x, hf, hx⟩ => hf (h2 f x hx), fun _ => rfl⟩

example : IsEchelon !![6, 4; 0, 3; 0, (0 : Int)] ![0, 1] :=
  ⟨by decide, by decide, by simp [Fin.forall_fin_succ]⟩

example : echelonSolve false (enc !![6, 4; 0, 3; 0, (0 : Int)]) [true, true, false] [1, 1, 0] = .ok ([-1, 6], 18) ∧
    echelonSolve false (enc !![6, 4; 0, 3; 0, (0 : Int)]) [true, true, false] [1, 1, 1] = .throw := by decide +kernel

/-- C36: `inverse` with denominator: for a matrix with nonzero determinant, the matrix returned divided by the denominator is the
inverse, and the denominator is the smallest possible; -/
theorem C36_inverse (nd : Bool) (hn : n < 2 ^ 64) (A : Matrix (Fin n) (Fin n) Int) (hA : A.det ≠ 0) :
    ∃ N d, inverse nd (enc A) = .ok (enc N, d) ∧ IsInverse A N d := by
  rcases inverse_spec nd hn A with h | ⟨_, h⟩
  · exact h
  · exact absurd h hA

/-- for a singular matrix the denominator returned is 0; -/
theorem C36_inverse_singular (nd : Bool) (hn : n < 2 ^ 64) (A : Matrix (Fin n) (Fin n) Int) (hA : A.det = 0) :
    inverse nd (enc A) = .ok (enc (0 : Matrix (Fin n) (Fin n) Int), 0) := by
  rcases inverse_spec nd hn A with ⟨N, d, _, h⟩ | ⟨h, _⟩
  · exact absurd hA (det_ne_of_right h.pos h.right)
  · exact h

/-- without denominator, `inverse` returns the inverse matrix if the determinant is 1 or -1, and otherwise throws an error. -/
theorem C36_inverseExact (nd : Bool) (hn : n < 2 ^ 64) (A : Matrix (Fin n) (Fin n) Int) (hA : IsUnit A.det) :
    ∃ N, inverseExact nd (enc A) = .ok (enc N) ∧ A * N = 1 ∧ N * A = 1 := by
  obtain ⟨N, d, h1, h2⟩ := C36_inverse nd hn A hA.ne_zero
  have hd : d = 1 := by
    have := h2.min 1 A⁻¹ (by rw [Matrix.mul_nonsing_inv A hA, one_smul])
    exact Int.eq_one_of_dvd_one h2.pos.le this
  subst hd
  refine ⟨N, ?_, ?_, ?_⟩
  · rw [inverseExact, h1, Res.ok_bind, if_pos rfl, Res.pure_eq]
  · rw [h2.right, one_smul]
  · rw [h2.left, one_smul]

theorem C36_inverseExact_throw (nd : Bool) (hn : n < 2 ^ 64) (A : Matrix (Fin n) (Fin n) Int) (hA : ¬ IsUnit A.det) :
    inverseExact nd (enc A) = .throw := by
  rcases inverse_spec nd hn A with ⟨N, d, h1, h2⟩ | ⟨h1, _⟩
  · rw [inverseExact, h1, Res.ok_bind, if_neg]
    rintro rfl
    refine hA (IsUnit.of_mul_eq_one N.det ?_)
    rw [← Matrix.det_mul, h2.right, one_smul, Matrix.det_one]
  · rw [inverseExact, h1, Res.ok_bind, if_neg (by simp)]

example : inverse false (enc !![2, 1; 1, (3 : Int)]) = .ok (enc !![3, -1; -1, 2], 5) ∧
    inverseExact false (enc !![2, 1; 1, (1 : Int)]) = .ok (enc !![1, -1; -1, 2]) := by decide +kernel

/-- C36: `on_basis` expresses an endomorphism on a basis (of a sublattice of full rank), if it stabilises the lattice spanned by it;
otherwise an error is thrown. -/
theorem C36_onBasis (nd : Bool) (hn : n < 2 ^ 64) (M B : Matrix (Fin n) (Fin n) Int) (hB : B.det ≠ 0) :
    (∃ N, onBasis nd (enc M) (enc B) = .ok (enc N) ∧ B * N = M * B) ∨
    (onBasis nd (enc M) (enc B) = .throw ∧ ¬ ∃ N : Matrix (Fin n) (Fin n) Int, B * N = M * B) := by
  classical
  obtain ⟨Q, d, h1, h2⟩ := C36_inverse nd hn B hB
  rw [onBasis, h1, Res.ok_bind]
  simp only
  rw [C45_mul, Res.ok_bind, C45_mul, Res.ok_bind, C45_divScalar]
  have hstab : ∀ N : Matrix (Fin n) (Fin n) Int, B * N = M * B → Q * M * B = d • N := by
    intro N hN
    rw [Matrix.mul_assoc, ← hN, ← Matrix.mul_assoc, h2.left, Matrix.smul_mul, Matrix.one_mul]
  by_cases c : d = 0 ∨ ∃ i j, ¬ d ∣ (Q * M * B) i j
  · right
    rw [if_pos c]
    refine ⟨rfl, ?_⟩
    rintro ⟨N, hN⟩
    rcases c with c | ⟨i, j, c⟩
    · exact h2.pos.ne' c
    · exact c ⟨N i j, by rw [hstab N hN]; rfl⟩
  · left
    rw [if_neg c]
    refine ⟨_, rfl, ?_⟩
    have e : Q * M * B = d • (Q * M * B).map (· / d) := by
      ext i j
      rw [Matrix.smul_apply, Matrix.map_apply, smul_eq_mul, Int.mul_ediv_cancel']
      by_contra h
      exact c (.inr ⟨i, j, h⟩)
    have e2 : d • (B * (Q * M * B).map (· / d)) = d • (M * B) := by
      rw [← Matrix.mul_smul, ← e, Matrix.mul_assoc, ← Matrix.mul_assoc, h2.right, Matrix.smul_mul, Matrix.one_mul]
    ext i j
    have := congrFun (congrFun e2 i) j
    simp only [Matrix.smul_apply, smul_eq_mul] at this
    exact mul_left_cancel₀ h2.pos.ne' this

/-- for a singular matrix in place of a basis an error is thrown. -/
theorem C36_onBasis_singular (nd : Bool) (hn : n < 2 ^ 64) (M B : Matrix (Fin n) (Fin n) Int) (hB : B.det = 0) :
    onBasis nd (enc M) (enc B) = .throw := by
  classical
  rw [onBasis, C36_inverse_singular nd hn B hB, Res.ok_bind]
  simp only
  rw [C45_mul, Res.ok_bind, C45_mul, Res.ok_bind, C45_divScalar, if_pos (.inl rfl)]

example : onBasis false (enc !![0, 1; 1, (0 : Int)]) (enc !![2, 1; 0, 1]) = .ok (enc !![-1, 0; 2, 1]) ∧
    onBasis false (enc !![0, 1; 1, (0 : Int)]) (enc !![2, 0; 0, 1]) = .throw := by decide +kernel

end Verif.Mat
