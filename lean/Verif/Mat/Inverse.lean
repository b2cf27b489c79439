import Mathlib.LinearAlgebra.Matrix.Block
import Verif.Mat.Solve

/-!
Lemmas about `inverse`.
-/

open Finset
open scoped Matrix

namespace Verif.Mat

variable {m n k : Nat}

theorem piv_id {piv : Fin n → Fin n} (h : StrictMono piv) (t : Fin n) : piv t = t := le_antisymm h.apply_le h.le_apply

/-- a square echelon matrix with all pivots has nonzero determinant -/
theorem IsEchelon.det_ne {E : Matrix (Fin n) (Fin n) Int} {piv : Fin n → Fin n} (h : IsEchelon E piv) : E.det ≠ 0 := by
  have hb : E.BlockTriangular id := by
    intro i j hij
    exact h.below i j (by rw [piv_id h.mono]; exact hij)
  rw [Matrix.det_of_upperTriangular hb]
  refine Finset.prod_ne_zero_iff.2 fun i _ => ?_
  have := h.pos i
  rw [piv_id h.mono] at this
  exact this.ne'

/-- what `inverse` must return: a matrix with denominator -/
structure IsInverse (A N : Matrix (Fin n) (Fin n) Int) (d : Int) : Prop where
  pos : 0 < d
  right : A * N = d • 1
  left : N * A = d • 1
  min : ∀ (g : Int) (B : Matrix (Fin n) (Fin n) Int), A * B = g • 1 → d ∣ g

theorem left_of_right {A N : Matrix (Fin n) (Fin n) Int} {d : Int} (hA : A.det ≠ 0) (h : A * N = d • 1) : N * A = d • 1 := by
  have h1 : A * (N * A) = A * (d • 1) := by
    rw [← Matrix.mul_assoc, h, Matrix.smul_mul, Matrix.one_mul, Matrix.mul_smul, Matrix.mul_one]
  have h2 := congrArg (A.adjugate * ·) h1
  simp only [← Matrix.mul_assoc, Matrix.adjugate_mul, Matrix.smul_mul, Matrix.one_mul] at h2
  ext i j
  have h3 := congrFun (congrFun h2 i) j
  simp only [Matrix.smul_apply, smul_eq_mul] at h3
  simpa using mul_left_cancel₀ hA h3

theorem det_ne_of_right {A N : Matrix (Fin n) (Fin n) Int} {d : Int} (hd : 0 < d) (h : A * N = d • 1) : A.det ≠ 0 := by
  intro hA
  have := congrArg Matrix.det h
  rw [Matrix.det_mul, hA, zero_mul, Matrix.det_smul, Matrix.det_one, mul_one] at this
  exact pow_ne_zero _ hd.ne' this.symm

theorem all_bits {piv : Fin k → Fin m} : (List.ofFn fun i => decide (i ∈ Set.range piv)).all id = true ↔ Function.Surjective piv := by
  rw [List.all_eq_true]
  constructor
  · intro h i
    have := h (decide (i ∈ Set.range piv)) (by rw [List.mem_ofFn]; exact ⟨i, rfl⟩)
    simpa using this
  · intro h b hb
    rw [List.mem_ofFn] at hb
    obtain ⟨i, rfl⟩ := hb
    simpa using h i

theorem inverse_spec (nd : Bool) (hn : n < 2 ^ 64) (A : Matrix (Fin n) (Fin n) Int) :
    (∃ N d, inverse nd (enc A) = .ok (enc N, d) ∧ IsInverse A N d) ∨
    (inverse nd (enc A) = .ok (enc (0 : Matrix (Fin n) (Fin n) Int), 0) ∧ A.det = 0) := by
  rw [inverse, Res.assertIn_bind nd (decide_eq_true (show (enc A).rows = (enc A).cols from rfl))]
  simp only [show (enc A).rows = n from rfl]
  by_cases h0 : n = 0
  · left
    subst h0
    refine ⟨0, 1, ?_, by simp, ?_, ?_, fun _ _ _ => ⟨_, (one_mul _).symm⟩⟩
    · rw [if_pos rfl, C45_zero]; rfl
    · ext i; exact i.elim0
    · ext i; exact i.elim0
  rw [if_neg h0]
  obtain ⟨k, piv, E, C, flip, h1, hE, hdet, hk, hAC⟩ := columnEchelon_spec nd hn A
  rw [h1, Res.ok_bind]
  have hCu : IsUnit C.det := by rw [hdet]; exact sgn_unit _
  by_cases hs : Function.Surjective piv
  · left
    rw [if_neg (by rw [all_bits.2 hs]; simp)]
    obtain rfl : k = n := by
      have h2 := Fintype.card_le_of_surjective piv hs
      rw [Fintype.card_fin, Fintype.card_fin] at h2
      omega
    have hAE : A * C = E := by
      ext i j; rw [hAC, dif_pos j.2]
    have hsol : ∀ j : Fin k, ∃ x f, echelonSolve nd (enc E) (List.ofFn fun i => decide (i ∈ Set.range piv))
        (List.ofFn (Pi.single j 1)) = .ok (List.ofFn x, f) ∧
        0 < f ∧ E *ᵥ x = f • (Pi.single j 1 : Fin k → Int) ∧ ∀ (g : Int) y, E *ᵥ y = g • (Pi.single j 1 : Fin k → Int) → f ∣ g := by
      intro j
      rcases echelonSolve_spec nd hE (Pi.single j 1) with h | ⟨_, h⟩
      · exact h
      · exfalso
        refine hE.det_ne (h E.det (E.adjugate *ᵥ Pi.single j 1) ?_)
        rw [Matrix.mulVec_mulVec, Matrix.mul_adjugate, Matrix.smul_mulVec, Matrix.one_mulVec]
    choose x f hx hf hxe hmin using hsol
    have hbasis : ∀ j : Fin k, (vk k fun t => if t = j.val then (1 : Int) else 0) = List.ofFn (Pi.single j 1 : Fin k → Int) := by
      intro j
      rw [vk_ofFn]; congr 1; funext t
      simp [Pi.single_apply, Fin.ext_iff]
    have htab : tab k (fun j => do
        let v ← Vec.get (vk k fun i => vk k fun j => if j = i then (1 : Int) else 0) j
        echelonSolve nd (enc E) (List.ofFn fun i => decide (i ∈ Set.range piv)) v) =
        .ok (List.ofFn fun j => (List.ofFn (x j), f j)) := by
      refine tab_eq (by simp) ?_
      intro j hj
      rw [List.length_ofFn] at hj
      rw [get_vk _ hj, Res.ok_bind, hbasis ⟨j, hj⟩, hx ⟨j, hj⟩, List.getElem_ofFn]
    simp only
    rw [standardBasis_vk, Res.ok_bind, htab, Res.ok_bind]
    have hg : ∀ j (hj : j < k), Vec.get (List.ofFn fun j => (List.ofFn (x j), f j)) j = .ok (List.ofFn (x ⟨j, hj⟩), f ⟨j, hj⟩) :=
      fun j hj => get_ofFn (fun j => (List.ofFn (x j), f j)) ⟨j, hj⟩
    rw [hg 0 (by omega), Res.ok_bind]
    obtain ⟨d, hd1, hd2, hd3, hd4⟩ := forUp_inv (body := fun j (d : Int) => do
        let s ← Vec.get (List.ofFn fun j => (List.ofFn (x j), f j)) j
        pure (Int.lcm d s.2 : Int))
      (fun i d => 0 < d ∧ (∀ j : Fin k, j.val < i → f j ∣ d) ∧ ∀ g, (∀ j, f j ∣ g) → d ∣ g) (k - 1) 1 (f ⟨0, by omega⟩)
      ⟨hf _, fun j hj => by rw [show j = ⟨0, by omega⟩ from Fin.ext (by simp only; omega)], fun g hg => hg _⟩
      (by
        rintro i d hi1 hi2 ⟨e1, e2, e3⟩
        refine ⟨(Int.lcm d (f ⟨i, by omega⟩) : Int), ?_, ?_, ?_, ?_⟩
        · rw [hg i (by omega), Res.ok_bind, Res.pure_eq]
        · have := Int.lcm_pos e1.ne' (hf ⟨i, by omega⟩).ne'
          omega
        · intro j hj
          by_cases c : j.val = i
          · have e : j = ⟨i, by omega⟩ := Fin.ext c
            rw [e]
            exact Int.dvd_lcm_right ..
          · exact (e2 j (by omega)).trans (Int.dvd_lcm_left ..)
        · intro g hg
          exact Int.coe_lcm_dvd (e3 g hg) (hg _))
    rw [show 1 + (k - 1) = k by omega] at hd3
    rw [hd1, Res.ok_bind]
    let N : Matrix (Fin k) (Fin k) Int := Matrix.of fun i j => (C *ᵥ x j) i * (d / f j)
    have hright : A * N = d • 1 := by
      ext i j
      have e1 : (A * N) i j = (A *ᵥ (C *ᵥ x j)) i * (d / f j) := by
        simp only [Matrix.mul_apply, Matrix.mulVec, dotProduct, N, Matrix.of_apply, Finset.sum_mul, mul_assoc]
      rw [e1, Matrix.mulVec_mulVec, hAE, hxe, Pi.smul_apply, smul_eq_mul, Matrix.smul_apply, smul_eq_mul, Matrix.one_apply,
        Pi.single_apply, mul_right_comm, Int.mul_ediv_cancel' (hd3 j j.2)]
    have hAdet := det_ne_of_right hd2 hright
    refine ⟨N, d, ?_, hd2, hright, left_of_right hAdet hright, ?_⟩
    · rw [C45_zero, forUp_ok (t := enc N) (fun s => tb k k fun i j => if j < s then ex N i j else 0), Res.ok_bind, Res.pure_eq]
      · rw [← C45_zero, blank_tb]; rfl
      · rw [enc_tb]
        exact tb_congr fun i j _ hj => by rw [if_pos (by omega)]
      · intro j _ hj
        rw [Nat.zero_add] at hj
        rw [hg j hj, Res.ok_bind, C45_apply, Res.ok_bind, if_neg (hf _).ne', ofFn_vk, vecScale_vk, Res.ok_bind, setColumn_tb nd _ hj]
        refine congrArg Res.ok (tb_congr fun r c hr hc => ?_)
        by_cases e : c = j
        · subst e
          rw [if_pos rfl, if_pos (by omega), ex_lt N hr hc, exv_lt _ hr, Int.tdiv_eq_ediv_of_dvd (hd3 _ hj)]
          rfl
        · rw [if_neg e]
          by_cases e' : c < j
          · rw [if_pos e', if_pos (by omega)]
          · rw [if_neg e', if_neg (by omega)]
    · intro g B hB
      refine hd4 g fun j => hmin j g (C⁻¹ *ᵥ (B *ᵥ Pi.single j 1)) ?_
      rw [← hAE, Matrix.mulVec_mulVec, Matrix.mul_assoc, Matrix.mul_nonsing_inv C hCu, Matrix.mul_one, Matrix.mulVec_mulVec, hB,
        Matrix.smul_mulVec, Matrix.one_mulVec]
  · right
    rw [if_pos (by rw [← all_bits (piv := piv)] at hs; simpa using hs)]
    refine ⟨by rw [C45_zero]; rfl, ?_⟩
    have hkn : k < n := by
      refine lt_of_le_of_ne hk ?_
      rintro rfl
      exact hs fun i => ⟨i, piv_id hE.mono i⟩
    have hz : (A * C).det = 0 := by
      refine Matrix.det_eq_zero_of_column_eq_zero ⟨k, hkn⟩ fun i => ?_
      rw [hAC, dif_neg (by simp)]
    rw [Matrix.det_mul] at hz
    rcases mul_eq_zero.1 hz with h | h
    · exact h
    · exact absurd h hCu.ne_zero

end Verif.Mat
