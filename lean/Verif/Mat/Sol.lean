import Verif.Mat.Diag2

/-!
`has_solution` and `find_solution`.
-/

open Finset
open scoped Matrix

namespace Verif.Mat

variable {m n : Nat}

theorem diagMat_mulVec {D : List Int} (hn : D.length ≤ n) (y : Fin n → Int) (i : Fin m) :
    (diagMat m n D *ᵥ y) i = if h : i.val < D.length then D[i.val] * y ⟨i.val, by omega⟩ else 0 := by
  rw [Matrix.mulVec, dotProduct]
  by_cases h : i.val < D.length
  · rw [dif_pos h, Finset.sum_eq_single ⟨i.val, by omega⟩]
    · simp [diagMat, h]
    · intro b _ hb
      rw [diagMat, Matrix.of_apply, if_neg (fun e => hb (Fin.ext e.symm)), zero_mul]
    · intro h; exact absurd (Finset.mem_univ _) h
  · rw [dif_neg h]
    refine Finset.sum_eq_zero fun j _ => ?_
    rw [diagMat, Matrix.of_apply, List.getElem?_eq_none (by omega)]
    simp

/-- divisibility of the transformed right hand side -/
def Solv (D : List Int) (b : Fin m → Int) : Prop := ∀ i : Fin m, if h : i.val < D.length then D[i.val] ∣ b i else b i = 0

theorem solv_iff {D : List Int} (hn : D.length ≤ n) {A : Matrix (Fin m) (Fin n) Int} {R : Matrix (Fin m) (Fin m) Int}
    {C : Matrix (Fin n) (Fin n) Int} (h : R * A * C = diagMat m n D) (hR : IsUnit R.det) (hC : IsUnit C.det) (b : Fin m → Int) :
    (∃ x, A *ᵥ x = b) ↔ Solv D (R *ᵥ b) := by
  constructor
  · rintro ⟨x, rfl⟩ i
    have e : R *ᵥ (A *ᵥ x) = diagMat m n D *ᵥ (C⁻¹ *ᵥ x) := by
      rw [← h, Matrix.mulVec_mulVec, Matrix.mulVec_mulVec, Matrix.mul_assoc, Matrix.mul_nonsing_inv _ hC, Matrix.mul_one]
    rw [e, diagMat_mulVec hn]
    by_cases c : i.val < D.length
    · rw [dif_pos c, dif_pos c]; exact Dvd.intro _ rfl
    · rw [dif_neg c, dif_neg c]
  · intro hs
    have : ∃ y : Fin n → Int, ∀ i : Fin n, ∀ (h : i.val < D.length) (h' : i.val < m), (R *ᵥ b) ⟨i.val, h'⟩ = D[i.val] * y i := by
      refine ⟨fun i => if h : i.val < m then (R *ᵥ b) ⟨i.val, h⟩ / (D[i.val]?.getD 0) else 0, ?_⟩
      intro i h h'
      simp only
      rw [dif_pos h', List.getElem?_eq_getElem h, Option.getD_some]
      have := hs ⟨i.val, h'⟩
      rw [dif_pos h] at this
      exact (Int.mul_ediv_cancel' this).symm
    obtain ⟨y, hy⟩ := this
    refine ⟨C *ᵥ y, ?_⟩
    have e : R *ᵥ (A *ᵥ (C *ᵥ y)) = R *ᵥ b := by
      rw [Matrix.mulVec_mulVec, Matrix.mulVec_mulVec, h]
      funext i
      rw [diagMat_mulVec hn]
      have := hs i
      by_cases c : i.val < D.length
      · rw [dif_pos c]; exact (hy ⟨i.val, by omega⟩ c i.2).symm
      · rw [dif_neg c] at this ⊢; exact this.symm
    exact Matrix.mulVec_injective_of_isUnit ((Matrix.isUnit_iff_isUnit_det R).2 hR) e

theorem hasSolution_spec (nd fix : Bool) (A : Matrix (Fin m) (Fin n) Int) (b : Fin m → Int) :
    ∃ r, hasSolution nd fix (enc A) (List.ofFn b) = .ok r ∧ (r = true ↔ ∃ x, A *ᵥ x = b) := by
  obtain ⟨D, R, C, h1, hm, hn, h2, hC, hR, -, hD⟩ := diagonalise_spec nd fix A
  rw [hasSolution, h1, Res.ok_bind]
  simp only
  rw [C45_apply, Res.ok_bind, List.length_ofFn]
  obtain ⟨r, e, hr⟩ := forDown_inv (body := fun i (ok : Bool) => do
    if ok then do
      let x ← Vec.get (List.ofFn (R *ᵥ b)) i
      if i < D.length then do
        let d ← Vec.get D i
        if d = 0 then .undefined else pure (decide (x.tmod d = 0))
      else pure (decide (x = 0))
    else pure false) (fun k r => r = true ↔ ∀ i : Fin m, k ≤ i.val → if h : i.val < D.length then D[i.val] ∣ (R *ᵥ b) i else (R *ᵥ b) i = 0) m true
    (by simp only [true_iff]; intro i hi; omega) (by
      intro k r hk ih
      cases r with
      | false =>
        refine ⟨false, rfl, ?_⟩
        simp only [Bool.false_eq_true, false_iff] at ih ⊢
        exact fun h => ih fun i hi => h i (by omega)
      | true =>
        simp only [true_iff] at ih
        rw [if_pos rfl, Vec.get_ok (by rw [List.length_ofFn]; exact hk), Res.ok_bind, List.getElem_ofFn]
        by_cases c : k < D.length
        · rw [if_pos c, Vec.get_ok c, Res.ok_bind, if_neg (hD k c).1, Res.pure_eq]
          refine ⟨_, rfl, ?_⟩
          rw [decide_eq_true_eq, ← Int.dvd_iff_tmod_eq_zero]
          constructor
          · intro h i hi
            by_cases e : k = i.val
            · subst e; rw [dif_pos c]; exact h
            · exact ih i (by omega)
          · intro h
            have := h ⟨k, hk⟩ le_rfl
            rw [dif_pos c] at this; exact this
        · rw [if_neg c, Res.pure_eq]
          refine ⟨_, rfl, ?_⟩
          rw [decide_eq_true_eq]
          constructor
          · intro h i hi
            by_cases e : k = i.val
            · subst e; rw [dif_neg c]; exact h
            · exact ih i (by omega)
          · intro h
            have := h ⟨k, hk⟩ le_rfl
            rw [dif_neg c] at this; exact this)
  refine ⟨r, e, ?_⟩
  rw [hr, solv_iff hn h2 hR (by rw [hC]; exact isUnit_one)]
  exact ⟨fun h i => h i (Nat.zero_le _), fun h i _ => h i⟩

theorem resize_vk' {R : Type} {n : Nat} (h : Nat → R) (N : Nat) (c : R) :
    resize (vk n h) N c = vk N fun p => if p < n then h p else c := by
  have hl : (resize (vk n h) N c).length = N := by simp [resize]; omega
  apply eq_vk hl
  intro p hp
  rw [hl] at hp
  simp only [resize, length_vk]
  by_cases q : p < n
  · rw [List.getElem_append_left (by simp; omega), List.getElem_take, getElem_vk, if_pos q]
  · rw [List.getElem_append_right (by simp; omega), List.getElem_replicate, if_neg q]

/-- the first loop of `find_solution`: it stops at the first failure of divisibility -/
theorem findLoop1 (D : List Int) (hD : ∀ i (h : i < D.length), D[i] ≠ 0) (f : Nat → Int) (hm : D.length ≤ m) (k a : Nat) (hk : a + k = D.length) :
    forUp (fun i (b : List Int) => do
      let d ← Vec.get D i
      let x ← Vec.get b i
      if d = 0 then .undefined
      else if x.tmod d ≠ 0 then .throw
      else Vec.put b i (x.tdiv d)) k a (vk m fun i => if i < a then f i / D[i]?.getD 0 else f i) =
    if ∀ i (h : i < D.length), a ≤ i → D[i] ∣ f i then .ok (vk m fun i => if i < D.length then f i / D[i]?.getD 0 else f i) else .throw := by
  induction k generalizing a with
  | zero =>
    rw [if_pos (fun i h h' => by omega), show D.length = a by omega]; rfl
  | succ k ih =>
    rw [forUp]
    have ha : a < D.length := by omega
    rw [Vec.get_ok ha, Res.ok_bind, Vec.get_ok (by rw [length_vk]; omega), Res.ok_bind, if_neg (hD a ha), getElem_vk]
    simp only [lt_irrefl, if_false]
    by_cases c : D[a] ∣ f a
    · rw [if_neg (fun h => h (Int.dvd_iff_tmod_eq_zero.1 c)), put_vk _ (by omega), Res.ok_bind]
      have := ih (a + 1) (by omega)
      rw [show (vk m fun j => if j = a then (f a).tdiv D[a] else if j < a then f j / D[j]?.getD 0 else f j) =
        vk m fun i => if i < a + 1 then f i / D[i]?.getD 0 else f i from vk_congr fun i _ => by
          by_cases e : i = a
          · subst e
            rw [if_pos rfl, if_pos (by omega), List.getElem?_eq_getElem ha, Option.getD_some, Int.tdiv_eq_ediv_of_dvd c]
          · rw [if_neg e]
            by_cases e' : i < a
            · rw [if_pos e', if_pos (by omega)]
            · rw [if_neg e', if_neg (by omega)], this]
      by_cases c2 : ∀ i (h : i < D.length), a + 1 ≤ i → D[i] ∣ f i
      · rw [if_pos c2, if_pos]
        intro i h h'
        by_cases e : i = a
        · subst e; exact c
        · exact c2 i h (by omega)
      · rw [if_neg c2, if_neg (fun h => c2 fun i h1 h2 => h i h1 (by omega))]
    · rw [if_pos (fun h => c (Int.dvd_iff_tmod_eq_zero.2 h)), if_neg (fun h => c (h a ha le_rfl))]; rfl

theorem findLoop2 (f : Nat → Int) (k a : Nat) (hk : a + k ≤ m) :
    forUp (fun i (_ : Unit) => do
      let x ← Vec.get (vk m f) i
      if x ≠ 0 then .throw else pure ()) k a () = if ∀ i, a ≤ i → i < a + k → f i = 0 then .ok () else .throw := by
  induction k generalizing a with
  | zero => rw [if_pos (fun i _ _ => by omega)]; rfl
  | succ k ih =>
    rw [forUp]
    rw [Vec.get_ok (by rw [length_vk]; omega), Res.ok_bind, getElem_vk]
    by_cases c : f a = 0
    · rw [if_neg (fun h => h c), show ((pure () : Res Unit) >>= fun s => forUp _ k (a + 1) s) = _ from ih (a + 1) (by omega)]
      by_cases c2 : ∀ i, a + 1 ≤ i → i < a + 1 + k → f i = 0
      · rw [if_pos c2, if_pos]
        intro i h h'
        by_cases e : i = a
        · subst e; exact c
        · exact c2 i (by omega) (by omega)
      · rw [if_neg c2, if_neg (fun h => c2 fun i h1 h2 => h i (by omega) (by omega))]
    · rw [if_pos c, if_neg (fun h => c (h a le_rfl (by omega)))]; rfl

theorem findSolution_spec (nd fix : Bool) (A : Matrix (Fin m) (Fin n) Int) (b : Fin m → Int) :
    (∃ x, findSolution nd fix (enc A) (List.ofFn b) = .ok (List.ofFn x) ∧ A *ᵥ x = b) ∨
      (findSolution nd fix (enc A) (List.ofFn b) = .throw ∧ ¬ ∃ x, A *ᵥ x = b) := by
  obtain ⟨D, R, C, h1, hm, hn, h2, hC, hR, -, hD⟩ := diagonalise_spec nd fix A
  have hCu : IsUnit C.det := by rw [hC]; exact isUnit_one
  have hiff := solv_iff hn h2 hR hCu b
  rw [findSolution, h1, Res.ok_bind]
  simp only
  rw [C45_apply, Res.ok_bind]
  obtain ⟨f, hf⟩ : ∃ f : Nat → Int, ∀ i : Fin m, f i.val = (R *ᵥ b) i :=
    ⟨fun i => if h : i < m then (R *ᵥ b) ⟨i, h⟩ else 0, fun i => by simp⟩
  have hv : List.ofFn (R *ᵥ b) = vk m f := by
    rw [vk_ofFn]; congr 1; funext i; exact (hf i).symm
  have hl1 := findLoop1 (m := m) D (fun i h => (hD i h).1) f hm D.length 0 (by omega)
  simp only [Nat.not_lt_zero, if_false] at hl1
  rw [hv, hl1]
  by_cases c : ∀ i (h : i < D.length), 0 ≤ i → D[i] ∣ f i
  · rw [if_pos c, Res.ok_bind, length_vk, findLoop2 _ _ _ (by omega)]
    by_cases c2 : ∀ i, D.length ≤ i → i < D.length + (m - D.length) → (if i < D.length then f i / D[i]?.getD 0 else f i) = 0
    · rw [if_pos c2, Res.ok_bind, show (enc C).rows = n from rfl, resize_vk', vk_ofFn, C45_apply]
      refine .inl ⟨_, rfl, ?_⟩
      have e : R *ᵥ (A *ᵥ (C *ᵥ fun i : Fin n => if i.val < m then if i.val < D.length then f i.val / D[i.val]?.getD 0 else f i.val else 0)) = R *ᵥ b := by
        rw [Matrix.mulVec_mulVec, Matrix.mulVec_mulVec, h2]
        funext i
        rw [diagMat_mulVec hn]
        by_cases d : i.val < D.length
        · rw [dif_pos d]
          simp only
          rw [if_pos i.2, if_pos d, List.getElem?_eq_getElem d, Option.getD_some, Int.mul_ediv_cancel' (c _ d (Nat.zero_le _)), hf]
        · rw [dif_neg d]
          have := c2 i.val (by omega) (by omega)
          rw [if_neg d, hf] at this; exact this.symm
      exact Matrix.mulVec_injective_of_isUnit ((Matrix.isUnit_iff_isUnit_det R).2 hR) e
    · rw [if_neg c2, Res.throw_bind]
      refine .inr ⟨rfl, fun hx => c2 fun i h1 h2 => ?_⟩
      have := (hiff.1 hx) ⟨i, by omega⟩
      rw [dif_neg (by simp only; omega)] at this
      rw [if_neg (by omega)]
      exact (hf ⟨i, by omega⟩).trans this
  · rw [if_neg c, Res.throw_bind]
    refine .inr ⟨rfl, fun hx => c fun i h1 _ => ?_⟩
    have := (hiff.1 hx) ⟨i, by omega⟩
    rw [dif_pos h1] at this
    rw [show f i = _ from hf ⟨i, by omega⟩]
    exact this

end Verif.Mat
