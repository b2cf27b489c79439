import Verif.Poly.Model
import Verif.Poly.Spec
import Mathlib.Data.List.GetD
import Mathlib.Tactic.Ring
import Mathlib.Tactic.SplitIfs
import Mathlib.Tactic.Linarith
/-
Coefficients of the polynomial of a list, canonical lists, and the loops of the model.
-/
namespace Verif.Poly

open Verif _root_.Polynomial

section Semi
variable {S : Type} [CommSemiring S]

theorem coeff_val (l : List S) (n : Nat) : (val l).coeff n = l.getD n 0 := by
  unfold val
  simp only [Polynomial.finsetSum_coeff, Polynomial.coeff_C_mul, Polynomial.coeff_X_pow]
  by_cases h : n < l.length
  · rw [Finset.sum_eq_single n]
    · simp
    · intro b _ hb; simp [Ne.symm hb]
    · intro h'; exact absurd (Finset.mem_range.2 h) h'
  · rw [List.getD_eq_default _ _ (by omega)]
    refine Finset.sum_eq_zero fun i hi => ?_
    have := Finset.mem_range.1 hi
    simp only [mul_ite, mul_one, mul_zero, ite_eq_right_iff]; omega

theorem val_ext {l : List S} {P : _root_.Polynomial S} (h : ∀ n, l.getD n 0 = P.coeff n) : val l = P := by
  ext n; rw [coeff_val, h]

@[simp] theorem val_nil : val ([] : List S) = 0 := val_ext fun n => by simp

end Semi

section Zero
variable {S : Type} [Zero S]

theorem getD_set (l : List S) (i j : Nat) (x : S) (h : i < l.length) :
    (l.set i x).getD j 0 = if j = i then x else l.getD j 0 := by
  simp only [List.getD_eq_getElem?_getD, List.getElem?_set]
  by_cases hij : i = j
  · subst hij; simp [h]
  · simp [hij, Ne.symm hij]

theorem getD_extend (l : List S) (n j : Nat) : (extend l n).getD j 0 = l.getD j 0 := by
  unfold extend
  by_cases h : j < l.length
  · rw [List.getD_append _ _ _ _ h]
  · rw [List.getD_append_right _ _ _ _ (by omega), List.getD_eq_default l _ (by omega)]
    by_cases h2 : j - l.length < n - l.length
    · simp [List.getD_eq_getElem?_getD, h2]
    · rw [List.getD_eq_default]; simpa using h2

theorem length_extend {l : List S} {n : Nat} (h : l.length ≤ n) : (extend l n).length = n := by
  simp [extend]; omega

theorem get_getD {l : List S} {i : Nat} (h : i < l.length) : Vec.get l i = .ok (l.getD i 0) := by
  rw [Vec.get_ok h, List.getD_eq_getElem _ _ h]

theorem ext_getD {l m : List S} (hl : l.length = m.length) (h : ∀ i, l.getD i 0 = m.getD i 0) : l = m := by
  refine List.ext_getElem hl fun i h1 h2 => ?_
  have := h i
  rwa [List.getD_eq_getElem _ _ h1, List.getD_eq_getElem _ _ h2] at this

theorem canon_iff (l : List S) : Canon l ↔ (l.length ≠ 0 → l.getD (l.length - 1) 0 ≠ 0) := by
  unfold Canon
  constructor
  · intro h hl
    have hne : l ≠ [] := by rintro rfl; exact hl rfl
    rw [List.getD_eq_getElem _ _ (by omega), ← List.getLast_eq_getElem hne]
    exact h hne
  · intro h hne
    have hl : l.length ≠ 0 := by simpa using hne
    rw [List.getLast_eq_getElem hne, ← List.getD_eq_getElem l 0 (by omega)]
    exact h hl

variable [DecidableEq S]

theorem dropZeros_spec (l : List S) :
    ∃ z, l = z ++ dropZeros l ∧ (∀ x ∈ z, x = 0) ∧ ∀ a t, dropZeros l = a :: t → a ≠ 0 := by
  induction l with
  | nil => exact ⟨[], rfl, by simp, by simp [dropZeros]⟩
  | cons a l ih =>
    by_cases h : a = 0
    · obtain ⟨z, h1, h2, h3⟩ := ih
      refine ⟨a :: z, ?_, ?_, ?_⟩
      · rw [dropZeros, if_pos h, List.cons_append, ← h1]
      · intro x hx
        rcases List.mem_cons.1 hx with rfl | hx
        · exact h
        · exact h2 x hx
      · rw [dropZeros, if_pos h]; exact h3
    · refine ⟨[], ?_, by simp, ?_⟩
      · rw [dropZeros, if_neg h]; rfl
      · intro b t e; rw [dropZeros, if_neg h] at e; cases e; exact h

theorem adjustSize_canon (l : List S) : Canon (adjustSize l) := by
  obtain ⟨z, h1, h2, h3⟩ := dropZeros_spec l.reverse
  unfold adjustSize
  revert h3
  generalize dropZeros l.reverse = d
  intro h3 h
  cases d with
  | nil => exact absurd rfl h
  | cons a t => simpa using h3 a t rfl

theorem adjustSize_split (l : List S) : ∃ n, l = adjustSize l ++ List.replicate n 0 := by
  obtain ⟨z, h1, h2, h3⟩ := dropZeros_spec l.reverse
  refine ⟨z.length, ?_⟩
  have hz : z = List.replicate z.length 0 := List.eq_replicate_iff.2 ⟨rfl, h2⟩
  have := congrArg List.reverse h1
  rw [List.reverse_reverse, List.reverse_append] at this
  rw [adjustSize]
  conv_lhs => rw [this]
  congr 1
  conv_lhs => rw [hz]
  rw [List.reverse_replicate]

omit [DecidableEq S] in
theorem getD_append_zeros (l : List S) (n i : Nat) : (l ++ List.replicate n 0).getD i 0 = l.getD i 0 := by
  by_cases h : i < l.length
  · rw [List.getD_append _ _ _ _ h]
  · rw [List.getD_append_right _ _ _ _ (by omega), List.getD_eq_default l _ (by omega)]
    by_cases h2 : i - l.length < n
    · simp [List.getD_eq_getElem?_getD, h2]
    · rw [List.getD_eq_default]; simpa using h2

theorem getD_adjustSize (l : List S) (i : Nat) : (adjustSize l).getD i 0 = l.getD i 0 := by
  obtain ⟨n, h⟩ := adjustSize_split l
  conv_rhs => rw [h]
  rw [getD_append_zeros]

theorem length_adjustSize_le (l : List S) : (adjustSize l).length ≤ l.length := by
  obtain ⟨n, h⟩ := adjustSize_split l
  have := congrArg List.length h
  simp at this; omega

theorem mem_adjustSize {l : List S} {x : S} (h : x ∈ adjustSize l) : x ∈ l := by
  obtain ⟨n, e⟩ := adjustSize_split l
  rw [e]; exact List.mem_append_left _ h

omit [DecidableEq S] in
theorem canon_ext {l m : List S} (hl : Canon l) (hm : Canon m) (h : ∀ i, l.getD i 0 = m.getD i 0) : l = m := by
  refine ext_getD ?_ h
  rw [canon_iff] at hl hm
  by_contra hne
  rcases Nat.lt_or_gt_of_ne hne with hlt | hlt
  · apply hm (by omega)
    rw [← h, List.getD_eq_default _ _ (by omega)]
  · apply hl (by omega)
    rw [h, List.getD_eq_default _ _ (by omega)]

omit [DecidableEq S] in
/-- a downward loop whose pass `j` changes only element `o+j`, to a value depending on what the
elements up to there were initially -/
theorem downLoop_pointwise {N o : Nat} {l0 : List S} {f : Nat → List S → Res (List S)} {g : Nat → S}
    {n : Nat} (hn : o + n ≤ N) (h0 : l0.length = N)
    (hf : ∀ j l, j < n → l.length = N → (∀ i, i ≤ o + j → l.getD i 0 = l0.getD i 0) →
      f j l = .ok (l.set (o + j) (g j))) :
    ∃ r, downLoop f n l0 = .ok r ∧ r.length = N ∧
      ∀ i, r.getD i 0 = if o ≤ i ∧ i < o + n then g (i - o) else l0.getD i 0 := by
  suffices H : ∀ m l, m ≤ n → l.length = N → (∀ i, i < o + m → l.getD i 0 = l0.getD i 0) →
      ∃ r, downLoop f m l = .ok r ∧ r.length = N ∧
        ∀ i, r.getD i 0 = if o ≤ i ∧ i < o + m then g (i - o) else l.getD i 0 from
    H n l0 (Nat.le_refl _) h0 fun _ _ => rfl
  intro m
  induction m with
  | zero =>
    intro l _ hl _
    refine ⟨l, rfl, hl, fun i => ?_⟩
    rw [if_neg (by omega)]
  | succ m ih =>
    intro l hm hl hagree
    have e := hf m l (by omega) hl fun i hi => hagree i (by omega)
    obtain ⟨r, h1, h2, h3⟩ := ih (l.set (o + m) (g m)) (by omega) (by simpa using hl) (by
      intro i hi
      rw [getD_set _ _ _ _ (by omega), if_neg (by omega)]
      exact hagree i (by omega))
    refine ⟨r, ?_, h2, ?_⟩
    · rw [downLoop, e, Res.ok_bind, h1]
    · intro i
      rw [h3, getD_set _ _ _ _ (by omega)]
      by_cases hi : i = o + m
      · subst hi
        rw [if_neg (by omega), if_pos rfl, if_pos (by omega)]
        congr 1; omega
      · rw [if_neg hi]
        by_cases h4 : o ≤ i ∧ i < o + m
        · rw [if_pos h4, if_pos (by omega)]
        · rw [if_neg h4, if_neg (by omega)]

end Zero
end Verif.Poly
