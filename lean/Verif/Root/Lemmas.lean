import Verif.Root.Model
import Verif.Coxeter.Roots
import Mathlib.Algebra.BigOperators.Fin
/-
Lemmas on the auxiliary functions of the model of root systems.
-/
namespace Verif.Root
open Verif.Coxeter

/-! ### the order on vectors -/

theorem lessLoop_irrefl : ∀ v : BV, lessLoop v v = false
  | [] => rfl
  | a :: v => by
    rw [lessLoop, if_neg (by omega)]
    exact lessLoop_irrefl v

theorem lessLoop_total : ∀ {v w : BV}, v.length = w.length → v ≠ w → lessLoop v w = true ∨ lessLoop w v = true
  | [], [], _, h => absurd rfl h
  | a :: v, b :: w, hl, h => by
    rw [lessLoop, lessLoop]
    by_cases hab : a = b
    · subst hab
      rw [if_neg (by omega), if_neg (by omega)]
      exact lessLoop_total (by simpa using hl) (fun e => h (by rw [e]))
    · rw [if_pos (by omega), if_pos (by omega), decide_eq_true_iff, decide_eq_true_iff]
      omega

theorem lessLoop_trans : ∀ {u v w : BV}, lessLoop u v = true → lessLoop v w = true → lessLoop u w = true
  | a :: u, b :: v, c :: w, h1, h2 => by
    rw [lessLoop] at h1 h2 ⊢
    by_cases hab : a = b
    · subst hab
      rw [if_neg (by omega)] at h1
      by_cases hbc : a = c
      · subst hbc
        rw [if_neg (by omega)] at h2 ⊢
        exact lessLoop_trans h1 h2
      · rw [if_pos (by omega)] at h2 ⊢
        exact h2
    · rw [if_pos (by omega), decide_eq_true_iff] at h1
      by_cases hbc : b = c
      · subst hbc
        rw [if_pos (by omega), decide_eq_true_iff]
        exact h1
      · rw [if_pos (by omega), decide_eq_true_iff] at h2
        rw [if_pos (by omega), decide_eq_true_iff]
        omega
  | [], [], _, h1, _ => by simp [lessLoop] at h1
  | [], _ :: _, _, h1, _ => by simp [lessLoop] at h1
  | _ :: _, [], _, h1, _ => by simp [lessLoop] at h1
  | _ :: _, _ :: _, [], _, h2 => by simp [lessLoop] at h2

theorem less_irrefl (v : BV) : less v v = false := lessLoop_irrefl _

theorem less_total {v w : BV} (hl : v.length = w.length) (h : v ≠ w) : less v w = true ∨ less w v = true :=
  lessLoop_total (by simpa using hl) (fun e => h (List.reverse_injective e))

theorem less_trans {u v w : BV} (h1 : less u v = true) (h2 : less v w = true) : less u w = true := lessLoop_trans h1 h2

/-- sets of vectors of the same size -/
structure IsSet (rk : Nat) (l : List BV) : Prop where
  len : ∀ v ∈ l, v.length = rk
  sorted : l.Pairwise (fun v w => less v w = true)

theorem mem_insert {rk : Nat} {v : BV} (hv : v.length = rk) : ∀ {l : List BV}, IsSet rk l → ∀ x, x ∈ insert v l ↔ x = v ∨ x ∈ l
  | [], _, x => by simp [insert]
  | w :: l, hl, x => by
    have hw := hl.len w (by simp)
    have ht : IsSet rk l := ⟨fun y hy => hl.len y (by simp [hy]), (List.pairwise_cons.mp hl.sorted).2⟩
    rw [insert]
    by_cases h1 : less v w = true
    · rw [if_pos h1, List.mem_cons]
    · rw [if_neg h1]
      by_cases h2 : less w v = true
      · rw [if_pos h2, List.mem_cons, mem_insert hv ht, List.mem_cons]
        tauto
      · rw [if_neg h2]
        have : v = w := by
          by_contra hne
          rcases less_total (hv.trans hw.symm) hne with h | h
          · exact h1 h
          · exact h2 h
        subst this
        simp

theorem insert_set {rk : Nat} {v : BV} (hv : v.length = rk) : ∀ {l : List BV}, IsSet rk l → IsSet rk (insert v l)
  | [], _ => ⟨by simp [insert, hv], by simp [insert]⟩
  | w :: l, hl => by
    have ht : IsSet rk l := ⟨fun y hy => hl.len y (by simp [hy]), (List.pairwise_cons.mp hl.sorted).2⟩
    have hw := (List.pairwise_cons.mp hl.sorted).1
    refine ⟨fun x hx => ?_, ?_⟩
    · rcases (mem_insert hv hl x).mp hx with rfl | hx
      · exact hv
      · exact hl.len x hx
    · rw [insert]
      by_cases h1 : less v w = true
      · rw [if_pos h1, List.pairwise_cons]
        refine ⟨fun y hy => ?_, hl.sorted⟩
        rcases List.mem_cons.mp hy with rfl | hy
        · exact h1
        · exact less_trans h1 (hw y hy)
      · rw [if_neg h1]
        by_cases h2 : less w v = true
        · rw [if_pos h2, List.pairwise_cons]
          refine ⟨fun y hy => ?_, (insert_set hv ht).sorted⟩
          rcases (mem_insert hv ht y).mp hy with rfl | hy
          · exact h2
          · exact hw y hy
        · rw [if_neg h2]
          exact hl.sorted

theorem isSet_nil (rk : Nat) : IsSet rk [] := ⟨by simp, by simp⟩

/-! ### vectors -/

section enc
variable {rk : Nat}

/-- the list of the entries of a vector -/
abbrev enc (v : Fin rk → ℤ) : BV := List.ofFn v

theorem enc_inj {v w : Fin rk → ℤ} : enc v = enc w ↔ v = w := List.ofFn_injective.eq_iff

theorem enc_length (v : Fin rk → ℤ) : (enc v).length = rk := List.length_ofFn

theorem enc_get (v : Fin rk → ℤ) (i : Fin rk) : Vec.get (enc v) i = .ok (v i) := by
  rw [Vec.get_ok (by rw [enc_length]; exact i.2)]
  simp

theorem enc_put (v : Fin rk → ℤ) (i : Fin rk) (x : ℤ) : Vec.put (enc v) i x = .ok (enc (Function.update v i x)) := by
  rw [Vec.put_ok (by rw [enc_length]; exact i.2)]
  congr 1
  apply List.ext_getElem
  · simp
  · intro k h1 h2
    rw [List.getElem_set]
    simp only [List.getElem_ofFn, Function.update_apply]
    by_cases hk : i.1 = k
    · rw [if_pos hk, if_pos (by ext; exact hk.symm)]
    · rw [if_neg hk, if_neg (by intro e; exact hk (by rw [← e]))]

theorem dotLoop_eq : ∀ (v w : BV) (r : Int), dotLoop v w r = r + dotLoop v w 0
  | [], w, r => by simp [dotLoop]
  | a :: v, [], r => by simp [dotLoop]
  | a :: v, b :: w, r => by rw [dotLoop, dotLoop, dotLoop_eq v w (r + _), dotLoop_eq v w (0 + _)]; ring

theorem dot_enc : ∀ {rk : Nat} (v w : Fin rk → ℤ), dot (enc v) (enc w) = ∑ i, v i * w i
  | 0, v, w => by simp [dot, dotLoop, enc]
  | rk + 1, v, w => by
    have ih := dot_enc (fun i : Fin rk => v i.succ) (fun i : Fin rk => w i.succ)
    rw [dot, enc, enc] at ih ⊢
    rw [List.ofFn_succ, List.ofFn_succ, dotLoop, dotLoop_eq, ih, Fin.sum_univ_succ]
    ring

theorem unitVec_eq (i : Fin rk) : unitVec rk i = enc (Verif.Coxeter.root i) := by
  apply List.ext_getElem
  · simp [unitVec]
  · intro k h1 h2
    simp only [unitVec, List.getElem_set, List.getElem_replicate, List.getElem_ofFn, root_apply]
    by_cases hk : i.1 = k
    · rw [if_pos hk, if_pos (by ext; exact hk.symm)]
    · rw [if_neg hk, if_neg (by intro e; exact hk (by rw [← e]))]

/-- the list of the rows of a matrix -/
abbrev encM (C : Fin rk → Fin rk → ℤ) : List BV := List.ofFn fun i => enc (C i)

theorem encM_row (C : Fin rk → Fin rk → ℤ) (i : Fin rk) : Vec.get (encM C) i = .ok (enc (C i)) := by
  rw [Vec.get_ok (by simp)]
  simp

theorem entry_enc (C : Fin rk → Fin rk → ℤ) (i j : Fin rk) : entry (encM C) i j = .ok (C i j) := by
  rw [entry, encM_row, Res.ok_bind, enc_get]

theorem encM_length (C : Fin rk → Fin rk → ℤ) : (encM C).length = rk := List.length_ofFn

theorem column_enc (C : Fin rk → Fin rk → ℤ) (j : Fin rk) : ∀ l : List (Fin rk),
    column (encM C) j (l.map Fin.val) = .ok (l.map fun i => C i j)
  | [] => rfl
  | i :: l => by rw [List.map_cons, column, entry_enc, Res.ok_bind, column_enc C j l]; rfl

theorem columns_enc' (C : Fin rk → Fin rk → ℤ) (is : List (Fin rk)) : ∀ l : List (Fin rk),
    columns (encM C) (is.map Fin.val) (l.map Fin.val) = .ok (l.map fun j => is.map fun i => C i j)
  | [] => rfl
  | i :: l => by rw [List.map_cons, columns, column_enc, Res.ok_bind, columns_enc' C is l]; rfl

theorem range_eq_map_val (n : Nat) : List.range n = (List.finRange n).map Fin.val := by
  apply List.ext_getElem <;> simp

theorem columns_enc (C : Fin rk → Fin rk → ℤ) : columns (encM C) (List.range rk) (List.range rk) = .ok (encM fun j i => C i j) := by
  rw [range_eq_map_val, columns_enc']
  congr 1
  apply List.ext_getElem
  · simp
  · intro k h1 h2
    simp only [List.getElem_map, List.getElem_finRange, List.getElem_ofFn]
    apply List.ext_getElem
    · simp
    · intro m h3 h4
      simp

end enc

/-! ### tables -/

/-- a table with `n` rows and `m` columns -/
def tab {α : Type} (n m : Nat) (f : Nat → Nat → α) : List (List α) := (List.range n).map fun j => (List.range m).map (f j)

section tab
variable {α : Type} {n m : Nat}

theorem tab_length (f : Nat → Nat → α) : (tab n m f).length = n := by simp [tab]

theorem tab_congr {f g : Nat → Nat → α} (h : ∀ j < n, ∀ i < m, f j i = g j i) : tab n m f = tab n m g := by
  refine List.map_congr_left fun j hj => List.map_congr_left fun i hi => ?_
  exact h j (List.mem_range.mp hj) i (List.mem_range.mp hi)

theorem tab_get (f : Nat → Nat → α) {j : Nat} (hj : j < n) : Vec.get (tab n m f) j = .ok ((List.range m).map (f j)) := by
  rw [Vec.get_ok (by rw [tab_length]; exact hj)]
  simp [tab]

theorem row_get (f : Nat → α) {i : Nat} (hi : i < m) : Vec.get ((List.range m).map f) i = .ok (f i) := by
  rw [Vec.get_ok (by simpa using hi)]
  simp

theorem row_put (f : Nat → α) {i : Nat} (hi : i < m) (x : α) :
    Vec.put ((List.range m).map f) i x = .ok ((List.range m).map fun k => if k = i then x else f k) := by
  rw [Vec.put_ok (by simpa using hi)]
  congr 1
  apply List.ext_getElem
  · simp
  · intro k h1 h2
    rw [List.getElem_set]
    simp only [List.getElem_map, List.getElem_range]
    by_cases hk : i = k
    · rw [if_pos hk, if_pos hk.symm]
    · rw [if_neg hk, if_neg (Ne.symm hk)]

theorem tab_put (f : Nat → Nat → α) {j : Nat} (hj : j < n) (r : Nat → α) :
    Vec.put (tab n m f) j ((List.range m).map r) = .ok (tab n m fun a b => if a = j then r b else f a b) := by
  rw [tab, row_put _ hj]
  congr 1
  refine List.map_congr_left fun k _ => ?_
  by_cases hk : k = j
  · simp [hk]
  · simp [hk]

/-- writing an entry of a table -/
theorem tab_set (f : Nat → Nat → α) {j i : Nat} (hj : j < n) (hi : i < m) (x : α) :
    (do Vec.put (tab n m f) j (← Vec.put (← Vec.get (tab n m f) j) i x) : Res (List (List α))) =
      .ok (tab n m fun a b => if a = j ∧ b = i then x else f a b) := by
  rw [tab_get f hj, Res.ok_bind, row_put _ hi, Res.ok_bind, tab_put f hj]
  congr 1
  refine tab_congr fun a _ b _ => ?_
  by_cases ha : a = j
  · subst ha; simp
  · simp [ha]

theorem setLink_tab (f : Nat → Nat → Nat) {j i : Nat} (hj : j < n) (hi : i < m) (x : Nat) :
    setLink (tab n m f) j i x = .ok (tab n m fun a b => if a = j ∧ b = i then x else f a b) := tab_set f hj hi x

theorem tab_append (f : Nat → Nat → α) (x : α) :
    tab n m f ++ [List.replicate m x] = tab (n + 1) m fun a b => if a = n then x else f a b := by
  rw [tab, tab, List.range_succ, List.map_append]
  congr 1
  · refine List.map_congr_left fun j hj => List.map_congr_left fun i _ => ?_
    rw [if_neg (by have := List.mem_range.mp hj; omega)]
  · simp

end tab

end Verif.Root
