import Verif.Vec
import Mathlib.Logic.Function.Basic
import Mathlib.Data.List.Basic
/-
Lists as tables of the values of functions.
-/
namespace Verif

/-- the table of the first `k` values of a function -/
def tab {α : Type} (k : Nat) (A : Nat → α) : List α := (List.range k).map A

variable {α : Type} {k : Nat} {A : Nat → α}

@[simp] theorem tab_length : (tab k A).length = k := by simp [tab]

theorem tab_get? (j : Nat) : (tab k A)[j]? = if j < k then some (A j) else none := by
  unfold tab
  by_cases h : j < k <;> simp [h]

theorem tab_get {j : Nat} (h : j < k) : Vec.get (tab k A) j = .ok (A j) := by
  rw [Vec.get, tab_get?, if_pos h]

theorem tab_set {j : Nat} (x : α) : (tab k A).set j x = tab k (Function.update A j x) := by
  apply List.ext_getElem?
  intro i
  by_cases hij : i = j
  · subst hij
    by_cases hi : i < k
    · rw [List.getElem?_set_self (by simpa using hi), tab_get?, if_pos hi, Function.update_self]
    · rw [List.getElem?_eq_none (by simp; omega), List.getElem?_eq_none (by simp; omega)]
  · rw [List.getElem?_set_ne (fun h => hij h.symm), tab_get?, tab_get?, Function.update_of_ne hij]

theorem tab_put {j : Nat} (h : j < k) (x : α) : Vec.put (tab k A) j x = .ok (tab k (Function.update A j x)) := by
  rw [Vec.put_ok (by simpa using h), tab_set]

theorem tab_congr {A' : Nat → α} (h : ∀ j < k, A j = A' j) : tab k A = tab k A' := by
  apply List.map_congr_left
  intro j hj
  exact h j (List.mem_range.1 hj)

theorem tab_push (x : α) : tab k A ++ [x] = tab (k + 1) (Function.update A k x) := by
  unfold tab
  rw [List.range_succ, List.map_append]
  congr 1
  · apply List.map_congr_left
    intro j hj
    have := List.mem_range.1 hj
    rw [Function.update_of_ne (by omega)]
  · simp

theorem tab_take {c : Nat} (h : c ≤ k) : (tab k A).take c = tab c A := by
  unfold tab
  rw [← List.map_take, List.take_range, Nat.min_eq_left h]

theorem mem_drop_tab {c : Nat} {x : α} : x ∈ (tab k A).drop c ↔ ∃ j, c ≤ j ∧ j < k ∧ A j = x := by
  rw [List.mem_iff_getElem?]
  constructor
  · rintro ⟨i, hi⟩
    rw [List.getElem?_drop, tab_get?] at hi
    split at hi
    · rename_i h
      exact ⟨c + i, by omega, h, by simpa using hi⟩
    · cases hi
  · rintro ⟨j, h1, h2, rfl⟩
    exact ⟨j - c, by rw [List.getElem?_drop, tab_get?, Nat.add_sub_cancel' h1, if_pos h2]⟩

theorem eq_tab [Inhabited α] (l : List α) : l = tab l.length (fun j => l.getD j default) := by
  apply List.ext_getElem?
  intro i
  rw [tab_get?]
  by_cases h : i < l.length
  · rw [if_pos h, List.getD_eq_getElem?_getD, List.getElem?_eq_getElem h]; rfl
  · rw [if_neg h, List.getElem?_eq_none (by omega)]

end Verif
