import Verif.SL.Spec
/-
States in which the properties of the lists are illustrated.
-/
namespace Verif.SL

theorem one (k : Nat) : ∀ j, Root.obj j ∈ [Root.obj k] → j = k := by
  intro j hj; simpa using hj
theorem both (k l : Nat) : ∀ j, Root.obj j ∈ [Root.obj k, Root.obj l] → j = k ∨ j = l := by
  intro j hj; simpa using hj

/-- the memory after some call, if it returns normally -/
def after {α : Type} (x : Res (Mem Nat × α)) : Mem Nat :=
  match x with
  | .ok (m, _) => m
  | _ => initial Nat

/-- a list of two elements of value 7, in an `sl_list` or `simple_list` -/
def twoFull : Mem Nat := after (Full.pushBack (after (Full.pushBack (initial Nat) (.obj 0) 7)) (.obj 0) 7)
def twoSimple : Mem Nat := insMem (insMem (initial Nat) (.root (.obj 0)) 7) (.next 0) 7

/-- the object 0 holds two nodes, the other objects are empty -/
def twoLists : Nat → List (Nat × Nat) := upd (fun _ => []) 0 [(0, 7), (1, 7)]

theorem twoFull_state (F : Nat → Bool) (hF : F 0 = true) : State twoFull twoLists F := by
  have h0 := initial_state (T := Nat) F
  obtain ⟨m1, a1, a2, a3, a4, a5⟩ := Full.pushBack_ok 7 h0.rep (r := .obj 0) (t := .loc 0) (by simp) rfl (h0.tidy 0 hF)
  have s1 := h0.full1 a2 a3 a4 (one 0)
  obtain ⟨m2, b1, b2, b3, b4, -⟩ := Full.pushBack_ok 7 s1.rep (r := .obj 0) (t := .loc 0) (by simp) rfl (s1.tidy 0 hF)
  have s2 := s1.full1 b2 b3 b4 (one 0)
  have : twoFull = m2 := by unfold twoFull; rw [a1]; simp only [after]; rw [b1]
  rw [this]
  have hf : m1.fresh = 1 := a5
  have e : upd (upd (fun _ => ([] : List (Nat × Nat))) 0 (lists (fun _ => []) (.obj 0) ++ [((initial Nat).fresh, 7)])) 0
      (lists (upd (fun _ => []) 0 (lists (fun _ => []) (.obj 0) ++ [((initial Nat).fresh, 7)])) (.obj 0) ++ [(m1.fresh, 7)])
      = twoLists := by
    rw [upd_upd, hf]; rfl
  rw [← e]
  exact s2

theorem twoSimple_state (F : Nat → Bool) (hF : F 0 = false) : State twoSimple twoLists F := by
  have h0 := initial_state (T := Nat) F
  have s1 := h0.simple1 hF (Simple.insert_ok h0.rep (r := .obj 0) (t := .loc 0) (by simp) rfl (xs := []) (ys := []) rfl 7).2
    (Same.ins _ _ 7)
  have s2 := s1.simple1 hF (Simple.insert_ok s1.rep (r := .obj 0) (t := .loc 0) (by simp) rfl (xs := [(0, 7)]) (ys := []) rfl 7).2
    (Same.ins _ _ 7)
  rw [upd_upd] at s2
  exact s2

end Verif.SL
