import Verif.Common
/-
Access to `std::vector` elements without range check: out of range access is undefined.
-/
namespace Verif.Vec

variable {α : Type}

/-- `v[i]` -/
def get (l : List α) (i : Nat) : Res α :=
  match l[i]? with
  | some x => .ok x
  | none => .undefined

/-- `v[i]=x` -/
def put (l : List α) (i : Nat) (x : α) : Res (List α) :=
  if i < l.length then .ok (l.set i x) else .undefined

theorem get_ok {l : List α} {i : Nat} (h : i < l.length) : get l i = .ok l[i] := by
  rw [get, List.getElem?_eq_getElem h]

theorem put_ok {l : List α} {i : Nat} (h : i < l.length) (x : α) : put l i x = .ok (l.set i x) := if_pos h

end Verif.Vec
