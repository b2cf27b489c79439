import Verif.Ab.Model
import Verif.BitMap.Lemmas
import Mathlib.Algebra.BigOperators.Fin
import Mathlib.Data.ZMod.Basic
/-
What the group elements and sets of group elements of the program stand for.
-/
namespace Verif.Ab

open Finset
open Verif.BitMap (BitMap Rep)

variable {r : Nat}

/-- the product of cyclic groups of orders `t 0`, `t 1`, ... -/
abbrev G (t : Fin r → Nat) : Type := ∀ i : Fin r, ZMod (t i)

/-- array representing a group element -/
def arr {t : Fin r → Nat} (g : G t) : List Nat := List.ofFn fun i => (g i).val

/-- number representing a group element: its components are digits in the mixed radix system of `t` -/
def nbr {t : Fin r → Nat} (g : G t) : Nat := ∑ i : Fin r, (g i).val * ∏ j : Fin i, t (Fin.castLE i.is_lt.le j)

/-- the last, and largest, one of the orders -/
def ann (t : Fin r → Nat) : Nat := if h : 0 < r then t ⟨r - 1, by omega⟩ else 1

/-- each order divides the next one -/
def Chain (t : Fin r → Nat) : Prop := ∀ i (h : i + 1 < r), t ⟨i, by omega⟩ ∣ t ⟨i + 1, h⟩

/-- data of the group -/
def grp (t : Fin r → Nat) : Grp := ⟨∏ i, t i, List.ofFn t, List.ofFn fun i => ann t / t i⟩

/-- the bitmap represents a set of group elements -/
def Reps {t : Fin r → Nat} (b : BitMap) (S : Set (G t)) : Prop := ∃ F : Finset Nat, Rep b (∏ i, t i) F ∧ ∀ g : G t, nbr g ∈ F ↔ g ∈ S

end Verif.Ab
