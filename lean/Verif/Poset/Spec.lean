import Verif.Poset.Model
import Verif.BitMap.Lemmas
import Mathlib.Logic.Relation
/-
Specification for C30: the order relation of a poset object is what `lesseq` answers.
-/
namespace Verif.Poset
open Verif.BitMap

/-- the relation that `lesseq` computes, on the elements of the poset -/
def Le (P : List BitMap) (i j : Nat) : Prop := i < P.length ∧ j < P.length ∧ lesseq P i j = .ok true

/-- A proper poset object: fewer than `2^32` elements, row `j` a bitmap of capacity `j`, the relation
transitive. -/
structure Good (P : List BitMap) : Prop where
  small : P.length < 2 ^ 32
  rows : ∀ j b, P[j]? = some b → ∃ S, Rep b j S
  trans : ∀ i j k, Le P i j → Le P j k → Le P i k

/-- `j` covers `i`: `i` is less than `j` and nothing is strictly between them -/
def Covers (P : List BitMap) (i j : Nat) : Prop :=
  Le P i j ∧ i ≠ j ∧ ∀ k, Le P i k → Le P k j → k = i ∨ k = j

/-- `x` is listed in row `y` -/
def InRow (h : List (List Nat)) (x y : Nat) : Prop := ∃ c, h[y]? = some c ∧ x ∈ c

/-- Covering lists compatible with the numbering: row `y` lists numbers less than `y`. -/
def Compatible (h : List (List Nat)) : Prop := ∀ x y, InRow h x y → x < y

end Verif.Poset
