import Verif.F2.Model
import Mathlib.Data.ZMod.Basic
import Mathlib.LinearAlgebra.Span.Basic
import Mathlib.LinearAlgebra.LinearIndependent.Basic
import Mathlib.Algebra.BigOperators.Group.Finset.Basic
/-
Specification for C33: the vector spaces over `Z/2` that bit vectors and bit matrices stand for.
-/
namespace Verif.F2
open Verif

/-- the vector with coordinates the bits of a number -/
def vec (x : Nat) : Nat → ZMod 2 := fun i => if x.testBit i then 1 else 0

/-- `v` is a proper vector of size `n`: bits beyond its size are 0 -/
def Fits (n : Nat) (v : BV) : Prop := v.size = n ∧ v.data < 2 ^ n

/-- the subspace spanned by the vectors in a list -/
def Span (l : List BV) : Submodule (ZMod 2) (Nat → ZMod 2) := Submodule.span (ZMod 2) {u | ∃ b ∈ l, vec b.data = u}

/-- `p` is the position of the first nonzero coordinate -/
def Lead (x p : Nat) : Prop := x.testBit p = true ∧ ∀ q < p, x.testBit q = false

/-- `a` is a reduced echelon basis in dimension `n` with leading positions `t`: each vector has 1 at its leading
position while the others have 0 there, and leading positions increase -/
structure IsReduced (n t : Nat) (a : List BV) : Prop where
  fits : ∀ v ∈ a, Fits n v
  lead : ∀ (i : Nat) (v : BV), a[i]? = some v → ∃ p, Lead v.data p ∧ t.testBit p = true ∧
    (∀ (j : Nat) (w : BV), a[j]? = some w → j ≠ i → w.data.testBit p = false) ∧
    ∀ (j : Nat) (w : BV) (q : Nat), a[j]? = some w → i < j → Lead w.data q → p < q
  support : ∀ p, t.testBit p = true → ∃ v ∈ a, Lead v.data p

/-- the vectors in the list are linearly independent -/
def Independent (l : List BV) : Prop := LinearIndependent (ZMod 2) (fun i : Fin l.length => vec l[i].data)

/-- `A` is a proper matrix with `r` rows and `c` columns -/
structure IsMatrix (r c : Nat) (A : BM) : Prop where
  rows : A.rows = r
  columns : A.columns = c
  length : A.cols.length = c
  fits : ∀ x ∈ A.cols, x < 2 ^ r

/-- entry `(i,j)` of a matrix -/
def entry (A : BM) (i j : Nat) : ZMod 2 := vec (A.cols.getD j 0) i

/-- the linear map of a matrix with `c` columns -/
def act (A : BM) (c : Nat) (x : Nat → ZMod 2) : Nat → ZMod 2 := fun i => ∑ j ∈ Finset.range c, entry A i j * x j

end Verif.F2
