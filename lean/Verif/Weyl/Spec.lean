import Verif.Weyl.Group
import Mathlib.GroupTheory.Coxeter.Length
/-
Specification: Dynkin diagrams in the numbering of Bourbaki, and Coxeter groups.
-/
namespace Verif.Weyl
open Verif

/-- ranks of the simple types -/
def Ty.RankOK : Ty → Nat → Prop
  | .A, n => 1 ≤ n
  | .B, n | .C, n => 2 ≤ n
  | .D, n => 4 ≤ n
  | .E, n => 6 ≤ n ∧ n ≤ 8
  | .F, n => n = 4
  | .G, n => n = 2

/-- number of edges between nodes `i<j` of the diagram of given type and rank, numbered as in Bourbaki's tables, from 0 -/
def bondLt : Ty → Nat → Nat → Nat → Nat
  | .A, _, i, j => if j = i + 1 then 1 else 0
  | .B, n, i, j | .C, n, i, j => if j = i + 1 then (if j + 1 = n then 2 else 1) else 0
  | .D, n, i, j => if j + 1 = n then (if i + 3 = n then 1 else 0) else if j = i + 1 then 1 else 0
  | .E, _, i, j => if (i = 0 ∧ j = 2) ∨ (i = 1 ∧ j = 3) ∨ (2 ≤ i ∧ j = i + 1) then 1 else 0
  | .F, _, i, j => if j = i + 1 then (if i = 1 then 2 else 1) else 0
  | .G, _, _, _ => 3

/-- number of edges between two nodes -/
def bond (ty : Ty) (n i j : Nat) : Nat := if i < j then bondLt ty n i j else bondLt ty n j i

/-- order of the product of two simple reflections, for roots with given product `C(s,t)C(t,s)` -/
def bondOrder (b : Int) : Nat := if b = 0 then 2 else if b = 1 then 3 else if b = 2 then 4 else 6

/-- `comps` describes the components of the diagram of a Cartan matrix: they are numbered consecutively, each node occurs in
exactly one place, and the edges are those of the types given -/
structure IsDynkin (rank : Nat) (C : Fin rank → Fin rank → Int) (comps : List Comp) : Prop where
  rank_le : rank ≤ 32
  ranks : ∀ c ∈ comps, c.ty.RankOK c.rank
  offsets : ∀ k (hk : k < comps.length), comps[k].offset = ((comps.take k).map Comp.rank).sum
  perm : (comps.flatMap Comp.position).Perm (List.range rank)
  inside : ∀ c ∈ comps, ∀ s t : Fin rank, ∀ i j, i ≠ j → c.position[i]? = some s.1 → c.position[j]? = some t.1 →
    C s t * C t s = bond c.ty c.rank i j
  across : ∀ c ∈ comps, ∀ c' ∈ comps, c ≠ c' → ∀ s t : Fin rank, s.1 ∈ c.position → t.1 ∈ c'.position → C s t * C t s = 0

/-- the Coxeter matrix of a Cartan matrix -/
def coxMatrix {rank : Nat} (C : Fin rank → Fin rank → Int) : CoxeterMatrix (Fin rank) where
  M s t := if s = t then 1 else bondOrder (C s t * C t s)
  isSymm := by
    ext s t
    show (if t = s then 1 else bondOrder (C t s * C s t)) = if s = t then 1 else bondOrder (C s t * C t s)
    rw [mul_comm]
    by_cases h : s = t
    · rw [if_pos h, if_pos h.symm]
    · rw [if_neg h, if_neg (Ne.symm h)]
  diagonal s := by simp
  off_diagonal s t h := by
    simp only [if_neg h, bondOrder]
    split
    · omega
    · split
      · omega
      · split <;> omega

end Verif.Weyl
