import Verif.Weyl.Spec

/-!
# Cartan matrices: specification

The entries `⟨α_i,α_j^∨⟩` of the Cartan matrices of the simple types, as in the plates at the end of
Bourbaki, *Groupes et algèbres de Lie*, chapters IV-VI, with nodes numbered from 0.
-/

namespace Verif.Dynkin

open Verif.Weyl (Ty Comp)

/-- the Cartan matrix of a simple type of rank `n` -/
def cartan (ty : Ty) (n i j : Nat) : Int :=
  if i = j then 2
  else if Weyl.bond ty n i j = 0 then 0
  else
    match ty with
    | .B => if i + 2 = n ∧ j + 1 = n then -2 else -1
    | .C => if i + 1 = n ∧ j + 2 = n then -2 else -1
    | .F => if i = 1 ∧ j = 2 then -2 else -1
    | .G => if i = 1 ∧ j = 0 then -3 else -1
    | _ => -1

/-- the matrix `C` of size `rank` becomes, after renumbering, the direct sum of the Cartan matrices of
the components `comps`: the node with number `i` in a component is row and column `position[i]` -/
structure IsCartan (rank : Nat) (C : Nat → Nat → Int) (comps : List Comp) : Prop where
  ranks : ∀ c ∈ comps, c.ty.RankOK c.rank
  offsets : ∀ k (hk : k < comps.length), comps[k].offset = ((comps.take k).map Comp.rank).sum
  perm : (comps.flatMap Comp.position).Perm (List.range rank)
  inside : ∀ c ∈ comps, ∀ i j s t, c.position[i]? = some s → c.position[j]? = some t →
    C s t = cartan c.ty c.rank i j
  across : ∀ c ∈ comps, ∀ c' ∈ comps, c ≠ c' → ∀ s ∈ c.position, ∀ t ∈ c'.position, C s t = 0

/-- `C` is the Cartan matrix of a root system, up to the order of the simple roots -/
def Finite (rank : Nat) (C : Nat → Nat → Int) : Prop := ∃ comps, IsCartan rank C comps

/-- the entries of the standard Cartan matrix of a sum of simple types, numbered consecutively -/
def sumEntry : List (Ty × Nat) → Nat → Nat → Int
  | [], _, _ => 0
  | (ty, r) :: l, i, j =>
    if i < r ∧ j < r then cartan ty r i j
    else if i < r ∨ j < r then 0
    else sumEntry l (i - r) (j - r)

end Verif.Dynkin
