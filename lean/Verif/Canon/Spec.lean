import Verif.Canon.Model
import Verif.Canon.Par
import Verif.Inv.Spec
/-
Specification for C73: canonical twisted involutions.
-/
namespace Verif.Canon
open Verif Verif.Root Verif.Mat Verif.Datum Verif.Inv Verif.Coxeter CoxeterSystem
open scoped Matrix

variable {n r : Nat} {Mx : CoxeterMatrix (Fin n)} {G : Type} [Group G]

open Classical in
/-- the sum of the positive roots that the involution `Θ` multiplies by `c` -/
noncomputable def eigSum (α : Fin n → Fin r → ℤ) (N : Nat) (R : Nat → Fin n → ℤ) (Θ : Matrix (Fin r) (Fin r) ℤ) (c : ℤ) : Fin r → ℤ :=
  ∑ k ∈ (Finset.range N).filter (fun k => Θ *ᵥ lin α (R (N + k)) = c • lin α (R (N + k))), lin α (R (N + k))

/-- the sum of the positive real roots, and that of the positive imaginary roots -/
noncomputable abbrev realSum (α : Fin n → Fin r → ℤ) (N : Nat) (R : Nat → Fin n → ℤ) (Θ : Matrix (Fin r) (Fin r) ℤ) := eigSum α N R Θ (-1)
noncomputable abbrev imagSum (α : Fin n → Fin r → ℤ) (N : Nat) (R : Nat → Fin n → ℤ) (Θ : Matrix (Fin r) (Fin r) ℤ) := eigSum α N R Θ 1

/-- The involution is canonical for the generators in `Γ` (see innerclass.h L488-496). -/
structure IsCanonical (α αv : Fin n → Fin r → ℤ) (N : Nat) (R : Nat → Fin n → ℤ) (Γ : Fin n → Prop) (Θ : Matrix (Fin r) (Fin r) ℤ) : Prop where
  real : ∀ s, Γ s → 0 ≤ realSum α N R Θ ⬝ᵥ αv s
  imaginary : ∀ s, Γ s → realSum α N R Θ ⬝ᵥ αv s = 0 → 0 ≤ imagSum α N R Θ ⬝ᵥ αv s
  /-- the simple roots orthogonal to both sums have positive images -/
  complex : ∀ s, Γ s → realSum α N R Θ ⬝ᵥ αv s = 0 → imagSum α N R Θ ⬝ᵥ αv s = 0 → ∃ k < N, Θ *ᵥ α s = lin α (R (N + k))

/-- conjugation by products of the generators in `Γ` -/
def Conj (cs : CoxeterSystem Mx G) (θ : G →* G) (Γ : Fin n → Prop) (w x : G) : Prop := ∃ h, Par cs Γ h ∧ x = h * w * (θ h)⁻¹

/-- the list of bits of a set of generators -/
def IsGens (n : Nat) (gens : List Bool) (Γ : Fin n → Prop) : Prop := gens.length = 32 ∧ (∀ s : Fin n, RS.bit gens s = true ↔ Γ s) ∧ ∀ k, RS.bit gens k = true → k < n

end Verif.Canon
