import Verif.Tits.Spec
import Verif.F2.SubSpec
/-
Specification for C67: strong involutions represented in the Tits group.
-/
namespace Verif.Tits
open Verif Verif.F2 Verif.Weyl Verif.Coxeter CoxeterSystem

variable {n : Nat} {Mx : CoxeterMatrix (Fin n)} {G : Type} [Group G] {r : Nat}

/-- The group acts on the lattice of coweights by reflections. -/
def IsLatticeAction (cs : CoxeterSystem Mx G) (α αv : Fin n → Fin r → Int) (ρ : G →* Module.End ℤ (Fin r → Int)) : Prop :=
  ∀ s v, ρ (cs.simple s) v = v - (∑ i, α s i * v i) • αv s

/-- The automorphism `τ` is conjugation by the base element, a strong involution that acts on coweights by the transpose of `δ` and permutes
the root vectors of simple roots up to signs; the sign is `-1` where the grading `g` is true.  This is the relation
`σ_s.x0 = m_s^g(s).x0.σ_f(s)` of the code. -/
structure IsBase (f : Fin n → Fin n) (αv : Fin n → Fin r → Int) (δ : Matrix (Fin r) (Fin r) Int) (g : Fin n → Bool)
    {𝒯 : Type} [Group 𝒯] (ι : (Fin r → ZMod 2) → 𝒯) (σ : Fin n → 𝒯) (τ : 𝒯 →* 𝒯) : Prop where
  invol : ∀ a, τ (τ a) = a
  torus : ∀ x, τ (ι x) = ι fun i => ∑ j, (δ j i : ZMod 2) * x j
  sigma : ∀ s, τ (σ s) = ι (if g (f s) then mod2 (αv (f s)) else 0) * σ (f s)

/-- The involution of the lattice of coweights for an element `w` of the Weyl group: that of the base element, followed by `w`. -/
def inv (ρ : G →* Module.End ℤ (Fin r → Int)) (δ : Matrix (Fin r) (Fin r) Int) (w : G) (v : Fin r → Int) : Fin r → Int :=
  ρ w fun i => ∑ j, δ j i * v j

/-- Equivalence of representatives of strong involutions, generated by conjugation by elements of the torus: the torus part may be changed
by the reduction modulo 2 of a coweight that is sent to its opposite by the involution. -/
def Eqv (ρ : G →* Module.End ℤ (Fin r → Int)) (δ : Matrix (Fin r) (Fin r) Int) {𝒯 : Type} [Group 𝒯] (ι : (Fin r → ZMod 2) → 𝒯) (π : 𝒯 →* G)
    (a b : 𝒯) : Prop := ∃ v, inv ρ δ (π a) v = -v ∧ b = ι (mod2 v) * a

/-- The simple root `s` is imaginary for the involution of `w`. -/
def Imaginary (cs : CoxeterSystem Mx G) (f : Fin n → Fin n) (s : Fin n) (w : G) : Prop :=
  cs.simple s * w = w * cs.simple (f s) ∧ cs.length w < cs.length (cs.simple s * w)

/-- The simple root `s` is real for the involution of `w`. -/
def Real (cs : CoxeterSystem Mx G) (f : Fin n → Fin n) (s : Fin n) (w : G) : Prop :=
  cs.simple s * w = w * cs.simple (f s) ∧ cs.length (cs.simple s * w) < cs.length w

/-- The subspace `V` is that of the torus parts by which elements over `w` may be changed. -/
def IsModSpace (ρ : G →* Module.End ℤ (Fin r → Int)) (δ : Matrix (Fin r) (Fin r) Int) (w : G) (V : Sub) : Prop :=
  ∃ U, IsSub r V U ∧ ∀ u, u ∈ U ↔ ∃ v, inv ρ δ w v = -v ∧ u = vec (bv (mod2 v)).data

/-- Laws of strong involutions represented in the Tits group.  An element `a` represents a strong involution if `a * τ a = 1`. -/
structure CosetLaws (cs : CoxeterSystem Mx G) (f : Fin n → Fin n) (α αv : Fin n → Fin r → Int) (δ : Matrix (Fin r) (Fin r) Int)
    (ρ : G →* Module.End ℤ (Fin r → Int)) {𝒯 : Type} [Group 𝒯] (ι : (Fin r → ZMod 2) → 𝒯) (σ : Fin n → 𝒯) (π : 𝒯 →* G) (τ : 𝒯 →* 𝒯) : Prop where
  /-- on coweights the involution of a strong involution is one -/
  involution : ∀ a, a * τ a = 1 → ∀ v, inv ρ δ (π a) (inv ρ δ (π a) v) = v
  refl : ∀ a, Eqv ρ δ ι π a a
  symm : ∀ a b, Eqv ρ δ ι π a b → Eqv ρ δ ι π b a
  trans : ∀ a b c, Eqv ρ δ ι π a b → Eqv ρ δ ι π b c → Eqv ρ δ ι π a c
  /-- elements equivalent to a strong involution are strong involutions -/
  valid : ∀ a b, Eqv ρ δ ι π a b → a * τ a = 1 → b * τ b = 1
  /-- conjugation -/
  conj_valid : ∀ a g, a * τ a = 1 → (g * a * (τ g)⁻¹) * τ (g * a * (τ g)⁻¹) = 1
  conj_eqv : ∀ a b g, Eqv ρ δ ι π a b → Eqv ρ δ ι π (g * a * (τ g)⁻¹) (g * b * (τ g)⁻¹)
  conj_weyl : ∀ a g g', a * τ a = 1 → π g = π g' → Eqv ρ δ ι π (g * a * (τ g)⁻¹) (g' * a * (τ g')⁻¹)
  /-- imaginary and real simple roots -/
  imaginary : ∀ s w, Imaginary cs f s w → ∀ v, ∑ i, α s i * inv ρ δ w v i = ∑ i, α s i * v i
  real : ∀ s w, Real cs f s w → ∀ v, ∑ i, α s i * inv ρ δ w v i = -∑ i, α s i * v i
  /-- the Cayley transform by a noncompact imaginary root -/
  cayley_real : ∀ s w, Imaginary cs f s w → Real cs f s (cs.simple s * w)
  cayley_valid : ∀ a s, Imaginary cs f s (π a) → σ s * a * (τ (σ s))⁻¹ = ι (mod2 (αv s)) * a → a * τ a = 1 → (σ s * a) * τ (σ s * a) = 1
  cayley_eqv : ∀ a b s, Imaginary cs f s (π a) → Eqv ρ δ ι π a b → Eqv ρ δ ι π (σ s * a) (σ s * b)
  /-- an element and its conjugate by `σ s` have the same Cayley transform -/
  cayley_cross : ∀ a s, Imaginary cs f s (π a) → Eqv ρ δ ι π (σ s * a) (σ s * (σ s * a * (τ (σ s))⁻¹))

/-- The functions of the object `c` compute with strong involutions represented in the group `𝒯`. -/
structure ImplementsCoset (nd : Bool) (cs : CoxeterSystem Mx G) (c : TC) (f : Fin n → Fin n) (α αv : Fin n → Fin r → Int)
    (δ : Matrix (Fin r) (Fin r) Int) (g : Fin n → Bool) (ρ : G →* Module.End ℤ (Fin r → Int)) {𝒯 : Type} [Group 𝒯]
    (ι : (Fin r → ZMod 2) → 𝒯) (σ : Fin n → 𝒯) (π : 𝒯 →* G) (τ : 𝒯 →* 𝒯) (ψ : 𝒯 → TE) : Prop where
  /-- the grading of imaginary simple roots: conjugation by the generator multiplies the element by `m`, or not; the grading for
  canonical lifts is that of the base element, it changes with the value of the root at the torus part, and it does not depend on the choice
  of a representative -/
  grading : ∀ a (s : Fin n), ∃ b, c.simpleGrading (ψ a) s = .ok b ∧
    (Imaginary cs f s (π a) → σ s * a * (τ (σ s))⁻¹ = ι (if b then mod2 (αv s) else 0) * a) ∧
    (∀ x, c.simpleGrading (ψ (ι x * a)) s = .ok (b ^^ decide (∑ i, mod2 (α s) i * x i = 1))) ∧
    ∀ a', Imaginary cs f s (π a) → Eqv ρ δ ι π a a' → c.simpleGrading (ψ a') s = .ok b
  grading_lift : ∀ l (s : Fin n), cs.IsReduced l → c.simpleGrading (ψ (l.map σ).prod) s = .ok (g s)
  /-- conjugation by a generator, exactly and up to equivalence -/
  strictCross : ∀ a (s : Fin n), c.strictCross nd (ψ a) s = .ok (ψ (σ s * a * (τ (σ s))⁻¹))
  cross : ∀ a (s : Fin n), a * τ a = 1 → ∃ b, c.cross nd (ψ a) s = .ok (ψ b) ∧ Eqv ρ δ ι π (σ s * a * (τ (σ s))⁻¹) b
  /-- conjugation by a word, up to equivalence: any lift of the element of the Weyl group may be used -/
  crossWordLeft : ∀ a l h, a * τ a = 1 → π h = cs.wordProd l →
    ∃ b, c.crossWordLeft nd (l.map Fin.val) (ψ a) = .ok (ψ b) ∧ Eqv ρ δ ι π (h * a * (τ h)⁻¹) b
  crossWord : ∀ a l h, a * τ a = 1 → π h = (cs.wordProd l)⁻¹ →
    ∃ b, c.crossWord nd (l.map Fin.val) (ψ a) = .ok (ψ b) ∧ Eqv ρ δ ι π (h * a * (τ h)⁻¹) b
  /-- conjugation by the base element -/
  twisted : ∀ a, c.twisted nd (ψ a) = .ok (ψ (τ a))
  /-- whether an element represents a strong involution: at the first call in the program, and after a call for the same group -/
  isValid : ∀ a, ∃ b, c.isValid nd none (ψ a) = .ok (b, some (ψ 1)) ∧ c.isValid nd (some (ψ 1)) (ψ a) = .ok (b, some (ψ 1)) ∧ (b = true ↔ a * τ a = 1)
  /-- Cayley transforms -/
  cayley : ∀ a (s : Fin n), c.cayley nd (ψ a) s = .ok (ψ (σ s * a))
  /-- The inverse Cayley transform of (an element equivalent to) a Cayley transform of `b` is (equivalent to) `b` or its conjugate. -/
  inverseCayley : ∀ a b (s : Fin n) V, Imaginary cs f s (π b) → c.simpleGrading (ψ b) s = .ok true → Eqv ρ δ ι π (σ s * b) a →
    IsModSpace ρ δ (π a) V → ∃ d, c.inverseCayley nd (ψ a) s V = .ok (ψ d) ∧ (Eqv ρ δ ι π b d ∨ Eqv ρ δ ι π (σ s * b * (τ (σ s))⁻¹) d)
  /-- reduction: equivalent elements over the same element of the Weyl group have the same reduced form -/
  reduce : ∀ a V, IsModSpace ρ δ (π a) V → ∃ a', (ψ a).reduce nd V = .ok (ψ a') ∧ Eqv ρ δ ι π a a' ∧
    ∀ b, π b = π a → (Eqv ρ δ ι π a b ↔ (ψ b).reduce nd V = .ok (ψ a'))

end Verif.Tits
