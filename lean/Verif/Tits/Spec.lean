import Verif.Tits.Model
import Verif.F2.Spec
import Verif.Weyl.Spec
import Verif.Coxeter.Twist
import Mathlib.LinearAlgebra.Matrix.Defs
import Mathlib.GroupTheory.Coxeter.Inversion
/-
Specification for C66: the Tits group of a root datum, and what it means to implement it.
-/
namespace Verif.Tits
open Verif Verif.F2 Verif.Weyl CoxeterSystem

/-- the bit vector for a vector over `Z/2` -/
def bv {r : Nat} (x : Fin r → ZMod 2) : BV := ⟨Nat.ofBits fun i => decide (x i = 1), r⟩

/-- reduction modulo 2 -/
def mod2 {r : Nat} (v : Fin r → Int) : Fin r → ZMod 2 := fun i => v i

/-- The group `𝒯` is the Tits group of the root datum with simple roots `α` and simple coroots `αv`: an extension of the Weyl group `G`
by the group of elements of order 2 in the torus, with generators that satisfy the braid relations, whose squares are the elements
`m`, the coroots modulo 2, and that act on the torus by reflections. -/
structure IsTits {B : Type} {M : CoxeterMatrix B} {G : Type} [Group G] (cs : CoxeterSystem M G) {r : Nat} (α αv : B → Fin r → Int)
    {𝒯 : Type} [Group 𝒯] (ι : (Fin r → ZMod 2) → 𝒯) (σ : B → 𝒯) (π : 𝒯 →* G) : Prop where
  torus_mul : ∀ x y, ι (x + y) = ι x * ι y
  torus_injective : Function.Injective ι
  proj_sigma : ∀ s, π (σ s) = cs.simple s
  kernel : ∀ a, π a = 1 ↔ ∃ x, a = ι x
  square : ∀ s, σ s * σ s = ι (mod2 (αv s))
  conj : ∀ s x, σ s * ι x * (σ s)⁻¹ = ι (x + (∑ i, mod2 (α s) i * x i) • mod2 (αv s))
  braid : ∀ s t, ((alternatingWord s t (M s t)).map σ).prod = ((alternatingWord t s (M s t)).map σ).prod

variable {n : Nat} {Mx : CoxeterMatrix (Fin n)} {G : Type} [Group G]

/-- The functions of the object `T` compute in the group `𝒯`, whose elements are stored by `ψ`; elements of the Weyl group are stored
by `φ`.  The involution of the torus is the transpose of `δ`, and `f` is the twist of the generators. -/
structure ImplementsTits (nd : Bool) (cs : CoxeterSystem Mx G) (T : TG) (φ : G → List Nat) (f : Fin n → Fin n) {r : Nat}
    (α αv : Fin n → Fin r → Int) (δ : Matrix (Fin r) (Fin r) Int) {𝒯 : Type} [Group 𝒯] (ι : (Fin r → ZMod 2) → 𝒯) (σ : Fin n → 𝒯) (π : 𝒯 →* G) (ψ : 𝒯 → TE) : Prop where
  /-- elements are equal if and only if their representations are -/
  injective : Function.Injective ψ
  /-- an element is stored by its torus part, at the left, and its image in the Weyl group -/
  stored : ∀ x (l : List (Fin n)), cs.IsReduced l → ψ (ι x * (l.map σ).prod) = ⟨bv x, φ (cs.wordProd l)⟩
  weyl : ∀ a, (ψ a).w = φ (π a)
  /-- roots and coroots modulo 2 -/
  root : ∀ s : Fin n, T.dualMAlpha s = .ok (bv (mod2 (α s)))
  coroot : ∀ s : Fin n, T.mAlpha s = .ok (bv (mod2 (αv s)))
  one : T.one = ψ 1
  lift : ∀ l, cs.IsReduced l → T.lift (φ (cs.wordProd l)) = ψ (l.map σ).prod
  torus : ∀ x, T.torus (bv x) = ψ (ι x)
  liftLeft : ∀ x l, cs.IsReduced l → T.liftLeft (bv x) (φ (cs.wordProd l)) = ψ (ι x * (l.map σ).prod)
  liftRight : ∀ x l, cs.IsReduced l → T.liftRight nd (φ (cs.wordProd l)) (bv x) = .ok (ψ ((l.map σ).prod * ι x))
  leftTorusPart : ∀ x l, cs.IsReduced l → T.leftTorusPart (ψ (ι x * (l.map σ).prod)) = bv x
  rightTorusPart : ∀ x l, cs.IsReduced l → T.rightTorusPart nd (ψ ((l.map σ).prod * ι x)) = .ok (bv x)
  length : ∀ a, T.length (ψ a) = .ok (cs.length (π a))
  /-- comparison of elements -/
  eq : ∀ a b, ∃ c, (ψ a).eq nd (ψ b) = .ok c ∧ (ψ a).ne nd (ψ b) = .ok (!c) ∧ (c = true ↔ a = b)
  /-- conjugation of elements of the torus -/
  reflect : ∀ x (s : Fin n), ∃ y, T.reflect nd (bv x) s = .ok (bv y) ∧ ι y = σ s * ι x * (σ s)⁻¹
  pushAcross : ∀ x a, ∃ y, T.pushAcross nd (bv x) (φ (π a)) = .ok (bv y) ∧ ι x * a = a * ι y
  pullAcross : ∀ x a, ∃ y, T.pullAcross nd (φ (π a)) (bv x) = .ok (bv y) ∧ a * ι x = ι y * a
  twisted : ∀ x, T.twisted nd (bv x) = .ok (bv fun i => ∑ j, (δ j i : ZMod 2) * x j)
  /-- the matrix of the inverse of the product of the letters, followed by the involution -/
  involutionMatrix : ∀ l : List (Fin n), ∃ A, T.involutionMatrix nd (l.map Fin.val) = .ok A ∧ IsMatrix r r A ∧
    ∀ x, ∃ y, ι y = (l.map σ).prod⁻¹ * ι x * (l.map σ).prod ∧ A.mulVec nd 32 (bv x) = .ok (bv fun i => ∑ j, (δ j i : ZMod 2) * y j)
  leftAdd : ∀ x a, T.leftAdd nd (bv x) (ψ a) = .ok (ψ (ι x * a))
  rightAdd : ∀ x a, T.rightAdd nd (ψ a) (bv x) = .ok (ψ (a * ι x))
  sigmaMult : ∀ (s : Fin n) a, T.sigmaMult nd s (ψ a) = .ok (ψ (σ s * a))
  sigmaInvMult : ∀ (s : Fin n) a, T.sigmaInvMult nd s (ψ a) = .ok (ψ ((σ s)⁻¹ * a))
  multSigma : ∀ (s : Fin n) a, T.multSigma nd (ψ a) s = .ok (ψ (a * σ s))
  multSigmaInv : ∀ (s : Fin n) a, T.multSigmaInv nd (ψ a) s = .ok (ψ (a * (σ s)⁻¹))
  prod : ∀ a b, T.prod nd (ψ a) (ψ b) = .ok (ψ (a * b))
  sigmaConjugate : ∀ (s : Fin n) a, T.sigmaConjugate nd (ψ a) s = .ok (ψ (σ s * a * (σ s)⁻¹))
  sigmaInvConjugate : ∀ (s : Fin n) a, T.sigmaInvConjugate nd (ψ a) s = .ok (ψ ((σ s)⁻¹ * a * σ s))
  twistedConjugate : ∀ (s : Fin n) a, T.twistedConjugate nd (ψ a) s = .ok (ψ (σ s * a * (σ (f s))⁻¹))
  inverseTwistedConjugate : ∀ (s : Fin n) a, T.inverseTwistedConjugate nd (ψ a) s = .ok (ψ ((σ s)⁻¹ * a * σ (f s)))

end Verif.Tits
