import Verif.Weyl.Spec
import Verif.Weyl.Extra
import Verif.BigInt.Spec
import Verif.Size.Props
import Mathlib.Algebra.Group.Action.Defs
import Mathlib.SetTheory.Cardinal.Finite
/-
Specification of the functions of the class `WeylGroup`.
-/
namespace Verif.Weyl
open Verif

/-- The object `W` implements the group `G` with simple reflections `cs.simple s`: an element `g` is stored as `φ g`, and every
function, called for stored elements, gives the value in the group that its name announces. -/
structure Implements (nd : Bool) {rank : Nat} {Mx : CoxeterMatrix (Fin rank)} {G : Type} [Group G] (cs : CoxeterSystem Mx G) (W : WG)
    (φ : G → List Nat) : Prop where
  /-- elements are equal if and only if their representations are -/
  injective : Function.Injective φ
  /-- representations are arrays of 32 bytes -/
  bytes : ∀ g, (φ g).length = 32 ∧ ∀ x ∈ φ g, x < 256
  rank_eq : W.rank = rank
  one : φ 1 = WG.one
  generator : ∀ s : Fin rank, W.generator s = .ok (φ (cs.simple s))
  mult : ∀ g h, W.mult nd (φ g) (φ h) = .ok (φ (g * h))
  multGen : ∀ g (s : Fin rank), W.multGen nd (φ g) s = .ok (φ (g * cs.simple s), (cs.length (g * cs.simple s) : Int) - cs.length g)
  multWord : ∀ g (l : List (Fin rank)), W.multWord nd (φ g) (l.map Fin.val) = .ok (φ (g * cs.wordProd l))
  leftMultiply : ∀ g h, W.leftMultiply nd (φ g) (φ h) = .ok (φ (h * g))
  leftMultiplyGen : ∀ g (s : Fin rank), W.leftMultiplyGen nd (φ g) s =
    .ok (φ (cs.simple s * g), (cs.length (cs.simple s * g) : Int) - cs.length g)
  leftMultiplyWord : ∀ g (l : List (Fin rank)), W.leftMultiplyWord nd (φ g) (l.map Fin.val) = .ok (φ (cs.wordProd l * g))
  inverse : ∀ g, W.inverse nd (φ g) = .ok (φ g⁻¹)
  conjugate : ∀ g (s : Fin rank), W.conjugate nd (φ g) s = .ok (φ (cs.simple s * g * cs.simple s))
  length : ∀ g, W.length (φ g) = .ok (cs.length g)
  lengthChange : ∀ g (s : Fin rank), W.lengthChange nd (φ g) s = .ok ((cs.length (g * cs.simple s) : Int) - cs.length g)
  lengthChangeLeft : ∀ g (s : Fin rank), W.lengthChangeLeft nd s (φ g) = .ok ((cs.length (cs.simple s * g) : Int) - cs.length g)
  hasDescent : ∀ g (s : Fin rank), ∃ b, W.hasDescent nd s (φ g) = .ok b ∧ (b = true ↔ cs.length (cs.simple s * g) < cs.length g)
  leftDescent_one : W.leftDescent (φ 1) = .ok undef
  leftDescent : ∀ g, g ≠ 1 → ∃ s : Fin rank, W.leftDescent (φ g) = .ok s.1 ∧ cs.length (cs.simple s * g) < cs.length g
  /-- a reduced word -/
  word : ∀ g, ∃ l : List (Fin rank), W.word nd (φ g) = .ok (l.map Fin.val) ∧ cs.wordProd l = g ∧ l.length = cs.length g
  element : ∀ l : List (Fin rank), W.element nd (l.map Fin.val) = .ok (φ (cs.wordProd l))
  commutes : ∀ s t : Fin rank, ∃ b, W.commutes nd s t = .ok b ∧ (b = true ↔ cs.simple s * cs.simple t = cs.simple t * cs.simple s)
  longest : ∃ w0, W.longest = .ok (φ w0) ∧ W.maxLength = .ok (cs.length w0) ∧ (∀ g, g ≠ w0 → cs.length g < cs.length w0) ∧
    (∀ s : Fin rank, ∃ t : Fin rank, W.chevalleyDual nd s = .ok t.1 ∧ cs.simple t = w0 * cs.simple s * w0⁻¹) ∧
    ∃ l, W.chevalleyTwist nd = .ok l ∧ l.length = 32 ∧ (∀ s, rank ≤ s → s < 32 → l[s]? = some undef) ∧
      ∀ s : Fin rank, ∃ t : Fin rank, l[s.1]? = some t.1 ∧ cs.simple t = w0 * cs.simple s * w0⁻¹
  /-- a homomorphism that sends simple reflections to such -/
  translation : ∀ (f : Fin rank → Fin rank) (θ : G →* G), (∀ s, θ (cs.simple s) = cs.simple (f s)) →
    ∀ l : List Nat, (∀ s : Fin rank, l[s.1]? = some (f s).1) → ∀ g, W.translation nd (φ g) l = .ok (φ (θ g)) ∧
      W.reverseTranslation nd (φ g) l = .ok (φ (θ g⁻¹))
  /-- an action of the group, given for simple reflections -/
  act : ∀ (α : Type) [MulAction G α] (f : Nat → α → Res α), (∀ (s : Fin rank) a, f s a = .ok (cs.simple s • a)) →
    ∀ g a, W.act nd f (φ g) a = .ok (g • a) ∧ W.coAct nd f (φ g) a = .ok (g⁻¹ • a)
  conjugacyClass : ∀ g, ∃ l, (∀ fuel, Nat.card G < fuel → Weyl.conjugacyClass nd W fuel (φ g) = .ok l) ∧ l.Nodup ∧
    ∀ x, x ∈ l ↔ ∃ h, IsConj g h ∧ x = φ h
  order : ∃ z, W.order = .ok z ∧ Size.Within 64 z ∧ Size.val z = Nat.card G
  /-- elements are numbered from 0 to the order minus 1 -/
  packed : ∃ N : G ≃ Fin (Nat.card G), (∀ g, ∃ d, W.toBigInt (φ g) = .ok d ∧ BigInt.Rep d (N g)) ∧
    ∀ g d, BigInt.Rep d (N g) → W.toWeylElt d = .ok (φ g)

end Verif.Weyl
