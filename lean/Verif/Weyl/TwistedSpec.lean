import Verif.Weyl.Iface
import Verif.Weyl.Twisted
import Verif.Coxeter.TwistExt
/-
Specification of the class `TwistedWeylGroup`.  The notions used are defined in `Verif/Coxeter/Twist.lean` and `TwistExt.lean`:
`IsTI` (twisted involution), `RedExpr` (reduced expression of a twisted involution), `star` (ascending action of a generator).
-/
namespace Verif.Weyl
open Verif Verif.Coxeter

/-- letters of an `InvolutionWord`: the complement of `s` marks a twisted conjugation -/
def letter (s : Nat) (conj : Bool) : Int := if conj then -1 - (s : Int) else s

variable {rank : Nat} {Mx : CoxeterMatrix (Fin rank)} {G : Type} [Group G]

open Classical in
/-- word for the longest element of the group generated by an orbit of generators -/
noncomputable def kappa (cs : CoxeterSystem Mx G) (f : Fin rank → Fin rank) (s : Fin rank) : List (Fin rank) :=
  if f s = s then [s] else if cs.simple s * cs.simple (f s) = cs.simple (f s) * cs.simple s then [s, f s] else [s, f s, s]

/-- Expressions by orbits of generators: each letter, from right to left, acts by ascending along the word of the orbit.  The mark says
that all generators of the word acted by conjugations (for orbits of commuting generators). -/
inductive ExtExpr (cs : CoxeterSystem Mx G) (θ : G →* G) (f : Fin rank → Fin rank) : List (Fin rank × Bool) → G → Prop
  | nil : ExtExpr cs θ f [] 1
  | cons {l v s b} : ExtExpr cs θ f l v → cs.length v < cs.length (cs.simple s * v) →
      (b = true ↔ (kappa cs f s).length ≠ 3 ∧ cs.length (starWord cs θ (kappa cs f s) v) = cs.length v + 2 * (kappa cs f s).length) →
      ExtExpr cs θ f ((s, b) :: l) (starWord cs θ (kappa cs f s) v)

/-- The object `T` computes with the twist `f` of the generators and the automorphism `θ` of the group. -/
structure ImplementsTwisted (nd : Bool) (cs : CoxeterSystem Mx G) (T : TWG) (φ : G → List Nat) (f : Fin rank → Fin rank) (θ : G →* G) : Prop where
  twistedGen : ∀ s : Fin rank, T.twistedGen s = .ok (f s).1
  twisted : ∀ g, T.twisted nd (φ g) = .ok (φ (θ g))
  /-- the dual twist is the twist followed by conjugation with the longest element -/
  dual : ∃ (w0 : G) (f' : Fin rank → Fin rank) (d : List Nat), (∀ g, g ≠ w0 → cs.length g < cs.length w0) ∧
    (∀ s, cs.simple (f' s) = w0 * cs.simple (f s) * w0⁻¹) ∧ (∀ s : Fin rank, T.dualTwistedGen nd s = .ok (f' s).1) ∧
    T.dualTwist nd = .ok d ∧ d.length = 32 ∧ (∀ s : Fin rank, d[s.1]? = some (f' s).1) ∧ (∀ s, rank ≤ s → s < 32 → d[s]? = some undef) ∧
    T.dual nd = .ok ⟨T.W, d⟩ ∧ ∀ g, T.dualTwisted nd (φ g) = .ok (φ (w0 * θ g * w0⁻¹))
  /-- the orbits of the twist, in order, from which the twist can be reconstructed -/
  orbits : ∃ L d, T.twistOrbits nd = .ok L ∧ (L.map ExtGen.s0).Pairwise (· < ·) ∧
    (∀ e, e ∈ L ↔ (∃ s : Fin rank, f s = s ∧ e = ⟨.one, s, undef, [s.1]⟩) ∨
      ∃ s : Fin rank, s.1 < (f s).1 ∧ ((cs.simple s * cs.simple (f s) = cs.simple (f s) * cs.simple s ∧ e = ⟨.two, s, f s, [s.1, (f s).1]⟩) ∨
        (cs.simple s * cs.simple (f s) ≠ cs.simple (f s) * cs.simple s ∧ e = ⟨.three, s, f s, [s.1, (f s).1, s.1]⟩))) ∧
    twistOf L = .ok d ∧ d.length = 32 ∧ (∀ s : Fin rank, d[s.1]? = some (f s).1) ∧ ∀ s, rank ≤ s → s < 32 → d[s]? = some undef
  conjGen : ∀ g (s : Fin rank), T.conjGen nd (φ g) s =
    .ok (φ (cs.simple s * g * θ (cs.simple s)), (cs.length (cs.simple s * g * θ (cs.simple s)) : Int) - cs.length g)
  conjWord : ∀ g (l : List (Fin rank)), T.conjWord nd (l.map Fin.val) (φ g) = .ok (φ (cs.wordProd l * g * (θ (cs.wordProd l))⁻¹),
    (cs.length (cs.wordProd l * g * (θ (cs.wordProd l))⁻¹) : Int) - cs.length g)
  inverseConjWord : ∀ g (l : List (Fin rank)), T.inverseConjWord nd (φ g) (l.map Fin.val) =
    .ok (φ ((cs.wordProd l)⁻¹ * g * θ (cs.wordProd l)), (cs.length ((cs.wordProd l)⁻¹ * g * θ (cs.wordProd l)) : Int) - cs.length g)
  conjElt : ∀ g h, T.conjElt nd (φ g) (φ h) = .ok (φ (h * g * (θ h)⁻¹))
  /-- the twisted conjugacy class, sorted and without repetition -/
  twistedClass : ∀ g, ∃ l, (∀ fuel, Nat.card G < fuel → T.twistedClass nd fuel (φ g) = .ok l) ∧ l.Pairwise (· < ·) ∧
    ∀ x, x ∈ l ↔ ∃ h, x = φ (h * g * (θ h)⁻¹)
  hasTwistedCommutation : ∀ g, IsTI θ g → ∀ s : Fin rank, ∃ b, T.hasTwistedCommutation nd s (φ g) = .ok b ∧
    (b = true ↔ cs.simple s * g = g * θ (cs.simple s))
  /-- a reduced expression -/
  involutionExpr : ∀ g, IsTI θ g → ∃ l : List (Fin rank × Bool), RedExpr cs θ l g ∧
    ∀ fuel, cs.length g < fuel → T.involutionExpr nd fuel (φ g) = .ok (l.map fun x => letter x.1 x.2)
  /-- the reduced expression whose sequence of generators comes first in the lexicographic order -/
  canonicalExpr : ∀ g, IsTI θ g → ∃ l : List (Fin rank × Bool), RedExpr cs θ l g ∧
    (∀ l', RedExpr cs θ l' g → l.map Prod.fst ≤ l'.map Prod.fst) ∧
    ∀ fuel, cs.length g < fuel → T.canonicalInvolutionExpr nd fuel (φ g) = .ok (l.map fun x => letter x.1 x.2)
  /-- the common length of all reduced expressions -/
  involutionLength : ∀ g, IsTI θ g → ∃ n, (∀ fuel, cs.length g < fuel → T.involutionLength nd fuel (φ g) = .ok n) ∧
    ∀ l, RedExpr cs θ l g → l.length = n
  /-- for twisted involutions fixed by the twist, an expression by orbits; letters are the positions of the orbits in `twist_orbits` -/
  extendedExpr : ∀ g, IsTI θ g → θ g = g → ∃ l : List (Fin rank × Bool), ∃ L, T.twistOrbits nd = .ok L ∧ ExtExpr cs θ f l g ∧
    (∀ x ∈ l, x.1.1 ∈ L.map ExtGen.s0) ∧
    ∀ fuel, cs.length g < fuel → T.extendedInvolutionExpr nd fuel (φ g) = .ok (l.map fun x => letter ((L.map ExtGen.s0).idxOf x.1.1) x.2)

end Verif.Weyl
