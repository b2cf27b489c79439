import Verif.Inv.Model
import Verif.KGB.Spec
import Verif.Datum.Props
import Verif.Weyl.TwistedProps
/-
Specification for C72: the table of involutions of a root datum, organised by twisted conjugacy classes.
-/
namespace Verif.Inv
open Verif Verif.Root Verif.Mat Verif.Datum Verif.Weyl Verif.Coxeter CoxeterSystem
open scoped Matrix

variable {n r : Nat} {Mx : CoxeterMatrix (Fin n)} {G : Type} [Group G]

/-- action of the Weyl group on weights -/
def IsWeightAction (cs : CoxeterSystem Mx G) (α αv : Fin n → Fin r → ℤ) (A : G →* Matrix (Fin r) (Fin r) ℤ) : Prop :=
  ∀ s, A (cs.simple s) = reflMat (α s) (αv s)

/-- the involution of the weights that corresponds to the twisted involution `w` -/
def invMat (A : G →* Matrix (Fin r) (Fin r) ℤ) (δ : Matrix (Fin r) (Fin r) ℤ) (w : G) : Matrix (Fin r) (Fin r) ℤ := A w * δ

/-- the space of reductions modulo 2 of the coweights that are negated -/
def IsNegSpace (Θ : Matrix (Fin r) (Fin r) ℤ) (V : F2.Sub) : Prop :=
  ∃ U, F2.IsSub r V U ∧ ∀ u, u ∈ U ↔ ∃ v, v ᵥ* Θ = -v ∧ u = F2.vec (Tits.bv (Tits.mod2 v)).data

/-- The record `X` describes the twisted involution `w`, with matrix `Θ`. -/
structure IsRec (cs : CoxeterSystem Mx G) (θ : G →* G) (α : Fin n → Fin r → ℤ) (N : Nat) (R : Nat → Fin n → ℤ)
    (Θ : Matrix (Fin r) (Fin r) ℤ) (w : G) (X : Rec) : Prop where
  theta : X.theta = enc Θ
  /-- permutation of the roots -/
  perm_length : X.data.perm.length = 2 * N
  perm : ∀ k < 2 * N, ∃ m < 2 * N, X.data.perm[k]? = some m ∧ Θ *ᵥ lin α (R k) = lin α (R m)
  /-- imaginary, real and complex roots -/
  im : Spec.Bits X.data.im (2 * N) fun k => Θ *ᵥ lin α (R k) = lin α (R k)
  re : Spec.Bits X.data.re (2 * N) fun k => Θ *ᵥ lin α (R k) = -lin α (R k)
  cx : Spec.Bits X.data.cx (2 * N) fun k => Θ *ᵥ lin α (R k) ≠ lin α (R k) ∧ Θ *ᵥ lin α (R k) ≠ -lin α (R k)
  /-- the simple imaginary and the simple real roots -/
  simpleIm : X.data.simpleIm.Nodup ∧ ∀ k, k ∈ X.data.simpleIm ↔ Spec.IsSimpleIn N R (fun k => k < 2 * N ∧ Θ *ᵥ lin α (R k) = lin α (R k)) k
  simpleRe : X.data.simpleRe.Nodup ∧ ∀ k, k ∈ X.data.simpleRe ↔ Spec.IsSimpleIn N R (fun k => k < 2 * N ∧ Θ *ᵥ lin α (R k) = -lin α (R k)) k
  /-- the columns of `lift` are a basis of the image of `1-Θ`, and `mReal` gives the coordinates of images -/
  image : ∃ (k : Nat) (L : Matrix (Fin r) (Fin k) ℤ) (M : Matrix (Fin k) (Fin r) ℤ), k ≤ r ∧ X.lift = enc L ∧ X.mReal = enc M ∧ L * M = 1 - Θ ∧
    Function.Injective (L *ᵥ ·) ∧ Function.Surjective (M *ᵥ ·)
  /-- half the sum of the positive roots and its image -/
  th1rho : ∃ v : Fin r → ℤ, X.th1rho = List.ofFn v ∧
    (2 : ℤ) • v = (∑ k ∈ Finset.range N, lin α (R (N + k))) + Θ *ᵥ ∑ k ∈ Finset.range N, lin α (R (N + k))
  modSpace : IsNegSpace Θ X.modSpace
  length : ∃ l, RedExpr cs θ l w ∧ X.length = l.length
  wLength : X.wLength = cs.length w

/-- the twisted conjugacy class of `w` -/
def InClass (θ : G →* G) (w x : G) : Prop := ∃ h, x = h * w * (θ h)⁻¹

/-- What is given about the inner class: a root datum, its Weyl group with a twist, an involution of the weights compatible with it. -/
structure Input (nd : Bool) (cs : CoxeterSystem Mx G) (α αv : Fin n → Fin r → ℤ) (comps : List Comp) (pc : Bool) (rd : RD) (N : Nat) (R R' : Nat → Fin n → ℤ)
    (T : TWG) (φ : G → List Nat) (f : Fin n → Fin n) (θ : G →* G) (δ : Matrix (Fin r) (Fin r) ℤ) (A : G →* Matrix (Fin r) (Fin r) ℤ) : Prop where
  cartan : IsCartan (cart α αv) Mx
  finite : Finite G
  datum : Datum.System nd α αv comps pc rd N R R'
  rank : r ≤ 32
  weyl : Implements nd cs T.W φ
  twisted : ImplementsTwisted nd cs T φ f θ
  twist : IsTwist cs f θ
  invol : δ * δ = 1
  root : ∀ s, δ *ᵥ α s = α (f s)
  coroot : ∀ s, αv s ᵥ* δ = αv (f s)
  action : IsWeightAction cs α αv A
  small : Nat.card {w // IsTI θ w} < 2 ^ 32 - 1
  len : ∀ w, cs.length w < 2 ^ 31

/-- The list describes twisted conjugacy classes of twisted involutions, all different: each entry is one of the elements, and their number. -/
structure IsClasses (φ : G → List Nat) (θ : G →* G) (classes : List (List Nat × Nat)) (c : Nat → G) : Prop where
  rep : ∀ (k : Nat) x, classes[k]? = some x → x = (φ (c k), Nat.card {w // InClass θ (c k) w})
  isTI : ∀ k < classes.length, IsTI θ (c k)
  different : ∀ k < classes.length, ∀ l < classes.length, InClass θ (c k) (c l) → k = l

/-- classes are added one after the other -/
def addAll (nd : Bool) (fuel : Nat) (classes : List (List Nat × Nat)) : List Nat → Orbits → Res Orbits
  | [], o => .ok o
  | cn :: l, o => do addAll nd fuel classes l (← Orbits.add nd fuel classes o cn)

/-- The object `o` was made for `K` classes, and then the classes `cns` were added.  Adding a class may take `fuel` steps. -/
def Made (nd : Bool) (rd : RD) (T : TWG) (δ : Matrix (Fin r) (Fin r) ℤ) (fuel : Nat) (classes : List (List Nat × Nat)) (K : Nat) (cns : List Nat) (o : Orbits) : Prop :=
  K ≤ classes.length ∧ (∀ cn ∈ cns, cn < K) ∧ ∃ o0, Orbits.make nd rd (enc δ) T = .ok o0 ∧ addAll nd fuel classes cns (o0.setSize K) = .ok o

/-- The object `o` describes the twisted involutions `w 0`, ..., `w (m-1)`, those of the classes `cns`. -/
structure Describes (nd : Bool) (cs : CoxeterSystem Mx G) (α αv : Fin n → Fin r → ℤ) (N : Nat) (R : Nat → Fin n → ℤ) (φ : G → List Nat) (θ : G →* G)
    (δ : Matrix (Fin r) (Fin r) ℤ) (A : G →* Matrix (Fin r) (Fin r) ℤ) (c : Nat → G) (cns : List Nat) (o : Orbits) (m : Nat) (w : Nat → G) : Prop where
  size : o.tab.size = m
  /-- each twisted involution is listed once -/
  different : ∀ i < m, ∀ j < m, w i = w j → i = j
  complete : ∀ x, (∃ i < m, w i = x) ↔ ∃ cn ∈ cns, InClass θ (c cn) x
  /-- access by number, and the number of an involution -/
  involution : ∀ i < m, o.tab.involution nd i = .ok (φ (w i))
  nr : ∀ i < m, o.tab.nr (φ (w i)) = i
  unseen : ∀ x, o.tab.unseen (φ x) = true ↔ ∀ i < m, w i ≠ x
  record : ∀ i < m, ∃ X, o.tab.record nd i = .ok X ∧ IsRec cs θ α N R (invMat A δ (w i)) (w i) X
  /-- what the construction of `K\G/B` assumes -/
  invTable : ∀ ρ : G →* Module.End ℤ (Fin r → ℤ), Tits.IsLatticeAction cs α αv ρ → KGB.IsInvTable cs θ φ δ ρ o.tab.toITab
  /-- the range of numbers of a class -/
  orbit : ∀ cn ∈ cns, ∃ b, o.get nd cn = .ok b ∧ b.cls = cn ∧ b.size = Nat.card {x // InClass θ (c cn) x} ∧ b.stop = b.start + b.size ∧
    ∀ i < m, (b.contains i = true ↔ InClass θ (c cn) (w i)) ∧ (b.start ≤ i ∧ i < b.stop ↔ InClass θ (c cn) (w i))
  /-- the class of an involution -/
  cartanClass : ∀ i < m, ∀ cn ∈ cns, InClass θ (c cn) (w i) → o.cartanClass nd i = .ok cn ∧ o.cartanClassTw nd (φ (w i)) = .ok cn

end Verif.Inv
