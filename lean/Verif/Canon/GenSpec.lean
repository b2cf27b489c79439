import Verif.Canon.GenModel
import Verif.Canon.Spec
import Verif.Poset.Spec
/-
Specification for C74: the Cartan classes of an inner class and their order.
-/
namespace Verif.Canon
open Verif Verif.Root Verif.Mat Verif.Datum Verif.Inv Verif.Coxeter CoxeterSystem
open scoped Matrix

variable {n r : Nat} {Mx : CoxeterMatrix (Fin n)} {G : Type} [Group G]

/-- twisted conjugation by a simple reflection, or the Cayley transform by a simple imaginary root -/
def Step (cs : CoxeterSystem Mx G) (θ : G →* G) (α : Fin n → Fin r → ℤ) (A : G →* Matrix (Fin r) (Fin r) ℤ) (δ : Matrix (Fin r) (Fin r) ℤ) (w x : G) : Prop :=
  ∃ s, x = cs.simple s * w * θ (cs.simple s) ∨ (invMat A δ w *ᵥ α s = α s ∧ x = cs.simple s * w)

/-- there are at most `K` twisted conjugacy classes of twisted involutions -/
def FewClasses (θ : G →* G) (K : Nat) : Prop := ∀ l : List G, (∀ w ∈ l, IsTI θ w) → l.Pairwise (fun w x => ¬ InClass θ w x) → l.length ≤ K

/-- `L` lists the classes of twisted involutions, and `P` is their order. -/
structure IsCartans (cs : CoxeterSystem Mx G) (α αv : Fin n → Fin r → ℤ) (N : Nat) (R : Nat → Fin n → ℤ) (φ : G → List Nat) (θ : G →* G)
    (δ : Matrix (Fin r) (Fin r) ℤ) (A : G →* Matrix (Fin r) (Fin r) ℤ) (L : List CInfo) (P : List BitMap.BitMap) (c : Nat → G) : Prop where
  rep : ∀ k x, L[k]? = some x → x.tw = φ (c k)
  isTI : ∀ k < L.length, IsTI θ (c k)
  canonical : ∀ k < L.length, IsCanonical α αv N R (fun _ => True) (invMat A δ (c k))
  /-- each twisted involution belongs to exactly one of the classes -/
  classes : ∀ w, IsTI θ w → ∃! k, k < L.length ∧ InClass θ (c k) w
  /-- the first class is that of the identity -/
  first : 0 < L.length ∧ c 0 = 1
  /-- the last class is that of the longest element -/
  last : ∀ w0, (∀ g, g ≠ w0 → cs.length g < cs.length w0) → InClass θ (c (L.length - 1)) w0
  /-- the order is a partial order compatible with the numbering, and `i ≤ j` just if class `j` is obtained from class `i` by conjugations and Cayley transforms -/
  good : Poset.Good P
  size : P.length = L.length
  order : ∀ i < L.length, ∀ j < L.length, (Poset.Le P i j ↔ Relation.ReflTransGen (Step cs θ α A δ) (c i) (c j))
  /-- the entry `below` contains the classes below, those immediately below included -/
  below : ∀ k x, L[k]? = some x → ∃ S, BitMap.Rep x.below k S ∧
    ∀ i, i ∈ S ↔ i < L.length ∧ ∃ w s, InClass θ (c i) w ∧ invMat A δ w *ᵥ α s = α s ∧ InClass θ (c k) (cs.simple s * w)

end Verif.Canon
