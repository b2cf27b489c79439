import Verif.KGB.Model
import Verif.Tits.CosetSpec
import Verif.Coxeter.TwistExt
/-
Specification for C68: the set `K\G/B` with cross actions and Cayley transforms.
-/
namespace Verif.KGB
open Verif Verif.F2 Verif.Weyl Verif.Tits Verif.Coxeter CoxeterSystem

variable {n : Nat} {Mx : CoxeterMatrix (Fin n)} {G : Type} [Group G] {r : Nat} {𝒯 : Type} [Group 𝒯]

/-- The simple root `s` is imaginary and noncompact for (the strong involution represented by) `a`: its grading is that of the base element, changed
by the value of the root at the torus part of `a`. -/
def Noncompact (cs : CoxeterSystem Mx G) (f : Fin n → Fin n) (α : Fin n → Fin r → Int) (g : Fin n → Bool) (ι : (Fin r → ZMod 2) → 𝒯) (σ : Fin n → 𝒯)
    (π : 𝒯 →* G) (s : Fin n) (a : 𝒯) : Prop :=
  Imaginary cs f s (π a) ∧ ∃ x l, cs.IsReduced l ∧ a = ι x * (l.map σ).prod ∧ (g s ^^ decide (∑ i, mod2 (α s) i * x i = 1)) = true

/-- The representatives of strong involutions that are obtained from those given by conjugation by the Weyl group and by
Cayley transforms, up to conjugation by the torus. -/
inductive Reach (cs : CoxeterSystem Mx G) (f : Fin n → Fin n) (α : Fin n → Fin r → Int) (δ : Matrix (Fin r) (Fin r) Int) (g : Fin n → Bool)
    (ρ : G →* Module.End ℤ (Fin r → Int)) (ι : (Fin r → ZMod 2) → 𝒯) (σ : Fin n → 𝒯) (π : 𝒯 →* G) (τ : 𝒯 →* 𝒯) (seeds : List 𝒯) : 𝒯 → Prop
  | seed {a} : a ∈ seeds → Reach cs f α δ g ρ ι σ π τ seeds a
  | eqv {a b} : Reach cs f α δ g ρ ι σ π τ seeds a → Eqv ρ δ ι π a b → Reach cs f α δ g ρ ι σ π τ seeds b
  | cross {a} (s : Fin n) : Reach cs f α δ g ρ ι σ π τ seeds a → Reach cs f α δ g ρ ι σ π τ seeds (σ s * a * (τ (σ s))⁻¹)
  | cayley {a} (s : Fin n) : Reach cs f α δ g ρ ι σ π τ seeds a → Noncompact cs f α g ι σ π s a → Reach cs f α δ g ρ ι σ π τ seeds (σ s * a)

/-- The elements `e 0`, ..., `e (N-1)` are a system of representatives for the classes. -/
def IsSystem (R : 𝒯 → Prop) (E : 𝒯 → 𝒯 → Prop) (N : Nat) (e : Nat → 𝒯) : Prop :=
  (∀ x, x < N → R (e x)) ∧ ∀ a, R a → ∃ x, (x < N ∧ E a (e x)) ∧ ∀ y, y < N → E a (e y) → y = x

/-- The involution table contains twisted involutions, each once, with their lengths and the subspaces by which torus parts are reduced. -/
structure IsInvTable (cs : CoxeterSystem Mx G) (θ : G →* G) (φ : G → List Nat) (δ : Matrix (Fin r) (Fin r) Int)
    (ρ : G →* Module.End ℤ (Fin r → Int)) (it : ITab) : Prop where
  nodup : it.pool.Nodup
  length : it.recs.length = it.pool.length
  small : it.pool.length < 2 ^ 32 - 1
  stored : ∀ x ∈ it.pool, ∃ w, x = φ w
  modSpace : ∀ (i : Nat) w R, it.pool[i]? = some (φ w) → it.recs[i]? = some R → IsModSpace ρ δ w R.modSpace
  wLength : ∀ (i : Nat) w R, it.pool[i]? = some (φ w) → it.recs[i]? = some R → R.wLength = cs.length w ∧ R.wLength < 2 ^ 31
  ilength : ∀ (i : Nat) w R, it.pool[i]? = some (φ w) → it.recs[i]? = some R → R.length < 2 ^ 31 ∧ ∃ l, RedExpr cs θ l w ∧ l.length = R.length

/-- The object `k` describes the elements `e 0`, ..., `e (N-1)`. -/
structure IsKGB (nd : Bool) (cs : CoxeterSystem Mx G) (c : TC) (it : ITab) (θ : G →* G) (φ : G → List Nat) (f : Fin n → Fin n)
    (α : Fin n → Fin r → Int) (δ : Matrix (Fin r) (Fin r) Int) (g : Fin n → Bool) (ρ : G →* Module.End ℤ (Fin r → Int))
    (ι : (Fin r → ZMod 2) → 𝒯) (σ : Fin n → 𝒯) (π : 𝒯 →* G) (τ : 𝒯 →* 𝒯) (ψ : 𝒯 → TE) (k : Obj) (N : Nat) (e : Nat → 𝒯) : Prop where
  size : k.size = N
  titsElt : ∀ x, x < N → k.titsElt nd c it x = .ok (ψ (e x))
  involution : ∀ x, x < N → k.involution nd it x = .ok (φ (π (e x)))
  /-- cross action -/
  cross : ∀ (s : Fin n) x, x < N → ∃ y, k.cross s x = .ok y ∧ y < N ∧ Eqv ρ δ ι π (σ s * e x * (τ (σ s))⁻¹) (e y)
  crossLeft : ∀ (l : List (Fin n)) h x, x < N → π h = cs.wordProd l →
    ∃ y, k.crossLeft (l.map Fin.val) x = .ok y ∧ y < N ∧ Eqv ρ δ ι π (h * e x * (τ h)⁻¹) (e y)
  crossRight : ∀ (l : List (Fin n)) h x, x < N → π h = (cs.wordProd l)⁻¹ →
    ∃ y, k.crossRight (l.map Fin.val) x = .ok y ∧ y < N ∧ Eqv ρ δ ι π (h * e x * (τ h)⁻¹) (e y)
  /-- status of the simple roots -/
  status : ∀ (s : Fin n) x, x < N → ∃ v, k.status s x = .ok v ∧
    (v = cplx ↔ cs.simple s * π (e x) ≠ π (e x) * cs.simple (f s)) ∧
    (v = realSt ↔ Real cs f s (π (e x))) ∧
    (v = imCpt ↔ Imaginary cs f s (π (e x)) ∧ ¬ Noncompact cs f α g ι σ π s (e x)) ∧
    (v = imNcpt ↔ Noncompact cs f α g ι σ π s (e x))
  isDescent : ∀ (s : Fin n) x, x < N → ∃ b, k.isDescent s x = .ok b ∧ (b = true ↔ cs.length (cs.simple s * π (e x)) < cs.length (π (e x)))
  isComplexDescent : ∀ (s : Fin n) x, x < N → ∃ b, k.isComplexDescent s x = .ok b ∧
    (b = true ↔ cs.simple s * π (e x) ≠ π (e x) * cs.simple (f s) ∧ cs.length (cs.simple s * π (e x)) < cs.length (π (e x)))
  isAscent : ∀ (s : Fin n) x, x < N → ∃ b, k.isAscent s x = .ok b ∧ (b = true ↔ cs.length (π (e x)) < cs.length (cs.simple s * π (e x)) ∧
    (Imaginary cs f s (π (e x)) → Noncompact cs f α g ι σ π s (e x)))
  /-- Cayley transforms by noncompact imaginary roots -/
  cayley : ∀ (s : Fin n) x, x < N → Noncompact cs f α g ι σ π s (e x) → ∃ y, k.cayley s x = .ok y ∧ y < N ∧ Eqv ρ δ ι π (σ s * e x) (e y)
  cayley_undef : ∀ (s : Fin n) x, x < N → ¬ Noncompact cs f α g ι σ π s (e x) → k.cayley s x = .ok undefKGB
  /-- The elements with a given Cayley transform are `p` and `q`, those of them that are defined; if both are, the cross action exchanges them. -/
  inverseCayley : ∀ (s : Fin n) y, y < N → ∃ p q, k.inverseCayley s y = .ok (p, q) ∧ (∀ x, x < N → (k.cayley s x = .ok y ↔ x = p ∨ x = q)) ∧
    (p = undefKGB ∨ p < N ∧ (q = undefKGB ∧ k.cross s p = .ok p ∨ p < q ∧ q < N ∧ k.cross s p = .ok q ∧ k.cross s q = .ok p)) ∧
    (p = undefKGB → q = undefKGB) ∧ k.isDoubleCayleyImage s y = .ok (decide (q ≠ undefKGB))
  anyCayley : ∀ (s : Fin n) x, x < N → ∃ b p q y, k.isDescent s x = .ok b ∧ k.inverseCayley s x = .ok (p, q) ∧ k.cayley s x = .ok y ∧
    k.anyCayley s x = .ok (if b then p else y)
  /-- lengths, and the order of the elements -/
  length : ∀ x, x < N → ∃ l, RedExpr cs θ l (π (e x)) ∧ k.length nd it x = .ok l.length
  weylLength : ∀ x, x < N → k.weylLength nd c it x = .ok (cs.length (π (e x)))
  order : ∀ x y lx ly, x ≤ y → y < N → k.length nd it x = .ok lx → k.length nd it y = .ok ly → lx < ly ∨ lx = ly ∧
    (cs.length (π (e x)) < cs.length (π (e y)) ∨ cs.length (π (e x)) = cs.length (π (e y)) ∧ φ (π (e x)) ≤ φ (π (e y)))
  /-- elements with a given involution form an interval -/
  tauPacket : ∀ w, ∃ i j, k.tauPacket it (φ w) = .ok (i, j) ∧ i ≤ j ∧ k.packetSize it (φ w) = .ok (j - i) ∧
    ∀ x, i ≤ x ∧ x < j ↔ x < N ∧ π (e x) = w
  packet : ∀ x, x < N → ∃ i j, k.packet x = .ok (i, j) ∧ ∀ y, i ≤ y ∧ y < j ↔ y < N ∧ π (e y) = π (e x)
  /-- search for an element over an involution of the table -/
  lookup : ∀ a, φ (π a) ∈ it.pool → ∃ y, k.lookup nd c it (ψ a) = .ok y ∧ (∀ x, x < N → Eqv ρ δ ι π a (e x) → y = x) ∧
    ((∀ x, x < N → ¬ Eqv ρ δ ι π a (e x)) → y = undefKGB)

end Verif.KGB
