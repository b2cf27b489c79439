import Mathlib.Algebra.Polynomial.Laurent
import Mathlib.Algebra.BigOperators.Pi
import Mathlib.Data.Fintype.BigOperators

/-!
# Kazhdan-Lusztig-Vogan polynomials: specification

This file says what the polynomials `P_{x,y}` are, without reference to the program.  It follows
Lusztig and Vogan ("Singularities of closures of K-orbits on flag manifolds", 1983) and Vogan
("Irreducible characters of semisimple Lie groups III", 1983): a block `B` of parameters carries a
module of the Hecke algebra over `ℤ[q,q⁻¹]` with basis `B`, this module has a duality, and the
polynomials are the coefficients of the self-dual elements that satisfy a degree bound.
-/

namespace Verif.KL

open Polynomial

/-- the position of a simple reflection with respect to a parameter; the names are those of the
enumeration `DescentStatus::Value`, in the same order -/
inductive Status
  | complexAscent | realNonparity | imaginaryTypeI | imaginaryTypeII
  | imaginaryCompact | complexDescent | realTypeII | realTypeI
  deriving DecidableEq, Repr

/-- the statuses that put the reflection in the tau invariant -/
def Status.isDescent : Status → Bool
  | .imaginaryCompact | .complexDescent | .realTypeII | .realTypeI => true
  | _ => false

/-- a block: lengths, and for each of the reflections `s < rank` statuses, cross actions and
(inverse) Cayley transforms.  For an imaginary type I or real type II status there is one
transform, the first component; for imaginary type II and real type I there are two. -/
structure Blk (B : Type) where
  rank : ℕ
  len : B → ℕ
  st : ℕ → B → Status
  cross : ℕ → B → B
  cay : ℕ → B → B × B

/-- the relations between the data of a block for one reflection at one parameter -/
def Blk.Rel {B : Type} (b : Blk B) (s : ℕ) (x : B) : Prop :=
  match b.st s x with
  | .complexAscent => b.st s (b.cross s x) = .complexDescent ∧
      b.cross s (b.cross s x) = x ∧ b.len (b.cross s x) = b.len x + 1
  | .complexDescent => b.st s (b.cross s x) = .complexAscent ∧
      b.cross s (b.cross s x) = x ∧ b.len x = b.len (b.cross s x) + 1
  | .imaginaryTypeI => b.st s (b.cross s x) = .imaginaryTypeI ∧ b.cross s x ≠ x ∧
      b.cross s (b.cross s x) = x ∧ b.len (b.cross s x) = b.len x ∧
      b.st s (b.cay s x).1 = .realTypeI ∧ b.len (b.cay s x).1 = b.len x + 1 ∧
      (b.cay s (b.cross s x)).1 = (b.cay s x).1 ∧
      (b.cay s (b.cay s x).1 = (x, b.cross s x) ∨ b.cay s (b.cay s x).1 = (b.cross s x, x))
  | .realTypeI => (b.cay s x).1 ≠ (b.cay s x).2 ∧
      b.st s (b.cay s x).1 = .imaginaryTypeI ∧ b.st s (b.cay s x).2 = .imaginaryTypeI ∧
      b.cross s (b.cay s x).1 = (b.cay s x).2 ∧ b.cross s (b.cay s x).2 = (b.cay s x).1 ∧
      b.len x = b.len (b.cay s x).1 + 1 ∧ b.len x = b.len (b.cay s x).2 + 1 ∧
      (b.cay s (b.cay s x).1).1 = x ∧ (b.cay s (b.cay s x).2).1 = x
  | .imaginaryTypeII => (b.cay s x).1 ≠ (b.cay s x).2 ∧
      b.st s (b.cay s x).1 = .realTypeII ∧ b.st s (b.cay s x).2 = .realTypeII ∧
      b.cross s (b.cay s x).1 = (b.cay s x).2 ∧ b.cross s (b.cay s x).2 = (b.cay s x).1 ∧
      b.len (b.cay s x).1 = b.len x + 1 ∧ b.len (b.cay s x).2 = b.len x + 1 ∧
      (b.cay s (b.cay s x).1).1 = x ∧ (b.cay s (b.cay s x).2).1 = x
  | .realTypeII => b.st s (b.cross s x) = .realTypeII ∧ b.cross s x ≠ x ∧
      b.cross s (b.cross s x) = x ∧ b.len (b.cross s x) = b.len x ∧
      b.st s (b.cay s x).1 = .imaginaryTypeII ∧ b.len x = b.len (b.cay s x).1 + 1 ∧
      (b.cay s (b.cross s x)).1 = (b.cay s x).1 ∧
      (b.cay s (b.cay s x).1 = (x, b.cross s x) ∨ b.cay s (b.cay s x).1 = (b.cross s x, x))
  | .imaginaryCompact | .realNonparity => True

def Blk.WF {B : Type} (b : Blk B) : Prop := ∀ s, s < b.rank → ∀ x, b.Rel s x

/-- the ring of scalars `ℤ[q,q⁻¹]` -/
abbrev L := LaurentPolynomial ℤ

/-- the indeterminate -/
noncomputable abbrev q : L := LaurentPolynomial.T 1

/-- the Hecke module: combinations of the standard basis `t_x`, `x ∈ B` -/
abbrev Mod (B : Type) := B → L

/-- the action of the generator `T_s`, given by the coefficient of each `t_x` in `T_s m`.  It is
the transpose of the usual table
`C+`: `T t_x = t_{sx}`,                    `C-`: `T t_x = q t_{sx} + (q-1) t_x`,
`i1`: `T t_x = t_{s×x} + t_{x'}`,          `r1`: `T t_x = (q-1)(t_{x'}+t_{x''}) + (q-2) t_x`,
`i2`: `T t_x = t_x + t_{x'} + t_{x''}`,    `r2`: `T t_x = (q-1) t_{x'} + (q-1) t_x - t_{s×x}`,
`ic`: `T t_x = q t_x`,                     `rn`: `T t_x = -t_x`. -/
noncomputable def Blk.T {B : Type} (b : Blk B) (s : ℕ) (m : Mod B) : Mod B := fun x =>
  match b.st s x with
  | .complexAscent => q * m (b.cross s x)
  | .complexDescent => m (b.cross s x) + (q - 1) * m x
  | .imaginaryTypeI => m (b.cross s x) + (q - 1) * m (b.cay s x).1
  | .realTypeI => m (b.cay s x).1 + m (b.cay s x).2 + (q - 2) * m x
  | .imaginaryTypeII => m x + (q - 1) * (m (b.cay s x).1 + m (b.cay s x).2)
  | .realTypeII => m (b.cay s x).1 + (q - 1) * m x - m (b.cross s x)
  | .imaginaryCompact => q * m x
  | .realNonparity => - m x

/-- the basis vector `t_x` -/
noncomputable def basis {B : Type} [DecidableEq B] (x : B) : Mod B := Pi.single x 1

/-- a duality of the Hecke module: semilinear for the involution `q ↦ q⁻¹`, compatible with
`T_s ↦ T_s⁻¹ = q⁻¹(T_s - (q-1))`, and unitriangular up to powers of `q` -/
structure IsDuality {B : Type} [DecidableEq B] (b : Blk B) (D : Mod B → Mod B) : Prop where
  add : ∀ m n, D (m + n) = D m + D n
  smul : ∀ (a : L) m, D (a • m) = LaurentPolynomial.invert a • D m
  hecke : ∀ s, s < b.rank → ∀ m, q • D (b.T s m) = b.T s (D m) - (q - 1) • D m
  diag : ∀ x, D (basis x) x = LaurentPolynomial.T (-(b.len x : ℤ))
  tri : ∀ x z, D (basis x) z ≠ 0 → z = x ∨ b.len z < b.len x

/-- a polynomial with natural coefficients as an element of `ℤ[q,q⁻¹]` -/
noncomputable def toL : ℕ[X] →+* L :=
  (Polynomial.toLaurent (R := ℤ)).comp (Polynomial.mapRingHom (Nat.castRingHom ℤ))

/-- `C_y = Σ_x P_{x,y} t_x` -/
noncomputable def cvec {B : Type} (P : B → B → ℕ[X]) (y : B) : Mod B := fun x => toL (P x y)

/-- `P` is the family of Kazhdan-Lusztig-Vogan polynomials of the block: `P_{y,y} = 1`, any other
`P_{x,y}` has degree at most `(l(y)-l(x)-1)/2` (so it is zero unless `l(x) < l(y)`), and the
element `C_y` is dual to itself.  That the coefficients are natural numbers is a theorem of
Lusztig and Vogan; it is part of this definition through the type of `P`. -/
structure IsKLV {B : Type} [DecidableEq B] (b : Blk B) (D : Mod B → Mod B) (P : B → B → ℕ[X]) :
    Prop where
  one : ∀ y : B, P y y = 1
  deg : ∀ x y : B, x ≠ y → ∀ i, (P x y).coeff i ≠ 0 → 2 * i + 1 + b.len x ≤ b.len y
  dual : ∀ y : B, D (cvec P y) = (LaurentPolynomial.T (-(b.len y : ℤ)) : L) • cvec P y

/-- the coefficient of the extremal degree `(l(y)-l(x)-1)/2` of `P_{x,y}`, zero if this is not an
integer or if `l(x) ≥ l(y)` -/
noncomputable def mu {B : Type} (b : Blk B) (P : B → B → ℕ[X]) (x y : B) : ℕ :=
  if b.len x < b.len y ∧ (b.len y - b.len x) % 2 = 1 then
    (P x y).coeff ((b.len y - b.len x - 1) / 2) else 0

end Verif.KL
