import Verif.Vec
import Mathlib.Algebra.Ring.Defs
import Mathlib.Algebra.Ring.Int.Defs
/-
Model of `Polynomial<C>` and `Safe_Poly<C>`, sources/utilities/polynomials.h and
sources/utilities/polynomials_def.h.

A polynomial is the list of its coefficients (the only data member `d_data`), constant
coefficient first.

Simplifications.  For `Polynomial<C>` the coefficient type is an arbitrary commutative ring
`R` with decidable equality; so for signed `C` the model describes calls in which no
coefficient operation overflows, and for unsigned `C` it is exact with `R` the integers
modulo `2^w`.  Division of coefficients (`operator/=`) is modelled for integers only.
For `Safe_Poly<C>` the coefficients are natural numbers below `M`, where `M-1` is
`std::numeric_limits<C>::max()`, and overflow is modelled.
`Degree` (an unsigned type) is a natural number: sums of degrees are assumed not to wrap.
Forming pointers one before or one past the end of `d_data` is not counted as undefined,
accessing such an element is.
-/
namespace Verif.Poly

open Verif

/-- `resize(n)`, only called to enlarge: polynomials.h 162 -/
def extend {S : Type} [Zero S] (l : List S) (n : Nat) : List S := l ++ List.replicate (n - l.length) 0

/-- one test of the loop in `adjustSize`, on the reversed vector -/
def dropZeros {S : Type} [Zero S] [DecidableEq S] : List S → List S
  | [] => []
  | a :: l => if a = 0 then dropZeros l else a :: l

/-- `Polynomial::adjustSize`, polynomials_def.h 104-110: pop zero coefficients off the end -/
def adjustSize {S : Type} [Zero S] [DecidableEq S] (l : List S) : List S := (dropZeros l.reverse).reverse

section Ring
variable {R : Type} [CommRing R] [DecidableEq R]

/-- a loop `for (j=n; j-->0; )` with body `f j` acting on a vector -/
def downLoop {S : Type} (f : Nat → S → Res S) : Nat → S → Res S
  | 0, l => .ok l
  | n+1, l => do downLoop f n (← f n l)

/-- a loop over `n` successive indices `a, a+1, …` with body `f i` acting on a state -/
def upLoop {S : Type} (f : Nat → S → Res S) : Nat → Nat → S → Res S
  | _, 0, l => .ok l
  | a, n+1, l => do upLoop f (a+1) n (← f a l)

/-- `Polynomial(C c)`, polynomials_def.h 48-53 -/
def const (c : R) : List R := if c ≠ 0 then [c] else []

/-- `Polynomial(Degree d, C c)`, polynomials_def.h 62-67 -/
def monomial (ndebug : Bool) (d : Nat) (c : R) : Res (List R) := do
  Res.assertIn ndebug (decide (c ≠ 0))
  Vec.put (List.replicate (d+1) 0) d c

/-- `Polynomial(Degree d, const Polynomial& Q)`, polynomials_def.h 70-79 -/
def shift (d : Nat) (q : List R) : List R :=
  if q.length = 0 then [] else List.replicate d 0 ++ q

/-- `Polynomial::operator[]`, polynomials_def.h 83-87 -/
def at' (ndebug : Bool) (p : List R) (i : Nat) : Res R := do
  Res.assertIn ndebug (decide (i < p.length))
  Vec.get p i

/-- `Polynomial::coef`, polynomials.h 88 -/
def coef (p : List R) (i : Nat) : R := if i ≥ p.length then 0 else p.getD i 0

/-- `Polynomial::operator+=`, polynomials_def.h 112-128.  When `same` holds, `q` is the
object `*this` itself, so that coefficients are read from the vector being modified. -/
def addAssign (same : Bool) (p q : List R) : Res (List R) :=
  if q.length = 0 then .ok p else do
    let p := if q.length > p.length then extend p q.length else p
    let r ← downLoop (fun j l => do
      let x ← Vec.get l j
      let y ← Vec.get (if same then l else q) j
      Vec.put l j (x + y)) q.length p
    .ok (adjustSize r)

/-- `Polynomial::operator-=`, polynomials_def.h 130-144 -/
def subAssign (same : Bool) (p q : List R) : Res (List R) :=
  if q.length = 0 then .ok p else do
    let p := if q.length > p.length then extend p q.length else p
    let r ← downLoop (fun j l => do
      let x ← Vec.get l j
      let y ← Vec.get (if same then l else q) j
      Vec.put l j (x - y)) q.length p
    .ok (adjustSize r)

/-- `Polynomial::subtract_from`, polynomials_def.h 146-161 (`*this = p - *this`); the first
loop runs from the end of `d_data` down to index `p.size()` -/
def subtractFrom (t p : List R) : Res (List R) := do
  let t := if p.length > t.length then extend t p.length else t
  let t ← downLoop (fun j l => do
    let x ← Vec.get l (p.length + j)
    Vec.put l (p.length + j) (-x)) (t.length - p.length) t
  let t ← downLoop (fun j l => do
    let x ← Vec.get p j
    let y ← Vec.get l j
    Vec.put l j (x - y)) p.length t
  .ok (adjustSize t)

/-- `Polynomial::operator*=(C c)`, polynomials_def.h 163-171 -/
def scale (p : List R) (c : R) : Res (List R) :=
  if c = 0 then .ok [] else
    downLoop (fun j l => do
      let x ← Vec.get l j
      Vec.put l j (x * c)) p.length p

/-- `Polynomial::operator*`, polynomials_def.h 187-205 -/
def mul (p q : List R) : Res (List R) :=
  if p.length = 0 ∨ q.length = 0 then .ok [] else
    -- a vector of degree()+q.degree()+1 zeros: the leading 1 is cleared again
    let z := List.replicate ((p.length - 1) + (q.length - 1) + 1) (0 : R)
    downLoop (fun j r => do
      let c ← Vec.get p j
      downLoop (fun i r => do
        let x ← Vec.get r (i + j)
        let y ← Vec.get q i
        Vec.put r (i + j) (x + c * y)) q.length r) p.length z

/-- `Polynomial::operator+`, polynomials.h 140-144 -/
def add (p q : List R) : Res (List R) :=
  if p.length ≥ q.length then addAssign false p q else addAssign false q p

/-- `Polynomial::operator-`, polynomials.h 145-149 -/
def sub (p q : List R) : Res (List R) :=
  if p.length ≥ q.length then subAssign false p q
  else do addAssign false (← scale q (-1)) p

/-- unary `Polynomial::operator-`, polynomials.h 150 -/
def neg (p : List R) : Res (List R) := scale p (-1)

/-- `Polynomial::up_remainder`, polynomials_def.h 208-217 -/
def upRemainder (ndebug : Bool) (p : List R) (c : R) (d : Nat) : Res R :=
  if p.length = 0 then .ok 0 else do
    Res.assertIn ndebug (decide (p.length - 1 ≤ d))
    let r0 ← Vec.get p 0
    upLoop (fun i r => .ok (coef p i - c * r)) 1 d r0

/-- `Polynomial::factor_by_1_plus_q`, polynomials_def.h 220-233: the value returned and the
polynomial left behind -/
def factor1 (ndebug : Bool) (p : List R) (d : Nat) : Res (R × List R) :=
  if p.length = 0 then .ok (0, p) else do
    Res.assertIn ndebug (decide (p.length - 1 ≤ d))
    let p := if d > p.length - 1 then extend p (d+1) else p
    let r0 ← Vec.get p 0
    let (r, p) ← upLoop (fun i (s : R × List R) => do
      let x ← Vec.get s.2 i
      let l ← Vec.put s.2 i (x - s.1)
      .ok (x - s.1, l)) 1 d (r0, p)
    let p ← Vec.put p d 0
    .ok (r, adjustSize p)

/-- `Polynomial::factor_by_1_plus_q_to_the`, polynomials_def.h 240-255.  In the second loop the
index `d-i` is computed in an unsigned type: when `i>d` it is far out of range. -/
def factorK (ndebug : Bool) (p : List R) (k d : Nat) : Res (R × List R) :=
  if p.length = 0 then .ok (0, p) else do
    Res.assertIn ndebug (decide (p.length - 1 ≤ d))
    let p := if d > p.length - 1 then extend p (d+1) else p
    let p ← upLoop (fun i l => do
      let x ← Vec.get l i
      let y ← Vec.get l (i - k)
      Vec.put l i (x - y)) k (d + 1 - k) p
    let r ← Vec.get p d
    let p ← downLoop (fun i l => if i > d then .undefined else Vec.put l (d - i) 0) k p
    .ok (r, adjustSize p)

/-- `Polynomial::multi_term`, polynomials_def.h 257-266, the loop -/
def multiLoop (p : List R) : Nat → Bool
  | 0 => false
  | i+1 => if p.getD i 0 ≠ 0 then true else multiLoop p i

/-- `Polynomial::multi_term`, polynomials_def.h 257-266 -/
def multiTerm (p : List R) : Bool := if p.length = 0 then false else multiLoop p (p.length - 1)

end Ring

/-- `compare(p,q)`, polynomials_def.h 274-287, the loop over coefficients -/
def compareLoop (p q : List Int) : Nat → Bool
  | 0 => false
  | j+1 => if p.getD j 0 ≠ q.getD j 0 then decide (p.getD j 0 < q.getD j 0) else compareLoop p q j

/-- `compare(p,q)`, polynomials_def.h 274-287 -/
def compare (p q : List Int) : Bool :=
  if p.length ≠ q.length then decide (p.length < q.length) else compareLoop p q p.length

/-- `Polynomial::operator/=`, polynomials_def.h 173-185, for integer coefficients.  The
result tells whether an exception was thrown, and gives the polynomial left behind. -/
def divLoop (c : Int) : Nat → List Int → Bool × List Int
  | 0, l => (false, l)
  | j+1, l =>
    if (l.getD j 0).tmod c = 0 then divLoop c j (l.set j ((l.getD j 0).tdiv c)) else (true, l)

/-- `Polynomial::operator/=`, polynomials_def.h 173-185 -/
def divAssign (p : List Int) (c : Int) : Bool × List Int :=
  if c = 0 then (true, p) else divLoop c p.length p

/-! ### `Safe_Poly` -/

/-- `safe_add`, polynomials_def.h 346-351; `none` stands for the exception -/
def safeAddC (M a b : Nat) : Option Nat := if b > (M - 1) - a then none else some (a + b)

/-- `safe_multiply`, polynomials_def.h 367-375 -/
def safeMulC (M a b : Nat) : Option Nat :=
  if a = 0 then some a else if b > (M - 1) / a then none else some (a * b)

/-- `safe_subtract`, polynomials_def.h 354-360; without assertions the difference wraps -/
def safeSubC (ndebug : Bool) (M a b : Nat) : Res Nat := do
  Res.assertIn ndebug (decide (a ≥ b))
  .ok ((a + M - b) % M)

/-- `safe_divide`, polynomials_def.h 377-382 -/
def safeDivC (ndebug : Bool) (a b : Nat) : Res Nat := do
  Res.assertIn ndebug (decide (b ≠ 0))
  Res.assertIn ndebug (decide (a % b = 0))
  if b = 0 then .undefined else .ok (a / b)

/-- the loop of `Safe_Poly::safeAdd`, polynomials_def.h 404-410: the vector left behind, and
whether the loop was left by an exception.  When `same` holds `q` is the object being
modified. -/
def safeAddLoop (M : Nat) (same : Bool) (q : List Nat) (d c : Nat) :
    Nat → List Nat → Bool × List Nat
  | 0, l => (false, l)
  | j+1, l =>
    match safeMulC M ((if same then l else q).getD j 0) c with
    | none => (true, l)
    | some a =>
      match safeAddC M (l.getD (d + j) 0) a with
      | none => (true, l)
      | some s => safeAddLoop M same q d c j (l.set (d + j) s)

/-- `Safe_Poly::safeAdd(q,d,c)`, polynomials_def.h 392-411 -/
def safeAdd (M : Nat) (same : Bool) (p q : List Nat) (d c : Nat) : Bool × List Nat :=
  if q.length = 0 ∨ c = 0 then (false, p)
  else
    safeAddLoop M same q d c q.length
      (if q.length + d > p.length then extend p (q.length + d) else p)

/-- the loop of the simplified `Safe_Poly::safeAdd(q,d)`, polynomials_def.h 428-429 -/
def safeAdd1Loop (M : Nat) (same : Bool) (q : List Nat) (d : Nat) :
    Nat → List Nat → Bool × List Nat
  | 0, l => (false, l)
  | j+1, l =>
    match safeAddC M (l.getD (d + j) 0) ((if same then l else q).getD j 0) with
    | none => (true, l)
    | some s => safeAdd1Loop M same q d j (l.set (d + j) s)

/-- `Safe_Poly::safeAdd(q,d)`, polynomials_def.h 415-430 -/
def safeAdd1 (M : Nat) (same : Bool) (p q : List Nat) (d : Nat) : Bool × List Nat :=
  if q.length = 0 then (false, p)
  else
    safeAdd1Loop M same q d q.length
      (if q.length + d > p.length then extend p (q.length + d) else p)

/-- turn the exception of a coefficient operation into one of the call -/
def orThrow {α : Type} : Option α → Res α
  | none => .throw
  | some a => .ok a

/-- `Safe_Poly::safeSubtract(q,d,c)`, polynomials_def.h 438-458 -/
def safeSubtract (ndebug : Bool) (M : Nat) (same : Bool) (p q : List Nat) (d c : Nat) :
    Res (List Nat) :=
  if q.length = 0 ∨ c = 0 then .ok p else do
    Res.assertIn ndebug (decide (q.length + d ≤ p.length))
    let r ← downLoop (fun j l => do
      let a ← Vec.get (if same then l else q) j
      let a ← orThrow (safeMulC M a c)
      let x ← Vec.get l (d + j)
      let y ← safeSubC ndebug M x a
      Vec.put l (d + j) y) q.length p
    .ok (adjustSize r)

/-- `Safe_Poly::safeSubtract(q,d)`, polynomials_def.h 462-478 -/
def safeSubtract1 (ndebug : Bool) (M : Nat) (same : Bool) (p q : List Nat) (d : Nat) :
    Res (List Nat) :=
  if q.length = 0 then .ok p else do
    Res.assertIn ndebug (decide (q.length + d ≤ p.length))
    let r ← downLoop (fun j l => do
      let a ← Vec.get (if same then l else q) j
      let x ← Vec.get l (d + j)
      let y ← safeSubC ndebug M x a
      Vec.put l (d + j) y) q.length p
    .ok (adjustSize r)

/-- `Safe_Poly::safeDivide`, polynomials_def.h 481-486 -/
def safeDivide (ndebug : Bool) (p : List Nat) (c : Nat) : Res (List Nat) :=
  match p with
  | [] => .ok []
  | a :: l => do
    let b ← safeDivC ndebug a c
    let r ← safeDivide ndebug l c
    .ok (b :: r)

/-- `Safe_Poly::safe_quotient_by_1_plus_q`, polynomials_def.h 512-527 -/
def safeQuotient (ndebug : Bool) (M : Nat) (p : List Nat) (delta : Nat) : Res (List Nat) :=
  if p.length = 0 then .ok p else do
    let r ← upLoop (fun j l => do
      let x ← Vec.get l j
      let y ← Vec.get l (j - 1)
      let z ← safeSubC ndebug M x y
      Vec.put l j z) 1 (p.length - 1) p
    let t ← Vec.get r (r.length - 1)
    (if t = 0 then do
      let r := adjustSize r
      Res.assertIn ndebug (decide (2 * (r.length - 1) + 1 < delta))
      .ok r
    else do
      Res.assertIn ndebug (decide (2 * (r.length - 1) + 1 = delta))
      .ok r)

end Verif.Poly
