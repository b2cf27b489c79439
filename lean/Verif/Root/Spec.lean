import Verif.Root.Access
import Verif.Weyl.Spec
import Mathlib.Algebra.BigOperators.Fin
/-
What is expected of root systems.  Roots are vectors of coefficients on the simple roots, coroots are vectors of coefficients on the simple
coroots, and everything is defined from the Cartan matrix `C`, where `C i j` is the value of the simple coroot `j` on the simple root `i`.
-/
namespace Verif.Root.Spec
variable {rk : Nat}

/-- the simple root (or coroot) `s` -/
def unit (s : Fin rk) : Fin rk → ℤ := fun i => if i = s then 1 else 0

/-- value of the coroot `y` on the root `x` -/
def pair (C : Fin rk → Fin rk → ℤ) (x y : Fin rk → ℤ) : ℤ := ∑ i, ∑ j, x i * C i j * y j

/-- Pairs of a root and its coroot: the simple ones, and what is obtained from them by simple reflections. -/
inductive IsRoot (C : Fin rk → Fin rk → ℤ) : (Fin rk → ℤ) → (Fin rk → ℤ) → Prop
  | simple (s : Fin rk) : IsRoot C (unit s) (unit s)
  | reflect (s : Fin rk) {x y : Fin rk → ℤ} : IsRoot C x y →
      IsRoot C (fun i => x i - pair C x (unit s) * unit s i) (fun i => y i - pair C (unit s) y * unit s i)

/-- sum of the coefficients -/
def level (x : Fin rk → ℤ) : ℤ := ∑ i, x i

/-- the order of vectors of the same level: compare at the last index where they differ -/
def lastLess (x y : Fin rk → ℤ) : Prop := ∃ i, x i < y i ∧ ∀ j, i < j → x j = y j

/-- `R` and `R'` number the roots and the coroots from `0` to `2N-1`. -/
structure Numbering (C : Fin rk → Fin rk → ℤ) (preferCo : Bool) (N : Nat) (R R' : Nat → Fin rk → ℤ) : Prop where
  root : ∀ k < 2 * N, IsRoot C (R k) (R' k)
  inj : ∀ k < 2 * N, ∀ l < 2 * N, R k = R l → k = l
  surj : ∀ x y, IsRoot C x y → ∃ k < 2 * N, R k = x ∧ R' k = y
  /-- positive roots are in the second half, and the others are negative -/
  pos : ∀ k < 2 * N, N ≤ k → ∀ i, 0 ≤ R k i ∧ 0 ≤ R' k i
  neg : ∀ k < 2 * N, (∀ i, R (2 * N - 1 - k) i = -R k i) ∧ ∀ i, R' (2 * N - 1 - k) i = -R' k i
  simple : rk ≤ N ∧ ∀ i : Fin rk, R (N + i) = unit i ∧ R' (N + i) = unit i
  /-- positive roots are ordered by level, those of a same level by `lastLess`; if `preferCo` holds then coroots are compared, not roots -/
  order : ∀ k l, N ≤ k → k < l → l < 2 * N →
    if preferCo then level (R' k) < level (R' l) ∨ level (R' k) = level (R' l) ∧ lastLess (R' k) (R' l)
    else level (R k) < level (R l) ∨ level (R k) = level (R l) ∧ lastLess (R k) (R l)

/-- `b` is the list of the bits of a set -/
def Bits (b : List Bool) (n : Nat) (P : Nat → Prop) : Prop := b.length = n ∧ ∀ k < n, RS.bit b k = true ↔ P k

/-- The accessors of the root system `rs` give what they should. -/
structure Answers (nd : Bool) (C : Fin rk → Fin rk → ℤ) (preferCo : Bool) (N : Nat) (R R' : Nat → Fin rk → ℤ) (rs : RS) : Prop where
  rank : rs.rk = rk
  prefers : rs.preferCo = preferCo
  cartan : rs.cmat = List.ofFn fun i => List.ofFn (C i)
  numPos : rs.numPos = N
  numRoots : rs.numRoots = 2 * N
  isPos : ∀ k < 2 * N, rs.isPos k = true ↔ ∀ i, 0 ≤ R k i
  isNeg : ∀ k < 2 * N, rs.isNeg k = true ↔ ∀ i, R k i ≤ 0
  isSimple : ∀ k < 2 * N, rs.isSimple k = true ↔ ∃ i, R k = unit i
  minus : ∀ k < 2 * N, rs.minus k < 2 * N ∧ ∀ i, R (rs.minus k) i = -R k i
  simpleNbr : ∀ i : Fin rk, rs.simpleNbr nd i = .ok (N + i)
  posNbr : ∀ k < N, rs.posNbr nd k = .ok (N + k)
  negNbr : ∀ k < N, ∃ l < 2 * N, rs.negNbr nd k = .ok l ∧ ∀ i, R l i = -R (N + k) i
  rootCoef : ∀ k < 2 * N, ∀ i : Fin rk, rs.rootCoef k i = .ok (R k i)
  corootCoef : ∀ k < 2 * N, ∀ i : Fin rk, rs.corootCoef k i = .ok (R' k i)
  rootExpr : ∀ k < 2 * N, rs.rootExpr k = .ok (List.ofFn (R k))
  corootExpr : ∀ k < 2 * N, rs.corootExpr k = .ok (List.ofFn (R' k))
  level : ∀ k < 2 * N, rs.level k = .ok (Spec.level (R k))
  colevel : ∀ k < 2 * N, rs.colevel k = .ok (Spec.level (R' k))
  bracket : ∀ k < 2 * N, ∀ l < 2 * N, rs.bracket k l = .ok (pair C (R k) (R' l))
  isOrthogonal : ∀ k < 2 * N, ∀ l < 2 * N, ∃ b, rs.isOrthogonal k l = .ok b ∧ (b = true ↔ pair C (R k) (R' l) = 0)
  subCartan : ∀ rb : List Nat, (∀ k ∈ rb, k < 2 * N) → rs.subCartan rb = .ok (rb.map fun k => rb.map fun l => pair C (R k) (R' l))
  /-- the reflection in the root `k` sends the root `l` to the root `m`, and its coroot to the coroot `m` -/
  reflected : ∀ k < 2 * N, ∀ l < 2 * N, ∃ m < 2 * N, rs.reflected k l = .ok m ∧ (∀ i, R m i = R l i - pair C (R l) (R' k) * R k i) ∧
    ∀ i, R' m i = R' l i - pair C (R k) (R' l) * R' k i
  simpleReflected : ∀ s : Fin rk, ∀ l < 2 * N, ∃ m < 2 * N, rs.simpleReflected s l = .ok m ∧ (∀ i, R m i = R l i - pair C (R l) (unit s) * unit s i) ∧
    ∀ i, R' m i = R' l i - pair C (unit s) (R' l) * unit s i
  descents : ∀ k < 2 * N, ∃ b, rs.descentSet k = .ok b ∧ Bits b 32 fun j => ∃ hj : j < rk, 0 < pair C (R k) (unit ⟨j, hj⟩)
  ascents : ∀ k < 2 * N, ∃ b, rs.ascentSet k = .ok b ∧ Bits b 32 fun j => ∃ hj : j < rk, pair C (R k) (unit ⟨j, hj⟩) < 0
  isDescent : ∀ s : Fin rk, ∀ k < 2 * N, ∃ b, rs.isDescent s k = .ok b ∧ (b = true ↔ 0 < pair C (R k) (unit s))
  isAscent : ∀ s : Fin rk, ∀ k < 2 * N, ∃ b, rs.isAscent s k = .ok b ∧ (b = true ↔ pair C (R k) (unit s) < 0)
  sumIsRoot : ∀ k < 2 * N, ∀ l < 2 * N, ∃ b, rs.sumIsRoot k l = .ok b ∧ (b = true ↔ ∃ m < 2 * N, ∀ i, R m i = R k i + R l i)
  sumIsCoroot : ∀ k < 2 * N, ∀ l < 2 * N, ∃ b, rs.sumIsCoroot k l = .ok b ∧ (b = true ↔ ∃ m < 2 * N, ∀ i, R' m i = R' k i + R' l i)
  simpleSet : Bits rs.simpleSet (2 * N) fun k => ∃ i, R k = unit i
  posSet : Bits rs.posSet (2 * N) fun k => ∀ i, 0 ≤ R k i
  simpleList : rs.simpleList nd = .ok ((List.range rk).map (N + ·))
  /-- the simple roots, and the negative roots whose coroots are lowest -/
  walls : ∃ b, rs.walls nd = .ok b ∧ Bits b (2 * N) fun k => (∃ i, R k = unit i) ∨
    (∀ i, R k i ≤ 0) ∧ ∀ s, ¬ ∃ m < 2 * N, ∀ i, R' m i = R' k i - unit s i
  /-- the dominant roots, from the last to the first -/
  highRoots : ∃ l, rs.highRoots = .ok l ∧ l.Pairwise (· > ·) ∧ ∀ k, k ∈ l ↔ k < 2 * N ∧ (∀ i, 0 ≤ R k i) ∧ ∀ s, 0 ≤ pair C (R k) (unit s)

/-- `C` is a Cartan matrix of finite type, with Dynkin diagram described by `comps` -/
structure Cartan (C : Fin rk → Fin rk → ℤ) (comps : List Weyl.Comp) : Prop where
  dynkin : Weyl.IsDynkin rk C comps
  diag : ∀ s, C s s = 2
  nonpos : ∀ s t, s ≠ t → C s t ≤ 0
  zero : ∀ s t, C s t = 0 → C t s = 0

/-- objects obtained by calling the constructors -/
inductive Built (nd : Bool) : (Fin rk → Fin rk → ℤ) → Bool → RS → Prop
  | make {C : Fin rk → Fin rk → ℤ} {preferCo : Bool} {rs : RS} : RS.make nd (List.ofFn fun i => List.ofFn (C i)) preferCo = .ok rs → Built nd C preferCo rs
  | dual {C : Fin rk → Fin rk → ℤ} {preferCo : Bool} {rs rs' : RS} : Built nd C preferCo rs → RS.dual rs = .ok rs' → Built nd (fun i j => C j i) (!preferCo) rs'

end Verif.Root.Spec
