import Verif.Common
import Verif.Vec
import Mathlib.Algebra.Ring.Defs
/-
Model of the matrix class: `Vector`, `Matrix_base`, `Matrix` and the storage level part of
`PID_Matrix` (sources/utilities/matrix.h and matrix.cpp).

Simplifications. The entry type is an arbitrary commutative ring `R` with decidable equality: the
C++ classes are templates, used with entries of machine integer type as well as `big_int`,
polynomials and split integers. For machine integers this leaves out overflow, which is undefined
behaviour for the signed types; so with `R = Int` the theorems describe those executions in which
no intermediate value overflows. A constructor that "leaves all entries unset" value-initialises
them in fact, since it calls the `std::vector` constructor with just a size; so they are `0`. The
dimensions are natural numbers, without the bound of the 32 bit type `index_t`, except in the two
places where a product of two values of that type is computed. Pointers to the position just past
the last entry, obtained as `&v[v.size()]`, are accepted. `nd` tells whether the code was compiled
with `NDEBUG`, in which case assertions are not checked.
-/
namespace Verif.Mat

variable {R : Type}

/-! ### loops -/

/-- `for (i=a; i<a+k; ++i) body` -/
def forUp {σ : Type} (body : Nat → σ → Res σ) : Nat → Nat → σ → Res σ
  | 0, _, s => .ok s
  | k + 1, a, s => do
    let s ← body a s
    forUp body k (a + 1) s

/-- `for (i=k; i-->0;) body` -/
def forDown {σ : Type} (body : Nat → σ → Res σ) : Nat → σ → Res σ
  | 0, s => .ok s
  | k + 1, s => do
    let s ← body k s
    forDown body k s

/-- a vector of size `n` filled from left to right, entry `i` getting the value `f i` -/
def tab (n : Nat) (f : Nat → Res R) : Res (List R) :=
  forUp (fun i v => do let x ← f i; pure (v ++ [x])) n 0 []

/-- copying out the range of positions from `a` to before `b` -/
def slice (l : List R) (a b : Nat) : Res (List R) :=
  if a ≤ b ∧ b ≤ l.length then .ok ((l.drop a).take (b - a)) else .undefined

/-- `std::copy(v.begin(),v.end(),&l[a])` -/
def blit (l : List R) (a : Nat) (v : List R) : Res (List R) :=
  if a + v.length ≤ l.length then .ok (l.take a ++ v ++ l.drop (a + v.length)) else .undefined

/-- `l.resize(n,c)` -/
def resize (l : List R) (n : Nat) (c : R) : List R := l.take n ++ List.replicate (n - l.length) c

/-! ### `Vector` -/

/-- `+=` (matrix.cpp L45-54): a loop over our entries, with an iterator running through `v` -/
def vecAdd [Add R] (nd : Bool) (u v : List R) : Res (List R) := do
  Res.assertIn nd (decide (u.length = v.length))
  tab u.length fun i => do pure ((← Vec.get u i) + (← Vec.get v i))

/-- `-=` (matrix.cpp L56-65) -/
def vecSub [Sub R] (nd : Bool) (u v : List R) : Res (List R) := do
  Res.assertIn nd (decide (u.length = v.length))
  tab u.length fun i => do pure ((← Vec.get u i) - (← Vec.get v i))

/-- `negate_add` (matrix.cpp L67-76) -/
def vecNegAdd [Sub R] (nd : Bool) (u v : List R) : Res (List R) := do
  Res.assertIn nd (decide (u.length = v.length))
  tab u.length fun i => do pure ((← Vec.get v i) - (← Vec.get u i))

/-- `*=` by a scalar (matrix.cpp L78-85) -/
def vecScale [Mul R] (u : List R) (c : R) : Res (List R) :=
  tab u.length fun i => do pure ((← Vec.get u i) * c)

/-- `negate` (matrix.cpp L130-136) -/
def vecNeg [Neg R] (u : List R) : Res (List R) :=
  tab u.length fun i => do pure (-(← Vec.get u i))

/-- `is_zero` (matrix.cpp L138-145) -/
def vecIsZero [Zero R] [DecidableEq R] : List R → Bool
  | [] => true
  | x :: l => if x ≠ 0 then false else vecIsZero l

/-- `add` (matrix.h L115-121), for an iterator `b` into a vector of which `v` is the part from `b` on -/
def vecAddMul [CommRing R] [DecidableEq R] (u v : List R) (c : R) : Res (List R) :=
  if c ≠ 0 then tab u.length fun i => do pure ((← Vec.get u i) + (← Vec.get v i) * c) else .ok u

/-- `subtract` (matrix.h L122) -/
def vecSubMul [CommRing R] [DecidableEq R] (u v : List R) (c : R) : Res (List R) := vecAddMul u v (-c)

/-- `dot` (matrix.h L125-132) -/
def dot [CommRing R] (nd : Bool) (u v : List R) : Res R := do
  Res.assertIn nd (decide (u.length = v.length))
  forUp (fun i c => do pure (c + (← Vec.get u i) * (← Vec.get v i))) u.length 0 0

/-- `/=` for integers (matrix.cpp L87-101): exact division, by the C++ operators `%` and `/` -/
def vecDivExact (v : List Int) (c : Int) : Res (List Int) :=
  if c = 0 then .throw
  else tab v.length fun i => do
    let x ← Vec.get v i
    if x.tmod c = 0 then pure (x.tdiv c) else .throw

/-- `divide` for integers (matrix.cpp L103-117); for the division function see C13 -/
def vecDivide (v : List Int) (c : Int) : Res (List Int) :=
  if c = 0 then .throw
  else if c > 0 then tab v.length fun i => do pure ((← Vec.get v i).fdiv c)
  else tab v.length fun i => do pure (-((← Vec.get v i).fdiv (-c)))

/-- `%=` for integers (matrix.cpp L119-128); for the remainder function see C13 -/
def vecMod (v : List Int) (c : Int) : Res (List Int) :=
  if c = 0 then .throw
  else tab v.length fun i => do pure ((← Vec.get v i).fmod (c.natAbs : Int))

/-! ### `Matrix_base` -/

/-- the data members of `Matrix_base` (matrix.h L187-192) -/
structure Mat (R : Type) where
  rows : Nat
  cols : Nat
  data : List R
  deriving DecidableEq, Repr

/-- `operator()` for reading (matrix.h L225-226) -/
def Mat.get (M : Mat R) (i j : Nat) : Res R := Vec.get M.data (i * M.cols + j)

/-- `operator()` for assigning to (matrix.h L252-253) -/
def Mat.set (M : Mat R) (i j : Nat) (x : R) : Res (Mat R) := do
  let d ← Vec.put M.data (i * M.cols + j) x
  pure { M with data := d }

/-- constructor filling with `c` (matrix.h L201-202) -/
def filled (m n : Nat) (c : R) : Mat R := ⟨m, n, List.replicate (m * n) c⟩

/-- constructor from dimensions (matrix.h L199-200) -/
def blank [Zero R] (m n : Nat) : Mat R := filled m n 0

/-- `Vector::row_matrix` (matrix.cpp L147-156) -/
def rowMatrix [Zero R] (v : List R) : Res (Mat R) :=
  forUp (fun j M => do M.set 0 j (← Vec.get v j)) v.length 0 (blank 1 v.length)

/-- `Vector::column_matrix` (matrix.cpp L158-167) -/
def columnMatrix [Zero R] (v : List R) : Res (Mat R) :=
  forUp (fun i M => do M.set i 0 (← Vec.get v i)) v.length 0 (blank v.length 1)

/-- the identity matrix (matrix.cpp L180-185) -/
def identity [CommRing R] (n : Nat) : Res (Mat R) :=
  forUp (fun i M => M.set i i 1) n 0 (filled n n 0)

/-- `set_column` (matrix.cpp L308-316) -/
def setColumn (nd : Bool) (M : Mat R) (j : Nat) (v : List R) : Res (Mat R) := do
  Res.assertIn nd (decide (v.length = M.rows))
  forUp (fun i M => do M.set i j (← Vec.get v i)) M.rows 0 M

/-- constructor from a list of columns (matrix.cpp L187-199) -/
def ofColumns [Zero R] (nd : Bool) (b : List (List R)) (m : Nat) : Res (Mat R) :=
  forUp (fun j M => do setColumn nd M j (← Vec.get b j)) b.length 0 (blank m b.length)

/-- constructor from an iterator range of columns (matrix.h L207-216) -/
def ofColumnRange [Zero R] (b : List (List R)) (m : Nat) : Res (Mat R) :=
  forUp (fun j M => forUp (fun i M => do M.set i j (← Vec.get (← Vec.get b j) i)) m 0 M) b.length 0
    (blank m b.length)

/-- `row` (matrix.h L231) -/
def row (M : Mat R) (i : Nat) : Res (List R) := slice M.data (i * M.cols) ((i + 1) * M.cols)

/-- `get_row` (matrix.cpp L211-218) -/
def getRow (nd : Bool) (M : Mat R) (i : Nat) : Res (List R) := do
  Res.assertIn nd (decide (i < M.rows))
  row M i

/-- `get_column` and `column` (matrix.cpp L220-229, matrix.h L233-234) -/
def column (nd : Bool) (M : Mat R) (j : Nat) : Res (List R) := do
  Res.assertIn nd (decide (j < M.cols))
  tab M.rows fun i => M.get i j

/-- `rows` (matrix.cpp L231-239) -/
def allRows (nd : Bool) (M : Mat R) : Res (List (List R)) := tab M.rows fun i => getRow nd M i

/-- `columns` (matrix.cpp L241-251) -/
def allColumns (nd : Bool) (M : Mat R) : Res (List (List R)) := tab M.cols fun j => column nd M j

/-- `partial_row` (matrix.h L237-238) -/
def partialRow (M : Mat R) (i j l : Nat) : Res (List R) := slice M.data (i * M.cols + j) (i * M.cols + l)

/-- `partial_column` (matrix.h L239-244); for `k<i` the size would be some huge number -/
def partialColumn (M : Mat R) (j i k : Nat) : Res (List R) :=
  if k < i then .undefined else tab (k - i) fun t => M.get (i + t) j

/-- `==` (matrix.cpp L253-257) -/
def Mat.eq [DecidableEq R] (A B : Mat R) : Bool :=
  decide (A.rows = B.rows) && decide (A.cols = B.cols) && decide (A.data = B.data)

/-- `is_zero` (matrix.cpp L259-267) -/
def isZero [Zero R] [DecidableEq R] (M : Mat R) : Bool := vecIsZero M.data

/-- `set_row` (matrix.cpp L300-306) -/
def setRow (nd : Bool) (M : Mat R) (i : Nat) (v : List R) : Res (Mat R) := do
  Res.assertIn nd (decide (v.length = M.cols))
  let v ← slice v 0 M.cols
  let d ← blit M.data (i * M.cols) v
  pure { M with data := d }

/-- `add_row` (matrix.cpp L318-328); the new size is a product of 32 bit numbers -/
def addRow [Zero R] (nd : Bool) (M : Mat R) (v : List R) : Res (Mat R) := do
  Res.assertIn nd (decide (v.length = M.cols))
  let rows := M.rows + 1
  let d := resize M.data (rows * M.cols % 2 ^ 32) 0
  let d ← blit d ((rows - 1) * M.cols) v
  pure ⟨rows, M.cols, d⟩

/-- the inner loop of `add_column` (matrix.cpp L344-345); the state consists of the data and the
positions `dst` and `src`, for which going before the start is undefined -/
def shiftRow : Nat → List R × Nat × Nat → Res (List R × Nat × Nat)
  | 0, s => .ok s
  | k + 1, (d, dst, src) =>
    if dst = 0 ∨ src = 0 then .undefined
    else do
      let x ← Vec.get d (src - 1)
      let d ← Vec.put d (dst - 1) x
      shiftRow k (d, dst - 1, src - 1)

/-- `add_column` (matrix.cpp L330-347) -/
def addColumn [Zero R] (nd : Bool) (M : Mat R) (v : List R) : Res (Mat R) := do
  Res.assertIn nd (decide (v.length = M.rows))
  let oldCol := M.cols
  let cols := M.cols + 1
  let d := resize M.data (M.rows * cols % 2 ^ 32) 0
  if d.length < M.rows then .undefined
  else do
    let s ← forDown (fun i (s : List R × Nat × Nat) =>
      if s.2.1 = 0 then .undefined
      else do
        let d ← Vec.put s.1 (s.2.1 - 1) (← Vec.get v i)
        shiftRow oldCol (d, s.2.1 - 1, s.2.2)) M.rows (d, d.length, d.length - M.rows)
    pure ⟨M.rows, cols, s.1⟩

/-- `get_block` (matrix.cpp L349-359): `dst` is filled by successive slices of our rows -/
def getBlock (nd : Bool) (M dst : Mat R) (k l : Nat) : Res (Mat R) := do
  Res.assertIn nd (decide (k + dst.rows ≤ M.rows) && decide (l + dst.cols ≤ M.cols))
  let s ← forUp (fun i (s : List R × Nat) => do
    let x ← slice M.data (i * M.cols + l) (i * M.cols + (l + dst.cols))
    let d ← blit s.1 s.2 x
    pure (d, s.2 + x.length)) dst.rows k (dst.data, 0)
  pure { dst with data := s.1 }

/-- `set_block` (matrix.cpp L361-370) -/
def setBlock (nd : Bool) (M : Mat R) (k l : Nat) (src : Mat R) : Res (Mat R) := do
  Res.assertIn nd (decide (k + src.rows ≤ M.rows) && decide (l + src.cols ≤ M.cols))
  let d ← forUp (fun i d => do
    let x ← slice src.data (i * src.cols) ((i + 1) * src.cols)
    blit d ((k + i) * M.cols + l) x) src.rows 0 M.data
  pure { M with data := d }

/-- `eraseRow` (matrix.cpp L605-612); the position is a product of 32 bit numbers -/
def eraseRow (nd : Bool) (M : Mat R) (i : Nat) : Res (Mat R) := do
  Res.assertIn nd (decide (i < M.rows))
  let first := i * M.cols % 2 ^ 32
  if M.data.length < first + M.cols then .undefined
  else pure ⟨M.rows - 1, M.cols, M.data.take first ++ M.data.drop (first + M.cols)⟩

/-- `eraseColumn` (matrix.cpp L614-626) -/
def eraseColumn (nd : Bool) (M : Mat R) (j : Nat) : Res (Mat R) := do
  Res.assertIn nd (decide (j < M.cols))
  let cols := M.cols - 1
  let s ← forUp (fun _ (s : List R × Nat) =>
    if s.2 < s.1.length then (.ok (s.1.eraseIdx s.2, s.2 + cols) : Res (List R × Nat)) else .undefined)
    M.rows 0 (M.data, j)
  pure ⟨M.rows, cols, s.1⟩

/-! ### `Matrix` -/

/-- product of matrices (matrix.cpp L269-286) -/
def mul [CommRing R] (nd : Bool) (A B : Mat R) : Res (Mat R) := do
  Res.assertIn nd (decide (A.cols = B.rows))
  forUp (fun i M => forUp (fun k M => do
    let c ← forUp (fun j c => do pure (c + (← A.get i j) * (← B.get j k))) A.cols 0 (0 : R)
    M.set i k c) B.cols 0 M) A.rows 0 (blank A.rows B.cols)

/-- product by a column vector, `operator*` and `apply_to` (matrix.h L434-454, L303-304) -/
def apply [CommRing R] (nd : Bool) (A : Mat R) (w : List R) : Res (List R) := do
  Res.assertIn nd (decide (A.cols = w.length))
  tab A.rows fun i => forUp (fun j c => do pure (c + (← A.get i j) * (← Vec.get w j))) A.cols 0 (0 : R)

/-- product by a row vector, `right_prod` and `right_mult` (matrix.h L456-476, L305-306) -/
def rightProd [CommRing R] (nd : Bool) (A : Mat R) (w : List R) : Res (List R) := do
  Res.assertIn nd (decide (A.rows = w.length))
  tab A.cols fun j => forUp (fun i c => do pure (c + (← Vec.get w i) * (← A.get i j))) A.rows 0 (0 : R)

/-- `+=` (matrix.cpp L373-381) -/
def addMat [CommRing R] (nd : Bool) (A B : Mat R) : Res (Mat R) := do
  Res.assertIn nd (decide (A.rows = B.rows))
  Res.assertIn nd (decide (A.cols = B.cols))
  let d ← vecAdd nd A.data B.data
  pure { A with data := d }

/-- `-=` (matrix.cpp L383-391) -/
def subMat [CommRing R] (nd : Bool) (A B : Mat R) : Res (Mat R) := do
  Res.assertIn nd (decide (A.rows = B.rows))
  Res.assertIn nd (decide (A.cols = B.cols))
  let d ← vecSub nd A.data B.data
  pure { A with data := d }

/-- `*=` by a scalar (matrix.h L317) -/
def scale [CommRing R] (A : Mat R) (c : R) : Res (Mat R) := do
  let d ← vecScale A.data c
  pure { A with data := d }

/-- `negate` (matrix.h L318) -/
def negate [CommRing R] (A : Mat R) : Res (Mat R) := do
  let d ← vecNeg A.data
  pure { A with data := d }

/-- `transposed` for an lvalue (matrix.cpp L394-402); the state holds the position of the reading
iterator `p` -/
def transposed [Zero R] (A : Mat R) : Res (Mat R) := do
  let s ← forUp (fun i (s : Mat R × Nat) => forUp (fun j (s : Mat R × Nat) => do
    let x ← Vec.get A.data s.2
    let M ← s.1.set j i x
    pure (M, s.2 + 1)) A.cols 0 s) A.rows 0 (blank A.cols A.rows, 0)
  pure s.1

/-- `transpose` (matrix.cpp L404-418) -/
def transpose [Zero R] (A : Mat R) : Res (Mat R) :=
  if A.rows = A.cols then
    forUp (fun j M => forUp (fun i (M : Mat R) => do
      let x ← M.get i j
      let y ← M.get j i
      let M ← M.set i j y
      M.set j i x) (A.rows - (j + 1)) (j + 1) M) A.cols 0 A
  else transposed A

/-- `negative_transposed` for an lvalue (matrix.h L295) -/
def negTransposed [CommRing R] (A : Mat R) : Res (Mat R) := do negate (← transposed A)

/-- one pass of the loop of `inverse_upper_triangular` (matrix.cpp L430-440); the innermost loop has `k`
going from `j` down to `i+1` -/
def upperStep [CommRing R] [DecidableEq R] (M : Mat R) (j : Nat) (S : Mat R) : Res (Mat R) := do
  if (← M.get j j) ≠ 1 then .throw
  else do
    let S ← S.set j j 1
    forDown (fun i (S : Mat R) => do
      let sum ← forDown (fun k c => do pure (c + (← M.get i (k + i + 1)) * (← S.get (k + i + 1) j))) (j - i) (0 : R)
      S.set i j (-sum)) j S

/-- `inverse_upper_triangular` (matrix.cpp L420-443) -/
def inverseUpper [CommRing R] [DecidableEq R] (M : Mat R) : Res (Mat R) :=
  if M.rows ≠ M.cols then .throw else forUp (upperStep M) M.cols 0 (filled M.cols M.cols 0)

/-- one pass of the loop of `inverse_lower_triangular` (matrix.cpp L455-465) -/
def lowerStep [CommRing R] [DecidableEq R] (M : Mat R) (i : Nat) (S : Mat R) : Res (Mat R) := do
  if (← M.get i i) ≠ 1 then .throw
  else do
    let S ← S.set i i 1
    forDown (fun j (S : Mat R) => do
      let sum ← forDown (fun k c => do pure (c + (← S.get i (k + j + 1)) * (← M.get (k + j + 1) j))) (i - j) (0 : R)
      S.set i j (-sum)) i S

/-- `inverse_lower_triangular` (matrix.cpp L445-468) -/
def inverseLower [CommRing R] [DecidableEq R] (M : Mat R) : Res (Mat R) :=
  if M.rows ≠ M.cols then .throw else forUp (lowerStep M) M.cols 0 (filled M.cols M.cols 0)

/-- `rowOperation` (matrix.cpp L547-555) -/
def rowOp [CommRing R] [DecidableEq R] (nd : Bool) (M : Mat R) (i k : Nat) (c : R) : Res (Mat R) := do
  Res.assertIn nd (decide (i < M.rows) && decide (k < M.rows))
  if c ≠ 0 then forUp (fun j (M : Mat R) => do M.set i j ((← M.get i j) + c * (← M.get k j))) M.cols 0 M
  else pure M

/-- `columnOperation` (matrix.cpp L558-566) -/
def colOp [CommRing R] [DecidableEq R] (nd : Bool) (M : Mat R) (j k : Nat) (c : R) : Res (Mat R) := do
  Res.assertIn nd (decide (j < M.cols) && decide (k < M.cols))
  if c ≠ 0 then forUp (fun i (M : Mat R) => do M.set i j ((← M.get i j) + c * (← M.get i k))) M.rows 0 M
  else pure M

/-- `rowMultiply` (matrix.cpp L570-577) -/
def rowMul [CommRing R] [DecidableEq R] (nd : Bool) (M : Mat R) (i : Nat) (f : R) : Res (Mat R) := do
  Res.assertIn nd (decide (i < M.rows))
  if f ≠ 1 then forUp (fun j (M : Mat R) => do M.set i j ((← M.get i j) * f)) M.cols 0 M
  else pure M

/-- `columnMultiply` (matrix.cpp L579-586) -/
def colMul [CommRing R] [DecidableEq R] (nd : Bool) (M : Mat R) (j : Nat) (f : R) : Res (Mat R) := do
  Res.assertIn nd (decide (j < M.cols))
  if f ≠ 1 then forUp (fun i (M : Mat R) => do M.set i j ((← M.get i j) * f)) M.rows 0 M
  else pure M

/-- `swapRows` (matrix.cpp L589-595) -/
def swapRows (nd : Bool) (M : Mat R) (i0 i1 : Nat) : Res (Mat R) := do
  Res.assertIn nd (decide (i0 < M.rows) && decide (i1 < M.rows))
  forUp (fun k (M : Mat R) => do
    let x ← M.get i0 k
    let y ← M.get i1 k
    let M ← M.set i0 k y
    M.set i1 k x) M.cols 0 M

/-- `swapColumns` (matrix.cpp L597-603) -/
def swapCols (nd : Bool) (M : Mat R) (j0 j1 : Nat) : Res (Mat R) := do
  Res.assertIn nd (decide (j0 < M.cols) && decide (j1 < M.cols))
  forUp (fun k (M : Mat R) => do
    let x ← M.get k j0
    let y ← M.get k j1
    let M ← M.set k j0 y
    M.set k j1 x) M.rows 0 M

/-- `row_apply` (matrix.h L478-492) -/
def rowApply [CommRing R] (nd : Bool) (A ops : Mat R) (i : Nat) : Res (Mat R) := do
  let r := ops.rows
  Res.assertIn nd (decide (r = ops.cols))
  Res.assertIn nd (decide (i + r ≤ A.rows))
  forUp (fun j (A : Mat R) => do
    let tmp ← tab r fun k => A.get (i + k) j
    let tmp ← apply nd ops tmp
    forUp (fun k (A : Mat R) => do A.set (i + k) j (← Vec.get tmp k)) r 0 A) A.cols 0 A

/-- `column_apply` (matrix.h L495-510) -/
def columnApply [CommRing R] (nd : Bool) (A ops : Mat R) (j : Nat) : Res (Mat R) := do
  let r := ops.rows
  Res.assertIn nd (decide (r = ops.cols))
  Res.assertIn nd (decide (j + r ≤ A.cols))
  forUp (fun i (A : Mat R) => do
    let tmp ← tab r fun l => A.get i (j + l)
    let tmp ← rightProd nd ops tmp
    forUp (fun l (A : Mat R) => do A.set i (j + l) (← Vec.get tmp l)) r 0 A) A.rows 0 A

/-! ### `PID_Matrix` -/

/-- `+=` by a scalar, adding a multiple of the identity (matrix.h L522-529) -/
def addScalar [CommRing R] (A : Mat R) (c : R) : Res (Mat R) :=
  forDown (fun i (A : Mat R) => do A.set i i ((← A.get i i) + c)) (min A.rows A.cols) A

/-- `-=` by a scalar (matrix.h L70-71) -/
def subScalar [CommRing R] (A : Mat R) (c : R) : Res (Mat R) := addScalar A (-c)

/-- scalar minus a matrix (matrix.h L76-77) -/
def scalarSub [CommRing R] (c : R) (A : Mat R) : Res (Mat R) := do addScalar (← negate A) c

/-- `/=` by a scalar (matrix.h L362-363) -/
def divScalar (A : Mat Int) (c : Int) : Res (Mat Int) :=
  if c ≠ 1 then do
    let d ← vecDivExact A.data c
    pure { A with data := d }
  else pure A

/-- `divisible` (matrix.cpp L503-512) -/
def divisible (A : Mat Int) (c : Int) : Res Bool :=
  if A.data = [] then .ok true
  else if c = 0 then .undefined
  else pure (A.data.all fun x => decide (x.tmod c = 0))

/-- `block` (matrix.cpp L515-529) -/
def block [Zero R] (nd : Bool) (M : Mat R) (i0 j0 i1 j1 : Nat) : Res (Mat R) := do
  Res.assertIn nd (decide (i0 ≤ i1) && decide (i1 ≤ M.rows))
  Res.assertIn nd (decide (j0 ≤ j1) && decide (j1 ≤ M.cols))
  let result := blank (i1 - i0) (j1 - j0)
  let s ← forUp (fun i (s : List R × Nat) => do
    let x ← slice M.data (i * M.cols + j0) (i * M.cols + j1)
    let d ← blit s.1 s.2 x
    pure (d, s.2 + x.length)) (i1 - i0) i0 (result.data, 0)
  pure { result with data := s.1 }

/-- `transposed_block` (matrix.cpp L531-545) -/
def transposedBlock [Zero R] (nd : Bool) (M : Mat R) (i0 j0 i1 j1 : Nat) : Res (Mat R) := do
  Res.assertIn nd (decide (i0 ≤ i1) && decide (i1 ≤ M.cols))
  Res.assertIn nd (decide (j0 ≤ j1) && decide (j1 ≤ M.rows))
  forUp (fun i S => forUp (fun j (S : Mat R) => do S.set i j (← M.get (j0 + j) (i0 + i))) (j1 - j0) 0 S)
    (i1 - i0) 0 (blank (i1 - i0) (j1 - j0))

/-- `standard_basis` (matrix.h L419-429) -/
def standardBasis [CommRing R] (r : Nat) : Res (List (List R)) :=
  forUp (fun i b => do Vec.put b i (← Vec.put (← Vec.get b i) i 1)) r 0 (List.replicate r (List.replicate r 0))

/-! ### permutations acting on matrices (sources/utilities/permutations.cpp) -/

/-- `Permutation::conjugate` (permutations.cpp L206-219) -/
def conjugate [Zero R] (nd : Bool) (pi : List Nat) (M : Mat R) : Res (Mat R) := do
  Res.assertIn nd (decide (M.rows = pi.length))
  Res.assertIn nd (decide (M.cols = pi.length))
  forUp (fun i S => forUp (fun j (S : Mat R) => do
    S.set (← Vec.get pi i) (← Vec.get pi j) (← M.get i j)) pi.length 0 S) pi.length 0 (blank pi.length pi.length)

/-- `Permutation::inv_conjugate` (permutations.cpp L233-246) -/
def invConjugate [Zero R] (nd : Bool) (pi : List Nat) (M : Mat R) : Res (Mat R) := do
  Res.assertIn nd (decide (M.rows = pi.length))
  Res.assertIn nd (decide (M.cols = pi.length))
  forUp (fun i S => forUp (fun j (S : Mat R) => do
    S.set i j (← M.get (← Vec.get pi i) (← Vec.get pi j))) pi.length 0 S) pi.length 0 (blank pi.length pi.length)

/-- the `do`-`while` loop of `pull_back_columns` (permutations.cpp L181-188); the result contains the
final value of `l` -/
def pullCycle (nd : Bool) (pi : List Nat) (j : Nat) : Nat → Nat → Mat R → List Bool → Res (Nat × Mat R × List Bool)
  | 0, _, _, _ => .outOfFuel
  | fuel + 1, l, M, seen => do
    let p ← Vec.get pi l
    let M ← forUp (fun i (M : Mat R) => do M.set i l (← M.get i p)) M.rows 0 M
    let s ← Vec.get seen p
    Res.assertIn nd (!s)
    let seen ← Vec.put seen p true
    let q ← Vec.get pi p
    if q ≠ j then pullCycle nd pi j fuel p M seen else pure (p, M, seen)

/-- outer loop of `pull_back_columns` (permutations.cpp L172-191) -/
def pullColsLoop (nd : Bool) (pi : List Nat) : Nat → Nat → Mat R → List Bool → Res (Mat R)
  | 0, _, M, _ => .ok M
  | k + 1, j, M, seen => do
    let s ← Vec.get seen j
    if s then pullColsLoop nd pi k (j + 1) M seen
    else do
      let seen ← Vec.put seen j true
      let p ← Vec.get pi j
      if p = j then pullColsLoop nd pi k (j + 1) M seen
      else do
        let c ← column nd M j
        let r ← pullCycle nd pi j (pi.length + 1) j M seen
        let M ← setColumn nd r.2.1 r.1 c
        pullColsLoop nd pi k (j + 1) M r.2.2

/-- `pull_back_columns` (permutations.cpp L165-192) -/
def pullBackColumns (nd : Bool) (M : Mat R) (pi : List Nat) : Res (Mat R) := do
  Res.assertIn nd (decide (M.cols ≥ pi.length))
  pullColsLoop nd pi pi.length 0 M (List.replicate pi.length false)

end Verif.Mat
