import Verif.Vec
import Verif.Bits.Model
import Verif.BitSet.Model
/-
Model of `BitVector<dim>`, `BitMatrix<dim>` and the functions of /repo/sources/structure/bitvector.h, bitvector.cpp.

A `BitSet<dim>` is represented by the natural number `to_ulong()`, of which bit `i` is the truth of `i` being a member;
that the operations of `BitSet` used here (`test`, `set`, `^=`, `&`, `firstBit`, `count`, `none`, iteration) do this is
the subject of C22.  Testing or setting a bit at a position `dim` or beyond is taken to be undefined.  The sizes stored
as `unsigned short int` are natural numbers (they do not exceed `dim`, at most 64).
`nd` says whether assertions are compiled out.
-/
namespace Verif.F2
open Verif

/-! ### `BitSet<dim>` -/

/-- `test`, `operator[]` (bitset.h) -/
def bsTest (dim d i : Nat) : Res Bool := if i < dim then .ok (d.testBit i) else .undefined

/-- the number `d` with bit `i` set to `b` -/
def putBit (d i : Nat) (b : Bool) : Nat := if b then d ||| 1 <<< i else d ^^^ (d &&& 1 <<< i)

/-- `set(i,b)`, `set(i)` for `b = true` (bitset.h) -/
def bsSet (dim d i : Nat) (b : Bool) : Res Nat := if i < dim then .ok (putBit d i b) else .undefined

/-- the values of a loop `for (it=d.begin(); it(); ++it)` -/
def members (d : Nat) : List Nat := (List.range 64).filter fun i => d.testBit i

/-! ### `BitVector<dim>` (bitvector.h L135-299) -/

structure BV where
  data : Nat
  size : Nat
  deriving DecidableEq, Repr

/-- constructor from a size (bitvector.h L147-149) -/
def BV.zero (n : Nat) : BV := ⟨0, n⟩

/-- `operator[]` (bitvector.h L202-206) -/
def BV.get (nd : Bool) (dim : Nat) (v : BV) (i : Nat) : Res Bool := do
  Res.assertIn nd (i < v.size)
  bsTest dim v.data i

/-- `set(i,b)`, and `set(i)` for `b = true` (bitvector.h L275-282) -/
def BV.set (nd : Bool) (dim : Nat) (v : BV) (i : Nat) (b : Bool) : Res BV := do
  Res.assertIn nd (i < v.size)
  pure ⟨← bsSet dim v.data i b, v.size⟩

/-- constructor of a standard basis vector (bitvector.h L151-155) -/
def BV.unit (nd : Bool) (dim n j : Nat) : Res BV := (BV.zero n).set nd dim j true

/-- `operator+=`, `operator-=`, `operator+`, `operator-` (bitvector.h L224-254) -/
def BV.add (nd : Bool) (v w : BV) : Res BV := do
  Res.assertIn nd (v.size = w.size)
  pure ⟨v.data ^^^ w.data, v.size⟩

/-- `isZero` (bitvector.h L216) -/
def BV.isZero (v : BV) : Bool := v.data = 0

/-- `operator==` (bitvector.h L190-194) -/
def BV.eq (nd : Bool) (v w : BV) : Res Bool := do
  Res.assertIn nd (v.size = w.size)
  pure (v.data = w.data)

/-- `firstBit` (bitvector.h L212) -/
def BV.firstBit (v : BV) : Nat := Bits.firstBit v.data

/-- `dot` (bitvector.h L221-222) -/
def BV.dot (v w : BV) : Bool := Bits.bitCount (v.data &&& w.data) % 2 ≠ 0

/-- `flip` (bitvector.h L266-271) -/
def BV.flip (nd : Bool) (dim : Nat) (v : BV) (i : Nat) : Res BV := do
  Res.assertIn nd (i < v.size)
  if i < dim then pure ⟨v.data ^^^ 1 <<< i, v.size⟩ else .undefined

/-- `pushBack` (bitvector.cpp L45-54) -/
def BV.pushBack (nd : Bool) (dim : Nat) (v : BV) (b : Bool) : Res BV := do
  Res.assertIn nd (v.size < dim)
  pure ⟨← bsSet dim v.data v.size b, v.size + 1⟩

/-- loop of `slice` (bitvector.cpp L76-81); `m` more values from `j` on, `c` counted so far -/
def sliceLoop (dim t : Nat) : Nat → Nat → Nat → Nat → Res (Nat × Nat)
  | 0, _, c, d => .ok (d, c)
  | m + 1, j, c, d => do
    if ← bsTest dim t j then
      sliceLoop dim t m (j + 1) (c + 1) (← bsSet dim d c (← bsTest dim d j))
    else
      sliceLoop dim t m (j + 1) c d

/-- `slice` (bitvector.cpp L69-87) -/
def BV.slice (dim : Nat) (v : BV) (t : Nat) : Res BV := do
  let (d, c) ← sliceLoop dim t v.size 0 0 v.data
  pure ⟨d &&& (← BitSet.ltM c), c⟩

/-- loop of `unslice` (bitvector.cpp L102-104), over the members of `t` -/
def unsliceLoop (dim : Nat) : List Nat → Nat → Nat → Res Nat
  | [], _, r => .ok r
  | i :: l, d, r => do unsliceLoop dim l (d >>> 1) (← bsSet dim r i (← bsTest dim d 0))

/-- `unslice` (bitvector.cpp L98-107) -/
def BV.unslice (dim : Nat) (v : BV) (t n : Nat) : Res BV := do
  pure ⟨← unsliceLoop dim (members t) v.data 0, n⟩

/-! ### Spans -/

/-- the loop reducing `w` modulo `a` (bitvector.cpp L746-748, L801-803) -/
def reduceLoop (nd : Bool) (dim : Nat) : List BV → List Nat → BV → Res BV
  | [], _, w => .ok w
  | _ :: _, [], _ => .undefined
  | a :: as, p :: ps, w => do
    if ← w.get nd dim p then reduceLoop nd dim as ps (← w.add nd a) else reduceLoop nd dim as ps w

/-- the loop clearing bit `n` in previous basis vectors (bitvector.cpp L759-761) -/
def clearLoop (nd : Bool) (dim n : Nat) (w : BV) : List BV → Res (List BV)
  | [] => .ok []
  | a :: as => do
    let a ← (do if ← a.get nd dim n then a.add nd w else pure a : Res BV)
    pure (a :: (← clearLoop nd dim n w as))

/-- the condition of the first assertion of `normalSpanAdd` and `spanAdd` -/
def sizeOk (a : List BV) (v : BV) : Bool :=
  match a with
  | [] => true
  | b :: _ => b.size = v.size

/-- `normalSpanAdd` (bitvector.cpp L731-765) -/
def normalSpanAdd (nd : Bool) (dim : Nat) (a : List BV) (f : List Nat) (v : BV) : Res (List BV × List Nat) := do
  Res.assertIn nd (sizeOk a v)
  Res.assertIn nd (a.length = f.length)
  if v.isZero then pure (a, f)
  else
    let w ← reduceLoop nd dim a f v
    if w.isZero then pure (a, f)
    else
      let n := w.firstBit
      let a ← clearLoop nd dim n w a
      pure (a ++ [w], f ++ [n])

/-- `spanAdd` (bitvector.cpp L787-810) -/
def spanAdd (nd : Bool) (dim : Nat) (a : List BV) (f : List Nat) (v : BV) : Res (List BV × List Nat) := do
  Res.assertIn nd (sizeOk a v)
  Res.assertIn nd (a.length = f.length)
  if v.isZero then pure (a, f)
  else
    let w ← reduceLoop nd dim a f v
    if w.isZero then pure (a, f)
    else pure (a ++ [w], f ++ [w.firstBit])

/-- the loop of `Gauss_Jordan` over `b` (bitvector.cpp L679-680) -/
def spanLoop (nd : Bool) (dim : Nat) : List BV → List BV → List Nat → Res (List BV × List Nat)
  | [], a, f => .ok (a, f)
  | v :: b, a, f => do
    let (a, f) ← normalSpanAdd nd dim a f v
    spanLoop nd dim b a f

/-- setting in a `BitSet` the bits at given positions (bitvector.cpp L684-685) -/
def setAll (dim : Nat) : List Nat → Nat → Res Nat
  | [], t => .ok t
  | i :: l, t => do setAll dim l (← bsSet dim t i true)

/-- insertion of a vector by position of the leading bit -/
def insertBy (v : BV) : List BV → List BV
  | [] => [v]
  | a :: l => if v.firstBit ≤ a.firstBit then v :: a :: l else a :: insertBy v l

/-- `std::sort` by position of the leading bit (bitvector.cpp L688).  The algorithm is not that of the library, but as
all leading bits are different (which is proved) any sorting algorithm gives the same result. -/
def sortBy : List BV → List BV
  | [] => []
  | a :: l => insertBy a (sortBy l)

/-- `Gauss_Jordan` (bitvector.cpp L672-692): the set `t` and the new value of `b` -/
def gaussJordan (nd : Bool) (dim : Nat) (b : List BV) : Res (Nat × List BV) := do
  let (a, f) ← spanLoop nd dim b [] []
  let t ← setAll dim f 0
  pure (t, sortBy a)

/-! ### Linear combinations -/

/-- loop of `combination` for `BitSet`s (bitvector.cpp L490-492) -/
def combSetsLoop (dim coef : Nat) : List Nat → Nat → Nat → Res Nat
  | [], _, r => .ok r
  | b :: l, i, r => do
    if ← bsTest dim coef i then combSetsLoop dim coef l (i + 1) (r ^^^ b) else combSetsLoop dim coef l (i + 1) r

/-- `combination` of `BitSet`s (bitvector.cpp L485-494) -/
def combSets (dim : Nat) (b : List Nat) (coef : Nat) : Res Nat := combSetsLoop dim coef b 0 0

/-- loop of `combination` for `BitVector`s (bitvector.cpp L472-474) -/
def combLoop (nd : Bool) (dim e : Nat) : List BV → Nat → BV → Res BV
  | [], _, r => .ok r
  | b :: l, i, r => do
    if ← bsTest dim e i then combLoop nd dim e l (i + 1) (← r.add nd b) else combLoop nd dim e l (i + 1) r

/-- `combination` of `BitVector`s (bitvector.cpp L464-477) -/
def combination (nd : Bool) (dim : Nat) (b : List BV) (n e : Nat) : Res BV := combLoop nd dim e b 0 (BV.zero n)

/-! ### `BitMatrix<dim>` (bitvector.h L362-516) -/

/-- a matrix by its columns `d_data`, with the numbers of rows and columns -/
structure BM where
  cols : List Nat
  rows : Nat
  columns : Nat
  deriving DecidableEq, Repr

/-- constructor of the zero matrix with `m` rows and `n` columns (bitvector.h L388-394) -/
def BM.zero (nd : Bool) (dim m n : Nat) : Res BM := do
  Res.assertIn nd (m ≤ dim)
  pure ⟨List.replicate n 0, m, n⟩

/-- loop of the constructor from columns (bitvector.cpp L136-140) -/
def ofColumnsLoop (nd : Bool) (rows : Nat) : List BV → Res (List Nat)
  | [] => .ok []
  | v :: l => do
    Res.assertIn nd (v.size = rows)
    pure (v.data :: (← ofColumnsLoop nd rows l))

/-- constructor from columns (bitvector.cpp L124-142) -/
def BM.ofColumns (nd : Bool) (dim : Nat) (b : List BV) (rows : Nat) : Res BM := do
  Res.assertIn nd (rows ≤ dim)
  pure ⟨← ofColumnsLoop nd rows b, rows, b.length⟩

/-- `test` (bitvector.h L412-417) -/
def BM.test (nd : Bool) (dim : Nat) (A : BM) (i j : Nat) : Res Bool := do
  Res.assertIn nd (i < A.rows)
  Res.assertIn nd (j < A.columns)
  bsTest dim (← Vec.get A.cols j) i

/-- `column` (bitvector.h L433-437) -/
def BM.column (nd : Bool) (A : BM) (j : Nat) : Res BV := do
  Res.assertIn nd (j < A.columns)
  pure ⟨← Vec.get A.cols j, A.rows⟩

/-- matrix times vector (bitvector.cpp L164-170) -/
def BM.mulVec (nd : Bool) (dim : Nat) (A : BM) (v : BV) : Res BV := do
  Res.assertIn nd (A.columns = v.size)
  pure ⟨← combSets dim A.cols v.data, A.rows⟩

/-- loop of `right_act` (bitvector.cpp L178-179) -/
def rightLoop (nd : Bool) (dim : Nat) (A : BM) (v : BV) : Nat → Nat → BV → Res BV
  | 0, _, r => .ok r
  | m + 1, j, r => do rightLoop nd dim A v m (j + 1) (← r.set nd dim j (v.dot (← A.column nd j)))

/-- vector times matrix, `right_act` (bitvector.cpp L173-181) -/
def BM.rightAct (nd : Bool) (dim : Nat) (A : BM) (v : BV) : Res BV := do
  Res.assertIn nd (A.rows = v.size)
  rightLoop nd dim A v A.columns 0 (BV.zero A.columns)

/-- loop of `row` (bitvector.cpp L207-208) -/
def rowLoop (nd : Bool) (dim : Nat) (A : BM) (i : Nat) : Nat → Nat → BV → Res BV
  | 0, _, r => .ok r
  | m + 1, j, r => do rowLoop nd dim A i m (j + 1) (← r.set nd dim j (← A.test nd dim i j))

/-- `row` (bitvector.cpp L201-210) -/
def BM.row (nd : Bool) (dim : Nat) (A : BM) (i : Nat) : Res BV := do
  Res.assertIn nd (A.columns ≤ dim)
  rowLoop nd dim A i A.columns 0 (BV.zero A.columns)

/-- loop of `image` (bitvector.cpp L220-221) -/
def imageLoop (nd : Bool) (dim : Nat) (A : BM) : Nat → Nat → List BV → List Nat → Res (List BV)
  | 0, _, b, _ => .ok b
  | m + 1, j, b, f => do
    let (b, f) ← spanAdd nd dim b f (← A.column nd j)
    imageLoop nd dim A m (j + 1) b f

/-- `image` (bitvector.cpp L214-224) -/
def BM.image (nd : Bool) (dim : Nat) (A : BM) : Res (List BV) := imageLoop nd dim A A.columns 0 [] []

/-- the rows from `i` on, `m` of them (bitvector.cpp L247-248) -/
def rowsLoop (nd : Bool) (dim : Nat) (A : BM) : Nat → Nat → Res (List BV)
  | 0, _ => .ok []
  | m + 1, i => do
    let r ← A.row nd dim i
    pure (r :: (← rowsLoop nd dim A m (i + 1)))

/-- the innermost loop of `kernel` (bitvector.cpp L274-275) and of `basis_perp` (subquotient.cpp L87-88): for
successive members of `t` and equations `eqn` a bit of `v` is set to bit `j` of the equation -/
def copyLoop (nd : Bool) (dim j : Nat) : List Nat → List BV → BV → Res BV
  | [], _, v => .ok v
  | _ :: _, [], _ => .undefined
  | i :: l, e :: eqn, v => do copyLoop nd dim j l eqn (← v.set nd dim i (← e.get nd dim j))

/-- the loop of `kernel` over `j` (bitvector.cpp L269-277) -/
def kernelLoop (nd : Bool) (dim n t : Nat) (eqn : List BV) : Nat → Nat → Res (List BV)
  | 0, _ => .ok []
  | m + 1, j => do
    if ← bsTest dim t j then kernelLoop nd dim n t eqn m (j + 1)
    else
      let v ← BV.unit nd dim n j
      let v ← copyLoop nd dim j (members t) eqn v
      pure (v :: (← kernelLoop nd dim n t eqn m (j + 1)))

/-- `kernel` (bitvector.cpp L234-280) -/
def BM.kernel (nd : Bool) (dim : Nat) (A : BM) : Res (List BV) :=
  if A.columns = 0 then .ok []
  else do
    Res.assertIn nd (A.columns ≤ dim)
    let eqn ← rowsLoop nd dim A A.rows 0
    let (t, eqn) ← gaussJordan nd dim eqn
    kernelLoop nd dim A.columns t eqn A.columns 0

/-- loop of `operator+=` (bitvector.cpp L295-296) -/
def addColsLoop : List Nat → List Nat → Nat → Res (List Nat)
  | a, _, 0 => .ok a
  | a :: as, b :: bs, m + 1 => do pure ((a ^^^ b) :: (← addColsLoop as bs m))
  | [], _, _ + 1 => .undefined
  | _, [], _ + 1 => .undefined

/-- `operator+=` of matrices (bitvector.cpp L290-299) -/
def BM.addAssign (nd : Bool) (A B : BM) : Res BM := do
  Res.assertIn nd (A.rows = B.rows)
  Res.assertIn nd (A.columns = B.columns)
  pure { A with cols := ← addColsLoop A.cols B.cols A.columns }

/-- loop of `operator*=` (bitvector.cpp L316-320) -/
def mulLoop (dim : Nat) (A : List Nat) : List Nat → Res (List Nat)
  | [] => .ok []
  | m :: l => do
    let c ← combSets dim A m
    pure (c :: (← mulLoop dim A l))

/-- `operator*=` of matrices (bitvector.cpp L310-325) -/
def BM.mulAssign (nd : Bool) (dim : Nat) (A M : BM) : Res BM := do
  Res.assertIn nd (A.columns = M.rows)
  Res.assertIn nd (A.rows ≤ dim)
  pure ⟨← mulLoop dim A.cols (M.cols.take M.columns), A.rows, M.columns⟩

/-! #### `section` -/

/-- the local variables of `section` (bitvector.cpp L349-356); entries of `pivot_col` are not initialised -/
structure Sec where
  basis : List Nat
  col : List Nat
  pivots : Nat
  pivotCol : List (Option Nat)
  deriving DecidableEq, Repr

/-- adding column `k` to column `j` if that has bit `r` (bitvector.cpp L376-380, L385-389) -/
def secAdd (dim r ck bk j : Nat) (s : Sec) : Res Sec := do
  let cj ← Vec.get s.col j
  if ← bsTest dim cj r then
    let col ← Vec.put s.col j (cj ^^^ ck)
    let basis ← Vec.put s.basis j ((← Vec.get s.basis j) ^^^ bk)
    pure { s with col, basis }
  else pure s

/-- the loop over previous pivots (bitvector.cpp L371-381), given their list -/
def secBack (dim r ck bk : Nat) : List Nat → Sec → Res Sec
  | [], s => .ok s
  | p :: l, s =>
    if p < r then
      match s.pivotCol[p]? with
      | some (some j) => do secBack dim r ck bk l (← secAdd dim r ck bk j s)
      | _ => .undefined
    else .ok s

/-- the loop over later columns (bitvector.cpp L384-389): `m` columns from `j` on -/
def secForw (dim r ck bk : Nat) : Nat → Nat → Sec → Res Sec
  | 0, _, s => .ok s
  | m + 1, j, s => do secForw dim r ck bk m (j + 1) (← secAdd dim r ck bk j s)

/-- the loop over `k` (bitvector.cpp L358-391): `m` values from `k` on -/
def secLoop (dim : Nat) : Nat → Nat → Sec → Res Sec
  | 0, _, s => .ok s
  | m + 1, k, s => do
    let ck ← Vec.get s.col k
    if ck = 0 then secLoop dim m (k + 1) s
    else
      let r := Bits.firstBit ck
      let pivots ← bsSet dim s.pivots r true
      let pivotCol ← Vec.put s.pivotCol r (some k)
      let bk ← Vec.get s.basis k
      let s ← secBack dim r ck bk (members pivots) { s with pivots, pivotCol }
      let s ← secForw dim r ck bk m (k + 1) s
      secLoop dim m (k + 1) s

/-- the initial value of `basis` (bitvector.cpp L349-351), from `i` on -/
def secInit (dim : Nat) : Nat → Nat → Res (List Nat)
  | 0, _ => .ok []
  | m + 1, i => do
    let b ← bsSet dim 0 i true
    pure (b :: (← secInit dim m (i + 1)))

/-- the final loop (bitvector.cpp L402-403) -/
def secFinal (nd : Bool) (rows : Nat) (s : Sec) : List Nat → List Nat → Res (List Nat)
  | [], B => .ok B
  | r :: l, B => do
    match s.pivotCol[r]? with
    | some (some j) =>
      let b ← Vec.get s.basis j
      Res.assertIn nd (r < rows)
      secFinal nd rows s l (← Vec.put B r b)
    | _ => .undefined

/-- `section` (bitvector.cpp L346-408) -/
def BM.section (nd : Bool) (dim : Nat) (A : BM) : Res BM := do
  let basis ← secInit dim A.columns 0
  let s ← secLoop dim A.columns 0 ⟨basis, A.cols, 0, List.replicate dim none⟩
  let B ← BM.zero nd dim A.columns A.rows
  pure { B with cols := ← secFinal nd A.rows s (members s.pivots) B.cols }

/-- `set(i,j,b)` (bitvector.h L468-484) -/
def BM.set (nd : Bool) (dim : Nat) (A : BM) (i j : Nat) (b : Bool) : Res BM := do
  Res.assertIn nd (i < A.rows)
  Res.assertIn nd (j < A.columns)
  pure { A with cols := ← Vec.put A.cols j (← bsSet dim (← Vec.get A.cols j) i b) }

/-- the inner loop of `transpose` (bitvector.cpp L441-442) -/
def transRow (nd : Bool) (dim : Nat) (A : BM) (i : Nat) : Nat → Nat → BM → Res BM
  | 0, _, B => .ok B
  | m + 1, j, B => do transRow nd dim A i m (j + 1) (← B.set nd dim j i (← A.test nd dim i j))

/-- the outer loop of `transpose` (bitvector.cpp L440-442) -/
def transLoop (nd : Bool) (dim : Nat) (A : BM) : Nat → Nat → BM → Res BM
  | 0, _, B => .ok B
  | m + 1, i, B => do transLoop nd dim A m (i + 1) (← transRow nd dim A i A.columns 0 B)

/-- `transpose` (bitvector.cpp L436-446) -/
def BM.transpose (nd : Bool) (dim : Nat) (A : BM) : Res BM := do
  transLoop nd dim A A.rows 0 (← BM.zero nd dim A.columns A.rows)

/-! ### Solving -/

/-- row `i` of the matrix with columns `b` (bitvector.cpp L525-528) -/
def rowOf (nd : Bool) (dim i : Nat) : List BV → Nat → Nat → Res Nat
  | [], _, r => .ok r
  | b :: l, j, r => do rowOf nd dim i l (j + 1) (← bsSet dim r j (← b.get nd dim i))

/-- normalisation of an equation (bitvector.cpp L532-537) -/
def eqReduce (dim rh : Nat) : List Nat → List Nat → Nat → Nat → Bool → Res (Nat × Bool)
  | _, [], _, r, x => .ok (r, x)
  | [], _ :: _, _, _, _ => .undefined
  | a :: as, p :: ps, j, r, x => do
    if ← bsTest dim r p then eqReduce dim rh as ps (j + 1) (r ^^^ a) (x ^^ (← bsTest dim rh j))
    else eqReduce dim rh as ps (j + 1) r x

/-- updating previous equations (bitvector.cpp L546-551) -/
def eqClear (dim m r : Nat) (x : Bool) : List Nat → Nat → Nat → Res (List Nat × Nat)
  | [], _, rh => .ok ([], rh)
  | a :: as, j, rh => do
    if ← bsTest dim a m then
      let rh ← bsSet dim rh j ((← bsTest dim rh j) ^^ x)
      let (l, rh) ← eqClear dim m r x as (j + 1) rh
      pure ((a ^^^ r) :: l, rh)
    else
      let (l, rh) ← eqClear dim m r x as (j + 1) rh
      pure (a :: l, rh)

/-- the loop of `combination_exists` over `i` (bitvector.cpp L523-561): `none` for `return false` -/
def existsLoop (nd : Bool) (dim : Nat) (b : List BV) (rhs : BV) : Nat → Nat → List Nat → Nat → List Nat → Res (Option (Nat × List Nat))
  | 0, _, _, rh, f => .ok (some (rh, f))
  | m + 1, i, a, rh, f => do
    let r ← rowOf nd dim i b 0 0
    let x ← rhs.get nd dim i
    let (r, x) ← eqReduce dim rh a f 0 r x
    if r ≠ 0 then
      let p := Bits.firstBit r
      let (a, rh) ← eqClear dim p r x a 0 rh
      let rh ← bsSet dim rh a.length x
      existsLoop nd dim b rhs m (i + 1) (a ++ [r]) rh (f ++ [p])
    else if x then .ok none
    else existsLoop nd dim b rhs m (i + 1) a rh f

/-- the final loop (bitvector.cpp L568-569) -/
def storeLoop (dim rh : Nat) : List Nat → Nat → Nat → Res Nat
  | [], _, c => .ok c
  | p :: l, j, c => do storeLoop dim rh l (j + 1) (← bsSet dim c p (← bsTest dim rh j))

/-- `combination_exists` (bitvector.cpp L500-572): `none` if `false` is returned, otherwise the value of `c` -/
def combinationExists (nd : Bool) (dim : Nat) (b : List BV) (rhs : BV) : Res (Option Nat) :=
  match b with
  | [] => .ok (if rhs.isZero then some 0 else none)
  | b0 :: _ => do
    Res.assertIn nd (b0.size = rhs.size)
    match ← existsLoop nd dim b rhs b0.size 0 [] 0 [] with
    | none => pure none
    | some (rh, f) => pure (some (← storeLoop dim rh f 0 0))

/-- the final loop of `solvable` (bitvector.cpp L613-614) -/
def solLoop (nd : Bool) (dimsol dimeq last : Nat) : List Nat → List BV → BV → Res BV
  | [], _, s => .ok s
  | _ :: _, [], _ => .undefined
  | i :: l, e :: eqn, s => do solLoop nd dimsol dimeq last l eqn (← s.set nd dimsol i (← e.get nd dimeq last))

/-- `solvable` (bitvector.cpp L581-617): `none` if `false` is returned, otherwise the value of `sol`, of which `sol` is
the initial value -/
def solvable (nd : Bool) (dimsol dimeq : Nat) (eqns : List BV) (sol : BV) : Res (Option BV) :=
  match eqns with
  | [] => .ok (some sol)
  | e0 :: _ => do
    let (pivots, eqn) ← gaussJordan nd dimeq eqns
    let last := (e0.size + 4294967295) % 4294967296
    if ← bsTest dimeq pivots last then pure none
    else
      Res.assertIn nd (last ≤ dimsol)
      pure (some (← solLoop nd dimsol dimeq last (members pivots) eqn ⟨0, last⟩))

/-- `make_equation` (bitvector.h L525-532) -/
def makeEquation (nd : Bool) (dimeq : Nat) (lhs : BV) (rhs : Bool) : Res BV :=
  (⟨lhs.data, lhs.size⟩ : BV).pushBack nd dimeq rhs

/-- loop of `initBasis` (bitvector.cpp L639-640) -/
def initLoop (nd : Bool) (dim n : Nat) : Nat → Nat → Res (List BV)
  | 0, _ => .ok []
  | m + 1, j => do
    let v ← BV.unit nd dim n j
    pure (v :: (← initLoop nd dim n m (j + 1)))

/-- `initBasis` (bitvector.cpp L633-641) -/
def initBasis (nd : Bool) (dim n : Nat) : Res (List BV) := do
  Res.assertIn nd (n ≤ dim)
  initLoop nd dim n n 0

end Verif.F2
