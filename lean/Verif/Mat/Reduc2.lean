import Verif.Mat.Reduc
import Verif.Perm.Model
import Verif.Arith.Model

/-!
Model of `diagonalise`, `adapted_basis`, `Smith_basis`, `has_solution`, `find_solution` (sources/utilities/matreduc.cpp) and of
sources/structure/lattice.cpp.  Conventions as in `Verif.Mat.Reduc`.
-/

namespace Verif.Mat

/-! ### `diagonalise` -/

/-- the state of `diagonalise` (matreduc.cpp L150-163): `M`, `row`, `col`, `row_minus`, `col_minus`, `pivot_columns`, `diagonal`, `k` -/
structure Diag where
  M : Mat Int
  row : Mat Int
  col : Mat Int
  rm : Bool
  cm : Bool
  piv : List Bool
  diag : List Int
  k : Nat
  deriving DecidableEq

/-- clearing a column by row operations (matreduc.cpp L166-167 and L172-176, also L191-197), not touching `row_minus`: value, `flip`,
state -/
def diagRow (nd : Bool) (g : Int × Option (Mat Int) × Bool) (l : Nat) (s : Diag) : Res Diag := do
  let ops ← theOps g.2.1
  let ops ← transpose ops
  let M ← rowApply nd s.M ops s.k
  let row ← rowApply nd s.row ops s.k
  let x ← M.get s.k l
  Res.assertIn nd (decide (x = g.1))
  pure { s with M := M, row := row }

/-- the `do`-`while` loop (matreduc.cpp L180-199): `d`, `flip`, state -/
def diagInner (nd : Bool) (l : Nat) : Nat → Int → Diag → Res (Int × Bool × Diag)
  | 0, _, _ => .outOfFuel
  | fuel + 1, d, s => do
    let v ← partialRow s.M s.k l s.M.cols
    let g ← gcd nd v true false 0
    let ops ← theOps g.2.1
    let M ← columnApply nd s.M ops l
    let col ← columnApply nd s.col ops l
    let x ← M.get s.k l
    Res.assertIn nd (decide (x = g.1))
    if g.1 = d then pure (g.1, g.2.2, { s with M := M, col := col, cm := xor s.cm g.2.2 })
    else do
      let v ← partialColumn M l s.k M.rows
      let h ← gcd nd v true false 0
      let s ← diagRow nd h l { s with M := M, col := col, rm := xor s.rm h.2.2, cm := xor s.cm g.2.2 }
      if h.1 < g.1 then diagInner nd l fuel h.1 s
      else pure (h.1, h.2.2, s)

/-- the body of the main loop of `diagonalise` (matreduc.cpp L163-205); `fix` selects the corrected version, with `row_minus^=flip`
in line 172 -/
def diagStep (nd fix : Bool) (l : Nat) (s : Diag) : Res Diag := do
  let v ← partialColumn s.M l s.k s.M.rows
  let g ← gcd nd v true false 0
  if g.1 = 0 then pure s
  else do
    let piv ← Vec.put s.piv l true
    let s ← diagRow nd g l { s with piv := piv, rm := if fix then xor s.rm g.2.2 else g.2.2 }
    let r ← diagInner nd l (g.1.natAbs + 1) g.1 s
    pure { r.2.2 with rm := xor r.2.2.rm r.2.1, diag := r.2.2.diag ++ [r.1], k := r.2.2.k + 1 }

/-- moving the pivot columns to the front (matreduc.cpp L207-216): `col`, `col_minus` -/
def diagSort (nd : Bool) (piv : List Bool) (col : Mat Int) (cm : Bool) : Res (Mat Int × Bool) :=
  if ((members piv).filter fun j => decide (j < (members piv).length)).length < (members piv).length then do
    let pi := members piv ++ members (piv.map not)
    let col ← pullBackColumns nd col pi
    let neg ← Verif.Perm.isNegative nd pi
    pure (col, xor cm neg)
  else pure (col, cm)

/-- `diagonalise` (matreduc.cpp L145-226): diagonal, `row`, `col` -/
def diagonalise (nd fix : Bool) (M : Mat Int) : Res (List Int × Mat Int × Mat Int) := do
  let row ← identity M.rows
  let col ← identity M.cols
  if M.cols = 0 ∨ M.rows = 0 then pure ([], row, col)
  else do
    let s ← forUp (diagStep nd fix) M.cols 0 ⟨M, row, col, false, false, List.replicate M.cols false, [], 0⟩
    let c ← diagSort nd s.piv s.col s.cm
    let diag ← (if 0 < s.diag.length ∧ s.rm ≠ c.2 then do Vec.put s.diag 0 (-(← Vec.get s.diag 0)) else pure s.diag : Res (List Int))
    let row ← (if s.rm then rowMul nd s.row 0 (-1) else pure s.row : Res (Mat Int))
    let col ← (if c.2 then colMul nd c.1 0 (-1) else pure c.1 : Res (Mat Int))
    pure (diag, row, col)

/-! ### solving integral systems -/

/-- `has_solution` (matreduc.cpp L388-400) -/
def hasSolution (nd fix : Bool) (A : Mat Int) (b : List Int) : Res Bool := do
  let r ← diagonalise nd fix A
  let b ← apply nd r.2.1 b
  forDown (fun i (ok : Bool) => do
    if ok then do
      let x ← Vec.get b i
      if i < r.1.length then do
        let d ← Vec.get r.1 i
        if d = 0 then .undefined else pure (decide (x.tmod d = 0))
      else pure (decide (x = 0))
    else pure false) b.length true

/-- `find_solution` (matreduc.cpp L402-427) -/
def findSolution (nd fix : Bool) (A : Mat Int) (b : List Int) : Res (List Int) := do
  let r ← diagonalise nd fix A
  let b ← apply nd r.2.1 b
  let b ← forUp (fun i (b : List Int) => do
    let d ← Vec.get r.1 i
    let x ← Vec.get b i
    if d = 0 then .undefined
    else if x.tmod d ≠ 0 then .throw
    else Vec.put b i (x.tdiv d)) r.1.length 0 b
  let _ ← forUp (fun i (_ : Unit) => do
    let x ← Vec.get b i
    if x ≠ 0 then .throw else pure ()) (b.length - r.1.length) r.1.length ()
  apply nd r.2.2 (resize b r.2.2.rows 0)

/-! ### `adapted_basis` -/

/-- `find_small_remainder` (matreduc.cpp L230-242): the position found, if any; the integer type is unbounded here, so that
`arithmetic::remainder` is `Int.fmod` (C13) -/
def smallRem (nd : Bool) (row : List Int) : Res (Option Nat) := do
  let a ← Vec.get row 0
  Res.assertIn nd (decide (0 < a))
  let s ← forUp (fun t (s : Int × Nat) => do
    let x ← Vec.get row t
    Res.assertIn nd (decide (0 < a))
    if a = 0 then .undefined
    else if 0 < x.fmod a ∧ x.fmod a < s.1 then pure (x.fmod a, t)
    else pure s) (row.length - 1) 1 (a, 0)
  pure (if s.1 < a then some s.2 else none)

/-- the state of `adapted_basis` (matreduc.cpp L265-273): `M`, `result`, `kept_rows`, `diagonal`, `j`; the variable `flip` is passed to
`gcd` but not used -/
structure Adapt where
  M : Mat Int
  B : Mat Int
  kept : List Bool
  diag : List Int
  j : Nat
  deriving DecidableEq

/-- replacing row `i` by the remainder of row `k`, and row `k` by the old row `i` (matreduc.cpp L288-302) -/
def adaptSwap (nd : Bool) (i k j n m : Nat) (M B : Mat Int) : Res (Mat Int × Mat Int) := do
  let x ← M.get k j
  let d ← M.get i j
  if d = 0 then .undefined
  else do
    let M ← forUp (fun l (M : Mat Int) => do
      let t ← M.get i l
      let x' ← M.get k l
      let M ← M.set i l (x' - x.fdiv d * t)
      M.set k l t) (n - j) j M
    let y ← M.get i j
    let z ← M.get k j
    Res.assertIn nd (decide (0 < y) && decide (y < z))
    let B ← forUp (fun l (B : Mat Int) => do
      let t ← B.get l k
      let x' ← B.get l i
      let B ← B.set l k (x' + x.fdiv d * t)
      B.set l i t) m 0 B
    pure (M, B)

/-- the `while` loop (matreduc.cpp L283-307): `M`, `result`, `d` -/
def adaptLoop (nd : Bool) (i j n m : Nat) : Nat → Mat Int → Mat Int → Int → Res (Mat Int × Mat Int × Int)
  | 0, _, _, _ => .outOfFuel
  | fuel + 1, M, B, d => do
    let v ← partialColumn M j i m
    let r ← smallRem nd v
    match r with
    | none => pure (M, B, d)
    | some k => do
      let s ← adaptSwap nd i (k + i) j n m M B
      let v ← partialRow s.1 i j n
      let g ← gcd nd v true false 0
      let ops ← theOps g.2.1
      let M ← columnApply nd s.1 ops j
      let x ← M.get i j
      Res.assertIn nd (decide (x = g.1))
      adaptLoop nd i j n m fuel M s.2 g.1

/-- adapting `result` to the clearing of column `j` (matreduc.cpp L312-317) -/
def adaptClear (nd : Bool) (i j m : Nat) (M B : Mat Int) : Res (Mat Int) :=
  forUp (fun k (B : Mat Int) => do
    let x ← M.get k j
    let d ← M.get i j
    if d = 0 then .undefined
    else do
      Res.assertIn nd (decide (x.tmod d = 0))
      colOp nd B i k (x.tdiv d)) (m - (i + 1)) (i + 1) B

/-- the body of the main loop of `adapted_basis` (matreduc.cpp L274-321) -/
def adaptStep (nd : Bool) (n m : Nat) (i : Nat) (s : Adapt) : Res Adapt := do
  let v ← partialRow s.M i s.j n
  let g ← gcd nd v true false 0
  if g.1 = 0 then pure s
  else do
    let kept ← Vec.put s.kept i true
    let ops ← theOps g.2.1
    let M ← columnApply nd s.M ops s.j
    let x ← M.get i s.j
    Res.assertIn nd (decide (x = g.1))
    let r ← adaptLoop nd i s.j n m (g.1.natAbs + 1) M s.B g.1
    let B ← adaptClear nd i s.j m r.1 r.2.1
    let x ← r.1.get i s.j
    Res.assertIn nd (decide (x = r.2.2))
    pure ⟨r.1, B, kept, s.diag ++ [r.2.2], s.j + 1⟩

/-- `adapted_basis` (matreduc.cpp L261-336): result and diagonal -/
def adaptedBasis (nd : Bool) (M : Mat Int) : Res (Mat Int × List Int) := do
  let B ← identity M.rows
  let s ← forUp (adaptStep nd M.cols M.rows) M.rows 0 ⟨M, B, List.replicate M.rows false, [], 0⟩
  if s.kept.all id then pure (s.B, s.diag)
  else do
    let c ← tab M.rows fun t => do column nd s.B (← Vec.get (members s.kept ++ members (s.kept.map not)) t)
    let B ← forUp (fun t (B : Mat Int) => do setColumn nd B t (← Vec.get c t)) M.rows 0 s.B
    pure (B, s.diag)

/-! ### `Smith_basis` -/

/-- the state of `Smith_basis` (matreduc.cpp L363-367): `result`, `diagonal`, `new_start`, `new_stop` -/
structure Smith where
  B : Mat Int
  diag : List Int
  start : Nat
  stop : Nat
  deriving DecidableEq

/-- the body of the `for` loop (matreduc.cpp L368-381); diagonal entries are converted to `Denom_t` in the call of `lcm`, and the
expression `1-pa/d` is computed modulo `2^64` and converted to `int`, which gives the value here when it is in the range of that type -/
def smithStep (nd : Bool) (stop : Nat) (i : Nat) (s : Smith) : Res Smith := do
  let b ← Vec.get s.diag (i + 1)
  let a ← Vec.get s.diag i
  if a = 0 then .undefined
  else if b.tmod a ≠ 0 then do
    let r ← Verif.Arith.lcm (Verif.Arith.toU 64 a) (Verif.Arith.toU 64 b)
    let diag ← Vec.put s.diag (i + 1) (r.1 : Int)
    let diag ← Vec.put diag i (r.2.1 : Int)
    let B ← colOp nd s.B (i + 1) i (-1)
    let B ← colOp nd B i (i + 1) (1 - (r.2.2 / r.2.1 : Nat))
    pure ⟨B, diag, if s.start = stop then i - 1 else s.start, i⟩
  else pure s

/-- the `while` loop (matreduc.cpp L365-383) -/
def smithLoop (nd : Bool) : Nat → Mat Int → List Int → Nat → Nat → Res (Mat Int × List Int)
  | 0, _, _, _, _ => .outOfFuel
  | fuel + 1, B, diag, start, stop =>
    if start < stop then do
      let s ← forUp (smithStep nd stop) (stop - start) start ⟨B, diag, stop, stop⟩
      smithLoop nd fuel s.B s.diag s.start s.stop
    else pure (B, diag)

/-- `Smith_basis` (matreduc.cpp L359-385): result and diagonal -/
def smithBasis (nd : Bool) (M : Mat Int) : Res (Mat Int × List Int) := do
  let r ← adaptedBasis nd M
  smithLoop nd (r.2.length + 1) r.1 r.2 0 (r.2.length - 1)

/-! ### sources/structure/lattice.cpp -/

/-- `baseChange` (lattice.cpp L72-86) applied to a list of vectors, the new basis being given by its vectors; conversion of the
denominator to `int` is exact -/
def baseChange (nd : Bool) (vs basis : List (List Int)) : Res (List (List Int)) := do
  let b ← ofColumnRange basis basis.length
  let q ← inverse nd b
  tab vs.length fun i => do vecDivExact (← apply nd q.1 (← Vec.get vs i)) q.2

/-- `inverseBaseChange` (lattice.cpp L93-103) -/
def inverseBaseChange (nd : Bool) (vs basis : List (List Int)) : Res (List (List Int)) := do
  let b ← ofColumnRange basis basis.length
  tab vs.length fun i => do apply nd b (← Vec.get vs i)

/-- `perp` (lattice.cpp L116-132) -/
def perp (nd fix : Bool) (b : Mat Int) : Res (List (List Int)) := do
  let r ← diagonalise nd fix b
  tab (b.rows - r.1.length) fun i => row r.2.1 (r.1.length + i)

/-- `kernel` (lattice.cpp L134-141) -/
def kernel (nd : Bool) (M : Mat Int) : Res (Mat Int) := do
  let e ← columnEchelon nd M
  block nd e.2.2.1 0 e.2.1.cols M.cols M.cols

/-- `eigen_lattice` (lattice.cpp L143-146) -/
def eigenLattice (nd : Bool) (M : Mat Int) (lambda : Int) : Res (Mat Int) := do kernel nd (← subScalar M lambda)

/-- `row_saturate` (lattice.cpp L148-160) -/
def rowSaturate (nd : Bool) (M : Mat Int) : Res (Mat Int) := do
  let b ← adaptedBasis nd (← transposed M)
  forUp (fun i (R : Mat Int) => do setRow nd R i (← column nd b.1 i)) b.2.length 0 (blank b.2.length M.cols)

end Verif.Mat
