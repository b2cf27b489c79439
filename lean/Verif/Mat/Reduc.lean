import Verif.Mat.Model
import Verif.Arith.Model
import Mathlib.Algebra.Ring.Int.Defs

/-!
Model of the reduction of integral matrices (sources/utilities/matreduc.h, matreduc.cpp), of `inverse`
(sources/utilities/matrix.cpp L468-499) and of sources/structure/lattice.cpp.

Matrix entries are unbounded integers: overflow of `int` is outside the model.  `arithmetic::divide` with positive divisor is
`Int.fdiv` and `arithmetic::remainder` is `Int.fmod` (C13), the `C++` operators `/` and `%` are `Int.tdiv` and `Int.tmod`, and
`arithmetic::gcd` is `Int.gcd` (C14).  A `BitMap` is the list of its bits (C19).
`nd` tells whether the macro `NDEBUG` is defined.
-/

namespace Verif.Mat

/-- an operation on the recording matrix, if there is one (`if (col!=nullptr)`, matreduc.h) -/
def onCol (col : Option (Mat Int)) (f : Mat Int → Res (Mat Int)) : Res (Option (Mat Int)) :=
  match col with
  | none => .ok none
  | some M => do pure (some (← f M))

/-- the first loop of `gcd` (matreduc.h L74-82): active entries, `min`, `mindex` -/
def gcdScan (row : List Int) : Nat → Nat → List Nat → Int → Nat → Res (List Nat × Int × Nat)
  | 0, _, act, mn, mi => .ok (act, mn, mi)
  | k + 1, j, act, mn, mi => do
    let x ← Vec.get row j
    if x ≠ 0 then
      if mn = 0 ∨ (x.natAbs : Int) < mn then gcdScan row k (j + 1) (act ++ [j]) x.natAbs j
      else gcdScan row k (j + 1) (act ++ [j]) mn mi
    else gcdScan row k (j + 1) act mn mi

/-- the inner loop of `gcd` (matreduc.h L96-111), on the entries of the list still to be visited; result: the remaining active
entries, `row`, `min`, `mindex`, `*col` -/
def gcdPass (nd : Bool) (cur : Nat) (d : Int) :
    List Nat → List Int → Int → Nat → Option (Mat Int) → Res (List Nat × List Int × Int × Nat × Option (Mat Int))
  | [], row, mn, mi, col => .ok ([], row, mn, mi, col)
  | j :: js, row, mn, mi, col =>
    if j = cur then do
      let r ← gcdPass nd cur d js row mn mi col
      pure (j :: r.1, r.2)
    else if d = 0 then .undefined
    else do
      let x ← Vec.get row j
      let col ← onCol col fun M => colOp nd M j cur (-x.fdiv d)
      let row ← Vec.put row j (x - d * x.fdiv d)
      if x - d * x.fdiv d = 0 then gcdPass nd cur d js row mn mi col
      else if x - d * x.fdiv d < mn then do
        let r ← gcdPass nd cur d js row (x - d * x.fdiv d) j col
        pure (j :: r.1, r.2)
      else do
        let r ← gcdPass nd cur d js row mn mi col
        pure (j :: r.1, r.2)

/-- the outer loop of `gcd` (matreduc.h L93-113); result: `row`, `min`, `mindex`, `*col` -/
def gcdLoop (nd : Bool) : Nat → List Nat → List Int → Int → Nat → Option (Mat Int) → Res (List Int × Int × Nat × Option (Mat Int))
  | 0, _, _, _, _, _ => .outOfFuel
  | fuel + 1, act, row, mn, mi, col =>
    if act.length = 1 then .ok (row, mn, mi, col)
    else do
      let d ← Vec.get row mi
      let r ← gcdPass nd mi d act row mn mi col
      Res.assertIn nd (decide (r.1.length = 1 ∨ r.2.2.2.1 ≠ mi))
      gcdLoop nd fuel r.1 r.2.1 r.2.2.1 r.2.2.2.1 r.2.2.2.2

/-- the part of `gcd` from making the pivot positive (matreduc.h L85-121) -/
def gcdMain (nd : Bool) (act : List Nat) (row : List Int) (mn : Int) (mi : Nat) (col : Option (Mat Int)) (flip : Bool) (dest : Nat) :
    Res (Int × Option (Mat Int) × Bool) := do
  let r ← gcdLoop nd (mn.natAbs + 2) act row mn mi col
  match r.2.2.2 with
  | none => pure (r.2.1, none, flip)
  | some M =>
    if r.2.2.1 ≠ dest then do
      let M ← swapCols nd M dest r.2.2.1
      pure (r.2.1, some M, !flip)
    else pure (r.2.1, some M, flip)

/-- `matreduc::gcd` (matreduc.h L69-122): value, `*col`, `flip`; `withCol` tells whether `col!=nullptr` -/
def gcd (nd : Bool) (row : List Int) (withCol : Bool) (flip : Bool) (dest : Nat) : Res (Int × Option (Mat Int) × Bool) := do
  let col ← (if withCol then do pure (some (← identity row.length)) else pure none : Res (Option (Mat Int)))
  let s ← gcdScan row row.length 0 [] 0 0
  if s.1 = [] then pure (0, col, flip)
  else do
    let x ← Vec.get row s.2.2
    if x < 0 then do
      let row ← Vec.put row s.2.2 (-x)
      let col ← onCol col fun M => M.set s.2.2 s.2.2 (-1)
      gcdMain nd s.1 row s.2.1 s.2.2 col (!flip) dest
    else gcdMain nd s.1 row s.2.1 s.2.2 col flip dest

/-- the recorded operations, when there are any -/
def theOps (o : Option (Mat Int)) : Res (Mat Int) :=
  match o with
  | none => .undefined
  | some M => .ok M

/-- the state of `column_echelon` (matreduc.h L132-137): the matrix, `col`, `flip`, the set of pivot rows, `l` -/
structure Ech where
  M : Mat Int
  col : Mat Int
  flip : Bool
  piv : List Bool
  l : Nat
  deriving DecidableEq

/-- one iteration of the first loop of `column_echelon` (matreduc.h L138-148); for `l=0` the argument `l-1` is a large number, but
then it is not used -/
def echStep (nd : Bool) (i : Nat) (s : Ech) : Res Ech := do
  let v ← partialRow s.M i 0 s.l
  let g ← gcd nd v true s.flip ((s.l + (2 ^ 64 - 1)) % 2 ^ 64)
  let ops ← theOps g.2.1
  Res.assertIn nd (decide (ops.rows = s.l ∧ ops.cols = s.l))
  if g.1 = 0 then pure { s with flip := g.2.2 }
  else do
    let M ← columnApply nd s.M ops 0
    let col ← columnApply nd s.col ops 0
    let piv ← Vec.put s.piv i true
    let x ← M.get i (s.l - 1)
    Res.assertIn nd (decide (x = g.1))
    pure ⟨M, col, g.2.2, piv, s.l - 1⟩

/-- one iteration of the second loop of `column_echelon` (matreduc.h L150-158), for the value `l` after the decrement -/
def echErase (nd : Bool) (l : Nat) (s : Mat Int × Mat Int × Bool) : Res (Mat Int × Mat Int × Bool) := do
  let M ← eraseColumn nd s.1 l
  let cc ← column nd s.2.1 l
  let col ← forUp (fun j (col : Mat Int) => do setColumn nd col j (← column nd col (j + 1))) (M.cols - l) l s.2.1
  let col ← setColumn nd col M.cols cc
  pure (M, col, xor s.2.2 (decide ((M.cols - l) % 2 = 1)))

/-- `column_echelon` (matreduc.h L128-161): result, `M`, `col`, `flip` -/
def columnEchelon (nd : Bool) (M : Mat Int) : Res (List Bool × Mat Int × Mat Int × Bool) := do
  let col ← identity M.cols
  let s ← forDown (echStep nd) M.rows ⟨M, col, false, List.replicate M.rows false, M.cols⟩
  let r ← forDown (echErase nd) s.l (s.M, s.col, s.flip)
  pure (s.piv, r)

/-- the members of a `BitMap` in increasing order -/
def members (p : List Bool) : List Nat := (List.range p.length).filter fun i => p.getD i false

/-- the state of `echelon_solve`: `j`, `f`, `b`, `result` -/
structure Sol where
  j : Nat
  f : Int
  b : List Int
  x : List Int
  deriving DecidableEq

/-- one iteration of the loop of `echelon_solve` (matreduc.h L174-198) -/
def solveStep (nd : Bool) (E : Mat Int) (pivots : List Bool) (i : Nat) (s : Sol) : Res Sol := do
  let p ← Vec.get pivots i
  let bi ← Vec.get s.b i
  if p then
    if s.j = 0 then .undefined
    else do
      let e ← E.get i (s.j - 1)
      Res.assertIn nd (decide (e > 0))
      let d : Int := Int.gcd bi e
      Res.assertIn nd (decide (d > 0))
      let m := bi.tdiv d
      let t ← (if d < e then do
          let q := e.tdiv d
          let b ← forUp (fun k (b : List Int) => do Vec.put b k ((← Vec.get b k) * q)) (i + 1) 0 s.b
          let x ← forUp (fun l (x : List Int) => do Vec.put x l ((← Vec.get x l) * q)) (s.x.length - s.j) s.j s.x
          pure (s.f * q, b, x)
        else pure (s.f, s.b, s.x) : Res (Int × List Int × List Int))
      let bi' ← Vec.get t.2.1 i
      Res.assertIn nd (decide (m = bi'.tdiv e))
      let x ← Vec.put t.2.2 (s.j - 1) m
      let b ← forUp (fun k (b : List Int) => do Vec.put b k ((← Vec.get b k) - (← E.get k (s.j - 1)) * m)) (i + 1) 0 t.2.1
      let z ← Vec.get b i
      Res.assertIn nd (decide (z = 0))
      pure ⟨s.j - 1, t.1, b, x⟩
  else if bi ≠ 0 then .throw
  else pure s

/-- `echelon_solve` (matreduc.h L164-203): solution and factor -/
def echelonSolve (nd : Bool) (E : Mat Int) (pivots : List Bool) (b : List Int) : Res (List Int × Int) := do
  Res.assertIn nd (decide (b.length = E.rows))
  let s ← forDown (solveStep nd E pivots) E.rows ⟨(members pivots).length, 1, b, List.replicate E.cols 0⟩
  Res.assertIn nd (decide (s.j = 0))
  pure (s.x, s.f)

/-- `inverse` with denominator (matrix.cpp L468-499); `arithmetic::lcm` of big integers is `Int.lcm` (C09), and conversion of the
quotient to `int` is exact -/
def inverse (nd : Bool) (A : Mat Int) : Res (Mat Int × Int) := do
  Res.assertIn nd (decide (A.rows = A.cols))
  let n := A.rows
  if n = 0 then pure (blank n n, 1)
  else do
    let e ← columnEchelon nd A
    if ¬ e.1.all id then pure (blank n n, 0)
    else do
      let basis ← standardBasis n
      let sols ← tab n fun j => do echelonSolve nd e.2.1 e.1 (← Vec.get basis j)
      let d0 ← Vec.get sols 0
      let d ← forUp (fun j (d : Int) => do
        let s ← Vec.get sols j
        pure (Int.lcm d s.2 : Int)) (n - 1) 1 d0.2
      let R ← forUp (fun j (R : Mat Int) => do
        let s ← Vec.get sols j
        let v ← apply nd e.2.2.1 s.1
        if s.2 = 0 then .undefined
        else do setColumn nd R j (← vecScale v (d.tdiv s.2))) n 0 (blank n n)
      pure (R, d)

/-- `inverse` without denominator (matrix.h L81-86) is the same, throwing an error unless the denominator is 1 -/
def inverseExact (nd : Bool) (A : Mat Int) : Res (Mat Int) := do
  let r ← inverse nd A
  if r.2 = 1 then pure r.1 else .throw

/-- `on_basis` (matrix.cpp L288-295) -/
def onBasis (nd : Bool) (M basis : Mat Int) : Res (Mat Int) := do
  let r ← inverse nd basis
  divScalar (← mul nd (← mul nd r.1 M) basis) r.2

end Verif.Mat
