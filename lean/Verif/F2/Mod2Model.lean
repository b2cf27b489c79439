import Verif.F2.Model
/-
Model of `Mod2_System` (/repo/sources/utilities/mod2_system.h, mod2_system.cpp).

A `BitMap` of capacity `n` is represented by the natural number of which bit `i` is the truth of `isMember(i)` (its
operations are the subject of C19).  Counts and indices are unbounded natural numbers, and sums of `unsigned int` of which
only the parity is used are not reduced modulo 2^32.

The parameter `fix` of `add` selects between the code (`false`), which tests `eq.lhs.empty()` just after constructing `eq`
with an empty left hand side, and the evidently intended test `lhs.empty()` (`true`).
-/
namespace Verif.F2
open Verif

/-- `BitMap::insert` (bitmap.h L206-210) -/
def bmInsert (nd : Bool) (n x i : Nat) : Res Nat := do
  Res.assertIn nd (i < n)
  if i < n then .ok (x ||| 1 <<< i) else .undefined

/-- `BitMap::flip` (bitmap.h L227-231) -/
def bmFlip (nd : Bool) (n x i : Nat) : Res Nat := do
  Res.assertIn nd (i < n)
  if i < n then .ok (x ^^^ 1 <<< i) else .undefined

/-- `BitMap::set_mod2` (bitmap.h L225) -/
def bmSet (nd : Bool) (n x i v : Nat) : Res Nat := do
  Res.assertIn nd (i < n)
  if i < n then .ok (putBit x i (v % 2 ≠ 0)) else .undefined

/-- `BitMap::isMember` (bitmap.h L137-142) -/
def bmMember (n x i : Nat) : Bool := i < n && x.testBit i

/-- the members in increasing order: iteration over a `BitMap` -/
def bmMembers (n x : Nat) : List Nat := (List.range n).filter fun i => x.testBit i

/-- constructor of a `BitMap` from a range (bitmap.h L90-105) -/
def bmOf (nd : Bool) (n : Nat) : List Nat → Nat → Res Nat
  | [], x => .ok x
  | i :: l, x => do bmOf nd n l (← bmInsert nd n x i)

/-- `Mod2_System::equation` (mod2_system.h L26-30) -/
structure Eqn where
  lhs : List Nat
  rhs : Nat
  deriving DecidableEq, Repr

/-- `Mod2_System` (mod2_system.h L32-34); `none` is `no_pivot` -/
structure Sys where
  eqn : List Eqn
  pivot : List (Option Nat)
  deriving DecidableEq, Repr

/-- default constructor (mod2_system.h L38) -/
def Sys.empty : Sys := ⟨[], []⟩

/-- `size` (mod2_system.cpp L32-33) -/
def Sys.size (s : Sys) : Nat := s.pivot.length

/-- `extend` (mod2_system.cpp L35-40) -/
def Sys.extend (s : Sys) (n : Nat) : Nat × Sys := (s.size, { s with pivot := s.pivot ++ List.replicate n none })

/-- `consistent` (mod2_system.cpp L72-75) -/
def Sys.consistent (s : Sys) : Bool :=
  match s.eqn.getLast? with
  | none => true
  | some e => !e.lhs.isEmpty

/-- flipping the given positions (mod2_system.cpp L83-85) -/
def flipAll (nd : Bool) (n : Nat) : List Nat → Nat → Res Nat
  | [], x => .ok x
  | i :: l, x => do flipAll nd n l (← bmFlip nd n x i)

/-- `eliminate` (mod2_system.cpp L77-87), given the equation -/
def eliminate (nd : Bool) (n : Nat) (e : Eqn) (dst : Nat) : Res (Nat × Nat) := do
  Res.assertIn nd (bmMember n dst (← Vec.get e.lhs 0))
  pure (e.rhs, ← flipAll nd n e.lhs dst)

/-- the reduction loop of `add` (mod2_system.cpp L52-54) -/
def addLoop (nd : Bool) (n : Nat) : List Eqn → Nat → Nat → Res (Nat × Nat)
  | [], lhs, rhs => .ok (lhs, rhs)
  | e :: l, lhs, rhs => do
    if bmMember n lhs (← Vec.get e.lhs 0) then
      let (r, lhs) ← eliminate nd n e lhs
      addLoop nd n l lhs (rhs + r)
    else addLoop nd n l lhs rhs

/-- `add` (mod2_system.cpp L43-69) -/
def Sys.add (nd fix : Bool) (s : Sys) (terms : List Nat) (rhs : Nat) : Res (Bool × Sys) := do
  if !s.consistent then pure (false, s)
  else
    let lhs ← bmOf nd s.size terms 0
    let (lhs, rhs) ← addLoop nd s.size s.eqn lhs rhs
    if lhs = 0 ∧ rhs % 2 = 0 then pure (true, s)
    else
      let ourIndex := s.eqn.length
      let eq : Eqn := ⟨[], rhs % 2⟩
      if (if fix then decide (lhs = 0) else eq.lhs.isEmpty) then pure (false, { s with eqn := s.eqn ++ [eq] })
      else
        let eq : Eqn := { eq with lhs := bmMembers s.size lhs }
        let pivot ← Vec.put s.pivot (← Vec.get eq.lhs 0) (some ourIndex)
        pure (true, ⟨s.eqn ++ [eq], pivot⟩)

/-- `rank` (mod2_system.cpp L89-92); `none` is `~0ul` -/
def Sys.rank (s : Sys) : Option Nat := if s.consistent then some s.eqn.length else none

/-- `dimension` (mod2_system.cpp L94-97); `none` is `~0ul` -/
def Sys.dimension (s : Sys) : Option Nat := if s.consistent then some (s.size - s.eqn.length) else none

/-- number of members of a list that are in the set (mod2_system.cpp L109-111) -/
def countIn (n x : Nat) (l : List Nat) : Nat := (l.filter fun i => bmMember n x i).length

/-- the loop of `a_solution` (mod2_system.cpp L104-113), from the last equation to the first -/
def solveLoop (nd : Bool) (n : Nat) : List Eqn → Res Nat
  | [] => .ok 0
  | e :: l => do
    let result ← solveLoop nd n l
    let p ← Vec.get e.lhs 0
    bmSet nd n result p ((if e.rhs ≠ 0 then 1 else 0) + countIn n result e.lhs.tail)

/-- `a_solution` (mod2_system.cpp L100-115) -/
def Sys.aSolution (nd : Bool) (s : Sys) : Res Nat := do
  Res.assertIn nd s.consistent
  solveLoop nd s.size s.eqn

/-- the inner loop of `reduce` (mod2_system.cpp L136-141): `inx` is the number of the equation, `eqs` the (reduced)
equations after it -/
def clearRow (nd : Bool) (n inx : Nat) (pivot : List (Option Nat)) (eqs : List Eqn) : List Nat → Nat → Nat → Res (Nat × Nat)
  | [], row, rhs => .ok (row, rhs)
  | p :: l, row, rhs => do
    let k ← Vec.get pivot p
    match k with
    | none => if nd then .undefined else .assertFail
    | some k =>
      Res.assertIn nd (k > inx)
      if k > inx then
        let e ← Vec.get eqs (k - inx - 1)
        let (r, row) ← eliminate nd n e row
        clearRow nd n inx pivot eqs l row (rhs ^^^ r)
      else .undefined

/-- the loop of `reduce` (mod2_system.cpp L122-143), from the last equation to the first; returned are the new equations
and the set of pivot columns.  An equation of index at most `inx` is never needed, so a reference to one is taken to be
undefined in `clearRow`. -/
def reduceEqs (nd : Bool) (n : Nat) (pivot : List (Option Nat)) : Nat → List Eqn → Res (List Eqn × Nat)
  | _, [] => .ok ([], 0)
  | inx, e :: l => do
    let (l, cols) ← reduceEqs nd n pivot (inx + 1) l
    let row ← bmOf nd n e.lhs 0
    let clear := bmMembers n (row &&& cols)
    match bmMembers n row with
    | [] => .undefined
    | p :: _ =>
      let cols ← bmInsert nd n cols p
      if clear = [] then pure (e :: l, cols)
      else
        let (row, rhs) ← clearRow nd n inx pivot l clear row e.rhs
        pure (⟨bmMembers n row, rhs⟩ :: l, cols)

/-- `reduce` (mod2_system.cpp L118-144) -/
def Sys.reduce (nd : Bool) (s : Sys) : Res Sys := do
  Res.assertIn nd s.consistent
  let (eqn, _) ← reduceEqs nd s.size s.pivot 0 s.eqn
  pure { s with eqn }

/-- the first loop of `solution_basis` (mod2_system.cpp L152-159): `j` is the unknown, `r` the generators found, `inx` the
indices assigned -/
def basisInit (nd : Bool) (n : Nat) : List (Option Nat) → Nat → List Nat → List (Option Nat) → Res (List Nat × List (Option Nat))
  | [], _, r, inx => .ok (r, inx)
  | none :: l, j, r, inx => do
    let g ← bmInsert nd n 0 j
    basisInit nd n l (j + 1) (r ++ [g]) (inx ++ [some r.length])
  | some _ :: l, j, r, inx => basisInit nd n l (j + 1) r (inx ++ [none])

/-- the inner loop of `solution_basis` (mod2_system.cpp L164-171), for the pivot `p` -/
def basisRow (nd : Bool) (n p : Nat) (inx : List (Option Nat)) : List Nat → List Nat → Res (List Nat)
  | [], r => .ok r
  | i :: l, r => do
    let k ← Vec.get inx i
    match k with
    | none => if nd then .undefined else .assertFail
    | some k =>
      let g ← Vec.get r k
      Res.assertIn nd (bmMember n g i)
      basisRow nd n p inx l (← Vec.put r k (← bmInsert nd n g p))

/-- the second loop of `solution_basis` (mod2_system.cpp L162-172) -/
def basisLoop (nd : Bool) (n : Nat) (inx : List (Option Nat)) : List Eqn → List Nat → Res (List Nat)
  | [], r => .ok r
  | e :: l, r => do
    let p ← Vec.get e.lhs 0
    basisLoop nd n inx l (← basisRow nd n p inx e.lhs.tail r)

/-- `solution_basis` (mod2_system.cpp L146-175) -/
def Sys.solutionBasis (nd : Bool) (s : Sys) : Res (List Nat × Sys) := do
  let s ← s.reduce nd
  let (r, inx) ← basisInit nd s.size s.pivot 0 [] []
  pure (← basisLoop nd s.size inx s.eqn r, s)

/-! ### Histories -/

/-- calls of manipulators -/
inductive SysOp where
  | extend (n : Nat)
  | add (terms : List Nat) (rhs : Nat)
  | reduce
  deriving DecidableEq, Repr

/-- a single call -/
def Sys.step (nd fix : Bool) (s : Sys) : SysOp → Res Sys
  | .extend n => .ok (s.extend n).2
  | .add l r => do pure (← s.add nd fix l r).2
  | .reduce => s.reduce nd

/-- a sequence of calls -/
def Sys.run (nd fix : Bool) : List SysOp → Sys → Res Sys
  | [], s => .ok s
  | op :: ops, s => do Sys.run nd fix ops (← s.step nd fix op)

end Verif.F2
