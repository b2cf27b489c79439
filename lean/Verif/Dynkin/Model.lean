import Verif.Common
import Verif.Weyl.Group

/-!
# Model of the recognition of Dynkin diagrams

Modelled: class `DynkinDiagram` (dynkin.h, dynkin.cpp) with its constructor from a Cartan matrix,
`type`, `perm`, `Cartan_entry`, and both functions `Lie_type`; from lietype.cpp the functions
`dispatch` and `LieType::Cartan_entry`.  Not modelled: `folded`, `permute`.

Conventions.
* A `RankFlags` is the increasing list of its members; `firstBit` is the head of that list, and
  its use on an empty set, which gives an index out of range, is undefined.
* The value `rank()` in a variable for "not found" is `none`.
* `Cartan_error` is `throw`.
* `nd` tells whether the program was compiled without assertions.
-/

namespace Verif.Dynkin

open Verif.Weyl (Ty Comp)

/-- a matrix of integers with its dimensions -/
structure Mat where
  rows : Nat
  cols : Nat
  entry : Nat → Nat → Int

/-- the data members `d_star` and `down_edges`, dynkin.h 77-80 -/
structure Diagram where
  star : List (List Nat)
  down : List ((Nat × Nat) × Int)
  deriving DecidableEq, Repr

/-- `star`, dynkin.h 115 -/
def Diagram.nbrs (d : Diagram) (j : Nat) : List Nat := d.star.getD j []

/-- the body of the double loop of the constructor, dynkin.cpp 35-51; bit `i` is set after smaller
ones, so that it goes to the end of the list -/
def scanEntry (c : Nat → Nat → Int) (i j : Nat) (d : Diagram) : Res Diagram :=
  if i ≠ j then
    if c i j < -3 then .throw
    else if c i j > 0 then .throw
    else if c i j ≠ 0 then
      if c j i = 0 then .throw
      else
        let star := d.star.set j (d.nbrs j ++ [i])
        .ok ⟨star, if c i j < -1 then d.down ++ [((i, j), -c i j)] else d.down⟩
    else .ok d
  else if c i j ≠ 2 then .throw
  else .ok d

/-- the inner loop, dynkin.cpp 34 -/
def scanRow (c : Nat → Nat → Int) (i : Nat) : List Nat → Diagram → Res Diagram
  | [], d => .ok d
  | j :: js, d => do scanRow c i js (← scanEntry c i j d)

/-- the outer loop, dynkin.cpp 33 -/
def scanRows (c : Nat → Nat → Int) (cols : List Nat) : List Nat → Diagram → Res Diagram
  | [], d => .ok d
  | i :: is, d => do scanRows c cols is (← scanRow c i cols d)

/-- intersection of two sets is not empty -/
def meets (a b : List Nat) : Bool := a.any (fun x => decide (x ∈ b))

/-- union of two sets of at most 32 bits -/
def union (a b : List Nat) : List Nat :=
  (List.range 32).filter (fun x => decide (x ∈ a) || decide (x ∈ b))

/-- the second `while` loop, dynkin.cpp 67-74: merge into `sup` the supports that meet the star -/
def absorb (star : List Nat) : List Nat → List (List Nat) → List Nat × List (List Nat)
  | sup, [] => (sup, [])
  | sup, s :: l =>
    if meets s star then absorb star (union sup s) l
    else
      let r := absorb star sup l
      (r.1, s :: r.2)

/-- the first `while` loop, dynkin.cpp 62-65: find the first support that meets the star; running
off the end of the list fails the assertion, or is undefined -/
def attach (nd : Bool) (star : List Nat) (i : Nat) : List (List Nat) → Res (List (List Nat))
  | [] => if nd then .undefined else .assertFail
  | s :: l =>
    if meets s star then
      let r := absorb star (union s [i]) l
      .ok (r.1 :: r.2)
    else do
      let l' ← attach nd star i l
      .ok (s :: l')

/-- the body of the loop that forms the components, dynkin.cpp 57-75 -/
def addNode (nd : Bool) (star : List Nat) (i : Nat) (comps : List (List Nat)) :
    Res (List (List Nat)) :=
  if (star.filter (fun x => decide (x < i))).isEmpty then .ok (comps ++ [[i]])
  else do
    Res.assertIn nd (!comps.isEmpty)
    attach nd star i comps

/-- the loop that forms the components, dynkin.cpp 56-75 -/
def components (nd : Bool) (d : Diagram) : List Nat → List (List Nat) → Res (List (List Nat))
  | [], l => .ok l
  | i :: is, l => do components nd d is (← addNode nd (d.nbrs i) i l)

/-- the loop that looks for a fork and for extremities, dynkin.cpp 124-142 -/
def degrees (d : Diagram) : List Nat → Option Nat → List Nat → Res (Option Nat × List Nat)
  | [], fork, ext => .ok (fork, ext)
  | i :: l, fork, ext =>
    let deg := (d.nbrs i).length
    if deg ≠ 2 then
      if deg < 2 then degrees d l fork (ext ++ [i])
      else if deg = 3 then
        match fork with
        | none => degrees d l (some i) ext
        | some _ => .throw
      else .throw
    else degrees d l fork ext

/-- the loop that looks for a multiple edge, dynkin.cpp 148-157; the result is `(upper,lower)` -/
def labels (supp : List Nat) : List ((Nat × Nat) × Int) → Option (Nat × Nat) →
    Res (Option (Nat × Nat))
  | [], e => .ok e
  | ((i, j), m) :: l, e =>
    if i ∈ supp then
      if m = 3 then .throw
      else
        match e with
        | none => labels supp l (some (i, j))
        | some _ => .throw
    else labels supp l e

/-- `firstBit` -/
def firstBit (s : List Nat) : Res Nat := match s with | [] => .undefined | x :: _ => .ok x

/-- `a & b` -/
def inter (a b : List Nat) : List Nat := a.filter (fun x => decide (x ∈ b))

/-- `a.andnot(b)`, `a-b` -/
def diff (a b : List Nat) : List Nat := a.filter (fun x => decide (x ∉ b))

/-- the traversal of a component, dynkin.cpp 209-219.  The bound on the number of passes is the
number of nodes that remain; in a build without assertions the last case repeats for ever. -/
def walk (nd : Bool) (d : Diagram) (ty : Ty) (fork : Option Nat) :
    Nat → Nat → List Nat → List Nat → Res (List Nat)
  | 0, _, _, _ => .outOfFuel
  | fuel + 1, start, remain, pos =>
    let pos := pos ++ [start]
    let remain := diff remain [start]
    if remain.isEmpty then .ok pos
    else
      match inter (d.nbrs start) remain with
      | s :: _ => walk nd d ty fork fuel s remain pos
      | [] =>
        if ty = .D then
          match fork with
          | none => .undefined
          | some f => do
            Res.assertIn nd (diff remain (d.nbrs f)).isEmpty
            let s ← firstBit remain
            walk nd d ty fork fuel s remain pos
        else if nd then .outOfFuel else .assertFail

/-- the type of a component of rank more than 2, dynkin.cpp 159-165 -/
def typeOf (d : Diagram) (ext : List Nat) (fork : Option Nat) (edge : Option (Nat × Nat)) : Res Ty :=
  match edge, fork with
  | none, none => .ok .A
  | none, some f => .ok (if (inter (d.nbrs f) ext).length = 1 then .E else .D)
  | some (upper, lower), none =>
    .ok (if lower ∈ ext then .B else if upper ∈ ext then .C else .F)
  | some _, some _ => .throw

/-- the choice of the node to start from, dynkin.cpp 167-206; the result is this node, the nodes
that remain, and the positions set so far -/
def startOf (nd : Bool) (d : Diagram) (supp ext : List Nat) (fork : Option Nat)
    (edge : Option (Nat × Nat)) (ty : Ty) : Res (Nat × List Nat × List Nat) :=
  match ty, fork, edge with
  | .A, _, _ => do
    let s ← firstBit ext
    .ok (s, supp, [])
  | .B, _, some (_, lower) => do
    let s ← firstBit (diff ext [lower])
    .ok (s, supp, [])
  | .C, _, some (upper, _) => do
    let s ← firstBit (diff ext [upper])
    .ok (s, supp, [])
  | .D, some f, _ =>
    if supp.length = 4 then do
      let s ← firstBit ext
      .ok (s, supp, [])
    else
      let ext := diff ext (d.nbrs f)
      if ext.length > 1 then .throw
      else do
        Res.assertIn nd (decide (ext.length = 1))
        let s ← firstBit ext
        .ok (s, supp, [])
  | .E, some f, _ =>
    if supp.length > 8 then .throw
    else do
      let short := inter ext (d.nbrs f)
      Res.assertIn nd (decide (short.length = 1))
      let ext := diff ext short
      let s ← firstBit ext
      let s ← (if (inter (d.nbrs s) (d.nbrs f)).isEmpty then firstBit (diff ext [s]) else .ok s)
      if (inter (d.nbrs s) (d.nbrs f)).isEmpty then .throw
      else do
        let a ← firstBit short
        let u ← firstBit (inter (d.nbrs s) (d.nbrs f))
        .ok (u, diff (diff supp [s]) short, [s, a])
  | .F, _, some (_, lower) =>
    if supp.length > 4 then .throw
    else do
      let s ← firstBit (diff ext (d.nbrs lower))
      .ok (s, supp, [])
  | _, _, _ => .undefined

/-- `classify` for a single component, dynkin.cpp 93-221 -/
def classifyComp (nd : Bool) (c : Nat → Nat → Int) (d : Diagram) (supp : List Nat) :
    Res (Ty × List Nat) :=
  if supp.length ≤ 2 then
    match supp with
    | [i] => .ok (.A, [i])
    | [i, j] =>
      let m := c i j * c j i
      if m = 1 then .ok (.A, [i, j])
      else if m = 2 then .ok (if c i j = -1 then .C else .B, [i, j])
      else if m = 3 then .ok (.G, if c i j = -1 then [i, j] else [j, i])
      else .throw
    | _ => .undefined
  else do
    let (fork, ext) ← degrees d supp none []
    if ext.length < 2 then .throw
    else do
      let edge ← labels supp d.down none
      let ty ← typeOf d ext fork edge
      let (s, remain, pos) ← startOf nd d supp ext fork edge ty
      let pos ← walk nd d ty fork (supp.length + 1) s remain pos
      .ok (ty, pos)

/-- the loop that completes the components, dynkin.cpp 80-88; `o` is the offset -/
def classifyAll (nd : Bool) (c : Nat → Nat → Int) (d : Diagram) : List (List Nat) → Nat →
    Res (List Comp)
  | [], _ => .ok []
  | s :: l, o => do
    let (ty, pos) ← classifyComp nd c d s
    let r ← classifyAll nd c d l (o + s.length)
    .ok (⟨ty, o, pos⟩ :: r)

/-- the constructor, dynkin.cpp 28-54, 54-90.  If the matrix is not square then the assertion fails,
and without assertions entries out of range are used; and for more than 32 nodes there are shifts
by more than the width of the operand and bits out of range (reported here after the first loop). -/
def diagram (nd : Bool) (m : Mat) : Res (Diagram × List Comp) :=
  if m.rows ≠ m.cols then (if nd then .undefined else .assertFail)
  else do
    let d ← scanRows m.entry (List.range m.cols) (List.range m.rows)
      ⟨List.replicate m.cols [], []⟩
    if m.cols > 32 then .undefined
    else do
      let sups ← components nd d (List.range m.cols) []
      let comps ← classifyAll nd m.entry d sups 0
      .ok (d, comps)

/-- a `LieType` without torus factors: letters and ranks -/
abbrev LieType := List (Ty × Nat)

/-- `DynkinDiagram::type`, dynkin.cpp 280-289; the rank is at most 32 here -/
def typeList (comps : List Comp) : LieType := comps.map (fun c => (c.ty, c.rank))

/-- `DynkinDiagram::perm`, dynkin.cpp 291-298 -/
def perm (comps : List Comp) : List Nat := comps.flatMap Comp.position

/-- `DynkinDiagram::Cartan_entry`, dynkin.cpp 268-278 -/
def Diagram.cartanEntry (d : Diagram) (i j : Nat) : Int :=
  if j ∉ d.nbrs i then (if i = j then 2 else 0)
  else
    match d.down.find? (fun e => decide (e.1 = (i, j))) with
    | some e => -e.2
    | none => -1

/-- the letters in increasing order, for the comparison `tp<'D'` -/
def letterLtD : Ty → Bool
  | .A | .B | .C => true
  | _ => false

/-- `dispatch`, lietype.cpp 117-129, for the types A to G; the differences are of `unsigned int`
values -/
def dispatch (tp : Ty) (r min d : Nat) (lower : Bool) : Int :=
  if d = 0 then 2
  else if tp = .D then
    if (if min < (r + 2^32 - 3) % 2^32 then d == 1 else min == (r + 2^32 - 3) % 2^32) then -1 else 0
  else if tp = .E then (if d = (if min < 2 then 2 else 1) then -1 else 0)
  else if d = 2 then 0
  else if letterLtD tp then
    (if tp = .A ∨ min < (r + 2^32 - 2) % 2^32 ∨ lower = decide (tp = .C) then -1 else -2)
  else if tp = .F then (if min ≠ 1 ∨ lower = false then -1 else -2)
  else if lower = decide (tp = .G) then -1 else -3

/-- the loop of `LieType::Cartan_entry`, lietype.cpp 153-166 -/
def entryLoop (nd : Bool) (d : Nat) (lower : Bool) : LieType → Nat → Res Int
  | [], _ => if nd then .ok 0 else .assertFail
  | (tp, r) :: l, min =>
    if min ≥ r then entryLoop nd d lower l (min - r)
    else if min + d ≥ r then .ok 0
    else .ok (dispatch tp r min d lower)

/-- `LieType::Cartan_entry`, lietype.cpp 144-167 -/
def LieType.cartanEntry (nd : Bool) (t : LieType) (i j : Nat) : Res Int :=
  let min := if i < j then i else j
  let d := if i < j then j - i else i - j
  if d > 2 then .ok 0 else entryLoop nd d (decide (i < j)) t min

/-- the extra test of `Lie_type` for one row, dynkin.cpp 336-338 -/
def testRow (nd : Bool) (c : Nat → Nat → Int) (pi : List Nat) (t : LieType) (i : Nat) :
    List Nat → Res Unit
  | [] => .ok ()
  | j :: js => do
    let e ← t.cartanEntry nd i j
    match pi[i]?, pi[j]? with
    | some a, some b => if c a b ≠ e then .throw else testRow nd c pi t i js
    | _, _ => .undefined

/-- the extra test of `Lie_type`, dynkin.cpp 335-338 -/
def testRows (nd : Bool) (c : Nat → Nat → Int) (pi : List Nat) (t : LieType) (cols : List Nat) :
    List Nat → Res Unit
  | [] => .ok ()
  | i :: is => do
    testRow nd c pi t i cols
    testRows nd c pi t cols is

/-- `Lie_type` that also gives the permutation, dynkin.cpp 312-344 -/
def lieTypePerm (nd : Bool) (m : Mat) : Res (LieType × List Nat) :=
  if m.rows ≠ m.cols then .throw
  else do
    let (_, comps) ← diagram nd m
    let pi := perm comps
    let t := typeList comps
    if nd then .ok (t, pi)
    else if t.any (fun p => (decide (p.1 = .E) && decide (p.2 > 8)) ||
        (decide (p.1 = .F) && decide (p.2 > 4)) || (decide (p.1 = .G) && decide (p.2 > 2))) then .throw
    else do
      testRows nd m.entry pi t (List.range m.cols) (List.range m.cols)
      .ok (t, pi)

/-- `Lie_type`, dynkin.cpp 303-306 -/
def lieType (nd : Bool) (m : Mat) : Res LieType := do
  let (_, comps) ← diagram nd m
  .ok (typeList comps)

end Verif.Dynkin
