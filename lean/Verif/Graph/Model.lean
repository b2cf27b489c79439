import Verif.Part.Model
/-
Model of `OrientedGraph` (/repo/sources/utilities/graph.h, graph.cpp).

The only data member is the vector of edge lists `d_edges` (graph.h L37); a graph is a list of lists of vertices.
Vertices and sequence numbers are `unsigned int`; the model uses natural numbers, which is exact for graphs with
fewer than `2^32-1` vertices.
-/
namespace Verif.Graph
open Verif

abbrev Edges := List (List Nat)

/-- `std::set::insert`; the elements of a set are listed in increasing order -/
def setInsert (x : Nat) : List Nat → List Nat
  | [] => [x]
  | y :: l => if x < y then x :: y :: l else if x = y then y :: l else y :: setInsert x l

/-! ### Strong components -/

/-- the records on the stack `active` (graph.cpp L172-182) -/
structure Info where
  v : Nat
  parent : Nat
  next : Nat
  min : Nat
  deriving DecidableEq, Repr

/-- the local variables of `cells` (graph.cpp L188-199, L208); `gr` is the graph `*gr`, or `none` when `gr==nullptr` -/
structure St where
  rank : List Nat
  act : List Info
  count : Nat
  pi : Part.Partition
  gr : Option Edges
  deriving DecidableEq, Repr

/-- the loop splitting off a strong component (graph.cpp L245-251), over the part of `active` from the current
position on; also computes the list `out` -/
def settleLoop (g : Edges) (c : Nat) : List Info → List Nat → Part.Partition → Res (List Nat × Part.Partition × List (List Nat))
  | [], rank, pi => .ok (rank, pi, [])
  | a :: l, rank, pi => do
    let pi ← pi.addToClass c a.v
    let rank ← Vec.put rank a.v (g.length + 1)
    let e ← Vec.get g a.v
    let (rank, pi, out) ← settleLoop g c l rank pi
    .ok (rank, pi, e :: out)

/-- the inner loop of `add_links` (graph.cpp L367-368) -/
def classesLoop (pi : Part.Partition) : List Nat → List Nat → Res (List Nat)
  | [], seen => .ok seen
  | e :: l, seen => do classesLoop pi l (setInsert (← pi.classOf e) seen)

/-- the loop of `add_links` (graph.cpp L366-368) -/
def linksLoop (pi : Part.Partition) : List (List Nat) → List Nat → Res (List Nat)
  | [], seen => .ok seen
  | e :: l, seen => do linksLoop pi l (← classesLoop pi e seen)

/-- `add_links` (graph.cpp L361-374) -/
def addLinks (gr : Edges) (out : List (List Nat)) (pi : Part.Partition) : Res Edges := do
  let seen ← linksLoop pi out []
  .ok (gr ++ [seen.filter (· ≠ gr.length)])

/-- splitting off a strong component (graph.cpp L242-255) -/
def settle (g : Edges) (cur : Nat) (x : Info) (st : St) : Res St := do
  let (c, pi) ← st.pi.newClass x.v
  let (rank, pi, out) ← settleLoop g c (st.act.drop cur) st.rank pi
  let gr ← (match st.gr with
    | none => .ok none
    | some gr => do
      let gr ← addLinks gr out pi
      .ok (some gr) : Res (Option Edges))
  .ok { st with rank, pi, gr, act := st.act.take cur }

/-- the loop `while(cur_pos!=nil)` (graph.cpp L213-263), with fuel.  One pass of this function is one pass of the
inner loop over edges (L219-235) or the code following it; after an edge that leads to a vertex seen before, the
references `x` and `edges` are obtained again from the same `cur_pos`. -/
def loop (g : Edges) : Nat → Nat → St → Res St
  | 0, _, _ => .outOfFuel
  | f + 1, cur, st =>
    if cur = g.length then .ok st
    else do
      let x ← Vec.get st.act cur
      let edges ← Vec.get g x.v
      if x.next < edges.length then
        let y ← Vec.get edges x.next
        let x := { x with next := x.next + 1 }
        let ry ← Vec.get st.rank y
        if ry = 0 then
          let act ← Vec.put st.act cur x
          let rank ← Vec.put st.rank y st.count
          loop g f act.length { st with rank, act := act ++ [⟨y, cur, 0, st.count⟩], count := st.count + 1 }
        else
          let act ← Vec.put st.act cur (if ry < x.min then { x with min := ry } else x)
          loop g f cur { st with act }
      else
        let rx ← Vec.get st.rank x.v
        if x.min = rx then
          let st ← settle g cur x st
          loop g f x.parent st
        else
          let p ← Vec.get st.act x.parent
          let act ← Vec.put st.act x.parent (if x.min < p.min then { p with min := x.min } else p)
          loop g f x.parent { st with act }

/-- a bound for the number of passes of the loop: the number of vertices plus the number of edges -/
def bound (g : Edges) : Nat := g.length + (g.map List.length).sum

/-- the loop over `x0` (graph.cpp L205-267): the next `m` values from `x0` on -/
def cellsLoop (nd : Bool) (g : Edges) : Nat → Nat → St → Res St
  | _, 0, st => .ok st
  | x0, m + 1, st => do
    let r ← Vec.get st.rank x0
    let st ← (if r < g.length + 1 then do
        let rank ← Vec.put st.rank x0 1
        let st ← loop g (bound g + 1) 0 { st with rank, act := st.act ++ [⟨x0, g.length, 0, 1⟩], count := 2 }
        Res.assertIn nd st.act.isEmpty
        .ok st
      else .ok st : Res St)
    cellsLoop nd g (x0 + 1) m st

/-- `cells(gr)` (graph.cpp L186-294); `wantGraph` tells whether `gr!=nullptr` -/
def cells (nd : Bool) (g : Edges) (wantGraph : Bool) : Res (Part.Partition × Option Edges) := do
  let st ← cellsLoop nd g 0 g.length
    ⟨List.replicate g.length 0, [], 0, Part.Partition.sized g.length, if wantGraph then some [] else none⟩
  .ok (st.pi, st.gr)

/-! ### Reversals -/

/-- the inner loop of `reverseEdges` (graph.cpp L322-323) -/
def pushLoop (x : Nat) : List Nat → Edges → Res Edges
  | [], r => .ok r
  | y :: l, r => do pushLoop x l (← Vec.put r y ((← Vec.get r y) ++ [x]))

/-- the loop of `reverseEdges` over `x` (graph.cpp L319-324), from vertex `x` on -/
def reverseLoop : Nat → Edges → Edges → Res Edges
  | _, [], r => .ok r
  | x, e :: l, r => do reverseLoop (x + 1) l (← pushLoop x e r)

/-- `reverseEdges()` (graph.cpp L316-327) -/
def reverseEdges (g : Edges) : Res Edges := reverseLoop 0 g (List.replicate g.length [])

/-- the loop of `reverseNumbering` over `x` (graph.cpp L334-340), from vertex `x` on; `last-el[j]` is computed modulo `2^32` -/
def renumberLoop (last : Nat) : Nat → Edges → Edges → Res Edges
  | _, [], r => .ok r
  | x, e :: l, r => do
    renumberLoop last (x + 1) l (← Vec.put r (last - x) (e.reverse.map fun y => (last + 4294967296 - y) % 4294967296))

/-- `reverseNumbering()` (graph.cpp L329-342) -/
def reverseNumbering (g : Edges) : Res Edges :=
  renumberLoop ((g.length + 4294967295) % 4294967296) 0 g (List.replicate g.length [])

end Verif.Graph
