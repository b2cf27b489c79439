import Verif.KL.Model
import Verif.Graph.Model

/-!
# Model of W-graphs and their cells

Modelled: `wgraph::WGraph`, `DecomposedWGraph`, `cells` (wgraph.h, wgraph.cpp 30-157) and
`kl::wGraph` (kl.cpp 1037-1067).  Not modelled: the other function `wGraph`, that reads binary
files.  A `RankFlags` is the increasing list of its members, as in `Verif.KL.Model`.
-/

namespace Verif.KL

/-- the data members of `WGraph`, wgraph.h 52-55 -/
structure WGraph where
  rank : Nat
  graph : Graph.Edges
  coef : List (List Nat)
  desc : List (List Nat)
  deriving DecidableEq, Repr

namespace WGraph

/-- the constructor from lists of edges, wgraph.cpp 33-55; a coefficient is converted from
`unsigned int` to `unsigned short` -/
def make (nd : Bool) (rank : Nat) (tau : List (List Nat)) (edges : List (List (Nat × Nat))) :
    Res WGraph := do
  Res.assertIn nd (tau.length == edges.length)
  .ok { rank := rank, graph := edges.map (fun l => l.map Prod.fst),
        coef := edges.map (fun l => l.map (fun p => p.2 % 65536)), desc := tau }

/-- the inner loop of `oriented_graph`, wgraph.cpp 65-67 -/
def orientedRow (w : WGraph) (dx : List Nat) : List Nat → Res (List Nat)
  | [] => .ok []
  | y :: ys => do
    let dy ← Vec.get w.desc y
    let r ← orientedRow w dx ys
    .ok (if dx.all (fun s => decide (s ∈ dy)) then r else y :: r)

/-- the outer loop of `oriented_graph`, wgraph.cpp 61-69, for the rows of the graph from `x` -/
def orientedRows (w : WGraph) : Nat → Graph.Edges → Res Graph.Edges
  | _, [] => .ok []
  | x, row :: rows => do
    let dx ← Vec.get w.desc x
    let r ← orientedRow w dx row
    let rs ← orientedRows w (x + 1) rows
    .ok (r :: rs)

/-- `WGraph::oriented_graph`, wgraph.cpp 58-71 -/
def oriented (w : WGraph) : Res Graph.Edges := orientedRows w 0 w.graph

/-- the loop that sets `relno` for the members of one cell, wgraph.cpp 95-99, 141-142 -/
def setRel : List Nat → Nat → List Nat → Res (List Nat)
  | [], _, r => .ok r
  | v :: vs, i, r => do setRel vs (i + 1) (← Vec.put r v i)

/-- the loop over the edges of `y`, wgraph.cpp 109-111, 150-152; `i` is the position of the edge -/
def cellRow (w : WGraph) (pi : Part.Partition) (relno : List Nat) (y : Nat) :
    Nat → List Nat → Res (List (Nat × Nat))
  | _, [] => .ok []
  | i, x :: xs => do
    let cx ← pi.classOf x
    let cy ← pi.classOf y
    if cx = cy then
      let rx ← Vec.get relno x
      let cs ← Vec.get w.coef y
      let c ← Vec.get cs i
      let r ← cellRow w pi relno y (i + 1) xs
      .ok ((rx, c) :: r)
    else cellRow w pi relno y (i + 1) xs

/-- the loop over the members of a cell, wgraph.cpp 101-112, 144-153; also fills `d_part` -/
def cellRows (w : WGraph) (pi : Part.Partition) (relno : List Nat) :
    List Nat → List Nat → Res (List Nat × List (List Nat) × List (List (Nat × Nat)))
  | [], part => .ok (part, [], [])
  | y :: ys, part => do
    let part ← Vec.put part y (← pi.classOf y)
    let d ← Vec.get w.desc y
    let ely ← Vec.get w.graph y
    let row ← cellRow w pi relno y 0 ely
    let (part, tau, rows) ← cellRows w pi relno ys part
    .ok (part, d :: tau, row :: rows)

/-- the loop over the cells, wgraph.cpp 85-114, 136-155 -/
def cellsLoop (nd : Bool) (w : WGraph) (pi : Part.Partition) :
    List (List Nat) → List Nat → List Nat → Res (List Nat × List WGraph)
  | [], _, part => .ok (part, [])
  | cell :: rest, relno, part => do
    let relno ← setRel cell 0 relno
    let (part, tau, rows) ← cellRows w pi relno cell part
    let c ← make nd w.rank tau rows
    let (part, cs) ← cellsLoop nd w pi rest relno part
    .ok (part, c :: cs)

/-- `cells`, wgraph.cpp 127-157; the vector `d_part`, that this function does not have, is ignored -/
def cells (nd : Bool) (w : WGraph) : Res (List WGraph) := do
  let g ← w.oriented
  let (pi, _) ← Graph.cells nd g false
  let bs ← Part.traverse pi
  let zeros := List.replicate w.graph.length 0
  let (_, cs) ← cellsLoop nd w pi bs zeros zeros
  .ok cs

end WGraph

/-- the data members of `DecomposedWGraph`, wgraph.h 98-103 -/
structure Decomposed where
  cell : List WGraph
  part : List Nat
  id : List (List Nat)
  induced : Graph.Edges
  deriving DecidableEq, Repr

/-- the constructor of `DecomposedWGraph`, wgraph.cpp 73-117 -/
def Decomposed.make (nd : Bool) (w : WGraph) : Res Decomposed := do
  let g ← w.oriented
  let (pi, gr) ← Graph.cells nd g true
  let bs ← Part.traverse pi
  let zeros := List.replicate w.graph.length 0
  let (part, cs) ← WGraph.cellsLoop nd w pi bs zeros zeros
  .ok { cell := cs, part := part, id := bs, induced := gr.getD [] }

/-- the loop over a column of mu values, kl.cpp 1060-1064 -/
def pushEdges (y : Nat) : List (Nat × Nat) → List (List (Nat × Nat)) →
    Res (List (List (Nat × Nat)))
  | [], E => .ok E
  | (x, c) :: l, E => do
    let E ← Vec.put E y ((← Vec.get E y) ++ [(x, c)])
    let E ← Vec.put E x ((← Vec.get E x) ++ [(y, c)])
    pushEdges y l E

/-- the loop over `y`, kl.cpp 1057-1065 -/
def wGraphLoop (b : Block) (t : Table) : Nat → Nat → List (List Nat) → List (List (Nat × Nat)) →
    Res (List (List Nat) × List (List (Nat × Nat)))
  | _, 0, tau, E => .ok (tau, E)
  | y, n + 1, tau, E => do
    let E ← pushEdges y (← Vec.get t.mu y) E
    wGraphLoop b t (y + 1) n (tau ++ [b.descentSet y]) E

/-- `wGraph`, kl.cpp 1051-1067 -/
def wGraph (nd : Bool) (b : Block) (t : Table) : Res WGraph := do
  let (tau, E) ← wGraphLoop b t 0 b.size [] (List.replicate b.size [])
  WGraph.make nd b.rank tau E

end Verif.KL
