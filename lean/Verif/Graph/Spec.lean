import Verif.Graph.Model
import Mathlib.Logic.Relation
/-
Specification for C32: edges and reachability in a graph given by edge lists.
-/
namespace Verif.Graph

/-- there is an edge from `x` to `y` -/
def Edge (g : Edges) (x y : Nat) : Prop := ∃ e, g[x]? = some e ∧ y ∈ e

/-- all edges lead to vertices of the graph -/
def Proper (g : Edges) : Prop := ∀ x y, Edge g x y → y < g.length

/-- there is a path, possibly empty, from `x` to `y` -/
def Reach (g : Edges) : Nat → Nat → Prop := Relation.ReflTransGen (Edge g)

end Verif.Graph
