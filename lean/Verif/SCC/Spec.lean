import Verif.SCC.Model
/-! Specification vocabulary for graphs, independent of the algorithm. -/
namespace Cmmc.SCC

/-- there is an edge from `u` to `v` -/
def Edge (g : Graph) (u v : Nat) : Prop := v ∈ succ g u

/-- `v` is reachable from `u` by a path of zero or more edges -/
def Reach (g : Graph) : Nat → Nat → Prop := Relation.ReflTransGen (Edge g)

/-- every edge points to a node of the graph (precondition of the C++ code: `dfn[v]` must be in bounds) -/
def Valid (g : Graph) : Prop := ∀ u v, Edge g u v → v < g.length

end Cmmc.SCC
