import Mathlib.Logic.Relation
/-! Specification vocabulary for control-flow graphs, independent of the algorithms. -/
namespace Cmmc.Dom

/-- `p` lists the vertices of a path of the graph `E` that starts in `a` and ends in `b` -/
inductive Path {α : Type} (E : α → α → Prop) : α → α → List α → Prop
  | single (a : α) : Path E a a [a]
  | cons {a b c : α} {p : List α} : E a b → Path E b c p → Path E a c (a :: p)

/-- `b` can be reached from `a` -/
def Reachable {α : Type} (E : α → α → Prop) (a b : α) : Prop := ∃ p, Path E a b p

/-- `a` dominates `b`: every path from the entry `r` to `b` contains `a` -/
def Dominates {α : Type} (E : α → α → Prop) (r a b : α) : Prop := ∀ p, Path E r b p → a ∈ p

/-- `d` is the immediate dominator of `b`: a strict dominator that every other strict dominator dominates -/
def ImmDom {α : Type} (E : α → α → Prop) (r d b : α) : Prop :=
  Dominates E r d b ∧ d ≠ b ∧ ∀ e, Dominates E r e b → e ≠ b → Dominates E r e d

end Cmmc.Dom
