import Verif.Model.Topo
import Mathlib.Logic.Relation

/-
What a topological order of an adjacency dictionary is, independently of how it is computed.
-/
namespace Cgpm

/-- There is an edge from `a` to `b` inside the graph: `b` is a node that lists the node `a`
among its parents (parents that are not nodes do not count). -/
def Graph.Edge (g : Graph) (a b : Nat) : Prop :=
  a ∈ g.keys ∧ ∃ es, g.get? b = some es ∧ a ∈ es

/-- The graph has a directed cycle. -/
def Graph.Cyclic (g : Graph) : Prop := ∃ v, Relation.TransGen g.Edge v v

/-- `l` lists nodes with their in-graph parents first. -/
def ParentsFirst (g : Graph) (l : List Nat) : Prop :=
  ∀ i (h : i < l.length), ∀ a, g.Edge a l[i] → a ∈ l.take i

end Cgpm
