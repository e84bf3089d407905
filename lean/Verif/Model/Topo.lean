import Verif.Model.Py

/-
Model of the graph helpers of src/network/helpers.py.
-/
namespace Cgpm

/-- An adjacency dictionary: node -> parents (edges are incoming). -/
abbrev Graph := Dict Nat (List Nat)

/-- src/network/helpers.py:109-114: the `for` loop over a snapshot `items` of the graph; the
state is the graph, `graph_sorted` and the flag `cyclic`. -/
def topoPass : List (Nat × List Nat) → Graph → List Nat → Bool → Graph × List Nat × Bool
  | [], graph, sorted, cyclic => (graph, sorted, cyclic)
  | (node, edges) :: t, graph, sorted, cyclic =>
    if edges.all (fun e => !graph.has e) then
      topoPass t (graph.erase node) (sorted ++ [node]) false
    else topoPass t graph sorted cyclic

/-- src/network/helpers.py:107-117: the `while` loop, cut off after `fuel` passes (`none`:
still running).  `order p g` is the order in which `graph.items()` lists the graph `g` in pass
`p`: in Python 2 it is arbitrary. -/
def topoLoop (order : Nat → Graph → List (Nat × List Nat)) :
    Nat → Graph → List Nat → Option (Except Exn (List Nat))
  | 0, _, _ => none
  | fuel + 1, graph, sorted =>
    if graph.isEmpty then some (.ok sorted)
    else
      match topoPass (order fuel graph) graph sorted true with
      | (graph', sorted', cyclic) =>
        if cyclic then some (.error .valueError)
        else topoLoop order fuel graph' sorted'

/-- src/network/helpers.py:90-118 `topological_sort` on a dictionary; the loop is given as
many passes as the graph has nodes, plus one (C25 shows that it needs no more). -/
def topologicalSort (order : Nat → Graph → List (Nat × List Nat)) (graph : Graph) :
    Option (Except Exn (List Nat)) := topoLoop order (graph.length + 1) graph []

end Cgpm
