import Verif.Lemmas.Topo

/-
C25: topological_sort.
-/
namespace Cgpm.Props
open Cgpm

/-- C25.  For every dictionary and for every order in which its items may be listed in each
pass (`order` is any function that lists exactly the items), `topological_sort` terminates, and

* when the graph has no directed cycle, it returns every node exactly once, each after all its
  parents that are nodes of the graph;
* when the graph has a directed cycle, it raises `ValueError`. -/
theorem C25_topological_sort (order : Nat → Graph → List (Nat × List Nat))
    (hord : ∀ p g, (order p g).Perm g) (g : Graph) (hwf : g.WF) :
    (¬ g.Cyclic → ∃ l, topologicalSort order g = some (.ok l) ∧ l.Perm g.keys ∧
        ParentsFirst g l) ∧
    (g.Cyclic → topologicalSort order g = some (.error .valueError)) := by
  have h := topoLoop_spec order hord (g.length + 1) g [] (topoInv_init hwf) (Nat.lt_succ_self _)
  rcases h with ⟨l, hl, hI⟩ | ⟨he, v, -, hc⟩
  · have hall : ∀ n ∈ g.keys, n ∈ l := fun n hn => by
      have := (hI.split n).mp hn; simpa [Dict.keys] using this
    refine ⟨fun _ => ⟨l, hl, ?_, hI.order⟩,
      fun hc => absurd hc (no_cycle_of_parentsFirst hI.order hall)⟩
    rw [List.perm_ext_iff_of_nodup hI.nodup hwf]
    exact fun n => ⟨fun hn => (hI.split n).mpr (.inr hn), hall n⟩
  · exact ⟨fun hn => absurd ⟨v, hc⟩ hn, fun _ => he⟩

/-- The number of passes allowed in the model is immaterial: any larger number gives the same
answer, that is, the loop has always stopped by then. -/
theorem C25_terminates (order : Nat → Graph → List (Nat × List Nat))
    (hord : ∀ p g, (order p g).Perm g) (g : Graph) (hwf : g.WF) (fuel : Nat)
    (hf : g.length < fuel) : ∃ r, topoLoop order fuel g [] = some r := by
  rcases topoLoop_spec order hord fuel g [] (topoInv_init hwf) hf with ⟨l, hl, -⟩ | ⟨he, -⟩
  · exact ⟨_, hl⟩
  · exact ⟨_, he⟩

/-- Two listing orders may give two different answers, both topological orders: the order is
not part of the contract. -/
example : topologicalSort (fun _ g => g) [(2, [1, 7]), (1, []), (3, [1])]
      = some (.ok [1, 3, 2]) ∧
    topologicalSort (fun _ g => g.reverse) [(2, [1, 7]), (1, []), (3, [1])]
      = some (.ok [1, 2, 3]) := by decide

/-- The hypotheses are met by a graph with a cycle and by one without. -/
example : topologicalSort (fun _ g => g) [(2, [1]), (1, [3]), (3, [2])]
      = some (.error .valueError) := by decide

example : Graph.Cyclic [(2, [1]), (1, [2])] :=
  ⟨1, .tail (b := 2) (.single ⟨by decide, _, rfl, by decide⟩) ⟨by decide, _, rfl, by decide⟩⟩

end Cgpm.Props
