import Verif.Model.Metadata
import Verif.Spec.Composite

/-! Specification vocabulary for C34: what it means to restore an object. -/
namespace Cgpm.Props
open Cgpm
variable {C : Cat} {Ω : Type}

/-- SPEC. `b` is `a` restored: same data, outputs, concentration, column partition, constraints and
views (with their concentrations, row partitions, columns, hyperparameters and statistics, see
`View.Equiv`). The order in which dictionaries list their entries may differ. -/
structure StateRestored (a b : State C) : Prop where
  data : a.X = b.X
  outputs : a.outputs = b.outputs
  columns : Crp.Equiv a.crp b.crp
  dependent : a.Cd = b.Cd
  independent : a.Ci = b.Ci
  ids : a.views.keys.Perm b.views.keys
  distinct : a.views.keys.Nodup
  views : ∀ v, Option.Rel View.Equiv (a.views.get? v) (b.views.get? v)

/-- SPEC. Python's orders: a dict or a set lists its elements, each once. -/
structure _root_.Cgpm.Restoring.Lists (ρ : Restoring) : Prop where
  zv : ∀ d, (ρ.zv d).Perm d
  views : ∀ l, (ρ.views l).Nodup ∧ ∀ v, v ∈ ρ.views l ↔ v ∈ l

/-- SPEC. The rows of a view are numbered from 0. -/
def Contiguous (v : View C) (n : Nat) : Prop := ∀ r, v.seat r ≠ none ↔ r < n

end Cgpm.Props
