import Verif.Model.LoomRun
import Verif.Model.StateQuery
import Verif.Spec.Import

/-
SPEC for C89.
-/
namespace Cgpm
variable {C : Cat}
open Loom

/-- SPEC. The files describe the State: a column for each output, in order, under its name, with the
cells of the State, a row each, and with the type of Loom for the model of the column. -/
structure FilesDescribe (st : C.ι → Option LoomType) (pr : Project C) (s : State C) : Prop where
  columns : pr.map (·.name) = s.outputs.map columnName
  rows : ∀ q ∈ pr, q.cells.length = s.nRows
  cells : ∀ (i : Nat) c q, s.outputs[i]? = some c → pr[i]? = some q →
    ∀ r < s.nRows, q.cells[r]? = some (s.tbl c r)
  types : ∀ (i : Nat) c q d, s.outputs[i]? = some c → pr[i]? = some q → s.dimFor c = .ok d →
    st d.kind = some q.type

/-- SPEC. If the State has a project, then its files are in the store and describe the State. -/
def ProjectCurrent (st : C.ι → Option LoomType) (store : Store C) (m : Member C) : Prop :=
  ∀ p, m.path = some p → ∃ pr, store.get? p = some pr ∧ FilesDescribe st pr m.state

/-- SPEC. The two States have the same table and the same models of the columns; parameters and
partitions may differ. -/
structure SameTable (s s' : State C) : Prop where
  data : s'.X = s.X
  outputs : s'.outputs = s.outputs
  kinds : ∀ c d d', s.dimFor c = .ok d → s'.dimFor c = .ok d' → d'.kind = d.kind

/-- SPEC. Loom has a type for each column of the State. -/
def LoomTyped (st : C.ι → Option LoomType) (s : State C) : Prop :=
  ∀ c ∈ s.outputs, ∀ d, s.dimFor c = .ok d → st d.kind ≠ none

/-- SPEC. Only arguments that Loom supports are given. -/
def LoomSupports (a : Args) : Prop :=
  a.S = false ∧ a.kernels = false ∧ a.progress = false ∧ a.checkpoint = false

/-- SPEC. The sample is installed: two columns share a view iff Loom has them in one kind, and rows
are seated in the view as Loom groups them in the kind. -/
structure SampleInstalled (x : LoomSample) (s' : State C) : Prop where
  columns : ∀ (f g : Nat) c e, x.features[f]? = some (columnName c) →
    x.features[g]? = some (columnName e) → (s'.Zv c = s'.Zv e ↔ ∃ l ∈ x.kinds, f ∈ l ∧ g ∈ l)
  rows : ∀ (k f : Nat) l c, x.kinds[k]? = some l → f ∈ l → x.features[f]? = some (columnName c) →
    ∃ i v, s'.viewFor c = .ok (i, v) ∧ ∀ r g, (r, g) ∈ x.rows → v.seat r = g[k]?

/-- SPEC. The values a column of Loom of the type can have. -/
def LoomHolds : LoomType → ℝ → Prop
  | .boolean, x => x = 0 ∨ x = 1
  | .categorical, x => ∃ n : ℕ, n < 256 ∧ x = n
  | .unboundedCategorical, x => ∃ n : ℕ, x = n
  | .count, x => ∃ n : ℕ, x = n
  | .real, _ => True

end Cgpm
