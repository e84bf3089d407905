import Verif.Model.Ancestors
import Verif.Spec.Network

/-!
Specification vocabulary for C28, C47 and C53: the graph of the variables of a network.
-/
namespace Cgpm.Net
variable {R V Ω : Type}

/-- SPEC. A component that produces `b` reads `a`. -/
def Parent (cgpms : List (NetCgpm R V Ω)) (a b : Nat) : Prop :=
  ∃ c ∈ cgpms, b ∈ c.outputs ∧ a ∈ c.inputs

/-- SPEC. There is a chain of components from `a` to `b`. -/
def Ancestor (cgpms : List (NetCgpm R V Ω)) : Nat → Nat → Prop := Relation.TransGen (Parent cgpms)

end Cgpm.Net
