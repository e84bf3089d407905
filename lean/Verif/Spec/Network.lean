import Verif.Model.Network
import Verif.Spec.Topo

/-
What it means for a list of components to form a network, and which variables a query needs.
-/
namespace Cgpm.Net
variable {R V Ω : Type}

/-- Some component produces the variable. -/
def Produced (cgpms : List (NetCgpm R V Ω)) (v : Nat) : Prop := ∃ c ∈ cgpms, v ∈ c.outputs

/-- Component number `i` feeds component number `j`: it produces one of its inputs. -/
def Feeds (cgpms : List (NetCgpm R V Ω)) (i j : Nat) : Prop :=
  ∃ a b : NetCgpm R V Ω, cgpms[i]? = some a ∧ cgpms[j]? = some b ∧ ∃ v ∈ a.outputs, v ∈ b.inputs

/-- A well-formed network: every component produces something, no variable is produced twice,
and no component feeds itself, directly or through others. -/
structure WellFormed (cgpms : List (NetCgpm R V Ω)) : Prop where
  nonempty : ∀ c ∈ cgpms, c.outputs ≠ []
  unique : ∀ (i j : Nat) (a b : NetCgpm R V Ω), cgpms[i]? = some a → cgpms[j]? = some b →
    ∀ v ∈ a.outputs, v ∈ b.outputs → i = j
  acyclic : ∀ i, ¬ Relation.TransGen (Feeds cgpms) i i

/-- The variables a query needs: the targets, and the inputs of every component one of whose
outputs is needed or constrained. -/
inductive Needed (cgpms : List (NetCgpm R V Ω)) (T C : Nat → Prop) : Nat → Prop
  | target {v} : T v → Needed cgpms T C v
  | input {c o v} : c ∈ cgpms → o ∈ c.outputs → Needed cgpms T C o → v ∈ c.inputs →
      Needed cgpms T C v
  | constr {c o v} : c ∈ cgpms → o ∈ c.outputs → C o → v ∈ c.inputs → Needed cgpms T C v

/-- A component takes part in a query if one of its outputs is needed or constrained. -/
def Active (cgpms : List (NetCgpm R V Ω)) (T C : Nat → Prop) (c : NetCgpm R V Ω) : Prop :=
  ∃ o ∈ c.outputs, Needed cgpms T C o ∨ C o

/-- The contract of a component's `simulate`: it returns one value for each target, and
nothing else. -/
def SimKeys (c : NetCgpm R V Ω) : Prop :=
  ∀ ω r (ts : List Nat) constr ins d, ts.Nodup → c.simulate ω r ts constr ins = .ok d →
    d.WF ∧ ∀ k, k ∈ d.keys ↔ k ∈ ts

/-- The interpreter's orders list exactly what there is. -/
def _root_.Cgpm.PyOrder.Lists (ord : PyOrder) : Prop :=
  (∀ p g, (ord.items p g).Perm g) ∧ ∀ l, (ord.set l).Perm l

/-- The inputs of a component, given the values of the variables in the network and those given
by the caller. -/
def inputsFrom (c : NetCgpm R V Ω) (values given : Look V) : Look V := fun v =>
  if v ∈ c.inputs then (values v).or (given v) else none

/-- The constraints that bear on a component. -/
def constrFor (c : NetCgpm R V Ω) (constraints : Look V) : Look V := fun v =>
  if v ∈ c.outputs then constraints v else none

end Cgpm.Net
