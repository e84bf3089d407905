import Verif.Model.Venture

/-!
Specification vocabulary for C79: what was incorporated into a VsCGpm.
-/
namespace Cgpm.Vs
variable {V : Type} [DecidableEq V]

/-- SPEC. A call of the object. -/
inductive Op (V : Type)
  | incorporate (row : Nat) (observation inputs : Dict Nat V)
  | unincorporate (row : Nat)
  | simulate (row : Nat) (targets : List Nat) (constraints inputs : Dict Nat V) (draw : Nat → V)
  | reload

/-- SPEC. The arguments are Python dictionaries. -/
def Op.WF : Op V → Prop
  | .incorporate _ observation inputs => Dict.WF observation ∧ Dict.WF inputs
  | .unincorporate _ => True
  | .simulate _ _ constraints inputs _ => Dict.WF constraints ∧ Dict.WF inputs
  | .reload => True

/-- SPEC. Did the call return, and the object after it. -/
def Op.run (P : Program V) (s : VsCgpm V) : Op V → Bool × VsCgpm V
  | .incorporate row observation inputs =>
    match Vs.incorporate P s row observation inputs with
    | .ok s => (true, s)
    | .err _ s => (false, s)
  | .unincorporate row =>
    match Vs.unincorporate s row with
    | .ok s => (true, s)
    | .err _ s => (false, s)
  | .simulate row targets constraints inputs draw =>
    match Vs.simulate P s row targets constraints inputs draw with
    | .ok _ s => (true, s)
    | .err _ s => (false, s)
  | .reload => (true, Vs.reload s)

/-- SPEC. What a user has incorporated: the values of the cells, and the inputs of the rows. -/
structure Book (V : Type) where
  held : Nat → Nat → Option V
  given : Nat → Nat → Option V

/-- SPEC. The row has a cell. -/
def Book.Has (b : Book V) (row : Nat) : Prop := ∃ q, b.held row q ≠ none

open Classical in
/-- SPEC. What a user has incorporated after one more call: an `incorporate` that returns adds its cells
and, if the row had none, its inputs; an `unincorporate` that returns takes all cells of the row; other
calls change nothing. -/
noncomputable def Book.after (b : Book V) : Op V → Bool → Book V
  | .incorporate row observation inputs, true =>
    { held := fun r q => if r = row then (observation.get? q).or (b.held r q) else b.held r q
      given := fun r => if r = row ∧ ¬ b.Has row then inputs.get? else b.given r }
  | .unincorporate row, true =>
    { held := fun r q => if r = row then none else b.held r q
      given := b.given }
  | _, _ => b

/-- SPEC. The object and the book after some calls. -/
noncomputable def history (P : Program V) : List (Op V) → VsCgpm V → Book V → VsCgpm V × Book V
  | [], s, b => (s, b)
  | op :: t, s, b => history P t (op.run P s).2 (b.after op (op.run P s).1)

/-- SPEC. Nothing has been incorporated. -/
def Book.empty : Book V := ⟨fun _ _ => none, fun _ _ => none⟩

/-- SPEC. The call does not give values for a row without cells. -/
def Op.Settled (b : Book V) : Op V → Prop
  | .simulate row _ constraints _ _ => constraints = [] ∨ b.Has row
  | _ => True

/-- SPEC. No call gives values for a row that has no cells at that time. -/
def SettledHistory (P : Program V) : List (Op V) → VsCgpm V → Book V → Prop
  | [], _, _ => True
  | op :: t, s, b => op.Settled b ∧ SettledHistory P t (op.run P s).2 (b.after op (op.run P s).1)

/-- SPEC. The interpreter holds exactly the cells of the book: every directive is the observation of a cell
with its value, for the inputs of its row, and every cell is observed under exactly one label. -/
structure Faithful (s : VsCgpm V) (b : Book V) : Prop where
  sound : ∀ l f, s.ripl.get? l = some f → f.value ≠ none ∧ b.held f.row f.col = f.value ∧
    f.args.map some = s.inputs.map (b.given f.row)
  complete : ∀ r q v, b.held r q = some v → ∃ l f, s.ripl.get? l = some f ∧ f.row = r ∧ f.col = q
  once : ∀ l l' f f', s.ripl.get? l = some f → s.ripl.get? l' = some f' → f.row = f'.row →
    f.col = f'.col → l = l'

/-- SPEC. When a user expects `incorporate` to return: there is something to incorporate, for outputs of the
model; nothing is nan; no cell of a known row is held, and its inputs are omitted or repeated; all inputs
of a new row are given. -/
structure Incorporable (P : Program V) (s : VsCgpm V) (b : Book V) (row : Nat)
    (observation inputs : Dict Nat V) : Prop where
  some_cell : observation ≠ []
  outputs : ∀ q ∈ observation.keys, q ∈ s.outputs
  values : ∀ v ∈ observation.vals, P.nan v = false
  input_values : ∀ v ∈ inputs.vals, P.nan v = false
  known : b.Has row → (∀ q ∈ observation.keys, b.held row q = none) ∧
    (inputs = [] ∨ ∀ i, inputs.get? i = b.given row i)
  new : ¬ b.Has row → ∀ i, i ∈ inputs.keys ↔ i ∈ s.inputs

/-- SPEC. When a user expects `simulate` to return: targets and constraints are different outputs of the
model; nothing is nan; no constraint of a known row is held, and its inputs are omitted or repeated; all
inputs of a new row are given. -/
structure Simulable (P : Program V) (s : VsCgpm V) (b : Book V) (row : Nat) (targets : List Nat)
    (constraints inputs : Dict Nat V) : Prop where
  targets_out : ∀ q ∈ targets, q ∈ s.outputs
  constraints_out : ∀ q ∈ constraints.keys, q ∈ s.outputs
  disjoint : ∀ q ∈ targets, q ∉ constraints.keys
  values : ∀ v ∈ constraints.vals, P.nan v = false
  input_values : ∀ v ∈ inputs.vals, P.nan v = false
  known : b.Has row → (∀ q ∈ constraints.keys, b.held row q = none) ∧
    (inputs = [] ∨ ∀ i, inputs.get? i = b.given row i)
  new : ¬ b.Has row → ∀ i, i ∈ inputs.keys ↔ i ∈ s.inputs

end Cgpm.Vs
