import Verif.Model.StateQuery
import Verif.Spec.Ancestors
import Mathlib.Data.Set.Card

/-! What the structure queries of a State should answer. -/
namespace Cgpm
variable {C : Cat} {Ω : Type}

/-- The sources of a variable: of a column of the State, the columns of its view; of a composed
variable, its ancestors. -/
def Sources (s : State C) (cgpms : List (NetCgpm (Option Row) (Val C) Ω)) (q a : Nat) : Prop :=
  (q ∈ s.outputs ∧ s.Zv a = s.Zv q) ∨ (q ∉ s.outputs ∧ Net.Ancestor cgpms a q)

/-- Two variables are related: one component produces both, or they have a common source, or
sources in a common view. -/
def Related (s : State C) (cgpms : List (NetCgpm (Option Row) (Val C) Ω)) (p q : Nat) : Prop :=
  (∃ c ∈ cgpms, p ∈ c.outputs ∧ q ∈ c.outputs) ∨
  ∃ a b, Sources s cgpms p a ∧ Sources s cgpms q b ∧
    (a = b ∨ ∃ v, s.Zv a = some v ∧ s.Zv b = some v)

/-- The views that hold one of the columns. -/
def viewsOf (s : State C) (cols : List Col) : Set Nat := {v | ∃ c ∈ cols, s.Zv c = some v}

/-- Those of them in which two rows are in the same cluster. -/
def agreeing (s : State C) (cols : List Col) (r0 r1 : Row) : Set Nat :=
  {v | v ∈ viewsOf s cols ∧ ∃ w k, s.views.get? v = some w ∧ w.seat r0 = some k ∧ w.seat r1 = some k}

end Cgpm
