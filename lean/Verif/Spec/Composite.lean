import Verif.Model.Composite
import Verif.Spec.State
import Verif.Spec.Network

/-! Specification vocabulary for C43: histories of compositions. -/
namespace Cgpm.Props
open Cgpm Cgpm.Net
variable {C : Cat} {Ω : Type}

/-- SPEC. Something is composed, or some column has a conditional type. -/
def SomethingComposed (cfg : Cfg C) (x : Composite C Ω) : Prop :=
  x.hooked ≠ [] ∨ ∃ c d, c ∈ x.st.outputs ∧ x.st.dimFor c = .ok d ∧ cfg.conditional d.kind = true

/-- SPEC. Calls that respect the contract: calls on the State are legal, variables are numbered
below 10^7 (higher numbers are reserved for the cluster variables of the views), and a new column
is not one that a composed model produces.  The models composed and the tokens are free. -/
def compLegal (cfg : Cfg C) (x : Composite C Ω) : Composite.Op C Ω → Prop
  | .compose c => ∀ o ∈ c.outputs, o < 10 ^ 7
  | .decompose _ => True
  | .state op => stateLegal cfg x.st op ∧ ∀ T col kind v ω, op = .incDim T [col] [] kind v ω →
      col < 10 ^ 7 ∧ ∀ c ∈ x.hooked.vals, col ∉ c.outputs

/-- SPEC. Every call of the history is legal when it is made. -/
def compLegalRun (cfg : Cfg C) (ord : PyOrder) (beh : ViewBehaviour C Ω) (x : Composite C Ω) :
    List (Composite.Op C Ω) → Prop
  | [] => True
  | op :: ops => compLegal cfg x op ∧ compLegalRun cfg ord beh (x.apply cfg ord beh op) ops

/-- SPEC. The compositions that arise from a State that was just constructed by a history of legal
calls. -/
inductive CompReachable (cfg : Cfg C) (ord : PyOrder) (beh : ViewBehaviour C Ω) (s : State C) :
    Composite C Ω → Prop
  | of (X : Dict Col (List C.Cell)) (n : Nat) (schema : Col → State.ColSpec C) (alpha : ℝ)
      (Zv : Dict Col Nat) (order : List Nat) (rows : Nat → ℝ × List Tab) (Cd : Blocks) (Ci : Pairs)
      (h : LegalInit X n schema alpha Zv order rows) (hX : ∀ c ∈ X.keys, c < 10 ^ 7)
      (hs : State.init X schema alpha Zv order rows Cd Ci = .ok s) (ops : List (Composite.Op C Ω))
      (hl : compLegalRun cfg ord beh (.new s) ops) :
      CompReachable cfg ord beh s (Composite.run cfg ord beh (.new s) ops)

end Cgpm.Props
