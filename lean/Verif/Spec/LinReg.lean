import Verif.Model.LinReg
import Verif.Spec.Factor
import Verif.Spec.Standalone
import Mathlib.Probability.Distributions.Gamma
import Mathlib.MeasureTheory.Integral.Bochner.Set

/-
Specification for C55: the generative model of Bayesian linear regression.

The precision `τ` of the noise (the inverse of its variance) has a gamma distribution with shape `a`
and rate `b`; the coefficients `w` are normal with mean `mu` and covariance `V / τ`; the value of a
row with covariates `y` is normal with mean `w · y` and variance `1 / τ`, independently of the other
rows.  Nothing here uses the posterior parameters that the code computes.
-/
namespace Cgpm.Spec.LinReg
open Cgpm Cgpm.LinReg Matrix MeasureTheory

/-- The normal density with mean `m` and variance `v`. -/
noncomputable def normalPdf (m v x : ℝ) : ℝ :=
  Real.exp (-(x - m) ^ 2 / (2 * v)) / Real.sqrt (2 * Real.pi * v)

/-- The density of the values of the rows, given the precision and the coefficients.  A row is its
value and its covariates. -/
noncomputable def likelihood {p : Nat} (rows : List (ℝ × (Fin p → ℝ))) (τ : ℝ) (w : Fin p → ℝ) : ℝ :=
  (rows.map fun r => normalPdf (w ⬝ᵥ r.2) τ⁻¹ r.1).prod

/-- The prior density of the precision and the coefficients. -/
noncomputable def prior {p : Nat} (h : Hyp p) (τ : ℝ) (w : Fin p → ℝ) : ℝ :=
  ProbabilityTheory.gammaPDFReal h.a h.b τ * Factor.gauss w h.mu (τ⁻¹ • h.V)

/-- The marginal density of the values of the rows. -/
noncomputable def evidence {p : Nat} (h : Hyp p) (rows : List (ℝ × (Fin p → ℝ))) : ℝ :=
  ∫ τ in Set.Ioi 0, ∫ w, prior h τ w * likelihood rows τ w

/-- A proper prior. -/
structure ValidHyp {p : Nat} (h : Hyp p) : Prop where
  a : 0 < h.a
  b : 0 < h.b
  V : h.V.PosDef

/-- A coded row of covariates without missing values, as a vector. -/
def IsVec {p : Nat} (l : List (Option ℝ)) (v : Fin p → ℝ) : Prop := l = List.ofFn fun j => some (v j)

/-- `R` lists the rows of the table `m`, none with a missing covariate, in some order. -/
def Lists {p : Nat} (m : Row → Option (ℝ × List (Option ℝ))) (R : List (ℝ × (Fin p → ℝ))) : Prop :=
  ∃ rs : List Row, rs.Nodup ∧ (∀ r, r ∈ rs ↔ m r ≠ none) ∧
    List.Forall₂ (fun r q => ∃ l, m r = some (q.1, l) ∧ IsVec l q.2) rs R

/-- The object was constructed with the given schema, its rows are those of the history `ops`, and
its prior is proper. -/
structure Reached (out : Col) (inputs : List Col) (types : List InputType)
    (ops : List (RowOp (Vals × Option Vals))) (o : Obj) : Prop where
  schema : RegSchema.new predictorCount out inputs types = .ok o.g
  rows : o.rows = LinReg.run o.g ops
  hyp : ValidHyp o.hyp

/-- What the object keeps of an observation and its inputs (or refuses: `none`). -/
noncomputable def keeps (out : Col) (inputs : List Col) (types : List InputType) :
    Vals × Option Vals → Option (ℝ × List (Option ℝ)) :=
  Props.linregKeeps out inputs (Props.linregLevels types)

/-- The rows after a history. -/
noncomputable def table (out : Col) (inputs : List Col) (types : List InputType)
    (ops : List (RowOp (Vals × Option Vals))) : Row → Option (ℝ × List (Option ℝ)) :=
  Props.kept (keeps out inputs types) ops

/-- The inputs `ins` are valid, and `l` is their code (with the constant 1 in front). -/
def Codes (out : Col) (inputs : List Col) (types : List InputType) (ins : Option Vals)
    (l : List (Option ℝ)) : Prop := ∀ x, keeps out inputs types ([(out, some x)], ins) = some (x, l)

/-- The calls of a history that concern rows. -/
def rowCalls (ops : List Obj.Op) : List (RowOp (Vals × Option Vals)) :=
  ops.filterMap fun
    | .inc r obs ins => some (.inc r (obs, ins))
    | .unc r => some (.unc r)
    | .hyp _ _ => none

end Cgpm.Spec.LinReg
