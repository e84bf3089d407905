import Verif.Model.Forest

/-
Model of the queries and the transition of src/regressions/ols.py (`OrdinaryLeastSquares`).  The
constructor's schema, `preprocess` and the row bookkeeping are in Verif/Model/Standalone.lean.

Simplifications, global to this file:
* Numbers are exact reals.
* sklearn's regressor is its `predict`, of one row; `none` has not been fitted, and raises
  `NotFittedError`, a ValueError.  `fit` is a parameter; Spec/Ols says what is assumed of it.
* The list `[sample] * N` holds the same dictionary `N` times, which is not represented.
-/
namespace Cgpm

/-- src/regressions/ols.py:40-68: the attributes of an `OrdinaryLeastSquares`. -/
structure OlsReg where
  g : RegSchema
  rows : RegRows ℝ
  noise : ℝ
  reg : Option (List ℝ → ℝ)

namespace OlsReg

/-- src/regressions/ols.py:40-68 `__init__`; `noise` and `reg` are in `params`. -/
noncomputable def new (output : Col) (inputs : List Col) (types : List InputType) (noise : Option ℝ)
    (reg : Option (List ℝ → ℝ)) : Except Exn OlsReg :=
  match RegSchema.new Ols.predictorCount output inputs types with
  | .error e => .error e
  | .ok g => .ok ⟨g, .empty, noise.getD 1, reg⟩

/-- src/regressions/ols.py:70-78 `incorporate`. -/
noncomputable def incorporate (o : OlsReg) (r : Row) (obs : Vals) (inputs : Option Vals) : Out OlsReg :=
  (o.rows.incorporate r (Ols.prep o.g obs inputs)).map fun rows => { o with rows }

/-- src/regressions/ols.py:80-86 `unincorporate`. -/
def unincorporate (o : OlsReg) (r : Row) : Out OlsReg :=
  (o.rows.unincorporate r).map fun rows => { o with rows }

/-- `regressor.predict([y])[0]` -/
noncomputable def predict (o : OlsReg) (y : List (Option ℝ)) : Except Exn ℝ :=
  match o.reg with
  | none => .error .valueError
  | some f => .ok (f (RForest.array y))

open Classical in
/-- src/regressions/ols.py:253-257 `logpdf_gaussian`: `math.log` raises ValueError unless its argument
is positive. -/
noncomputable def logpdfGaussian (x mu sigma : ℝ) : Except Exn ℝ :=
  if 0 < sigma then
    .ok (-Real.log sigma - 1 / 2 * Real.log (2 * Real.pi) - 1 / 2 * (x - mu) * (x - mu) / (sigma * sigma))
  else .error .valueError

/-- src/regressions/ols.py:88-93 `logpdf`.  Without targets `x` is `None`, and `x - mu` raises
TypeError. -/
noncomputable def logpdf (o : OlsReg) (rowid : Option Row) (targets constraints : Vals)
    (inputs : Option Vals) : Except Exn ℝ :=
  if rowid.any o.rows.x.has then .error .assertion
  else if !constraints.isEmpty then .error .assertion
  else
    match Ols.preprocess o.g targets inputs with
    | .error e => .error e
    | .ok (xt, yt) =>
      match o.predict yt with
      | .error e => .error e
      | .ok mean =>
        match xt with
        | none => .error .typeError
        | some xt => logpdfGaussian xt mean o.noise

/-- `rng.normal(mean, noise)`: raises ValueError if `noise` is negative. -/
noncomputable def normal (mean noise : ℝ) : Rand ℝ :=
  if noise < 0 then .raise .valueError else .normal mean noise .pure

/-- src/regressions/ols.py:95-105 `simulate`: the random numbers are drawn and dropped. -/
noncomputable def simulate (o : OlsReg) (rowid : Option Row) (targets : List Col) (constraints : Vals)
    (inputs : Option Vals) (N : Option Int) : Rand (Dict Col ℝ ⊕ List (Dict Col ℝ)) :=
  if targets ≠ [o.g.output] then .raise .assertion
  else if !constraints.isEmpty then .raise .assertion
  else
    match rowid.bind o.rows.x.get? with
    | some x => .pure (.inl [(o.g.output, x)])
    | none =>
      (Rand.ofExcept (Ols.preprocess o.g [] inputs)).bind fun xy =>
      (Rand.ofExcept (o.predict xy.2)).bind fun mean =>
      if N.any (· < 0) then .raise .valueError
      else
        (Rand.traverse (fun _ => normal mean o.noise) (List.range (N.getD 1).toNat)).bind fun _ =>
        match N with
        | none => .pure (.inl [(o.g.output, mean)])
        | some 0 => .pure (.inl [(o.g.output, mean)])
        | some n => .pure (.inr (List.replicate n.toNat [(o.g.output, mean)]))

/-- src/regressions/ols.py:114-121 `transition`. -/
noncomputable def transition (fit : List (List ℝ) → List ℝ → (List ℝ → ℝ)) (o : OlsReg) : OlsReg :=
  if 0 < o.rows.Y.length then
    let f := fit (o.rows.Y.vals.map RForest.array) o.rows.x.vals
    let predictions := o.rows.Y.vals.map fun y => f (RForest.array y)
    { o with
      reg := some f
      noise := Real.sqrt ((List.zipWith (fun x q => (x - q) ^ 2) o.rows.x.vals predictions).sum)
        / Real.sqrt (o.rows.N : ℝ) }
  else o

/-- Calls that change an `OrdinaryLeastSquares`. -/
inductive Op
  | inc (r : Row) (obs : Vals) (inputs : Option Vals)
  | unc (r : Row)
  | transition

/-- One call, exceptions being caught by the client. -/
noncomputable def apply (fit : List (List ℝ) → List ℝ → (List ℝ → ℝ)) (o : OlsReg) : Op → OlsReg
  | .inc r obs inputs => (o.incorporate r obs inputs).state
  | .unc r => (o.unincorporate r).state
  | .transition => o.transition fit

/-- A history of calls. -/
noncomputable def run (fit : List (List ℝ) → List ℝ → (List ℝ → ℝ)) (o : OlsReg) (ops : List Op) : OlsReg :=
  ops.foldl (apply fit) o

end OlsReg
end Cgpm
