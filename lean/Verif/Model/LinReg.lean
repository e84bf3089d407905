import Verif.Model.Standalone
import Verif.Model.Math
import Mathlib.LinearAlgebra.Matrix.NonsingularInverse
import Mathlib.Analysis.SpecialFunctions.Sqrt

/-
Model of the queries of src/regressions/linreg.py (`LinearRegression`).  The constructor's schema,
`preprocess` and the row bookkeeping are in Verif/Model/Standalone.lean.

Simplifications, global to this file:
* Numbers are exact reals.  A covariate may be NaN (`none`): then every entry computed from it is
  NaN, and the answer `none` of a query is NaN.
* The prior mean `mu` and scale `V` have the shapes `(p,)` and `(p, p)`.
* `np.linalg.inv` raises `LinAlgError` exactly when the determinant is zero; it is `Exn.runtime`.
* Where `calc_log_Z` is given a matrix that is not positive definite or a non-positive `b`, NumPy
  answers NaN or raises; the formula of the reals is kept (`C55` shows that it does not happen).
-/
namespace Cgpm.LinReg
open Matrix

/-- The hyperparameters `a`, `b`, `mu`, `V` of the prior. -/
structure Hyp (p : Nat) where
  a : ℝ
  b : ℝ
  mu : Fin p → ℝ
  V : Matrix (Fin p) (Fin p) ℝ

/-- What `posterior_hypers` returns: `an`, `bn`, `mun`, `Vn_inv`. -/
structure Post (p : Nat) where
  a : ℝ
  b : ℝ
  mu : Fin p → ℝ
  Vinv : Matrix (Fin p) (Fin p) ℝ

/-- src/regressions/linreg.py:87-92: the default hyperparameters. -/
def Hyp.default (p : Nat) : Hyp p := ⟨1, 1, fun _ => 0, 1⟩

open Classical in
/-- `np.linalg.inv`. -/
noncomputable def inv {p : Nat} (A : Matrix (Fin p) (Fin p) ℝ) :
    Except Exn (Matrix (Fin p) (Fin p) ℝ) :=
  if A.det = 0 then .error .runtime else .ok A⁻¹

/-- `np.asarray(Y)`, read where no entry is NaN. -/
noncomputable def asMatrix (p : Nat) (Y : List (List (Option ℝ))) :
    Matrix (Fin Y.length) (Fin p) ℝ :=
  Matrix.of fun i j => (Y[i].getD j none).getD 0

/-- `np.asarray(x)`. -/
noncomputable def asVector (n : Nat) (x : List ℝ) : Fin n → ℝ := fun i => x.getD i 0

/-- src/regressions/linreg.py:298-321 `posterior_hypers`; `none` is NaN. -/
noncomputable def posteriorHypers {p : Nat} (N : ℤ) (Y : List (List (Option ℝ))) (x : List ℝ)
    (h : Hyp p) : Except Exn (Option (Post p)) :=
  if N = 0 then
    if ¬ (x.length = 0 ∧ Y.length = 0) then .error .assertion
    else
      match inv h.V with
      | .error e => .error e
      | .ok Vi => .ok (some ⟨h.a, h.b, h.mu, Vi⟩)
  else if ¬ ((Y.length : ℤ) = N ∧ ∀ y ∈ Y, y.length = p) then .error .assertion
  else if ¬ (x.length : ℤ) = N then .error .assertion
  else
    match inv h.V with
    | .error e => .error e
    | .ok Vi =>
      if Y.any fun y => y.any Option.isNone then .ok none
      else
        let X := asMatrix p Y
        let y := asVector Y.length x
        match inv (Vi + Xᵀ * X) with
        | .error e => .error e
        | .ok W =>
          let mun := W *ᵥ (Vi *ᵥ h.mu + Xᵀ *ᵥ y)
          let Vni := Vi + Xᵀ * X
          .ok (some ⟨h.a + N / 2,
            h.b + 1 / 2 * (h.mu ⬝ᵥ Vi *ᵥ h.mu + y ⬝ᵥ y - mun ⬝ᵥ Vni *ᵥ mun), mun, Vni⟩)

/-- src/regressions/linreg.py:323-326 `calc_log_Z`. -/
noncomputable def calcLogZ {p : Nat} (a b : ℝ) (Vinv : Matrix (Fin p) (Fin p) ℝ) : ℝ :=
  gammaln a + Real.log (Real.sqrt (1 / Vinv.det)) - a * Real.log b

/-- src/regressions/linreg.py:280-287 `calc_predictive_logp`.  `xs = None` reaches `np.dot`, a
TypeError. -/
noncomputable def calcPredictiveLogp {p : Nat} (xs : Option ℝ) (ys : List (Option ℝ)) (N : ℤ)
    (Y : List (List (Option ℝ))) (x : List ℝ) (h : Hyp p) : Except Exn (Option ℝ) :=
  match posteriorHypers N Y x h with
  | .error e => .error e
  | .ok pn =>
    match xs with
    | none => .error .typeError
    | some xs =>
      match posteriorHypers (N + 1) (Y ++ [ys]) (x ++ [xs]) h with
      | .error e => .error e
      | .ok pm =>
        match pn, pm with
        | some n, some m =>
          .ok (some (-1 / 2 * Real.log (2 * Real.pi) + calcLogZ m.a m.b m.Vinv
            - calcLogZ n.a n.b n.Vinv))
        | _, _ => .ok none

/-- src/regressions/linreg.py:289-296 `calc_logpdf_marginal`. -/
noncomputable def calcLogpdfMarginal {p : Nat} (N : ℤ) (Y : List (List (Option ℝ))) (x : List ℝ)
    (h : Hyp p) : Except Exn (Option ℝ) :=
  match posteriorHypers N Y x h with
  | .error e => .error e
  | .ok pn =>
    match inv h.V with
    | .error e => .error e
    | .ok Vi =>
      match pn with
      | none => .ok none
      | some n =>
        .ok (some (-N / 2 * Real.log (2 * Real.pi) + calcLogZ n.a n.b n.Vinv
          - calcLogZ h.a h.b Vi))

/-- A linear regression. -/
structure Obj where
  g : RegSchema
  rows : RegRows ℝ
  hyp : Hyp g.p

/-- src/regressions/linreg.py:61-92 `__init__`; `hypers` gives the hyperparameters for the number
of coefficients of the schema (a missing one has its default). -/
noncomputable def Obj.new (out : Col) (inputs : List Col) (types : List InputType)
    (hypers : (p : Nat) → Hyp p) : Except Exn Obj :=
  match RegSchema.new predictorCount out inputs types with
  | .error e => .error e
  | .ok g => .ok ⟨g, .empty, hypers g.p⟩

namespace Obj

/-- src/regressions/linreg.py:94-102 `incorporate`. -/
noncomputable def incorporate (o : Obj) (r : Row) (obs : Vals) (inputs : Option Vals) : Out Obj :=
  (o.rows.incorporate r (prep o.g obs inputs)).map fun rows => { o with rows }

/-- src/regressions/linreg.py:104-110 `unincorporate`. -/
def unincorporate (o : Obj) (r : Row) : Out Obj :=
  (o.rows.unincorporate r).map fun rows => { o with rows }

open Classical in
/-- src/regressions/linreg.py:165-169 `set_hypers`. -/
noncomputable def setHypers (o : Obj) (a b : ℝ) : Out Obj :=
  if ¬ 0 < a then .err .assertion o
  else if ¬ 0 < b then .err .assertion o
  else .ok { o with hyp := { o.hyp with a, b } }

/-- src/regressions/linreg.py:112-118 `logpdf`. -/
noncomputable def logpdf (o : Obj) (rowid : Option Row) (targets constraints : Vals)
    (inputs : Option Vals) : Except Exn (Option ℝ) :=
  if rowid.any o.rows.x.has then .error .assertion
  else if !constraints.isEmpty then .error .assertion
  else
    match preprocess o.g targets inputs with
    | .error e => .error e
    | .ok (xt, yt) => calcPredictiveLogp xt yt o.rows.N o.rows.Y.vals o.rows.x.vals o.hyp

/-- src/regressions/linreg.py:131-134 `logpdf_score`. -/
noncomputable def logpdfScore (o : Obj) : Except Exn (Option ℝ) :=
  calcLogpdfMarginal o.rows.N o.rows.Y.vals o.rows.x.vals o.hyp

/-- The random number generator: `gamma(shape, scale)`, `multivariate_normal(mean, cov)` and
`normal(loc, scale)`. -/
structure Rng where
  gamma : ℝ → ℝ → ℝ
  mvn : (p : Nat) → (Fin p → ℝ) → Matrix (Fin p) (Fin p) ℝ → Fin p → ℝ
  normal : ℝ → ℝ → ℝ

/-- src/regressions/linreg.py:328-332 `sample_parameters`. -/
noncomputable def sampleParameters {p : Nat} (rng : Rng) (a b : ℝ) (mu : Fin p → ℝ)
    (V : Matrix (Fin p) (Fin p) ℝ) : ℝ × (Fin p → ℝ) :=
  let sigma2 := 1 / rng.gamma a (1 / b)
  (sigma2, rng.mvn p mu (sigma2 • V))

/-- src/regressions/linreg.py:136-141 `simulate_params`.  (The generator's answer to NaN parameters
is not modelled: `none`.) -/
noncomputable def simulateParams (o : Obj) (rng : Rng) :
    Except Exn (Option (ℝ × (Fin o.g.p → ℝ))) :=
  match posteriorHypers o.rows.N o.rows.Y.vals o.rows.x.vals o.hyp with
  | .error e => .error e
  | .ok none => .ok none
  | .ok (some n) =>
    match inv n.Vinv with
    | .error e => .error e
    | .ok V => .ok (some (sampleParameters rng n.a n.b n.mu V))

/-- src/regressions/linreg.py:120-129 `simulate` of one sample (`gu.simulate_many` repeats it);
`none` if the generator was asked for a sample with NaN parameters. -/
noncomputable def simulate (o : Obj) (rng : Rng) (rowid : Option Row) (targets : List Col)
    (constraints : Vals) (inputs : Option Vals) : Except Exn (Option (Dict Col ℝ)) :=
  if targets ≠ [o.g.output] then .error .assertion
  else if !constraints.isEmpty then .error .assertion
  else
    match rowid.bind o.rows.x.get? with
    | some x => .ok (some [(o.g.output, x)])
    | none =>
      match preprocess o.g [] inputs with
      | .error e => .error e
      | .ok (_, yt) =>
        match o.simulateParams rng with
        | .error e => .error e
        | .ok none => .ok none
        | .ok (some (sigma2, w)) =>
          if yt.any Option.isNone then .ok none
          else
            let y : Fin o.g.p → ℝ := fun j => (yt.getD j none).getD 0
            .ok (some [(o.g.output, rng.normal (y ⬝ᵥ w) (Real.sqrt sigma2))])

/-- Calls that change a linear regression. -/
inductive Op
  | inc (r : Row) (obs : Vals) (inputs : Option Vals)
  | unc (r : Row)
  | hyp (a b : ℝ)

/-- One call. -/
noncomputable def apply (o : Obj) : Op → Out Obj
  | .inc r obs inputs => o.incorporate r obs inputs
  | .unc r => o.unincorporate r
  | .hyp a b => o.setHypers a b

/-- A history of calls, exceptions being caught by the client. -/
noncomputable def run (o : Obj) (ops : List Op) : Obj := ops.foldl (fun o op => (o.apply op).state) o

end Obj
end Cgpm.LinReg
