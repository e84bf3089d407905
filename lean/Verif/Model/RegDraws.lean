import Verif.Model.LinReg
import Verif.Model.Factor
import Verif.Model.Forest
import Verif.Model.CompositeDraws

/-
The `simulate` methods of src/regressions/linreg.py and src/factor/factor.py as programs that draw, and
these models and src/regressions/forest.py as components of a network.
(In Model/LinReg.lean and Model/Factor.lean what the generator answers is an argument.)

Simplifications, global to this file (see also LinReg.lean, Factor.lean and PrimSimulate.lean):
* `rng.multivariate_normal(mean, cov)` draws independent standard normal numbers `z` and returns
  `mean + A z`, where the square matrix `A` is what `factor` makes of `cov`.  (numpy takes `A` from the
  singular value decomposition of `cov`.  The theorems need no more than `A Aᵀ = cov`.)
* Where the generator is asked with NaN parameters the answer is `Exn.runtime`; the theorems are about
  cases in which it is not.
-/
namespace Cgpm
open Matrix

/-- What a generator of normal vectors takes for the square root of a covariance. -/
abbrev Root := (n : Nat) → Matrix (Fin n) (Fin n) ℝ → Matrix (Fin n) (Fin n) ℝ

/-- `rng.standard_normal(n)`. -/
noncomputable def npStandardNormal : (n : Nat) → Draws (Fin n → ℝ)
  | 0 => .pure Fin.elim0
  | n + 1 => .draw (npNormal 0 1) fun z => (npStandardNormal n).bind fun zs => .pure (Fin.cons z zs)

/-- `rng.multivariate_normal(mean, cov)`. -/
noncomputable def npMultivariateNormal (factor : Root) {n : Nat} (mean : Fin n → ℝ)
    (cov : Matrix (Fin n) (Fin n) ℝ) : Draws (Fin n → ℝ) :=
  (npStandardNormal n).bind fun z => .pure (mean + factor n cov *ᵥ z)

namespace LinReg.Obj

/-- src/regressions/linreg.py:328-332 `sample_parameters`. -/
noncomputable def parameterDraws {p : Nat} (factor : Root) (a b : ℝ) (mu : Fin p → ℝ)
    (V : Matrix (Fin p) (Fin p) ℝ) : Draws (ℝ × (Fin p → ℝ)) :=
  .draw (npGamma a (1 / b)) fun g =>
    let sigma2 := 1 / g
    (npMultivariateNormal factor mu (sigma2 • V)).bind fun w => .pure (sigma2, w)

/-- src/regressions/linreg.py:136-141 `simulate_params`. -/
noncomputable def paramsDraws (o : Obj) (factor : Root) : Draws (ℝ × (Fin o.g.p → ℝ)) :=
  match posteriorHypers o.rows.N o.rows.Y.vals o.rows.x.vals o.hyp with
  | .error e => .raise e
  | .ok none => .raise .runtime
  | .ok (some n) =>
    match inv n.Vinv with
    | .error e => .raise e
    | .ok V => parameterDraws factor n.a n.b n.mu V

/-- src/regressions/linreg.py:120-129 `simulate` of one sample. -/
noncomputable def simulateDraws (o : Obj) (factor : Root) (rowid : Option Row) (targets : List Col)
    (constraints : Vals) (inputs : Option Vals) : Draws (Dict Col ℝ) :=
  if targets ≠ [o.g.output] then .raise .assertion
  else if !constraints.isEmpty then .raise .assertion
  else
    match rowid.bind o.rows.x.get? with
    | some x => .pure [(o.g.output, x)]
    | none =>
      match preprocess o.g [] inputs with
      | .error e => .raise e
      | .ok (_, yt) =>
        (o.paramsDraws factor).bind fun q =>
          if yt.any Option.isNone then .raise .runtime
          else
            let y : Fin o.g.p → ℝ := fun j => (yt.getD j none).getD 0
            .draw (npNormal (y ⬝ᵥ q.2) (Real.sqrt q.1)) fun x => .pure [(o.g.output, x)]

end LinReg.Obj

/-- src/factor/factor.py:186-211 `simulate` with `N=None`. -/
noncomputable def Factor.simulateDraws (f : Factor) (factor : Root) (rowid : Option Row)
    (targets : List Col) (constraints : Dict Col ℝ) (inputs : List Col) : Draws (Dict Col ℝ) :=
  match f.prepare rowid targets constraints inputs with
  | .error e => .raise e
  | .ok cs =>
    match f.reindex targets with
    | .error e => .raise e
    | .ok tr =>
      match f.reindexDict cs with
      | .error e => .raise e
      | .ok er =>
        match Factor.mvnCondition (f.L + f.D) f.mu f.cov tr er with
        | .error e => .raise e
        | .ok g => (npMultivariateNormal factor g.1 g.2).bind fun samp =>
            .pure (Factor.getSample targets samp)

namespace Net

/-- The dictionary with the values that `L` gives to the variables `vs`. -/
def lookDict (vs : List Nat) (L : Look ℝ) : Dict Nat ℝ :=
  vs.filterMap fun v => (L v).map fun x => (v, x)

/-- The same, as values of cells. -/
def lookVals (vs : List Nat) (L : Look ℝ) : Vals :=
  vs.filterMap fun v => (L v).map fun x => (v, some x)

/-- A linear regression as the network sees it (src/regressions/linreg.py:112-129): the value of its
output, given those of its inputs.  An outcome is a value for each variable.  (A NaN answer of `logpdf`
is `Exn.runtime`.) -/
noncomputable def linregNet (o : LinReg.Obj) : NetCgpm (Option Row) ℝ (Nat → ℝ) where
  outputs := [o.g.output]
  inputs := o.g.inputs
  logpdf := fun r T I =>
    match o.logpdf r (lookVals [o.g.output] T) [] (some (lookVals o.g.inputs I)) with
    | .error e => .error e
    | .ok none => .error .runtime
    | .ok (some x) => .ok ((x : ℝ) : LogP)
  simulate := fun ω _ ts _ _ => .ok (ts.map fun t => (t, ω t))

/-- The draws of `linregNet`: those of `LinearRegression.simulate`. -/
noncomputable def linregDraws (factor : Root) (o : LinReg.Obj) (r : Option Row) (ts : List Nat)
    (C I : Look ℝ) : Draws (Nat → ℝ) :=
  (o.simulateDraws factor r ts (lookVals [o.g.output] C) (some (lookVals o.g.inputs I))).bind fun d =>
    .pure fun v => (d.get? v).getD 0

/-- A factor analysis as the network sees it (src/factor/factor.py:164-211).  An answer of `logpdf` that
is not a number or `-inf` is `Exn.runtime`. -/
noncomputable def factorNet (loser : (n : Nat) → (Fin n → ℝ) → Matrix (Fin n) (Fin n) ℝ → Fl)
    (f : Factor) : NetCgpm (Option Row) ℝ (Nat → ℝ) where
  outputs := f.outputs
  inputs := []
  logpdf := fun r T _ =>
    match f.logpdf loser r (lookDict f.outputs T) [] [] with
    | .error e => .error e
    | .ok (.fin x) => .ok ((x : ℝ) : LogP)
    | .ok .ninf => .ok ⊥
    | .ok _ => .error .runtime
  simulate := fun ω _ ts _ _ => .ok (ts.map fun t => (t, ω t))

/-- The draws of `factorNet`: those of `FactorAnalysis.simulate`. -/
noncomputable def factorDraws (factor : Root) (f : Factor) (r : Option Row) (ts : List Nat)
    (C _ : Look ℝ) : Draws (Nat → ℝ) :=
  (f.simulateDraws factor r ts (lookDict f.outputs C) []).bind fun d =>
    .pure fun v => (d.get? v).getD 0

/-- A random forest as the network sees it (src/regressions/forest.py:83-104).  An answer of `logpdf`
that is not a number or `-inf` is `Exn.runtime`. -/
noncomputable def forestNet (o : RForest) : NetCgpm (Option Row) ℝ (Nat → ℝ) where
  outputs := [o.g.output]
  inputs := o.g.inputs
  logpdf := fun r T I =>
    match o.logpdf r (lookVals [o.g.output] T) [] (some (lookVals o.g.inputs I)) with
    | .error e => .error e
    | .ok (.fin x) => .ok ((x : ℝ) : LogP)
    | .ok .ninf => .ok ⊥
    | .ok _ => .error .runtime
  simulate := fun ω _ ts _ _ => .ok (ts.map fun t => (t, ω t))

/-- The draws of `forestNet`: those of `RandomForest.simulate`. -/
noncomputable def forestDraws (o : RForest) (r : Option Row) (ts : List Nat) (C I : Look ℝ) :
    Draws (Nat → ℝ) :=
  (Draws.ofRand (o.simulateOne r ts (lookVals [o.g.output] C) (some (lookVals o.g.inputs I)))).bind
    fun d => .pure fun v => ((d.get? v).getD 0 : Nat)

end Net
end Cgpm
