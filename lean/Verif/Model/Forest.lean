import Verif.Model.Standalone
import Verif.Model.Knn

/-
Model of the queries and the transitions of src/regressions/forest.py (`RandomForest`).  The
constructor's schema, `preprocess` and the row bookkeeping are in Verif/Model/Standalone.lean.

Simplifications, global to this file:
* Numbers are exact reals; `np.log` of zero is `-inf`.  It is not applied to negative numbers (`C67`).
* sklearn's forest is what it shows after `fit`: `classes_` and `predict_proba`.  `fit` is a parameter
  that may draw random numbers; Spec/Forest says what is assumed of it.
* A value that `log_pflip` draws is not an exception of `rng.choice` for rounding.
-/
namespace Cgpm

/-- src/utils/general.py:123-139 `log_pflip` with `size=None`, as a program that draws.  `normalize`
divides by the sum; when that is zero `rng.choice` is given NaN and raises ValueError. -/
noncomputable def Rand.logPflip {α : Type} (logp : List Fl) (array : List α) : Rand α :=
  match logNormalize logp with
  | .error e => .raise e
  | .ok l =>
    match l, array with
    | [_], a :: _ => .pure a
    | _, _ =>
      match flReals (l.map Fl.exp) with
      | none => .raise .valueError
      | some p =>
        if p.sum = 0 ∨ p.length ≠ array.length then .raise .valueError
        else (Rand.draw (p.map fun x => x / p.sum)).bind fun i =>
          match array[i]? with
          | some a => .pure a
          | none => .raise .indexError

/-- A fitted `sklearn.ensemble.RandomForestClassifier`: `classes_`, and what `predict_proba` answers
for a row of inputs. -/
structure Classifier where
  classes : List Nat
  proba : List ℝ → List ℝ

/-- src/regressions/forest.py:40-64: the attributes of a `RandomForest`; `clf` is `none` if the
regressor has not been fitted. -/
structure RForest where
  g : Forest.Schema
  obj : Forest.Obj
  alpha : ℝ
  clf : Option Classifier

namespace RForest

/-- src/regressions/forest.py:40-64 `__init__`; `alpha` and `clf` are in `params`. -/
noncomputable def new (output : Col) (inputs : List Col) (ntypes k : Nat) (alpha : Option ℝ)
    (clf : Option Classifier) : Except Exn RForest :=
  match Forest.new output inputs ntypes k with
  | .error e => .error e
  | .ok g => .ok ⟨g, .empty g, alpha.getD (1 / 10), clf⟩

/-- src/regressions/forest.py:66-73 `incorporate`. -/
noncomputable def incorporate (o : RForest) (r : Row) (obs : Vals) (inputs : Option Vals) : Out RForest :=
  (o.obj.incorporate o.g r obs inputs).map fun obj => { o with obj }

/-- src/regressions/forest.py:75-81 `unincorporate`. -/
def unincorporate (o : RForest) (r : Row) : Out RForest :=
  (o.obj.unincorporate r).map fun obj => { o with obj }

/-- A row of inputs as an array of numbers. -/
noncomputable def array (y : List (Option ℝ)) : List ℝ := y.map fun v => v.getD 0

/-- src/regressions/forest.py:215-228 `calc_predictive_logp`; `n` is `len(counts)`. -/
noncomputable def calcPredictiveLogp (x : Nat) (y : List (Option ℝ)) (clf : Option Classifier) (n : Nat)
    (alpha : ℝ) : Except Exn Fl :=
  let logpUniform := (Knn.logOf n).neg
  match clf with
  | none => .ok logpUniform
  | some c =>
    if x ∉ c.classes then .ok ((Knn.logOf alpha).add logpUniform)
    else
      match (c.proba (array y))[c.classes.idxOf x]? with
      | none => .error .indexError
      | some p => logsumexp [(Knn.logOf alpha).add logpUniform, (Knn.logOf (1 - alpha)).add (Knn.logOf p)]

/-- src/regressions/forest.py:209-213 `calc_log_likelihood`. -/
noncomputable def calcLogLikelihood (X : List Nat) (Y : List (List (Option ℝ))) (clf : Option Classifier)
    (n : Nat) (alpha : ℝ) : Except Exn Fl :=
  (Net.collect (fun p => calcPredictiveLogp p.1 p.2 clf n alpha) (X.zip Y)).map flSum

/-- src/regressions/forest.py:83-92 `logpdf`. -/
noncomputable def logpdf (o : RForest) (rowid : Option Row) (targets constraints : Vals)
    (inputs : Option Vals) : Except Exn Fl :=
  if !constraints.isEmpty then .error .assertion
  else if targets.keys ≠ [o.g.output] then .error .assertion
  else if rowid.any o.obj.rows.x.has then .error .assertion
  else
    match Forest.preprocess o.g targets inputs with
    | .error .indexError => .ok .ninf
    | .error e => .error e
    | .ok (x, y) => calcPredictiveLogp x y o.clf o.obj.counts.length o.alpha

/-- src/regressions/forest.py:94-104 `simulate` of one sample. -/
noncomputable def simulateOne (o : RForest) (rowid : Option Row) (targets : List Col)
    (constraints : Vals) (inputs : Option Vals) : Rand (Dict Col Nat) :=
  if targets ≠ [o.g.output] then .raise .assertion
  else if !constraints.isEmpty then .raise .assertion
  else
    match rowid.bind o.obj.rows.x.get? with
    | some x => .pure [(o.g.output, x)]
    | none =>
      (Rand.ofExcept (Net.collect (fun x : Nat =>
        o.logpdf rowid [(o.g.output, some (x : ℝ))] [] inputs) (List.range o.g.k))).bind fun logps =>
      (Rand.logPflip logps (List.range o.g.k)).bind fun x => .pure [(o.g.output, x)]

/-- src/regressions/forest.py:94-104 `simulate` with src/utils/general.py:403-413 `simulate_many`: one
sample if `N` is `None`, else a list of `N` samples. -/
noncomputable def simulate (o : RForest) (rowid : Option Row) (targets : List Col) (constraints : Vals)
    (inputs : Option Vals) (N : Option Int) : Rand (Dict Col Nat ⊕ List (Dict Col Nat)) :=
  match N with
  | none => (o.simulateOne rowid targets constraints inputs).bind fun s => .pure (.inl s)
  | some n => (Rand.traverse (fun _ => o.simulateOne rowid targets constraints inputs)
      (List.range n.toNat)).bind fun l => .pure (.inr l)

/-- src/regressions/forest.py:106-109 `logpdf_score`. -/
noncomputable def logpdfScore (o : RForest) : Except Exn Fl :=
  calcLogLikelihood o.obj.rows.x.vals o.obj.rows.Y.vals o.clf o.obj.counts.length o.alpha

/-- src/regressions/forest.py:123 `np.linspace(0.01, 0.99, 30)`. -/
noncomputable def alphas : List ℝ := (List.range 30).map fun i : Nat => 1 / 100 + (i : ℝ) * ((98 / 100) / 29)

/-- src/regressions/forest.py:122-133: one pass of the loop of `transition_params`. -/
noncomputable def step (fit : List (List ℝ) → List Nat → Rand Classifier) (o : RForest) : Rand RForest :=
  (Rand.ofExcept (Net.collect (fun a =>
    calcLogLikelihood o.obj.rows.x.vals o.obj.rows.Y.vals o.clf o.obj.counts.length a) alphas)).bind
      fun logps =>
  (Rand.logPflip logps alphas).bind fun alpha =>
  let o := { o with alpha }
  if 0 < o.obj.rows.Y.length then
    (fit (o.obj.rows.Y.vals.map array) o.obj.rows.x.vals).bind fun c => .pure { o with clf := some c }
  else .pure o

/-- The loop `for i in xrange(n)` of `transition_params`. -/
noncomputable def steps (fit : List (List ℝ) → List Nat → Rand Classifier) : Nat → RForest → Rand RForest
  | 0, o => .pure o
  | n + 1, o => (o.step fit).bind fun o => steps fit n o

/-- src/regressions/forest.py:115-133 `transition`, `transition_params`. -/
noncomputable def transition (fit : List (List ℝ) → List Nat → Rand Classifier) (o : RForest)
    (N : Option Int) : Rand RForest := steps fit (N.getD 1).toNat o

/-- Calls that change a `RandomForest`. -/
inductive Op
  | inc (r : Row) (obs : Vals) (inputs : Option Vals)
  | unc (r : Row)
  | transition (N : Option Int)

/-- One call, exceptions of the calls about rows being caught by the client. -/
noncomputable def apply (fit : List (List ℝ) → List Nat → Rand Classifier) (o : RForest) : Op → Rand RForest
  | .inc r obs inputs => .pure (o.incorporate r obs inputs).state
  | .unc r => .pure (o.unincorporate r).state
  | .transition N => o.transition fit N

/-- A history of calls. -/
noncomputable def run (fit : List (List ℝ) → List Nat → Rand Classifier) : RForest → List Op → Rand RForest
  | o, [] => .pure o
  | o, op :: ops => (o.apply fit op).bind fun o => run fit o ops

end RForest
end Cgpm
