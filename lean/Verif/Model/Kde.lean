import Verif.Model.Standalone
import Verif.Model.LogSpace
import Verif.Model.Rand
import Mathlib.Analysis.SpecialFunctions.Sqrt
import Mathlib.Analysis.SpecialFunctions.Trigonometric.Basic
import Mathlib.Data.List.Dedup

/-
Model of src/kde/mvkde.py `MultivariateKde`, with the parts of statsmodels it calls:
`_kernel_base.gpke`, `KDEMultivariate.pdf` and `KDEMultivariateConditional.pdf` (Gaussian kernel for
type 'c', Aitchison-Aitken kernel for type 'u').

Simplifications, global to this file:
* Numbers are exact reals.  A density that is not a finite number (division by zero) is `none`.
* `constraints` hold no NaN; `None` is the empty dictionary.  Of `inputs` only the keys are kept.
* 'categorical' and 'nominal' are one type, which carries the number of categories.
* Learning of bandwidths by cross validation is not modelled: `transition` is given the result.
-/
namespace Cgpm

/-- The statistical type of an output. -/
inductive KType
  | numerical
  | nominal (k : Nat)

/-- src/kde/mvkde.py:75-91: the attributes of a `MultivariateKde`. -/
structure Kde where
  outputs : List Col
  types : List KType
  rows : MvRows
  bw : List ℝ

namespace MvRows

/-- src/kde/mvkde.py:258-264 and src/knn/mvknn.py:260-266: the cells of a row that are used as
evidence. -/
def observed (outputs : List Col) (values : List (Option ℝ)) (targets : List Col)
    (constraints : Dict Col ℝ) : Dict Col ℝ :=
  (outputs.zip values).filterMap fun q =>
    match q.2 with
    | none => none
    | some v => if targets.contains q.1 || constraints.has q.1 then none else some (q.1, v)

/-- src/kde/mvkde.py:252-266 and src/knn/mvknn.py:254-268 `populate_constraints`. -/
def populate (outputs : List Col) (o : MvRows) (rowid : Option Row) (targets : List Col)
    (constraints : Dict Col ℝ) : Except Exn (Dict Col ℝ) :=
  match rowid.bind o.data.get? with
  | none => .ok constraints
  | some values =>
    if values.length ≠ outputs.length then .error .assertion
    else .ok (constraints.update (observed outputs values targets constraints))

/-- src/kde/mvkde.py:230-233 and src/knn/mvknn.py:245-248 `_dataset`, given the positions of the
variables: the rows without missing cells among them. -/
def complete (o : MvRows) (is : List Nat) : List (List ℝ) :=
  o.data.vals.filterMap fun row => is.mapM fun i => row[i]?.join

end MvRows

namespace Kde

/-- src/kde/mvkde.py:70-74: 'k' must be in the statargs of a type other than 'numerical'. -/
def typeOf : InputType → Except Exn KType
  | .numeric => .ok .numerical
  | .nominal (some k) => .ok (.nominal k)
  | .nominal none => .error .valueError

/-- src/kde/mvkde.py:235-237 `_default_bw`. -/
noncomputable def defaultBw : KType → ℝ
  | .numerical => 1
  | .nominal _ => 1 / 10

/-- src/kde/mvkde.py:41-91 `__init__`; `types` are `distargs['outputs']`, `params` gives `bw`. -/
noncomputable def new (outputs inputs : List Col) (types : List InputType)
    (params : Option (List ℝ)) : Except Exn Kde :=
  if !inputs.isEmpty then .error .valueError
  else if outputs.length < 1 then .error .valueError
  else if outputs.dedup.length ≠ outputs.length then .error .valueError
  else if types.length ≠ outputs.length then .error .valueError
  else match Net.collect typeOf types with
    | .error e => .error e
    | .ok ts => .ok ⟨outputs, ts, .empty, params.getD (ts.map defaultBw)⟩

/-- src/kde/mvkde.py:93-111 `incorporate`. -/
def incorporate (o : Kde) (r : Row) (obs inputs : Vals) : Out Kde :=
  (o.rows.incorporate o.outputs [] o.outputs r obs inputs).map fun rows => { o with rows }

/-- src/kde/mvkde.py:113-118 `unincorporate`. -/
def unincorporate (o : Kde) (r : Row) : Out Kde :=
  (o.rows.unincorporate r).map fun rows => { o with rows }

/-- src/kde/mvkde.py:218-225 `transition`; `bw` is what statsmodels learns. -/
def transition (o : Kde) (bw : List ℝ) : Kde := if o.rows.N > 0 then { o with bw } else o

/-- `self.outputs.index(q)`. -/
def index (o : Kde) (q : Col) : Except Exn Nat :=
  if q ∈ o.outputs then .ok (o.outputs.idxOf q) else .error .valueError

/-- src/kde/mvkde.py:230-233 `_dataset`: the rows without missing cells among `qs`. -/
def dataset (o : Kde) (qs : List Col) : Except Exn (List (List ℝ)) :=
  (Net.collect o.index qs).map o.rows.complete

/-- A variable as statsmodels sees it: its type and its bandwidth. -/
structure KVar where
  type : KType
  h : ℝ

/-- src/kde/mvkde.py:239-250 `_bw` and `_stattypes`. -/
def var (o : Kde) (q : Col) : Except Exn KVar :=
  match o.index q with
  | .error e => .error e
  | .ok i =>
    match o.types[i]?, o.bw[i]? with
    | some t, some h => .ok ⟨t, h⟩
    | _, _ => .error .indexError

/-- src/kde/mvkde.py:239-250, of a list. -/
def vars (o : Kde) (qs : List Col) : Except Exn (List KVar) := Net.collect o.var qs

open Classical in
/-- statsmodels `kernels.gaussian` and `kernels.aitchison_aitken`: the kernel with centre `Xi` at `x`;
`levels` is the number of distinct values of the column. -/
noncomputable def kernelValue (v : KVar) (levels : Nat) (Xi x : ℝ) : Option ℝ :=
  match v.type with
  | .numerical => some (1 / Real.sqrt (2 * Real.pi) * Real.exp (-(Xi - x) ^ 2 / (v.h ^ 2 * 2)))
  | .nominal _ =>
    if Xi = x then some (1 - v.h) else if levels = 1 then none else some (v.h / (levels - 1))

/-- The number of distinct values of each of the first `n` columns. -/
noncomputable def columnLevels (n : Nat) (data : List (List ℝ)) : List Nat :=
  (List.range n).map fun i => (data.map fun row => row.getD i 0).dedup.length

/-- The kernels of one row. -/
noncomputable def rowKernels : List (KVar × Nat) → List ℝ → List ℝ → Option (List ℝ)
  | (v, l) :: vs, r :: rs, x :: xs =>
    (kernelValue v l r x).bind fun k => (rowKernels vs rs xs).map (k :: ·)
  | _, _, _ => some []

/-- `np.prod(bw[iscontinuous])` -/
def contBw (vs : List KVar) : ℝ :=
  (vs.map fun v => match v.type with | .numerical => v.h | .nominal _ => 1).prod

/-- statsmodels `_kernel_base.gpke(bw, data, data_predict, var_type, tosum=False)`. -/
noncomputable def gpke (vs : List KVar) (data : List (List ℝ)) (x : List ℝ) : Option (List ℝ) :=
  data.mapM fun row =>
    (rowKernels (vs.zip (columnLevels vs.length data)) row x).map fun ks => ks.prod / contBw vs

/-- statsmodels `KDEMultivariate(data, var_type, bw).pdf(x)`; the constructor refuses data without more
rows than variables. -/
noncomputable def pdf (vs : List KVar) (data : List (List ℝ)) (x : List ℝ) :
    Except Exn (Option ℝ) :=
  if data.length ≤ vs.length then .error .valueError
  else .ok ((gpke vs data x).map fun ds => ds.sum / data.length)

open Classical in
/-- statsmodels `KDEMultivariateConditional(endog, exog, dep_type, indep_type, bw).pdf(y, x)`; the first
columns of `data` are `endog`. -/
noncomputable def pdfGiven (ys xs : List KVar) (data : List (List ℝ)) (y x : List ℝ) : Option ℝ :=
  match gpke (ys ++ xs) data (y ++ x), gpke xs (data.map (·.drop ys.length)) x with
  | some f, some m => if m.sum = 0 then none else some (f.sum / m.sum)
  | _, _ => none

open Classical in
/-- `np.log` of a density. -/
noncomputable def npLog : Option ℝ → Fl
  | none => .nan
  | some p => if 0 < p then .fin (Real.log p) else if p = 0 then .ninf else .nan

/-- src/kde/mvkde.py:135-151: the density, after the checks. -/
noncomputable def density (o : Kde) (targets constraints : Dict Col ℝ) : Except Exn (Option ℝ) :=
  if constraints.isEmpty then do
    let data ← o.dataset targets.keys
    let vs ← o.vars targets.keys
    pdf vs data targets.vals
  else do
    let data ← o.dataset (targets.keys ++ constraints.keys)
    let ys ← o.vars targets.keys
    let xs ← o.vars constraints.keys
    .ok (pdfGiven ys xs data targets.vals constraints.vals)

/-- The values of a dictionary without NaN. -/
def noNan (d : Vals) : Option (Dict Col ℝ) := d.mapM fun q => q.2.map fun x => (q.1, x)

/-- src/kde/mvkde.py:120-152 `logpdf`. -/
noncomputable def logpdf (o : Kde) (rowid : Option Row) (targets : Vals)
    (constraints : Dict Col ℝ) (inputs : List Col) : Except Exn Fl :=
  if o.rows.N = 0 then .error .valueError
  else
    match o.rows.populate o.outputs rowid targets.keys constraints with
    | .error e => .error e
    | .ok cs =>
      if !inputs.isEmpty then .error .valueError
      else if targets.isEmpty then .error .valueError
      else
        match noNan targets with
        | none => .error .valueError
        | some ts =>
          if targets.keys.any fun q => !o.outputs.contains q then .error .valueError
          else if targets.keys.any cs.has then .error .valueError
          else (o.density ts cs).map npLog

/-- src/kde/mvkde.py:195-198 `_simulate_gaussian_kernel` and 200-208
`_simulate_aitchison_aitken_kernel` (the assertion is exact here). -/
noncomputable def simulateKernel (v : KVar) (Xi : ℝ) : Rand ℝ :=
  match v.type with
  | .numerical => .normal Xi v.h .pure
  | .nominal c =>
    if c = 1 ∧ Xi ≠ 0 then .raise .zeroDivision
    else
      let probs := (List.range c).map fun s : Nat =>
        if (s : ℝ) = Xi then 1 - v.h else v.h / ((c : ℝ) - 1)
      if probs.sum ≠ 1 then .raise .assertion
      else (Rand.draw probs).bind fun i => .pure (i : ℝ)

/-- src/kde/mvkde.py:186-193 `_simulate_member`. -/
noncomputable def simulateMember (o : Kde) (targets : List Col) (row : List ℝ) :
    Rand (Dict Col ℝ) :=
  if row.length ≠ targets.length then .raise .assertion
  else (Rand.ofExcept (o.vars targets)).bind fun vs =>
    (Rand.traverse (fun p => simulateKernel p.1 p.2) (vs.zip row)).bind fun xs =>
      .pure (Dict.update [] (targets.zip xs))

open Classical in
/-- src/utils/general.py:128-139 `pflip` with `array=None` and `size=n`; `none` are weights that are not
finite. -/
noncomputable def pflipMany (n : Nat) (len : Nat) (weights : Option (List ℝ)) : Rand (List Nat) :=
  if len = 1 then .pure (List.replicate n 0)
  else match weights with
    | none => .raise .valueError
    | some p =>
      if p.sum = 0 then .raise .valueError
      else Rand.traverse (fun _ => Rand.draw (p.map fun x => x / p.sum)) (List.range n)

/-- src/kde/mvkde.py:167-179: the exemplars, restricted to the targets, and their weights. -/
noncomputable def exemplars (o : Kde) (targets : List Col) (constraints : Dict Col ℝ) :
    Except Exn (List (List ℝ) × Option (List ℝ)) :=
  if constraints.isEmpty then do
    let data ← o.dataset targets
    .ok (data, some (List.replicate data.length 1))
  else do
    let data ← o.dataset (targets ++ constraints.keys)
    let xs ← o.vars constraints.keys
    .ok (data.map (·.take targets.length),
      gpke xs (data.map (·.drop targets.length)) constraints.vals)

/-- src/kde/mvkde.py:154-184 `simulate`: one sample if `N` is `None`, else a list of `N` samples. -/
noncomputable def simulate (o : Kde) (rowid : Option Row) (targets : List Col)
    (constraints : Dict Col ℝ) (inputs : List Col) (N : Option Nat) :
    Rand (Dict Col ℝ ⊕ List (Dict Col ℝ)) :=
  if o.rows.N = 0 then .raise .valueError
  else if !inputs.isEmpty then .raise .valueError
  else if targets.isEmpty then .raise .valueError
  else if targets.any fun q => !o.outputs.contains q then .raise .valueError
  else if targets.any constraints.has then .raise .valueError
  else
    (Rand.ofExcept (o.rows.populate o.outputs rowid targets constraints)).bind fun cs =>
    (Rand.ofExcept (o.exemplars targets cs)).bind fun ew =>
    (pflipMany (N.getD 1) ew.1.length ew.2).bind fun is =>
    (Rand.traverse (fun i => o.simulateMember targets (ew.1.getD i [])) is).bind fun l =>
    match N with
    | none => .pure (.inl (l.headD []))
    | some _ => .pure (.inr l)

/-- src/kde/mvkde.py:210-216 `logpdf_score`. -/
noncomputable def logpdfScore (o : Kde) : Except Exn Fl :=
  (Net.collect (fun r : Row × List (Option ℝ) =>
    if r.2.length ≠ o.outputs.length then .error .assertion
    else o.logpdf (some r.1) ((o.outputs.zip r.2).filter fun q => q.2.isSome) [] [])
    o.rows.data).map flSum

/-- Calls that change a `MultivariateKde`. -/
inductive Op
  | inc (r : Row) (obs inputs : Vals)
  | unc (r : Row)
  | learn (bw : List ℝ)

/-- One call. -/
def apply (o : Kde) : Op → Out Kde
  | .inc r obs inputs => o.incorporate r obs inputs
  | .unc r => o.unincorporate r
  | .learn bw => .ok (o.transition bw)

/-- A history of calls, exceptions being caught by the client. -/
def run (o : Kde) (ops : List Op) : Kde := ops.foldl (fun o op => (o.apply op).state) o

end Kde
end Cgpm
