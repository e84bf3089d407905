import Verif.Model.Network
import Verif.Model.Dim
import Verif.Model.LogSpace
import Mathlib.LinearAlgebra.Matrix.PosDef

/-
Model of the queries of src/factor/factor.py (`FactorAnalysis`) and of the multivariate normal
density they use, src/utils/mvnormal.py.  The row bookkeeping (`incorporate`, `unincorporate`) is in
Verif/Model/Standalone.lean.

Simplifications, global to this file:
* Numbers are exact reals; a missing cell of a row (NaN) is `none`; the values of targets and of
  constraints are reals.
* An array is a function of natural numbers, of which only the entries within its shape are read; a
  slice `mu[Q]`, `cov[Q][:,E]` is a vector or a matrix whose index type counts the elements of the
  lists `Q`, `E`.
* A dictionary keeps the order of the pairs it is made from.  (Python 2 has an order of its own:
  `C48_order` shows that the answers do not depend on the order.)
* `np.linalg.inv` raises `LinAlgError` exactly when the determinant is zero; it is `Exn.runtime`.
-/
namespace Cgpm

/-- A factor analysis: `outputs` (the last `L` of them are the latent variables), `L`, the
parameters `mux`, `Psi`, `W` and the rows `data`. -/
structure Factor where
  outputs : List Col
  L : Nat
  mux : Nat → ℝ
  Psi : Nat → Nat → ℝ
  W : Nat → Nat → ℝ
  data : Dict Row (List (Option ℝ))

/-! ### src/utils/mvnormal.py -/

open Classical in
/-- src/utils/mvnormal.py:76-109 `logpdf`, with the factorisations of lines 29-74.  The Cholesky
factorisation of a symmetric matrix succeeds exactly when the matrix is positive definite; then
`solve` multiplies by the inverse and `logsqrtdet` is half the logarithm of the determinant.
Otherwise the answer is what `loser` (least squares) makes of it, about which nothing is assumed. -/
noncomputable def mvnLogpdf (loser : (n : Nat) → (Fin n → ℝ) → Matrix (Fin n) (Fin n) ℝ → Fl)
    {n : Nat} (X Mu : Fin n → ℝ) (Sigma : Matrix (Fin n) (Fin n) ℝ) : Fl :=
  if Sigma.PosDef then
    .fin (-((X - Mu) ⬝ᵥ ((1 / 2 : ℝ) • Sigma⁻¹.mulVec (X - Mu)))
      - (n : ℝ) / 2 * Real.log (2 * Real.pi) - 1 / 2 * Real.log Sigma.det)
  else loser n (X - Mu) Sigma

/-- src/utils/mvnormal.py:247-286 `conditional`, where `Sigma22` is positive definite
(`solve` multiplies by the inverse).  The assertions are about shapes and finiteness. -/
noncomputable def mvnConditional {n m : Nat} (X2 : Fin m → ℝ) (Mu1 : Fin n → ℝ) (Mu2 : Fin m → ℝ)
    (Sigma11 : Matrix (Fin n) (Fin n) ℝ) (Sigma12 : Matrix (Fin n) (Fin m) ℝ)
    (Sigma21 : Matrix (Fin m) (Fin n) ℝ) (Sigma22 : Matrix (Fin m) (Fin m) ℝ) :
    (Fin n → ℝ) × Matrix (Fin n) (Fin n) ℝ :=
  (Mu1 + Sigma12.mulVec (Sigma22⁻¹.mulVec (X2 - Mu2)), Sigma11 - Sigma12 * (Sigma22⁻¹ * Sigma21))

namespace Factor

/-- src/factor/factor.py:75-132 `__init__` (statistical types and defaults of the parameters are
dropped; `L` is `None` or a natural number). -/
def new (outputs : List Col) (inputs : List Col) (L : Option Nat) (mux : Nat → ℝ)
    (Psi W : Nat → Nat → ℝ) : Except Exn Factor :=
  if !inputs.isEmpty then .error .valueError
  else if outputs.length < 2 then .error .valueError
  else if outputs.dedup.length ≠ outputs.length then .error .valueError
  else
    match L with
    | none => .error .valueError
    | some L =>
      if L = 0 then .error .valueError
      else if (outputs.take (outputs.length - L)).length < L then .error .valueError
      else .ok ⟨outputs, L, mux, Psi, W, []⟩

/-- src/factor/factor.py:102: `len(outputs[:-L])` -/
def D (f : Factor) : Nat := (f.outputs.take (f.outputs.length - f.L)).length

/-- src/factor/factor.py:118: `outputs[:-self.L]` -/
def observables (f : Factor) : List Col := f.outputs.take (f.outputs.length - f.L)

/-- src/factor/factor.py:119: `set(outputs[-self.L:])` -/
def latents (f : Factor) : List Col := f.outputs.drop (f.outputs.length - f.L)

/-- src/factor/factor.py:297: the mean of `joint_parameters`. -/
def mu (f : Factor) (i : Nat) : ℝ := if i < f.L then 0 else f.mux (i - f.L)

/-- src/factor/factor.py:298-301: the covariance of `joint_parameters`.  The object stores what
`joint_parameters` returned when the parameters were last set (lines 130 and 230). -/
noncomputable def cov (f : Factor) (i j : Nat) : ℝ :=
  if i < f.L then
    if j < f.L then (if i = j then 1 else 0) else f.W (j - f.L) i
  else
    if j < f.L then f.W (i - f.L) j
    else ((List.range f.L).map fun k => f.W (i - f.L) k * f.W (j - f.L) k).sum
      + f.Psi (i - f.L) (j - f.L)

/-- src/factor/factor.py:287-289 `convert`, with `output_mapping` of line 121. -/
def convert (f : Factor) (q : Col) : Except Exn Nat :=
  match f.outputs.idxOf? q with
  | none => .error .keyError
  | some i => if f.latents.contains q then .ok (i - f.D) else .ok (i + f.L)

/-- src/factor/factor.py:277-294 `reindex`, of a list. -/
def reindex (f : Factor) (vs : List Col) : Except Exn (List Nat) :=
  Net.collect f.convert vs

/-- src/factor/factor.py:277-294 `reindex`, of a dictionary: `dict(zip(indexes, values))`. -/
def reindexDict (f : Factor) (vs : Dict Col ℝ) : Except Exn (Dict Nat ℝ) :=
  match f.reindex vs.keys with
  | .error e => .error e
  | .ok indexes => .ok (Dict.update [] (indexes.zip (vs.map Prod.snd)))

/-- src/factor/factor.py:304-319 `mvn_marginalize`, its symmetry assertion (exact here).  The blocks
it returns are `mu` and `cov` read at the elements of the lists. -/
def Symmetric (cov : Nat → Nat → ℝ) (Q E : List Nat) : Prop :=
  (∀ i ∈ Q, ∀ j ∈ Q, cov i j = cov j i) ∧ ∀ i ∈ E, ∀ j ∈ E, cov i j = cov j i

/-- src/factor/factor.py:308: `mu[Q]` -/
def at1 (mu : Nat → ℝ) (Q : List Nat) : Fin Q.length → ℝ := fun i => mu Q[i]

/-- src/factor/factor.py:311-313: `cov[Q][:,E]` -/
def at2 (cov : Nat → Nat → ℝ) (Q E : List Nat) : Matrix (Fin Q.length) (Fin E.length) ℝ :=
  fun i j => cov Q[i] E[j]

/-- src/factor/factor.py:328: `evidence.values()`, in the order of `evidence.keys()`. -/
def vals (E : Dict Nat ℝ) : Fin E.keys.length → ℝ :=
  fun i => (E[i.val]'(by have := i.isLt; simpa [Dict.keys] using this)).2

/-- src/factor/factor.py:333-335: the conditional mean and covariance. -/
noncomputable def given (mu : Nat → ℝ) (cov : Nat → Nat → ℝ) (Q : List Nat) (E : Dict Nat ℝ) :
    (Fin Q.length → ℝ) × Matrix (Fin Q.length) (Fin Q.length) ℝ :=
  let P := at2 cov Q E.keys * (at2 cov E.keys E.keys)⁻¹
  (at1 mu Q + P.mulVec (vals E - at1 mu E.keys),
    at2 cov Q Q - P * (at2 cov Q E.keys).transpose)

open Classical in
/-- src/factor/factor.py:321-336 `mvn_condition`; `n` is `len(mu)`, the size of `cov`. -/
noncomputable def mvnCondition (n : Nat) (mu : Nat → ℝ) (cov : Nat → Nat → ℝ) (Q : List Nat)
    (E : Dict Nat ℝ) :
    Except Exn ((Fin Q.length → ℝ) × Matrix (Fin Q.length) (Fin Q.length) ℝ) :=
  if n < Q.length + E.length then .error .assertion
  else if ¬ Symmetric cov Q E.keys then .error .assertion
  else if (at2 cov E.keys E.keys).det = 0 then .error .runtime
  else .ok (given mu cov Q E)

/-- src/factor/factor.py:238-244: the cells of a row that are used as evidence. -/
def observed (f : Factor) (values : List (Option ℝ)) (targets : List Col)
    (constraints : Dict Col ℝ) : Dict Col ℝ :=
  ((f.outputs.take f.D).zip values).filterMap fun q =>
    match q.2 with
    | none => none
    | some v => if targets.contains q.1 || constraints.has q.1 then none else some (q.1, v)

/-- src/factor/factor.py:232-246 `populate_constraints`; `targets` are the keys of the targets. -/
def populate (f : Factor) (rowid : Option Row) (targets : List Col) (constraints : Dict Col ℝ) :
    Except Exn (Dict Col ℝ) :=
  match rowid.bind f.data.get? with
  | none => .ok constraints
  | some values =>
    if values.length ≠ (f.outputs.take f.D).length then .error .assertion
    else .ok (constraints.update (f.observed values targets constraints))

/-- src/factor/factor.py:166-178 and 188-200: the checks shared by `logpdf` and `simulate`; the
answer is the populated constraints, reindexed. -/
def prepare (f : Factor) (rowid : Option Row) (targets : List Col) (constraints : Dict Col ℝ)
    (inputs : List Col) : Except Exn (Dict Col ℝ) :=
  match f.populate rowid targets constraints with
  | .error e => .error e
  | .ok cs =>
    if !inputs.isEmpty then .error .valueError
    else if targets.isEmpty then .error .valueError
    else if targets.any fun q => !f.outputs.contains q then .error .valueError
    else if targets.any fun q => cs.has q then .error .valueError
    else .ok cs

/-- src/factor/factor.py:164-184 `logpdf` (`constraints=None` is `[]`; of `inputs` only the keys are
kept). -/
noncomputable def logpdf (f : Factor)
    (loser : (n : Nat) → (Fin n → ℝ) → Matrix (Fin n) (Fin n) ℝ → Fl) (rowid : Option Row)
    (targets : Dict Col ℝ) (constraints : Dict Col ℝ) (inputs : List Col) : Except Exn Fl :=
  match f.prepare rowid targets.keys constraints inputs with
  | .error e => .error e
  | .ok cs =>
    match f.reindexDict targets with
    | .error e => .error e
    | .ok tr =>
      match f.reindexDict cs with
      | .error e => .error e
      | .ok er =>
        match mvnCondition (f.L + f.D) f.mu f.cov tr.keys er with
        | .error e => .error e
        | .ok g => .ok (mvnLogpdf loser (vals tr) g.1 g.2)

/-- src/factor/factor.py:206-210 `get_sample`: `dict(zip(targets, samp))`; the sample has as many
coordinates as there are targets. -/
def getSample (targets : List Col) {n : Nat} (samp : Fin n → ℝ) : Dict Col ℝ :=
  Dict.update [] (targets.zip (List.ofFn samp))

/-- src/factor/factor.py:186-211 `simulate`.  `rng n mean cov k` is the `k`-th vector that
`rng.multivariate_normal(mean, cov, size)` returns.  The answer is one sample if `N` is `None`, and
a list of `N` samples otherwise. -/
noncomputable def simulate (f : Factor)
    (rng : (n : Nat) → (Fin n → ℝ) → Matrix (Fin n) (Fin n) ℝ → Nat → (Fin n → ℝ))
    (rowid : Option Row) (targets : List Col) (constraints : Dict Col ℝ) (inputs : List Col)
    (N : Option Nat) : Except Exn (Dict Col ℝ ⊕ List (Dict Col ℝ)) :=
  match f.prepare rowid targets constraints inputs with
  | .error e => .error e
  | .ok cs =>
    match f.reindex targets with
    | .error e => .error e
    | .ok tr =>
      match f.reindexDict cs with
      | .error e => .error e
      | .ok er =>
        match mvnCondition (f.L + f.D) f.mu f.cov tr er with
        | .error e => .error e
        | .ok g =>
          match N with
          | none => .ok (.inl (getSample targets (rng _ g.1 g.2 0)))
          | some N => .ok (.inr ((List.range N).map fun k => getSample targets (rng _ g.1 g.2 k)))

/-- src/factor/factor.py:213-218 `logpdf_score`.  `for x in self.data` runs over the row numbers, of
which `len` raises TypeError; without rows the sum is 0. -/
def logpdfScore (f : Factor) : Except Exn Fl :=
  if f.data.isEmpty then .ok (.fin 0) else .error .typeError

/-- src/factor/factor.py:220-230 `transition`: the estimates of sklearn replace the parameters, and
the joint parameters are computed again.  (`fit` refuses data without complete rows.) -/
noncomputable def transition (f : Factor) (noise mean : Nat → ℝ) (components : Nat → Nat → ℝ) :
    Factor :=
  { f with
    Psi := fun i j => if i = j then noise i else 0
    mux := mean
    W := fun i k => components k i }

end Factor
end Cgpm
