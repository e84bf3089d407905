import Verif.Model.Py
import Verif.Model.Math
import Mathlib.Data.List.Sort

/-
Model of src/primitives/crp.py (class Crp) and of the CRP helpers of
src/utils/general.py.
Simplification: row ids and table ids are naturals (`int(observation[...])`
accepts any integer in the code; the library only produces non-negative ones).
`outputs`, `inputs` and `rng` are dropped: the assertions on
`observation.keys() == self.outputs` and `not inputs` are satisfied by
construction because an observation is passed as the bare table.
-/
namespace Cgpm

abbrev Row := Nat
abbrev Tab := Nat

/-- Python's `sorted` on integers. -/
def pySorted (l : List Nat) : List Nat := l.insertionSort (· ≤ ·)

/-- Python's `max` of a non-empty list of integers (callers handle empty). -/
def pyMax : List Nat → Nat
  | [] => 0
  | x :: t => t.foldl max x

/-- src/primitives/crp.py:32-45 `Crp.__init__`: the attributes of a Crp. `N` and
the counts are Python integers, hence `Int` (they could go negative). -/
structure Crp where
  alpha  : ℝ
  N      : Int
  data   : Dict Row Tab
  counts : Dict Tab Int

namespace Crp

/-- src/primitives/crp.py:32-45: a new Crp is empty. -/
def init (alpha : ℝ) : Crp := { alpha, N := 0, data := [], counts := [] }

/-- src/primitives/crp.py:45-52 `Crp.incorporate`, after the assertion of
src/primitives/distribution.py:50-53 `DistributionGpm.incorporate`. -/
def incorporate (s : Crp) (rowid : Row) (x : Tab) : Out Crp :=
  if s.data.has rowid then .err .assertion s
  else
    let N' := s.N + 1
    let counts' := if s.counts.has x then s.counts else s.counts.set x 0
    match counts'.get? x with
    | none => .err .keyError { s with N := N', counts := counts' }
    | some c =>
      .ok { s with N := N', counts := counts'.set x (c + 1), data := s.data.set rowid x }

/-- src/primitives/crp.py:54-59 `Crp.unincorporate`. -/
def unincorporate (s : Crp) (rowid : Row) : Out Crp :=
  match s.data.get? rowid with
  | none => .err .keyError s
  | some x =>
    let data' := s.data.erase rowid
    let N' := s.N - 1
    match s.counts.get? x with
    | none => .err .keyError { s with data := data', N := N' }
    | some c =>
      if c - 1 = 0 then .ok { s with data := data', N := N', counts := s.counts.erase x }
      else .ok { s with data := data', N := N', counts := s.counts.set x (c - 1) }

/-- src/primitives/crp.py:179-182 `calc_predictive_logp`. -/
noncomputable def calcPredictiveLogp (x : Tab) (N : Int) (counts : Dict Tab Int) (alpha : ℝ) : ℝ :=
  let numerator : ℝ := match counts.get? x with
    | some c => (c : ℝ)
    | none => alpha
  let denominator : ℝ := N + alpha
  Real.log numerator - Real.log denominator

/-- src/primitives/crp.py:185-188 `calc_logpdf_marginal` (identical formula:
src/utils/general.py:88-94 `logp_crp`). -/
noncomputable def calcLogpdfMarginal (N : Int) (counts : List Int) (alpha : ℝ) : ℝ :=
  counts.length * Real.log alpha + (counts.map (fun c : Int => gammaln (c : ℝ))).sum
    + gammaln alpha - gammaln (N + alpha)

/-- src/primitives/crp.py:61-69 `Crp.logpdf`; `rowid = none` is any id that is not
a row (the code uses `None` or `-1`). -/
noncomputable def logpdf (s : Crp) (rowid : Option Row) (x : Tab) : LogP :=
  match rowid.bind s.data.get? with
  | some t => if t = x then ((0 : ℝ) : LogP) else ⊥
  | none => ((calcPredictiveLogp x s.N s.counts s.alpha : ℝ) : LogP)

/-- src/primitives/crp.py:76-77: the support `K` enumerated by `Crp.simulate`. -/
def simulateSupport (s : Crp) : List Tab :=
  if s.counts.isEmpty then [0]
  else pySorted s.counts.keys ++ [pyMax s.counts.keys + 1]

/-- src/primitives/crp.py:83-84 `Crp.logpdf_score`. -/
noncomputable def logpdfScore (s : Crp) : ℝ := calcLogpdfMarginal s.N s.counts.vals s.alpha

open Classical in
/-- src/primitives/crp.py:93-95 `Crp.set_hypers`. -/
noncomputable def setHypers (s : Crp) (alpha : ℝ) : Out Crp :=
  if 0 < alpha then .ok { s with alpha } else .err .assertion s

/-- src/primitives/crp.py:145-146 `Crp.singleton` (a KeyError of `counts` cannot
be told apart from `False` here; C01 shows it does not occur). -/
def singleton (s : Crp) (rowid : Option Row) : Bool :=
  match rowid.bind s.data.get? with
  | some t => s.counts.get? t = some 1
  | none => false

/-- src/primitives/crp.py:126-143 `Crp.gibbs_tables`; `max()` of an empty list
raises ValueError, which happens only when auxiliary tables are requested. -/
def gibbsTables (s : Crp) (rowid : Option Row) (m : Nat) : Except Exn (List Tab) :=
  if m = 0 then .error .assertion
  else
    let K := pySorted s.counts.keys
    let mAux := if s.singleton rowid then m - 1 else m
    if s.counts.isEmpty ∧ 0 < mAux then .error .valueError
    else .ok (K ++ (List.range mAux).map (fun i => pyMax s.counts.keys + 1 + i))

/-- src/primitives/crp.py:119-123 `p_table` inside `Crp.gibbs_logps`: the
unnormalised probability of table `t` for the row currently seated at `own`. -/
noncomputable def gibbsWeight (s : Crp) (own : Tab) (m : Nat) (t : Tab) : ℝ :=
  let pAux : ℝ := s.alpha / m
  let pRowid : ℝ := match s.counts.get? own with
    | some c => if c = 1 then pAux else ((c - 1 : Int) : ℝ)
    | none => 0
  if t = own then pRowid
  else match s.counts.get? t with
    | none => pAux
    | some c => (c : ℝ)

/-- src/primitives/crp.py:111-124 `Crp.gibbs_logps`. -/
noncomputable def gibbsLogps (s : Crp) (rowid : Row) (m : Nat) : Except Exn (List ℝ) :=
  match s.data.get? rowid with
  | none => .error .assertion
  | some own =>
    match s.gibbsTables (some rowid) m with
    | .error e => .error e
    | .ok tables => .ok (tables.map (fun t => Real.log (s.gibbsWeight own m t)))

/-- The calls a client can make on a Crp. -/
inductive Op
  | inc (rowid : Row) (x : Tab)
  | unc (rowid : Row)
  | hyp (alpha : ℝ)

/-- One call. -/
noncomputable def apply (s : Crp) : Op → Out Crp
  | .inc r x => s.incorporate r x
  | .unc r => s.unincorporate r
  | .hyp a => s.setHypers a

/-- A history of calls; a call that raises is skipped over by the client, in the
state the call left behind. -/
noncomputable def run (s : Crp) (ops : List Op) : Crp := ops.foldl (fun s op => (s.apply op).state) s

end Crp
end Cgpm
