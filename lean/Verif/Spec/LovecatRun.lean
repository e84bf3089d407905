import Verif.Model.LovecatRun

/-! Specification of what is handed to Lovecat (C87). -/
namespace Cgpm.Props
open Cgpm
variable {P : Prim → Prop}

/-- SPEC. The types of columns that Lovecat knows: normal and categorical. -/
def LovecatType (k : (catOf P).ι) : Prop := k.1 = .normal ∨ ∃ n, k.1 = .categorical n

/-- SPEC. What is known about `sorted(set(column))`: apart from missing values, each value that occurs
is listed once; if nothing is missing, in increasing order. -/
def SortsSets (ord : List (Option ℝ) → List (Option ℝ)) : Prop :=
  ∀ l, (ord l).reduceOption.Nodup ∧ (∀ v, some v ∈ ord l ↔ some v ∈ l) ∧
    (none ∉ l → (ord l).reduceOption.Pairwise (· < ·))

/-- SPEC. The value `v` occurs in the column `c` of the State. -/
def Occurs (s : State (catOf P)) (c : Col) (v : ℝ) : Prop := ∃ r < s.nRows, s.tbl c r = some v

/-- SPEC. How the `i`-th column, the categorical column `c` with `k` categories, is described: `K`
codes; `code` numbers the values that occur from 0 to `K - 1`, different values differently; the
entries are the codes, or missing; the dictionary leads from the codes to the values. -/
structure Coded (s : State (catOf P)) (c : Col) (k : Nat) (m : Lovecat.ColMeta)
    (entry : Row → Option (Option ℝ)) (K : Nat) (code : ℝ → Nat) : Prop where
  pos : 0 < K
  bound : K ≤ k
  entries : ∀ r < s.nRows, entry r = some ((s.tbl c r).map fun v : ℝ => (code v : ℝ))
  range : ∀ v, Occurs s c v → code v < K
  onto : ∀ j < K, ∃ v, Occurs s c v ∧ code v = j
  inj : ∀ v w, Occurs s c v → Occurs s c w → code v = code w → v = w
  back : ∀ v, Occurs s c v → m.valueToCode.get? (code v) = some ⌊v⌋ ∧ v = (⌊v⌋ : ℝ)
  order : (∀ r < s.nRows, s.tbl c r ≠ none) → ∀ v w, Occurs s c v → Occurs s c w → v < w → code v < code w

/-- SPEC. The data and hyperparameters that are handed over describe the State: one row of the table
for each row, one entry for each column in the order of the outputs; a numerical column is handed over
as it is, a categorical one in codes. -/
structure Describes (x : Lovecat.Call) (s : State (catOf P)) : Prop where
  rows : x.table.length = s.nRows
  width : ∀ l ∈ x.table, l.length = s.outputs.length
  numerical : ∀ (i : Nat) c d, s.outputs[i]? = some c → s.dimFor c = .ok d → d.kind.1 = .normal →
    (∀ r < s.nRows, (x.table[r]?.bind fun l => l[i]?) = some (s.tbl c r)) ∧
      (x.metas[i]?.map Lovecat.ColMeta.nominal) = some false ∧ x.hypers[i]? = some ⟨d.hyp, none⟩
  categorical : ∀ (i : Nat) c d k, s.outputs[i]? = some c → s.dimFor c = .ok d →
    d.kind.1 = .categorical k → ∃ m K code, x.metas[i]? = some m ∧ m.nominal = true ∧
      Coded s c k m (fun r => x.table[r]?.bind fun l => l[i]?) K code ∧ x.hypers[i]? = some ⟨d.hyp, some K⟩

/-- SPEC. The run that is asked for: the number of steps and the time limit (without a number of
steps, 150000 of them), the columns by position (all, if none is named), the rows, the kernels, the
seed and the interval of the diagnostics. -/
structure Asks (x : Lovecat.Call) (outputs : List Col) (N : Option Nat) (S : Option ℝ)
    (kernels : Option (List String)) (rowids : Option (List Row)) (cols : Option (List Col)) (seed : Nat)
    (checkpoint : Option Nat) : Prop where
  steps : x.steps = N.getD 150000
  maxTime : x.maxTime = S
  cols : x.cols.map (fun i => outputs[i]?) = (cols.getD []).map some
  rows : x.rows = rowids.getD []
  kernels : x.kernels = kernels.getD []
  seed : x.seed = seed
  every : x.every = checkpoint

end Cgpm.Props
