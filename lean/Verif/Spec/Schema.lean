import Verif.Model.Schema
import Mathlib.Order.Defs.LinearOrder

/-! What reading a data set by a schema promises (C84). -/
namespace Cgpm.Schema

variable {V : Type} [DecidableEq V]

/-- SPEC. `sorted` returns the elements of its argument. -/
def SortsAll (sort : Column V → Column V) : Prop := ∀ l, (sort l).Perm l

/-- SPEC. `sorted` returns values without missing ones among them in increasing order. -/
def SortsUp [LinearOrder V] (sort : Column V → Column V) : Prop :=
  ∀ l : List V, ∃ l' : List V, sort (l.map some) = l'.map some ∧ l'.Pairwise (· ≤ ·)

/-- SPEC. The value that a data frame has at row `r` of the column `name`; `NA` is missing. -/
def cellOf (na : V) (df : Dict Str (Column V)) (name : Str) (r : Nat) : Option V :=
  match df.get? name with
  | none => none
  | some col =>
    match col[r]? with
    | some (some v) => if v = na then none else some v
    | _ => none

/-- SPEC. The column `name` has the value `v` at some row. -/
def observed (na : V) (df : Dict Str (Column V)) (name : Str) (v : V) : Prop :=
  ∃ r, cellOf na df name r = some v

/-- SPEC. Columns of these types are coded by integers. -/
def Nominal (t : Str) : Prop := t = "bernoulli".toList ∨ t = "categorical".toList

/-- SPEC. The entries of the schema that are not ignored. -/
def kept (schema : List Entry) : List Entry := schema.filter fun e => e.type ≠ "ignore".toList

/-- SPEC. A mapping that gives to each value of the column its own code, and uses the codes
`0, …, k - 1`. -/
structure Codes (na : V) (df : Dict Str (Column V)) (name : Str) (m : Dict V Nat) (k : Nat) :
    Prop where
  total : ∀ v, observed na df name v ↔ ∃ c, m.get? v = some c
  own : ∀ v w c, m.get? v = some c → m.get? w = some c → v = w
  dense : ∀ c, c < k ↔ ∃ v, m.get? v = some c

/-- SPEC. The value of a matrix at row `r` and column `j`. -/
def entryAt (T : List (List (Option (Cell V)))) (r j : Nat) : Option (Option (Cell V)) :=
  match T[r]? with
  | none => none
  | some row => row[j]?

/-- SPEC. The columns of the data frame have `n` rows. -/
def Rows (df : Dict Str (Column V)) (n : Nat) : Prop := ∀ p ∈ df, p.2.length = n

/-- SPEC. What the results hold for the schema and the data frame. -/
structure Reads (na : V) (df : Dict Str (Column V)) (n : Nat) (schema : List Entry)
    (res : Parsed V) : Prop where
  columns : res.columns = (kept schema).map Entry.name
  cctypes : res.cctypes = (kept schema).map Entry.type
  outputs : res.outputs = (kept schema).map Entry.index
  rows : res.T.length = n
  width : ∀ row ∈ res.T, row.length = (kept schema).length
  /-- Numerical columns keep their values. -/
  numerical : ∀ r < n, ∀ (j : Nat) (e : Entry), (kept schema)[j]? = some e → ¬ Nominal e.type →
    entryAt res.T r j = some ((cellOf na df e.name r).map Cell.raw) ∧
    res.distargs[j]? = some none
  /-- Values of nominal columns are replaced by their codes; missing values stay missing. -/
  nominal : ∀ (j : Nat) (e : Entry), (kept schema)[j]? = some e → Nominal e.type → ∃ m k,
    res.valmap.get? e.name = some m ∧ Codes na df e.name m k ∧
    (∀ r < n, ∃ x, entryAt res.T r j = some x ∧
      (cellOf na df e.name r = none → x = none) ∧
      ∀ v, cellOf na df e.name r = some v → ∃ c, m.get? v = some c ∧ x = some (.code c)) ∧
    (e.type = "bernoulli".toList → k = 2 ∧ res.distargs[j]? = some none) ∧
    (e.type = "categorical".toList → '(' ∉ e.name → res.distargs[j]? = some (some k))

end Cgpm.Schema
