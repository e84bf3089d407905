import Verif.Model.Standalone

/-!
Specification vocabulary for C65, C66: queries of models that keep rows of values (Model/Standalone
`MvRows`), whose variables are `outputs`.
-/
namespace Cgpm.Spec.Mv
open Cgpm

/-- The value of a variable in a row, if it is observed. -/
def cell (outputs : List Col) (o : MvRows) (r : Row) (q : Col) : Option ℝ :=
  ((o.data.get? r).bind fun vs => vs[outputs.idxOf q]?).join

/-- The rows without missing cells among `qs`. -/
def exemplars (outputs : List Col) (o : MvRows) (qs : List Col) : List Row :=
  o.data.keys.filter fun r => qs.all fun q => (cell outputs o r q).isSome

/-- What a query about the targets `T` under the constraints `C` at the row `r` is conditioned on:
the constraints, and the observed cells of the row other than the targets and the constraints. -/
structure Evidence (outputs : List Col) (o : MvRows) (r : Option Row) (T : List Col)
    (C Ev : Dict Col ℝ) : Prop where
  nodup : Ev.keys.Nodup
  get : ∀ q, Ev.get? q
    = (C.get? q).or (if q ∈ T then none else r.bind fun r => cell outputs o r q)

/-- The rows are well formed: one entry per row, one cell per variable, and `N` counts them. -/
structure Full (outputs : List Col) (o : MvRows) : Prop where
  nodup : outputs.Nodup
  keys : o.data.keys.Nodup
  count : o.N = o.data.length
  full : ∀ r vs, o.data.get? r = some vs → vs.length = outputs.length

/-- A partial assignment of values to variables. -/
structure Assigns (outputs : List Col) (d : Dict Col ℝ) : Prop where
  nodup : d.keys.Nodup
  known : ∀ q ∈ d.keys, q ∈ outputs

/-- The values of `d` lie in the sets `S`, and `d` assigns values to just the variables `T`. -/
def InBox (T : List Col) (S : Col → Set ℝ) (d : Dict Col ℝ) : Prop :=
  d.keys = T ∧ ∀ p ∈ d, p.2 ∈ S p.1

/-- Targets as `logpdf` takes them. -/
def ofDict (d : Dict Col ℝ) : Vals := d.map fun p => (p.1, some p.2)

end Cgpm.Spec.Mv
