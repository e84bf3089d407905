import Verif.Model.Py
import Verif.Model.Math
import Verif.Model.Crp

/-
The common shape of every univariate component of src/primitives: a dictionary
of incorporated rows, sufficient statistics maintained incrementally, and
hyperparameters.  `Family` collects what differs between the distributions;
`Comp` is the object.
-/
namespace Cgpm

/-- What a concrete `DistributionGpm` provides.  `O` is the type of an observation,
`S` of the sufficient statistics, `H` of hyperparameters (for the uncollapsed
beta and normal_trunc: their current parameters). -/
structure Family (O S H : Type) where
  /-- validation (and clamping) done by `incorporate` before anything is changed:
  the value that is stored, or the exception raised. -/
  prep : O → Except Exn O
  /-- statistics of an empty component -/
  zero : S
  /-- the `+=` updates of `incorporate` -/
  add : S → O → S
  /-- the `-=` updates of `unincorporate` -/
  sub : S → O → S
  /-- the assertions of `__init__`/`set_hypers` -/
  hypOk : H → Prop
  /-- `logpdf` of a value for a row that is not incorporated -/
  logpdf : H → S → O → LogP
  /-- `logpdf_score` -/
  score : H → S → ℝ

/-- A component object: src/primitives/distribution.py:41-48 plus the statistics. -/
structure Comp (O S H : Type) where
  data : Dict Row O
  stat : S
  hyp  : H
  deriving DecidableEq

namespace Comp
variable {O S H : Type}

/-- `__init__`: a component with no rows. -/
def init (F : Family O S H) (hyp : H) : Comp O S H := { data := [], stat := F.zero, hyp }

/-- `incorporate`, common to all primitives: src/primitives/distribution.py:50-53
(`assert rowid not in self.data`), then validation, then the statistics and
`self.data[rowid] = x`; e.g. src/primitives/bernoulli.py:46-53. -/
def incorporate (F : Family O S H) (c : Comp O S H) (r : Row) (o : O) : Out (Comp O S H) :=
  if c.data.has r then .err .assertion c
  else match F.prep o with
    | .error e => .err e c
    | .ok x => .ok { c with data := c.data.set r x, stat := F.add c.stat x }

/-- `unincorporate`, common to all primitives: `x = self.data.pop(rowid)` then the
statistics; e.g. src/primitives/bernoulli.py:55-58. -/
def unincorporate (F : Family O S H) (c : Comp O S H) (r : Row) : Out (Comp O S H) :=
  match c.data.get? r with
  | none => .err .keyError c
  | some x => .ok { c with data := c.data.erase r, stat := F.sub c.stat x }

/-- `logpdf`: src/primitives/distribution.py:55-59 asserts that the row is not
incorporated; `rowid = none` is a hypothetical row. -/
def logpdf (F : Family O S H) (c : Comp O S H) (r : Option Row) (o : O) : Except Exn LogP :=
  match r.bind c.data.get? with
  | some _ => .error .assertion
  | none => .ok (F.logpdf c.hyp c.stat o)

/-- `logpdf_score`. -/
def score (F : Family O S H) (c : Comp O S H) : ℝ := F.score c.hyp c.stat

/-- The assignment of `set_hypers`. -/
def withHyp (c : Comp O S H) (h : H) : Comp O S H := { c with hyp := h }

open Classical in
/-- `set_hypers`: assertions, then the assignment. -/
noncomputable def setHypers (F : Family O S H) (c : Comp O S H) (h : H) : Out (Comp O S H) :=
  if F.hypOk h then .ok { c with hyp := h } else .err .assertion c

/-- Calls a client can make. -/
inductive Op (O H : Type)
  | inc (r : Row) (o : O)
  | unc (r : Row)
  | hyp (h : H)

/-- One call. -/
noncomputable def apply (F : Family O S H) (c : Comp O S H) : Op O H → Out (Comp O S H)
  | .inc r o => c.incorporate F r o
  | .unc r => c.unincorporate F r
  | .hyp h => c.setHypers F h

/-- A history of calls, exceptions being caught by the client. -/
noncomputable def run (F : Family O S H) (c : Comp O S H) (ops : List (Op O H)) : Comp O S H :=
  ops.foldl (fun c op => (c.apply F op).state) c

end Comp
end Cgpm
