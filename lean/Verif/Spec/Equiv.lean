import Verif.Model.View

/-!
Specification vocabulary: observational equality of the objects of a view.  Everything a
caller can read is equal; only the order inside dictionaries may differ.
-/
namespace Cgpm

variable {C : Cat}

namespace Crp

/-- Equality of Crps up to the order inside dicts. -/
structure Equiv (a b : Crp) : Prop where
  alpha : a.alpha = b.alpha
  N : a.N = b.N
  data : a.data.Perm b.data
  counts : a.counts.Perm b.counts
  wfC : a.counts.WF

end Crp

namespace Dim

/-- Observational equality of components. -/
structure _root_.Cgpm.Comp.Equiv {O S H : Type} (a b : Comp O S H) : Prop where
  data : a.data.Perm b.data
  stat : a.stat = b.stat
  hyp : a.hyp = b.hyp

/-- Observational equality of dims: same schema and hyperparameters, same filing, and
equal components for the same clusters (the order inside dicts aside). -/
structure Equiv (a b : Dim C) : Prop where
  index : a.index = b.index
  inputs : a.inputs = b.inputs
  kind : a.kind = b.kind
  hyp : a.hyp = b.hyp
  Zr : a.Zr.Perm b.Zr
  Zi : a.Zi.Perm b.Zi
  wfA : a.clusters.WF
  wfB : b.clusters.WF
  cl : ∀ k, Option.Rel Comp.Equiv (a.clusters.get? k) (b.clusters.get? k)
  aux : a.aux.Equiv b.aux

end Dim

namespace View

/-- Equality of views up to the order inside dicts. -/
structure Equiv (a b : View C) : Prop where
  crp : Crp.Equiv a.crp b.crp
  wfA : a.dims.WF
  wfB : b.dims.WF
  dims : ∀ c, Option.Rel Dim.Equiv (a.dims.get? c) (b.dims.get? c)

end View
end Cgpm
