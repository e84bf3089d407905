import Verif.Model.Dim

/-
Model of src/mixtures/view.py (class View): a Chinese restaurant process over
rows together with a set of columns (Dims) sharing its clusters.

Simplifications, global to this file:
* `self.crp` is a Dim wrapping one Crp, `self.crp.clusters[0]`, created with the first
  row and never deleted; only that Crp is kept, and the wrapper's check that a row is
  not already filed (src/mixtures/dim.py:96-97) is reproduced where it is called.
* `self.outputs[0]` (the token naming the cluster variable) is not stored: the cluster
  of an observation is an argument of its own.
* `self.X` belongs to the State, which shares it between views: it is an argument `X`.
* The order of iteration over `self.dims` (a plain Python 2 dict) is the list order
  of the model; the theorems hold for every such order.
-/
namespace Cgpm

structure View (C : Cat) where
  crp : Crp
  dims : Dict Col (Dim C)

namespace View
variable {C : Cat}

/-- A view without rows or columns: what src/mixtures/view.py:62-108 starts from. -/
def empty (alpha : ℝ) : View C := { crp := Crp.init alpha, dims := [] }

/-- src/mixtures/view.py:441-443 `Zr(rowid)`. -/
def seat (v : View C) (r : Row) : Option Tab := v.crp.data.get? r

/-- src/mixtures/view.py:477-481 `_get_input_values`, without the cluster. -/
def inputsOf (X : C.Tbl) (d : Dim C) (r : Row) : List C.Cell := d.inputs.map fun i => X i r

/-- The cell of column `d` for row `r` together with the inputs read from the data set. -/
def obsOf (X : C.Tbl) (d : Dim C) (r : Row) : Option C.O := validObs (X d.index r) (inputsOf X d r)

/-- src/mixtures/view.py:165-169: the loop of `incorporate` over the dims; stops at
the first exception, leaving the earlier dims updated. -/
def incDims (X : C.Tbl) (r : Row) (k : Tab) (obs : Dict Col C.Cell) :
    Dict Col (Dim C) → Out (Dict Col (Dim C))
  | [] => .ok []
  | (c, d) :: t =>
    match obs.get? c with
    | none => .err .keyError ((c, d) :: t)
    | some x =>
      match d.incorporate r k x (inputsOf X d r) with
      | .err e d' => .err e ((c, d') :: t)
      | .ok d' =>
        match incDims X r k obs t with
        | .err e t' => .err e ((c, d') :: t')
        | .ok t' => .ok ((c, d') :: t')

/-- src/mixtures/view.py:163-169: `incorporate` up to the point where a cluster is
sampled; `k` is the cluster the row is put in. -/
def incorporateAt (X : C.Tbl) (v : View C) (r : Row) (obs : Dict Col C.Cell) (k : Tab) :
    Out (View C) :=
  if v.crp.data.has r then .err .valueError v
  else match v.crp.incorporate r k with
    | .err e crp' => .err e { v with crp := crp' }
    | .ok crp' =>
      match incDims X r k obs v.dims with
      | .err e ds => .err e { crp := crp', dims := ds }
      | .ok ds => .ok { crp := crp', dims := ds }

/-- src/mixtures/view.py:176-177: the loop of `unincorporate` over the dims. -/
def uncDims (r : Row) : Dict Col (Dim C) → Out (Dict Col (Dim C))
  | [] => .ok []
  | (c, d) :: t =>
    match d.unincorporate r with
    | .err e d' => .err e ((c, d') :: t)
    | .ok d' =>
      match uncDims r t with
      | .err e t' => .err e ((c, d') :: t')
      | .ok t' => .ok ((c, d') :: t')

/-- src/mixtures/view.py:182-183: `del dim.clusters[k]` in every dim. -/
def delClusters (k : Tab) : Dict Col (Dim C) → Out (Dict Col (Dim C))
  | [] => .ok []
  | (c, d) :: t =>
    if d.clusters.has k then
      match delClusters k t with
      | .err e t' => .err e ((c, { d with clusters := d.clusters.erase k }) :: t')
      | .ok t' => .ok ((c, { d with clusters := d.clusters.erase k }) :: t')
    else .err .keyError ((c, d) :: t)

/-- src/mixtures/view.py:174-183 `unincorporate`. -/
def unincorporate (v : View C) (r : Row) : Out (View C) :=
  match uncDims r v.dims with
  | .err e ds => .err e { v with dims := ds }
  | .ok ds =>
    match v.crp.data.get? r with
    | none => .err .keyError { v with dims := ds }
    | some k =>
      match v.crp.unincorporate r with
      | .err e crp' => .err e { crp := crp', dims := ds }
      | .ok crp' =>
        if crp'.counts.has k then .ok { crp := crp', dims := ds }
        else match delClusters k ds with
          | .err e ds' => .err e { crp := crp', dims := ds' }
          | .ok ds' => .ok { crp := crp', dims := ds' }

/-- src/mixtures/view.py:411-422 `_logpdf_cell_gibbs`: the row's own cell is taken out of
its cluster while its predictive density is computed, then put back. -/
def cellGibbs (X : C.Tbl) (own : Option Tab) (r : Row) (k : Tab) (d : Dim C) :
    Res (Dim C) LogP :=
  let x := X d.index r
  let ins := inputsOf X d r
  if own = some k then
    match d.unincorporate r with
    | .err e d1 => .err e d1
    | .ok d1 =>
      match d1.logpdf (some r) k x ins with
      | .error e => .err e d1
      | .ok lp =>
        match d1.incorporate r k x ins with
        | .err e d2 => .err e d2
        | .ok d2 => .ok lp d2
  else match d.logpdf (some r) k x ins with
    | .error e => .err e d
    | .ok lp => .ok lp d

/-- src/mixtures/view.py:409: the inner sum of `_logpdf_row_gibbs`. -/
def rowGibbsDims (X : C.Tbl) (own : Option Tab) (r : Row) (k : Tab) :
    Dict Col (Dim C) → Res (Dict Col (Dim C)) LogP
  | [] => .ok 0 []
  | (c, d) :: t =>
    match cellGibbs X own r k d with
    | .err e d' => .err e ((c, d') :: t)
    | .ok lp d' =>
      match rowGibbsDims X own r k t with
      | .err e t' => .err e ((c, d') :: t')
      | .ok lps t' => .ok (lp + lps) ((c, d') :: t')

/-- src/mixtures/view.py:408-410 `_logpdf_row_gibbs`: one entry per candidate cluster. -/
def rowGibbs (X : C.Tbl) (own : Option Tab) (r : Row) :
    List Tab → Dict Col (Dim C) → Res (Dict Col (Dim C)) (List LogP)
  | [], ds => .ok [] ds
  | k :: K, ds =>
    match rowGibbsDims X own r k ds with
    | .err e ds' => .err e ds'
    | .ok lp ds' =>
      match rowGibbs X own r K ds' with
      | .err e ds'' => .err e ds''
      | .ok lps ds'' => .ok (lp :: lps) ds''

/-- src/mixtures/view.py:393-401: the candidates and their log weights `p_cluster`, as
computed by `_gibbs_transition_row` before it samples; the view left behind. -/
noncomputable def gibbsScore (X : C.Tbl) (v : View C) (r : Row) :
    Res (View C) (List (Tab × LogP)) :=
  match v.crp.gibbsTables (some r) 1, v.crp.gibbsLogps r 1 with
  | .error e, _ => .err e v
  | _, .error e => .err e v
  | .ok K, .ok lc =>
    match rowGibbs X (v.seat r) r K v.dims with
    | .err e ds => .err e { v with dims := ds }
    | .ok ld ds =>
      .ok (K.zip (List.zipWith (fun (a : LogP) (b : ℝ) => a + (b : LogP)) ld lc))
        { v with dims := ds }

/-- src/mixtures/view.py:424-429 `_migrate_row`. -/
def migrateRow (X : C.Tbl) (v : View C) (r : Row) (k : Tab) : Out (View C) :=
  (v.unincorporate r).bind fun v1 =>
    v1.incorporateAt X r (v1.dims.map fun p => (p.1, X p.1 r)) k

/-- src/mixtures/view.py:393-406 `_gibbs_transition_row`, with `z` the cluster sampled by
`log_pflip`. -/
noncomputable def gibbsTransitionRow (X : C.Tbl) (v : View C) (r : Row) (z : Tab) : Out (View C) :=
  match v.gibbsScore X r with
  | .err e v1 => .err e v1
  | .ok _ v1 => if v1.seat r = some z then .ok v1 else v1.migrateRow X r z

/-- src/mixtures/view.py:149-172 `incorporate`.  `k` is the cluster named in the
observation, if any; otherwise the row is put in cluster 0 and then moved to `z`, the
cluster sampled by `transition_rows`. -/
noncomputable def incorporate (X : C.Tbl) (v : View C) (r : Row) (obs : Dict Col C.Cell)
    (k : Option Tab) (z : Tab) : Out (View C) :=
  match k with
  | some k => v.incorporateAt X r obs k
  | none => (v.incorporateAt X r obs 0).bind fun v1 => v1.gibbsTransitionRow X r z

/-- src/mixtures/view.py:483-494 `_bulk_incorporate`: the rows of the view are filed in a
cleared dim, in the order of the dict `self.Zr()`. -/
def bulkFold (X : C.Tbl) : List (Row × Tab) → Dim C → Out (Dim C)
  | [], d => .ok d
  | (r, k) :: l, d =>
    match d.incorporate r k (X d.index r) (inputsOf X d r) with
    | .err e d' => .err e d'
    | .ok d' => bulkFold X l d'

/-- src/mixtures/view.py:483-494 `_bulk_incorporate` (the closing assertion on the merged
assignments is implied, see C11; `transition_params` draws parameters of uncollapsed
cctypes and is not modelled). -/
def bulkIncorporate (X : C.Tbl) (v : View C) (d : Dim C) : Out (Dim C) :=
  bulkFold X v.crp.data
    { d with clusters := [], Zr := [], Zi := [], aux := d.createAux }

/-- src/mixtures/view.py:134-141 `incorporate_dim`.  When filing the rows raises, the view
is unchanged (the caller's dim object is not represented). -/
def incorporateDim (X : C.Tbl) (v : View C) (d : Dim C) (reassign : Bool) : Out (View C) :=
  if reassign then
    match v.bulkIncorporate X d with
    | .err e _ => .err e v
    | .ok d' => .ok { v with dims := v.dims.set d'.index d' }
  else .ok { v with dims := v.dims.set d.index d }

/-- src/mixtures/view.py:143-147 `unincorporate_dim`. -/
def unincorporateDim (v : View C) (c : Col) : Out (View C) :=
  if v.dims.has c then .ok { v with dims := v.dims.erase c } else .err .keyError v

/-- src/mixtures/view.py:186-191 `force_cell`, for one column. -/
def forceCell (X : C.Tbl) (v : View C) (r : Row) (c : Col) (x : C.Cell) : Out (View C) :=
  match v.seat r with
  | none => .err .keyError v
  | some k =>
    match v.dims.get? c with
    | none => .err .keyError v
    | some d =>
      match d.unincorporate r with
      | .err e d1 => .err e { v with dims := v.dims.set c d1 }
      | .ok d1 =>
        match d1.incorporate r k x (inputsOf X d1 r) with
        | .err e d2 => .err e { v with dims := v.dims.set c d2 }
        | .ok d2 => .ok { v with dims := v.dims.set c d2 }

/-- src/mixtures/view.py:196-220 `update_cctype`: the column is rebuilt with another type.
`kind`, `inputs`: the new type with its distargs, and its inputs as determined by
L198-213; `hyp`: the default hyperparameters of the new type (the Dim is created
without hypers).  The old dim is removed before the new one is filed. -/
def updateCctype (X : C.Tbl) (v : View C) (c : Col) (kind : C.ι) (inputs : List Col)
    (hyp : C.H) : Out (View C) :=
  (v.unincorporateDim c).bind fun v1 => v1.incorporateDim X (Dim.new c inputs kind hyp) true

/-- src/mixtures/view.py:230-232 `transition_crp_alpha`, with the value `a` sampled. -/
noncomputable def setAlpha (v : View C) (a : ℝ) : Out (View C) :=
  (v.crp.setHypers a).map fun crp => { v with crp }

/-- src/mixtures/view.py:234-238 `transition_dim_hypers` for one column, with the values
`h` sampled from its grids. -/
def transitionDimHypers (v : View C) (c : Col) (h : C.H) : Out (View C) :=
  match v.dims.get? c with
  | none => .err .keyError v
  | some d => .ok { v with dims := v.dims.set c (d.transitionHypers h) }

/-- src/mixtures/view.py:257-260 `logpdf_likelihood`. -/
noncomputable def likelihood (v : View C) : ℝ := (v.dims.vals.map Dim.score).sum

/-- src/mixtures/view.py:266-270 `logpdf_score`. -/
noncomputable def score (v : View C) : ℝ := v.crp.logpdfScore + v.likelihood

/-- Assignment of one cell of the data set. -/
def setCell (X : C.Tbl) (c : Col) (r : Row) (x : C.Cell) : C.Tbl :=
  fun c' r' => if c' = c ∧ r' = r then x else X c' r'

/-- The calls a client can make on a view, with the outcomes of the random draws. -/
inductive Op (C : Cat)
  | inc (r : Row) (obs : Dict Col C.Cell) (k : Option Tab) (z : Tab)
  | unc (r : Row)
  | gibbs (r : Row) (z : Tab)
  | force (r : Row) (c : Col) (x : C.Cell)
  | incDim (c : Col) (inputs : List Col) (kind : C.ι) (hyp : C.H)
  | uncDim (c : Col)
  | cctype (c : Col) (kind : C.ι) (inputs : List Col) (hyp : C.H)
  | alpha (a : ℝ)
  | hypers (c : Col) (h : C.H)

/-- One call.  `force` is preceded by the assignment to the shared data set made by
`State.force_cell` (src/crosscat/state.py:314-315). -/
noncomputable def apply (s : C.Tbl × View C) : Op C → C.Tbl × Out (View C)
  | .inc r obs k z => (s.1, s.2.incorporate s.1 r obs k z)
  | .unc r => (s.1, s.2.unincorporate r)
  | .gibbs r z => (s.1, s.2.gibbsTransitionRow s.1 r z)
  | .force r c x => (setCell s.1 c r x, s.2.forceCell (setCell s.1 c r x) r c x)
  | .incDim c ins i h => (s.1, s.2.incorporateDim s.1 (Dim.new c ins i h) true)
  | .uncDim c => (s.1, s.2.unincorporateDim c)
  | .cctype c i ins h => (s.1, s.2.updateCctype s.1 c i ins h)
  | .alpha a => (s.1, s.2.setAlpha a)
  | .hypers c h => (s.1, s.2.transitionDimHypers c h)

/-- A history of calls; the client carries on after an exception. -/
noncomputable def run (s : C.Tbl × View C) (ops : List (Op C)) : C.Tbl × View C :=
  ops.foldl (fun s op => ((apply s op).1, (apply s op).2.state)) s

end View
end Cgpm
