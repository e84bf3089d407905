import Verif.Model.View
import Verif.Model.Constraints
import Verif.Model.Partition

/-
Model of src/crosscat/state.py (class State): the data set, the Chinese restaurant process
over columns, and one View per block of the column partition.

Simplifications, global to this file:
* `self.crp` is a Dim wrapping one Crp, as in a View; only the Crp is kept.
* A cluster variable (`view.outputs[0] = crp_id_view + v`) is named by the view's id `v`, so
  the cluster assignments of an observation are an argument of their own.
* `self.X` is kept as a dict of lists; the views read it as a total function (`tbl`), in which
  a missing column or row reads as NaN where the code raises KeyError or IndexError.
* Hyperparameter grids, `rng`, diagnostics, the Loom path and uncollapsed parameters are
  dropped; composed models are in `Verif.Model.Composite`.
* `_check_partitions` does nothing unless the debug environment variable is set; its
  assertions are proved to hold instead (C18).
* The outcome of each random draw is an argument.
-/
namespace Cgpm

/-- Class attributes of the cctypes: `is_collapsed()` and `is_conditional()`. -/
structure Cfg (C : Cat) where
  collapsed : C.ι → Bool
  conditional : C.ι → Bool

/-- src/crosscat/state.py:47-182: the attributes of a State. -/
structure State (C : Cat) where
  X : Dict Col (List C.Cell)
  outputs : List Col
  crp : Crp
  views : Dict Nat (View C)
  Cd : Blocks
  Ci : Pairs

namespace State
variable {C : Cat}

/-- `self.X` as the views read it. -/
def tblOf (X : Dict Col (List C.Cell)) : C.Tbl :=
  fun c r => ((X.get? c).bind fun l => l[r]?).getD none

/-- `self.X` as the views read it. -/
def tbl (s : State C) : C.Tbl := tblOf s.X

/-- `len(self.X[self.outputs[0]])` (0 where the code raises). -/
def nRowsOf (X : Dict Col (List C.Cell)) (outputs : List Col) : Nat :=
  ((outputs.head?.bind X.get?).map List.length).getD 0

/-- src/crosscat/state.py:927-929 `n_rows`. -/
def nRows (s : State C) : Nat := nRowsOf s.X s.outputs

/-- src/crosscat/state.py:1006-1008 `Zv(c)`. -/
def Zv (s : State C) (c : Col) : Option Nat := s.crp.data.get? c

/-- src/crosscat/state.py:1013-1020 `dim_for(c)`. -/
def dimFor (s : State C) (c : Col) : Except Exn (Dim C) :=
  match s.Zv c with
  | none => .error .keyError
  | some v =>
    match s.views.get? v with
    | none => .error .keyError
    | some view =>
      match view.dims.get? c with
      | none => .error .keyError
      | some d => .ok d

/-- src/crosscat/state.py:1016-1017 `dims()`; a KeyError is the answer `none`. -/
def dims (s : State C) : List (Option (Dim C)) :=
  s.outputs.map fun c => match s.dimFor c with
    | .ok d => some d
    | .error _ => none

/-- `any(d.is_conditional() for d in self.dims())`. -/
def anyConditional (cfg : Cfg C) (s : State C) : Bool :=
  s.dims.any fun d => match d with
    | some d => cfg.conditional d.kind
    | none => false

/-! ### Construction -/

/-- src/mixtures/view.py:96-106: the row partition of a new view: row `i` is put in `zs[i]`.
(The default value of the concentration is an outcome.) -/
def seatRows (crp : Crp) : List Tab → Nat → Out Crp
  | [], _ => .ok crp
  | z :: zs, i =>
    match crp.incorporate i z with
    | .err e crp' => .err e crp'
    | .ok crp' => seatRows crp' zs (i + 1)

/-- src/mixtures/view.py:62-106: `View(X, outputs=[token], alpha, Zr)`, without columns. -/
def newView (alpha : ℝ) (zs : List Tab) : Out (View C) :=
  match seatRows (Crp.init alpha) zs 0 with
  | .err e crp => .err e { crp, dims := [] }
  | .ok crp => .ok { crp, dims := [] }

/-- The schema of a column: inputs (`distargs['inputs']['indexes']`), cctype with its
distargs, hyperparameters. -/
structure ColSpec (C : Cat) where
  inputs : List Col
  kind : C.ι
  hyp : C.H

/-- src/mixtures/view.py:109-127: the columns of a new view. -/
def addDims (X : C.Tbl) (schema : Col → ColSpec C) : List Col → View C → Out (View C)
  | [], v => .ok v
  | c :: cs, v =>
    match v.incorporateDim X
        (Dim.new c (schema c).inputs (schema c).kind (schema c).hyp) true with
    | .err e v' => .err e v'
    | .ok v' => addDims X schema cs v'

/-- src/crosscat/state.py:142-160: one View per view id. -/
def buildViews (X : C.Tbl) (schema : Col → ColSpec C) (outputs : List Col) (crp : Crp)
    (rows : Nat → ℝ × List Tab) : List Nat → Except Exn (Dict Nat (View C))
  | [] => .ok []
  | v :: vs =>
    match newView (C := C) (rows v).1 (rows v).2 with
    | .err e _ => .error e
    | .ok view =>
      match addDims X schema (outputs.filter fun o => crp.data.get? o = some v) view with
      | .err e _ => .error e
      | .ok view' =>
        match buildViews X schema outputs crp rows vs with
        | .error e => .error e
        | .ok rest => .ok ((v, view') :: rest)

/-- src/crosscat/state.py:93-118: the columns are filed in the column CRP. -/
def seatCols (crp : Crp) : Dict Col Nat → Except Exn Crp
  | [] => .ok crp
  | (c, z) :: t =>
    match crp.incorporate c z with
    | .err e _ => .error e
    | .ok crp' => seatCols crp' t

/-- src/crosscat/state.py:47-182 `__init__`.  `X` has one entry per output; `Zv` is the column
partition, given by the caller or simulated (see C22-C24 for the simulators); `order` is the
order in which Python iterates over `set(self.Zv().values())`; `rows v` is the concentration
and the row partition of view `v`, given or simulated. -/
def init (X : Dict Col (List C.Cell)) (schema : Col → ColSpec C) (alpha : ℝ)
    (Zv : Dict Col Nat) (order : List Nat) (rows : Nat → ℝ × List Tab) (Cd : Blocks)
    (Ci : Pairs) : Except Exn (State C) :=
  match seatCols (Crp.init alpha) Zv with
  | .error e => .error e
  | .ok crp =>
    if crp.data.length ≠ X.length then .error .assertion
    else
      match buildViews (tblOf X) schema X.keys crp rows order with
      | .error e => .error e
      | .ok views => .ok { X, outputs := X.keys, crp, views, Cd, Ci }

/-! ### Rows -/

/-- src/crosscat/state.py:275-276: `self.X[c].append(...)` for each output. -/
def pushRow (obs : Dict Col C.Cell) : List Col → Dict Col (List C.Cell) →
    Out (Dict Col (List C.Cell))
  | [], X => .ok X
  | c :: cs, X =>
    match X.get? c with
    | none => .err .keyError X
    | some l => pushRow obs cs (X.set c (l ++ [(obs.get? c).getD none]))

/-- src/crosscat/state.py:300-301: `self.X[c].pop()` for each output. -/
def popRow : List Col → Dict Col (List C.Cell) → Out (Dict Col (List C.Cell))
  | [], X => .ok X
  | c :: cs, X =>
    match X.get? c with
    | none => .err .keyError X
    | some [] => .err .indexError X
    | some l => popRow cs (X.set c l.dropLast)

/-- src/crosscat/state.py:281-286: the loop of `incorporate` over the views. -/
noncomputable def incViews (X : C.Tbl) (r : Row) (ks : Dict Nat Tab) (z : Nat → Tab) :
    Dict Nat (View C) → Out (Dict Nat (View C))
  | [] => .ok []
  | (i, v) :: t =>
    match v.incorporate X r (v.dims.map fun p => (p.1, X p.1 r)) (ks.get? i) (z i) with
    | .err e v' => .err e ((i, v') :: t)
    | .ok v' =>
      match incViews X r ks z t with
      | .err e t' => .err e ((i, v') :: t')
      | .ok t' => .ok ((i, v') :: t')

/-- src/crosscat/state.py:262-289 `incorporate`.  `obs`: the values of the observation, `ks`: the
clusters named in it, by view; `z v`: the cluster sampled in view `v` when none is named. -/
noncomputable def incorporate (s : State C) (rowid : Row) (obs : Dict Col C.Cell)
    (ks : Dict Nat Tab) (z : Nat → Tab) : Out (State C) :=
  if rowid ≠ s.nRows then .err .valueError s
  else if !(ks.keys.all fun v => s.views.has v) || !(obs.keys.all fun c => s.outputs.contains c)
  then .err .valueError s
  else if obs.any fun p => p.2.isNone then .err .valueError s
  else
    match pushRow obs s.outputs s.X with
    | .err e X => .err e { s with X }
    | .ok X =>
      match incViews (tblOf X) rowid ks z s.views with
      | .err e views => .err e { s with X, views }
      | .ok views => .ok { s with X, views }

/-- src/crosscat/state.py:303-304: the loop of `unincorporate` over the views. -/
def uncViews (r : Row) : Dict Nat (View C) → Out (Dict Nat (View C))
  | [] => .ok []
  | (i, v) :: t =>
    match v.unincorporate r with
    | .err e v' => .err e ((i, v') :: t)
    | .ok v' =>
      match uncViews r t with
      | .err e t' => .err e ((i, v') :: t')
      | .ok t' => .ok ((i, v') :: t')

/-- src/crosscat/state.py:291-306 `unincorporate`. -/
def unincorporate (s : State C) (rowid : Row) : Out (State C) :=
  if rowid + 1 ≠ s.nRows then .err .valueError s
  else if s.nRows = 1 then .err .valueError s
  else
    match popRow s.outputs s.X with
    | .err e X => .err e { s with X }
    | .ok X =>
      match uncViews rowid s.views with
      | .err e views => .err e { s with X, views }
      | .ok views => .ok { s with X, views }

/-- src/crosscat/state.py:312: `all(np.isnan(self.X[c][rowid]) for c in observation)`. -/
def allMissing (X : Dict Col (List C.Cell)) (r : Row) : List Col → Except Exn Bool
  | [] => .ok true
  | c :: cs =>
    match X.get? c with
    | none => .error .keyError
    | some l =>
      match l[r]? with
      | none => .error .indexError
      | some (some _) => .ok false
      | some none => allMissing X r cs

/-- src/crosscat/state.py:314-315: the data set is updated. -/
def putCells (r : Row) : Dict Col C.Cell → Dict Col (List C.Cell) → Dict Col (List C.Cell)
  | [], X => X
  | (c, x) :: t, X =>
    match X.get? c with
    | none => putCells r t X
    | some l => putCells r t (X.set c (l.set r x))

/-- src/mixtures/view.py:186-191 `force_cell`, for the columns of one view. -/
def forceCols (X : C.Tbl) (r : Row) (obs : Dict Col C.Cell) : List Col → View C → Out (View C)
  | [], v => .ok v
  | c :: cs, v =>
    match v.forceCell X r c ((obs.get? c).getD none) with
    | .err e v' => .err e v'
    | .ok v' => forceCols X r obs cs v'

/-- src/crosscat/state.py:318-320: the views concerned are told. -/
def forceViews (X : C.Tbl) (r : Row) (obs : Dict Col C.Cell) :
    List (Nat × List Col) → Dict Nat (View C) → Out (Dict Nat (View C))
  | [], vs => .ok vs
  | (i, cs) :: t, vs =>
    match vs.get? i with
    | none => .err .keyError vs
    | some v =>
      match forceCols X r obs cs v with
      | .err e v' => .err e (vs.set i v')
      | .ok v' => forceViews X r obs t (vs.set i v')

/-- src/crosscat/state.py:309-320 `force_cell`. -/
def forceCell (s : State C) (rowid : Row) (obs : Dict Col C.Cell) : Out (State C) :=
  if ¬ rowid < s.nRows then .err .valueError s
  else
    match allMissing s.X rowid obs.keys with
    | .error e => .err e s
    | .ok false => .err .valueError s
    | .ok true =>
      let X := putCells rowid obs s.X
      match partitionList s.crp.data obs.keys with
      | .error e => .err e { s with X }
      | .ok queries =>
        match forceViews (tblOf X) rowid obs queries s.views with
        | .err e views => .err e { s with X, views }
        | .ok views => .ok { s with X, views }

/-! ### Column transitions -/

/-- src/crosscat/state.py:1029-1040 `_dim_get_data_logp` for the proposal of L1042-1048: the column
is filed in the view, its score read, and it is taken out of the view again.  Returns the view
without the column, the column as filed, and the score. -/
noncomputable def propose (cfg : Cfg C) (X : C.Tbl) (v : View C) (d : Dim C) :
    Except Exn (View C × Dim C × ℝ) :=
  match v.incorporateDim X d (cfg.collapsed d.kind || !v.dims.has d.index) with
  | .err e _ => .error e
  | .ok v1 =>
    match v1.dims.get? d.index with
    | none => .error .keyError
    | some d1 =>
      match v1.unincorporateDim d.index with
      | .err e _ => .error e
      | .ok v2 => .ok (v2, d1, d1.score)

/-- src/crosscat/state.py:1065-1072: the proposals for the existing views, in the order of
`self.views`.  A collapsed column is one object filed in each view in turn; for an uncollapsed
column each view of which it is not a member gets a copy of the original. -/
noncomputable def proposeAll (cfg : Cfg C) (X : C.Tbl) :
    Dim C → Dict Nat (View C) → Except Exn (Dict Nat (View C) × List (Dim C × ℝ))
  | _, [] => .ok ([], [])
  | d, (i, v) :: t =>
    match propose cfg X v d with
    | .error e => .error e
    | .ok (v', d1, lp) =>
      match proposeAll cfg X (if cfg.collapsed d.kind then d1 else d) t with
      | .error e => .error e
      | .ok (t', ps) => .ok ((i, v') :: t', (d1, lp) :: ps)

/-- src/crosscat/state.py:1077-1085: the auxiliary views, with the outcomes `aux j` (concentration
and clusters of the rows) of their construction, and the proposals for them. -/
noncomputable def proposeAux (cfg : Cfg C) (X : C.Tbl) (n : Nat) (d : Dim C)
    (aux : Nat → ℝ × (Row → Tab)) : List Nat → Except Exn (List (View C × Dim C × ℝ))
  | [] => .ok []
  | j :: js =>
    match newView (C := C) (aux j).1 ((List.range n).map (aux j).2) with
    | .err e _ => .error e
    | .ok v =>
      match propose cfg X v d with
      | .error e => .error e
      | .ok p =>
        match proposeAux cfg X n d aux js with
        | .error e => .error e
        | .ok ps => .ok (p :: ps)

/-- src/crosscat/state.py:1099: the columns declared independent of `col`. -/
def avoid (Ci : Pairs) (col : Col) : List Col :=
  (Ci.filter fun p => p.1 = col ∨ p.2 = col).flatMap fun p => [p.1, p.2].filter (· ≠ col)

/-- src/crosscat/state.py:1100-1102: the weight of the view of each such column is set to minus
infinity, at the position of the view in `self.views`. -/
def forbid (zv : Col → Option Nat) (keys : List Nat) :
    List Col → List LogP → Except Exn (List LogP)
  | [], w => .ok w
  | a :: as, w =>
    match zv a with
    | none => .error .keyError
    | some v =>
      if v ∈ keys then forbid zv keys as (w.set (keys.idxOf v) ⊥) else .error .valueError

/-- src/crosscat/state.py:1125-1145 `_migrate_dim`, with `reassign` given. -/
def migrateDimAs (reassign : Bool) (s : State C) (a b : Nat) (d : Dim C) : Out (State C) :=
  match s.crp.counts.get? a with
  | none => .err .keyError s
  | some na =>
    match s.views.get? a with
    | none => .err .keyError s
    | some va =>
      let views1 := if va.dims.has d.index
        then s.views.set a { va with dims := va.dims.erase d.index } else s.views
      match views1.get? b with
      | none => .err .keyError { s with views := views1 }
      | some vb =>
        match vb.incorporateDim s.tbl d reassign with
        | .err e vb' => .err e { s with views := views1.set b vb' }
        | .ok vb' =>
          let views2 := views1.set b vb'
          match s.crp.unincorporate d.index with
          | .err e crp => .err e { s with crp, views := views2 }
          | .ok crp =>
            match crp.incorporate d.index b with
            | .err e crp' => .err e { s with crp := crp', views := views2 }
            | .ok crp' =>
              if na = 1 then
                if crp'.counts.has a then .err .assertion { s with crp := crp', views := views2 }
                else .ok { s with crp := crp', views := views2.erase a }
              else .ok { s with crp := crp', views := views2 }

/-- src/crosscat/state.py:1125-1145 `_migrate_dim`: by default, only columns of collapsed types are
reassigned. -/
def migrateDim (cfg : Cfg C) (s : State C) (a b : Nat) (d : Dim C) : Out (State C) :=
  s.migrateDimAs (cfg.collapsed d.kind) a b d

/-- src/crosscat/state.py:1061-1102: the candidates and their log weights, as computed by
`_gibbs_transition_dim` before it draws: the state left behind (the column is in no view), the
candidate view ids, the proposals, the auxiliary views and the weights.  (`dim` of L1077 is the
variable leaked by the list comprehension of L1070, hence the last proposal.) -/
noncomputable def gibbsDimScore (cfg : Cfg C) (s : State C) (col : Col) (m : Nat)
    (aux : Nat → ℝ × (Row → Tab)) :
    Res (State C) (List Nat × List (Dim C) × List (View C) × List LogP) :=
  match s.dimFor col with
  | .error e => .err e s
  | .ok d =>
    match proposeAll cfg s.tbl d s.views with
    | .error e => .err e s
    | .ok (views1, ps) =>
      let s1 := { s with views := views1 }
      match s.crp.gibbsTables (some col) m with
      | .error e => .err e s1
      | .ok tables =>
        let d' := (ps.getLast?.map Prod.fst).getD d
        match proposeAux cfg s.tbl s.nRows d' aux
            (List.range (tables.length - s.views.length)) with
        | .error e => .err e s1
        | .ok auxs =>
          match s.crp.gibbsLogps col m with
          | .error e => .err e s1
          | .ok lc =>
            let lpData := ps.map Prod.snd ++ auxs.map fun p => p.2.2
            if lpData.length ≠ lc.length then .err .assertion s1
            else
              match forbid s.Zv s.views.keys (avoid s.Ci col)
                  (List.zipWith (fun a b : ℝ => ((a + b : ℝ) : LogP)) lpData lc) with
              | .error e => .err e s1
              | .ok w => .ok (tables, ps.map Prod.fst ++ auxs.map (fun p => p.2.1),
                  auxs.map (fun p => p.1), w) s1

/-- src/crosscat/state.py:1106-1121: the column is put in the view drawn. -/
def gibbsDimMove (cfg : Cfg C) (s : State C) (col : Col) (tables : List Nat) (dims : List (Dim C))
    (auxViews : List (View C)) (draw : Nat) : Out (State C) :=
  match tables[draw]?, s.Zv col, dims[draw]? with
  | some new, some cur, some d =>
    if cur ≠ new then
      if pyMax s.views.keys < new then
        match auxViews[draw - s.views.length]? with
        | none => .err .indexError s
        | some va => { s with views := s.views.set new va }.migrateDim cfg cur new d
      else s.migrateDim cfg cur new d
    else
      match s.views.get? cur with
      | none => .err .keyError s
      | some v =>
        match v.incorporateDim s.tbl d (cfg.collapsed d.kind) with
        | .err e v' => .err e { s with views := s.views.set cur v' }
        | .ok v' => .ok { s with views := s.views.set cur v' }
  | none, _, _ => .err .indexError s
  | _, none, _ => .err .keyError s
  | _, _, none => .err .indexError s

/-- src/crosscat/state.py:1050-1123 `_gibbs_transition_dim`; `u` is the uniform draw made by
`log_pflip`. -/
noncomputable def gibbsTransitionDim (cfg : Cfg C) (s : State C) (col : Col) (m : Nat)
    (aux : Nat → ℝ × (Row → Tab)) (u : ℝ) : Out (State C) :=
  if s.anyConditional cfg then .err .valueError s
  else if s.Cd ≠ [] then .err .valueError s
  else
    match s.gibbsDimScore cfg col m aux with
    | .err e s1 => .err e s1
    | .ok (tables, dims, auxViews, w) s1 =>
      if tables.length ≠ w.length then .err .assertion s1
      else
        match logPflip (w.map Fl.ofLogP) (List.range w.length) u with
        | .error e => .err e s1
        | .ok draw => s1.gibbsDimMove cfg col tables dims auxViews draw

/-! ### Columns -/

/-- src/crosscat/state.py:781-786 `transition_dim_hypers` for one column, with the hyperparameters
`h` drawn from its grids. -/
def transitionDimHypers (s : State C) (c : Col) (h : C.H) : Out (State C) :=
  match s.Zv c with
  | none => .err .keyError s
  | some v =>
    match s.views.get? v with
    | none => .err .keyError s
    | some view =>
      match view.transitionDimHypers c h with
      | .err e view' => .err e { s with views := s.views.set v view' }
      | .ok view' => .ok { s with views := s.views.set v view' }

/-- The outcomes of the random draws of `incorporate_dim`. -/
structure DimDraws (C : Cat) where
  /-- default hyperparameters of the new column (from its grids) -/
  hyp : C.H
  /-- concentration and clusters of a new view -/
  view : ℝ × (Row → Tab)
  /-- auxiliary views of the column transition -/
  aux : Nat → ℝ × (Row → Tab)
  /-- uniform draw of the column transition -/
  u : ℝ
  /-- hyperparameters drawn at the end -/
  hyp' : C.H

/-- src/crosscat/state.py:187-237 `incorporate_dim`.  `inputs` non-empty is refused, so is a number
of outputs other than one.  The new data `T`, the output and possibly an empty view are in
place before anything that can raise is done. -/
noncomputable def incorporateDim (cfg : Cfg C) (s : State C) (T : List C.Cell)
    (outs : List Col) (inputs : List Col) (kind : C.ι) (v : Option Nat) (ω : DimDraws C) :
    Out (State C) :=
  if T.length ≠ s.nRows then .err .valueError s
  else
    match outs with
    | [col] =>
      if s.outputs.contains col then .err .valueError s
      else if inputs ≠ [] then .err .valueError s
      else
        let s1 := { s with X := s.X.set col T, outputs := s.outputs ++ [col] }
        let vAdd := v.getD 0
        match (match s1.views.get? vAdd with
          | some view => Except.ok (s1, view)
          | none =>
            match newView (C := C) ω.view.1 ((List.range s1.nRows).map ω.view.2) with
            | .err e _ => .error e
            | .ok view => .ok ({ s1 with views := s1.views.set vAdd view }, view)) with
        | .error e => .err e s1
        | .ok (s2, view) =>
          -- L215-221: a conditional component without predictors is refused by its constructor
          if cfg.conditional kind then .err .assertion s2
          else
          match view.incorporateDim s2.tbl (Dim.new col [] kind ω.hyp) true with
          | .err e _ => .err e s2
          | .ok view' =>
            let s3 := { s2 with views := s2.views.set vAdd view' }
            match s3.crp.incorporate col vAdd with
            | .err e crp => .err e { s3 with crp }
            | .ok crp =>
              let s4 := { s3 with crp }
              match (match v with
                | none => s4.gibbsTransitionDim cfg col 1 ω.aux ω.u
                | some _ => .ok s4) with
              | .err e s5 => .err e s5
              | .ok s5 => s5.transitionDimHypers col ω.hyp'
    | _ => .err .valueError s

/-- src/crosscat/state.py:239-260 `unincorporate_dim`. -/
def unincorporateDim (s : State C) (col : Col) : Out (State C) :=
  if s.outputs.length = 1 then .err .valueError s
  else if !s.outputs.contains col then .err .valueError s
  else
    match s.Zv col with
    | none => .err .keyError s
    | some v =>
      match s.views.get? v, s.crp.counts.get? v with
      | some view, some nv =>
        match view.unincorporateDim col with
        | .err e _ => .err e s
        | .ok view' =>
          let s1 := { s with views := s.views.set v view' }
          match s1.crp.unincorporate col with
          | .err e crp => .err e { s1 with crp }
          | .ok crp =>
            let s2 := { s1 with crp }
            if nv = 1 ∧ crp.counts.has v then .err .assertion s2
            else
              let s3 := if nv = 1 then { s2 with views := s2.views.erase v } else s2
              .ok { s3 with X := s3.X.erase col, outputs := s3.outputs.filter (· ≠ col) }
      | _, _ => .err .keyError s

/-- src/mixtures/view.py:198-213: the inputs of a column whose cctype is changed.  `ins` is
`distargs['inputs']` when given. -/
def cctypeInputs (cfg : Cfg C) (view : View C) (col : Col) (kind : C.ι)
    (ins : Option (List Col)) : Except Exn (List Col) :=
  if cfg.conditional kind then
    let inputs := ins.getD ((pySorted view.dims.keys).filter fun d =>
      decide (d ≠ col) && (match view.dims.get? d with
        | some e => !cfg.conditional e.kind
        | none => false))
    if inputs = [] then .error .valueError
    else if inputs.all fun i => view.dims.has i then .ok inputs else .error .keyError
  else .ok []

/-- src/crosscat/state.py:325-335 `update_cctype`; `hyp` the default hyperparameters of the new
type, `hyp'` those drawn at the end. -/
def updateCctype (cfg : Cfg C) (s : State C) (col : Col) (kind : C.ι)
    (ins : Option (List Col)) (hyp hyp' : C.H) : Out (State C) :=
  if !s.outputs.contains col then .err .assertion s
  else
    match s.Zv col with
    | none => .err .keyError s
    | some v =>
      match s.views.get? v with
      | none => .err .keyError s
      | some view =>
        match cctypeInputs cfg view col kind ins with
        | .error e => .err e s
        | .ok inputs =>
          match view.updateCctype s.tbl col kind inputs hyp with
          | .err e view' => .err e { s with views := s.views.set v view' }
          | .ok view' => { s with views := s.views.set v view' }.transitionDimHypers col hyp'

/-! ### Other transitions -/

/-- src/crosscat/state.py:763-765 `transition_crp_alpha`, with the value `a` drawn. -/
noncomputable def setAlpha (s : State C) (a : ℝ) : Out (State C) :=
  (s.crp.setHypers a).map fun crp => { s with crp }

/-- A method of one view, applied in place. -/
def onView (s : State C) (v : Nat) (f : View C → Out (View C)) : Out (State C) :=
  match s.views.get? v with
  | none => .err .keyError s
  | some view =>
    match f view with
    | .err e view' => .err e { s with views := s.views.set v view' }
    | .ok view' => .ok { s with views := s.views.set v view' }

/-- src/crosscat/state.py:767-772 `transition_view_alphas`, for one view, with the value drawn. -/
noncomputable def viewAlpha (s : State C) (v : Nat) (a : ℝ) : Out (State C) :=
  s.onView v fun view => view.setAlpha a

/-- src/crosscat/state.py:795-802 `transition_view_rows`, for one view and one row, with the cluster
drawn. -/
noncomputable def viewRow (s : State C) (v : Nat) (r : Row) (z : Tab) : Out (State C) :=
  if s.nRows = 1 then .ok s else s.onView v fun view => view.gibbsTransitionRow s.tbl r z

/-! ### Scores -/

/-- src/crosscat/state.py:380-382 `logpdf_likelihood`. -/
noncomputable def likelihood (s : State C) : ℝ := (s.views.vals.map View.likelihood).sum

/-- src/crosscat/state.py:384-387 `logpdf_score`, without constraints on the columns (with
independence constraints it is refused, with dependence constraints see C24). -/
noncomputable def score (s : State C) : ℝ :=
  s.crp.logpdfScore + (s.views.vals.map View.score).sum

/-! ### Histories -/

/-- The calls a client can make on a state, with the outcomes of the random draws.  The
transition methods of State are sequences of the last six. -/
inductive Op (C : Cat)
  | inc (rowid : Row) (obs : Dict Col C.Cell) (ks : Dict Nat Tab) (z : Nat → Tab)
  | unc (rowid : Row)
  | force (rowid : Row) (obs : Dict Col C.Cell)
  | incDim (T : List C.Cell) (outs inputs : List Col) (kind : C.ι) (v : Option Nat)
      (ω : DimDraws C)
  | uncDim (col : Col)
  | cctype (col : Col) (kind : C.ι) (ins : Option (List Col)) (hyp hyp' : C.H)
  | alpha (a : ℝ)
  | viewAlpha (v : Nat) (a : ℝ)
  | hypers (col : Col) (h : C.H)
  | row (v : Nat) (r : Row) (z : Tab)
  | column (col : Col) (m : Nat) (aux : Nat → ℝ × (Row → Tab)) (u : ℝ)

/-- One call. -/
noncomputable def apply (cfg : Cfg C) (s : State C) : Op C → Out (State C)
  | .inc r obs ks z => s.incorporate r obs ks z
  | .unc r => s.unincorporate r
  | .force r obs => s.forceCell r obs
  | .incDim T outs ins kind v ω => s.incorporateDim cfg T outs ins kind v ω
  | .uncDim c => s.unincorporateDim c
  | .cctype c kind ins h h' => s.updateCctype cfg c kind ins h h'
  | .alpha a => s.setAlpha a
  | .viewAlpha v a => s.viewAlpha v a
  | .hypers c h => s.transitionDimHypers c h
  | .row v r z => s.viewRow v r z
  | .column c m aux u => s.gibbsTransitionDim cfg c m aux u

/-- A history of calls; the client carries on after an exception. -/
noncomputable def run (cfg : Cfg C) (s : State C) (ops : List (Op C)) : State C :=
  ops.foldl (fun s op => (s.apply cfg op).state) s

end State
end Cgpm
