import Verif.Model.State
import Verif.Model.Engine

/-
Model of the exchange of partitions with the external inference engines:
src/crosscat/lovecat.py (export and import) and src/crosscat/loomcat.py (import).

Simplifications, global to this file:
* The external engines are not modelled: what they return is an argument.
* Lovecat: of X_L and X_D, the parts that the import reads, and the counts that the export asserts
  on; the column hyperparameters, names and constraints that are passed to Lovecat are not kept.
* Loom: the files of a sample are given by their contents. A column name `c00012` is the list of the
  digits after the `c`.
-/
namespace Cgpm
namespace State
variable {C : Cat}

/-! ### Installing a partition -/

/-- src/crosscat/lovecat.py:253-266 and src/crosscat/loomcat.py:168-178: a View without columns is
appended for each row partition, the `k`-th under the identifier `k + offset`. -/
def appendViews (offset : Nat) : Nat → List (ℝ × List Tab) → State C → Out (State C)
  | _, [], s => .ok s
  | k, (alpha, zs) :: t, s =>
    if s.views.has (k + offset) then .err .assertion s
    else
      match newView (C := C) alpha zs with
      | .err e _ => .err e s
      | .ok v => appendViews offset (k + 1) t { s with views := s.views.set (k + offset) v }

/-- src/crosscat/lovecat.py:269-272 and src/crosscat/loomcat.py:181-184: the columns are moved one
after the other. `target` is where a column goes (`none` where Python raises), `reassign` what is
passed to `_migrate_dim`. -/
def migrateAll (reassign : Dim C → Bool) (target : Col → Option Nat) :
    List Col → State C → Out (State C)
  | [], s => .ok s
  | c :: cs, s =>
    match s.Zv c, target c with
    | some a, some b =>
      match s.dimFor c with
      | .error e => .err e s
      | .ok d =>
        match s.migrateDimAs (reassign d) a b d with
        | .err e s' => .err e s'
        | .ok s' => migrateAll reassign target cs s'
    | _, _ => .err .keyError s

/-- src/crosscat/lovecat.py:250-289 and src/crosscat/loomcat.py:165-186. -/
def installPartition (reassign : Dim C → Bool) (rows : List (ℝ × List Tab))
    (target : Col → Option Nat) (s : State C) : Out (State C) :=
  if s.views = [] then .err .valueError s
  else
    let offset := pyMax s.views.keys + 1
    match appendViews offset 0 rows s with
    | .err e s1 => .err e s1
    | .ok s1 =>
      match migrateAll reassign (fun c => (target c).map (· + offset)) s1.outputs s1 with
      | .err e s2 => .err e s2
      | .ok s2 => if s2.views.length = rows.length then .ok s2 else .err .assertion s2

end State

/-! ### Lovecat -/

/-- What the import reads of X_L and X_D: `column_partition.hypers.alpha`,
`column_partition.assignments`, `view_state[v].row_partition_model.hypers.alpha`, X_D. -/
structure Lovecat where
  alpha : ℝ
  assignments : List Nat
  viewAlphas : List ℝ
  rows : List (List Tab)

namespace Lovecat
variable {C : Cat}

/-- src/crosscat/lovecat.py:106-117: the labels of a list, replaced by their ranks. -/
def recode (l : List Nat) : List Nat := l.map (pySorted l.dedup).idxOf

/-- `assert 0 not in np.bincount(l)`. -/
def countsOk (l : List Nat) : Bool := !(Engine.bincount l).contains 0

/-- src/crosscat/lovecat.py:99-105: the views, and their row labels in the order in which the
OrderedDict lists the rows. -/
def rowLists (s : State C) : List Nat → Except Exn (List (ℝ × List Tab))
  | [] => .ok []
  | v :: vs =>
    match s.views.get? v with
    | none => .error .keyError
    | some view => (rowLists s vs).map ((view.crp.alpha, view.crp.data.vals) :: ·)

/-- src/crosscat/lovecat.py:33 and :228 `all(c in ['normal','categorical'] for c in state.cctypes())`,
`supported` being the test on one type. -/
def typesOk (supported : C.ι → Bool) (s : State C) : Bool :=
  s.dims.all fun d => match d with
    | some d => supported d.kind
    | none => false

/-- src/crosscat/lovecat.py:97-223 `_crosscat_X_D` and `_crosscat_X_L`. -/
def ofState (supported : C.ι → Bool) (s : State C) : Except Exn Lovecat :=
  if typesOk supported s then
    let views := pySorted s.crp.data.vals.dedup
    match rowLists s views with
    | .error e => .error e
    | .ok l =>
      let assignments := s.outputs.map fun o => views.idxOf ((s.Zv o).getD 0)
      let rows := l.map fun p => recode p.2
      if countsOk assignments && rows.all countsOk then
        .ok { alpha := s.crp.alpha, assignments, viewAlphas := l.map Prod.fst, rows }
      else .error .assertion
  else .error .assertion

/-- src/crosscat/lovecat.py:226-290 `_update_state`. -/
noncomputable def update (cfg : Cfg C) (supported : C.ι → Bool) (x : Lovecat) (s : State C) : Out (State C) :=
  if ¬ typesOk supported s then .err .assertion s
  else if ¬ (x.rows.all fun zs => zs.length = s.nRows) then .err .assertion s
  else if x.rows.length ≠ x.viewAlphas.length then .err .assertion s
  else if x.assignments.length ≠ s.outputs.length then .err .assertion s
  else
    match s.setAlpha x.alpha with
    | .err e s1 => .err e s1
    | .ok s1 =>
      State.installPartition (fun d => cfg.collapsed d.kind) (x.viewAlphas.zip x.rows)
        (fun c => x.assignments[s1.outputs.idxOf c]?) s1

end Lovecat

/-! ### Loom -/

/-- src/crosscat/loomcat.py:41-43 `'c%05d' % (i,)`: the digits. -/
def columnName (i : Nat) : List Nat :=
  List.replicate (5 - (Nat.digits 10 i).length) 0 ++ (Nat.digits 10 i).reverse

/-- src/crosscat/loomcat.py:111-113 `colname_to_output`, `int(cname.replace('c', ''))`. -/
def columnOf (name : List Nat) : Nat := name.foldl (fun a d => 10 * a + d) 0

/-- The files of a sample: the feature ids of each kind, the names of the features in Loom's order,
and the stream of rows with their groups in each kind. -/
structure LoomSample where
  kinds : List (List Nat)
  features : List (List Nat)
  rows : List (Nat × List Tab)

namespace LoomSample
variable {C : Cat}

/-- src/crosscat/loomcat.py:92-101 `_retrieve_column_partition`. -/
def columnPartition (x : LoomSample) : Dict Nat Nat :=
  Dict.update [] (x.kinds.zipIdx.flatMap fun p => p.1.map fun f => (f, p.2))

/-- src/crosscat/loomcat.py:104-116 `_retrieve_featureid_to_cgpm`. -/
def outputMapping (x : LoomSample) : Dict Nat Col :=
  x.features.zipIdx.map fun p => (p.2, columnOf p.1)

/-- src/crosscat/loomcat.py:128-131: the groups of one row. -/
def groupsOf (kinds : Nat) (l : List Tab) : Except Exn (List Tab) :=
  if l.length < kinds then .error .indexError else .ok (l.take kinds)

/-- src/crosscat/loomcat.py:128-131: the rows of the stream in a dict. -/
def assignments (kinds : Nat) : List (Nat × List Tab) → Except Exn (Dict Nat (List Tab))
  | [] => .ok []
  | (r, l) :: t =>
    match groupsOf kinds l, assignments kinds t with
    | .error e, _ => .error e
    | _, .error e => .error e
    | .ok g, .ok d => .ok ((r, g) :: d)

/-- src/crosscat/loomcat.py:119-136 `_retrieve_row_partitions`: for each kind, the groups of the rows
in increasing order. -/
def rowPartitions (x : LoomSample) : Except Exn (List (List Tab)) :=
  match assignments x.kinds.length x.rows with
  | .error e => .error e
  | .ok l =>
    let d : Dict Nat (List Tab) := Dict.update [] l
    .ok ((List.range x.kinds.length).map fun k =>
      (pySorted d.keys).map fun r => ((d.get? r).bind (·[k]?)).getD 0)

/-- src/crosscat/loomcat.py:156-158: the view of each output. (After the assertions, every feature id
has a name.) -/
def columnViews (x : LoomSample) : Dict Col Nat :=
  Dict.update [] (x.columnPartition.map fun p => (((x.outputMapping.get? p.1).getD 0), p.2))

/-- src/crosscat/loomcat.py:139-189 `_update_state`. `alphas` are the concentrations that the new
Views draw. -/
def update (alphas : Nat → ℝ) (x : LoomSample) (s : State C) : Out (State C) :=
  if pySorted x.columnPartition.keys ≠ List.range s.outputs.length then .err .assertion s
  else if pySorted x.outputMapping.vals ≠ pySorted s.outputs then .err .assertion s
  else
    match x.rowPartitions with
    | .error e => .err e s
    | .ok rows =>
      if ¬ (x.columnViews.vals.all (· < rows.length) &&
          (List.range rows.length).all (x.columnViews.vals.contains ·)) then .err .assertion s
      else
        State.installPartition (fun _ => true) (rows.zipIdx.map fun p => (alphas p.2, p.1))
          (fun c => x.columnViews.get? c) s

end LoomSample
end Cgpm
