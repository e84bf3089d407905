import Verif.Model.ViewQuery

/-
Model of src/mixtures/relevance.py: the probability that a row of a view belongs to the cluster of
some query rows, given that the query rows share a cluster (View.relevance_probability,
src/mixtures/view.py:374-379).

Simplifications, global to this file:
* The checks made only when `check_env_debug()` holds are left out.
* The data set is a total function, so reading the cells of a row outside of it (IndexError in
  `row_values`, before anything is changed) does not occur.
* `values_target[view.outputs[0]] = k` followed by `view.incorporate` is the call of `incorporate`
  with cluster `k`.
-/
namespace Cgpm
namespace View
variable {C : Cat} {Ω : Type}

/-- src/mixtures/relevance.py:280-282 `row_values`. -/
def rowValues (X : C.Tbl) (v : View C) (r : Row) : Dict Col C.Cell :=
  v.dims.map fun p => (p.1, X p.1 r)

/-- The loops of `view.incorporate` with given clusters: src/mixtures/relevance.py:210-216,
233-236, 257-266. -/
noncomputable def incRows (X : C.Tbl) : List (Row × Dict Col C.Cell × Tab) → View C → Out (View C)
  | [], v => .ok v
  | (r, obs, k) :: l, v => (v.incorporate X r obs (some k) 0).bind (incRows X l)

/-- The loops of `view.unincorporate`: src/mixtures/relevance.py:113-115, 245-246, 272-274. -/
def uncRows : List Row → View C → Out (View C)
  | [], v => .ok v
  | r :: l, v => (v.unincorporate r).bind (uncRows l)

/-- `d.clusters[k].logpdf_score()` for the dims of a view. -/
noncomputable def clusterScores (k : Tab) : List (Dim C) → Except Exn ℝ
  | [] => .ok 0
  | d :: t =>
    match d.clusters.get? k with
    | none => .error .keyError
    | some c => (clusterScores k t).map (c.score d.fam + ·)

/-- src/mixtures/relevance.py:312-316 `get_cluster_logpdf_score`. -/
noncomputable def clusterScore (v : View C) (k : Tab) : Except Exn ℝ :=
  if v.crp.counts.has k then clusterScores k v.dims.vals else .ok 0

/-- src/mixtures/relevance.py:303-309 `get_view_logpdf_score`. -/
noncomputable def scoreAt (v : View C) (tableTarget tableQuery : Tab) : Except Exn ℝ :=
  match v.clusterScore tableQuery with
  | .error e => .error e
  | .ok q =>
    if tableTarget ≠ tableQuery then
      (v.clusterScore tableTarget).map fun t => v.crp.logpdfScore + (q + t)
    else .ok (v.crp.logpdfScore + q)

/-- src/mixtures/relevance.py:226-249 `logpdf_assignments_marginalize_target`. -/
noncomputable def termMarginal (close : C.V → C.V → Bool) (X : C.Tbl) (ord : PyOrder)
    (sim : Simulator C Ω) (ω : Draws Ω) (z : Nat) (valuesTarget : Dict Col C.Cell)
    (query : List (Row × Dict Col C.Cell)) (k : Tab) (v : View C) : Res (View C) Fl :=
  match incRows X (query.map fun q => (q.1, q.2, k)) v with
  | .err e v1 => .err e v1
  | .ok v1 =>
    match v1.scoreAt k k with
    | .error e => .err e v1
    | .ok lpClusters =>
      match v1.logpdf close X ord sim ω z none (valuesTarget.map fun p => (p.1, .cell p.2)) [] [] with
      | .error e => .err e v1
      | .ok lpPredictive =>
        match uncRows (query.map Prod.fst) v1 with
        | .err e v2 => .err e v2
        | .ok v2 => .ok (lpPredictive.add (.fin lpClusters)) v2

/-- src/mixtures/relevance.py:252-277 `logpdf_assignments`. -/
noncomputable def termJoint (X : C.Tbl) (target : Row) (valuesTarget : Dict Col C.Cell)
    (query : List (Row × Dict Col C.Cell)) (tableTarget tableQuery : Tab) (v : View C) :
    Res (View C) Fl :=
  match incRows X ((target, valuesTarget, tableTarget) ::
      query.map fun q => (q.1, q.2, tableQuery)) v with
  | .err e v1 => .err e v1
  | .ok v1 =>
    match v1.scoreAt tableTarget tableQuery with
    | .error e => .err e v1
    | .ok lp =>
      match uncRows (target :: query.map Prod.fst) v1 with
      | .err e v2 => .err e v2
      | .ok v2 => .ok (.fin lp) v2

/-- A list comprehension over tables whose body changes the view. -/
def overTables (f : Tab → View C → Res (View C) Fl) : List Tab → View C → Res (View C) (List Fl)
  | [], v => .ok [] v
  | k :: t, v =>
    match f k v with
    | .err e v1 => .err e v1
    | .ok a v1 =>
      match overTables f t v1 with
      | .err e v2 => .err e v2
      | .ok l v2 => .ok (a :: l) v2

/-- src/mixtures/relevance.py:101-105: `view.Zr(r) for r in rowid_query`. -/
def seatsOf (v : View C) : List Row → Except Exn (List Tab)
  | [] => .ok []
  | r :: t =>
    match v.seat r with
    | none => .error .keyError
    | some k => (seatsOf v t).map (k :: ·)

/-- src/mixtures/relevance.py:285-288 `get_tables_same`: `max` of an empty list raises. -/
def tablesSame (tables : List Tab) : Except Exn (List Tab) :=
  if tables.isEmpty then .error .valueError else .ok (tables ++ [pyMax tables + 1])

/-- src/mixtures/relevance.py:118-159, 223: the computation made once the rows have been removed. -/
noncomputable def relevanceCore (close : C.V → C.V → Bool) (X : C.Tbl) (ord : PyOrder)
    (sim : Simulator C Ω) (ω : Tab → Draws Ω) (z : Nat) (target : Row)
    (valuesTarget : Dict Col C.Cell) (query : List (Row × Dict Col C.Cell)) (v : View C) :
    Res (View C) Fl :=
  match tablesSame (pySorted v.crp.counts.keys) with
  | .error e => .err e v
  | .ok tables =>
    match Net.collect (fun t => v.scoreAt t t) tables with
    | .error e => .err e v
    | .ok base =>
      match overTables (fun k => termMarginal close X ord sim (ω k) z valuesTarget query k)
          tables v with
      | .err e v1 => .err e v1
      | .ok cond v1 =>
        match logsumexp (List.zipWith Fl.sub cond (base.map Fl.fin)) with
        | .error e => .err e v1
        | .ok lpCondition =>
          match overTables (fun k => termJoint X target valuesTarget query k k) tables v1 with
          | .err e v2 => .err e v2
          | .ok same v2 =>
            match logsumexp (List.zipWith Fl.sub same (base.map Fl.fin)) with
            | .error e => .err e v2
            | .ok lpSame => .ok (lpSame.sub lpCondition).exp v2

/-- src/mixtures/relevance.py:24-223 `relevance_probability`. -/
noncomputable def relevanceProbability (close : C.V → C.V → Bool) (X : C.Tbl) (ord : PyOrder)
    (sim : Simulator C Ω) (ω : Tab → Draws Ω) (v : View C) (z : Nat) (target : Row)
    (query : List Row) : Res (View C) Fl :=
  if query.length < 1 then .err .valueError v
  else if query.contains target then .ok (.fin 1) v
  else
    match v.seat target, v.seatsOf query with
    | none, _ => .err .keyError v
    | _, .error e => .err e v
    | some kT, .ok kQ =>
      let valuesTarget := v.rowValues X target
      let valuesQuery := query.map fun r => (r, v.rowValues X r)
      match uncRows (target :: query) v with
      | .err e v1 => .err e v1
      | .ok v1 =>
        match v1.relevanceCore close X ord sim ω z target valuesTarget valuesQuery with
        | .err e v2 => .err e v2
        | .ok a v2 =>
          match incRows X ((target, valuesTarget, kT) ::
              List.zipWith (fun q k => (q.1, q.2, k)) valuesQuery kQ) v2 with
          | .err e v3 => .err e v3
          | .ok v3 => .ok a v3

/-- src/mixtures/view.py:374-379 `View.relevance_probability`. -/
noncomputable def relevance (close : C.V → C.V → Bool) (X : C.Tbl) (ord : PyOrder)
    (sim : Simulator C Ω) (ω : Tab → Draws Ω) (v : View C) (z : Nat) (target : Row)
    (query : List Row) (col : Nat) : Res (View C) Fl :=
  if !(z :: v.dims.keys).contains col then .err .valueError v
  else v.relevanceProbability close X ord sim ω z target query

end View
end Cgpm
