import Verif.Model.Relevance

/-!
Model of the checks that src/mixtures/relevance.py makes when `check_env_debug()` holds (the environment
variable `GPMCCDEBUG` is set), which Model/Relevance leaves out.  Simplified: `np.allclose` is exact
equality.
-/
namespace Cgpm
namespace View
variable {C : Cat} {Ω : Type}

/-- src/mixtures/relevance.py:291-301 `get_tables_different`: the tables of the target, each with the
tables of the query rows. -/
def tablesDifferent (tables : List Tab) : Except Exn (List (Tab × List Tab)) :=
  if tables.isEmpty then .error .valueError
  else
    let singleton := pyMax tables + 1
    let tablesTarget := tables ++ [singleton]
    .ok (tablesTarget.map fun t =>
      (t, tablesTarget.filter (fun x => x ≠ t) ++ if t < singleton then [] else [singleton + 1]))

/-- src/mixtures/relevance.py:180-194: the nested list comprehension. -/
def overPairs (f : Tab → Tab → View C → Res (View C) Fl) :
    List (Tab × List Tab) → View C → Res (View C) (List (List Fl))
  | [], v => .ok [] v
  | (t, ks) :: rest, v =>
    match overTables (f t) ks v with
    | .err e v1 => .err e v1
    | .ok a v1 =>
      match overPairs f rest v1 with
      | .err e v2 => .err e v2
      | .ok l v2 => .ok (a :: l) v2

/-- src/mixtures/relevance.py:165-207: the probability that the target is apart from the query rows is
computed too, and the two cases have to add up to the normalizing constant. -/
noncomputable def debugCheck (X : C.Tbl) (target : Row) (valuesTarget : Dict Col C.Cell)
    (query : List (Row × Dict Col C.Cell)) (tablesCrp : List Tab) (lpSame lpCondition : Fl)
    (v : View C) : Res (View C) Unit :=
  match tablesDifferent tablesCrp with
  | .error e => .err e v
  | .ok pairs =>
    match Net.collect (fun p : Tab × List Tab => Net.collect (fun k => v.scoreAt p.1 k) p.2) pairs with
    | .error e => .err e v
    | .ok base =>
      match overPairs (fun t k => termJoint X target valuesTarget query t k) pairs v with
      | .err e v1 => .err e v1
      | .ok terms v1 =>
        match Net.collect (fun p : List Fl × List ℝ =>
            logsumexp (List.zipWith Fl.sub p.1 (p.2.map Fl.fin))) (terms.zip base) with
        | .error e => .err e v1
        | .ok inner =>
          match logsumexp inner with
          | .error e => .err e v1
          | .ok lpDiff =>
            match logsumexp [lpSame, lpDiff] with
            | .error e => .err e v1
            | .ok total =>
              open Classical in if total = lpCondition then .ok () v1 else .err .assertion v1

/-- src/mixtures/relevance.py:118-207, 223 with the check of :165-207. -/
noncomputable def relevanceCoreDebug (close : C.V → C.V → Bool) (X : C.Tbl) (ord : PyOrder)
    (sim : Simulator C Ω) (ω : Tab → Draws Ω) (z : Nat) (target : Row)
    (valuesTarget : Dict Col C.Cell) (query : List (Row × Dict Col C.Cell)) (v : View C) :
    Res (View C) Fl :=
  match tablesSame (pySorted v.crp.counts.keys) with
  | .error e => .err e v
  | .ok tables =>
    match Net.collect (fun t => v.scoreAt t t) tables with
    | .error e => .err e v
    | .ok base =>
      match overTables (fun k => termMarginal close X ord sim (ω k) z valuesTarget query k)
          tables v with
      | .err e v1 => .err e v1
      | .ok cond v1 =>
        match logsumexp (List.zipWith Fl.sub cond (base.map Fl.fin)) with
        | .error e => .err e v1
        | .ok lpCondition =>
          match overTables (fun k => termJoint X target valuesTarget query k k) tables v1 with
          | .err e v2 => .err e v2
          | .ok same v2 =>
            match logsumexp (List.zipWith Fl.sub same (base.map Fl.fin)) with
            | .error e => .err e v2
            | .ok lpSame =>
              match debugCheck X target valuesTarget query (pySorted v.crp.counts.keys) lpSame
                  lpCondition v2 with
              | .err e v3 => .err e v3
              | .ok _ v3 => .ok (lpSame.sub lpCondition).exp v3

/-- src/mixtures/relevance.py:24-223 `relevance_probability` with all checks; :107-109 and :218-220 compare
the score of the view before and after. -/
noncomputable def relevanceProbabilityDebug (close : C.V → C.V → Bool) (X : C.Tbl) (ord : PyOrder)
    (sim : Simulator C Ω) (ω : Tab → Draws Ω) (v : View C) (z : Nat) (target : Row)
    (query : List Row) : Res (View C) Fl :=
  if query.length < 1 then .err .valueError v
  else if query.contains target then .ok (.fin 1) v
  else
    match v.seat target, v.seatsOf query with
    | none, _ => .err .keyError v
    | _, .error e => .err e v
    | some kT, .ok kQ =>
      let valuesTarget := v.rowValues X target
      let valuesQuery := query.map fun r => (r, v.rowValues X r)
      match uncRows (target :: query) v with
      | .err e v1 => .err e v1
      | .ok v1 =>
        match v1.relevanceCoreDebug close X ord sim ω z target valuesTarget valuesQuery with
        | .err e v2 => .err e v2
        | .ok a v2 =>
          match incRows X ((target, valuesTarget, kT) ::
              List.zipWith (fun q k => (q.1, q.2, k)) valuesQuery kQ) v2 with
          | .err e v3 => .err e v3
          | .ok v3 => open Classical in if v3.score = v.score then .ok a v3 else .err .assertion v3

end View
end Cgpm
