import Verif.Model.View
import Verif.Model.LogSpace

/-
Model of the row inference of src/mixtures/view.py, with the random draws: `gibbsTransitionRow` of
Verif/Model/View.lean takes the sampled cluster as an argument, here it is drawn by `log_pflip`.
-/
namespace Cgpm
namespace View
variable {C : Cat}

/-- src/mixtures/view.py:393-406 `_gibbs_transition_row`; `u` is the uniform draw consumed by
`rng.choice` in `log_pflip` (src/utils/general.py:123-139).  The assertion L399 holds because both
lists have one entry per candidate, and `_check_partitions` (L406) only raises when the view is
inconsistent, which C11 excludes. -/
noncomputable def gibbsRow (X : C.Tbl) (v : View C) (r : Row) (u : ℝ) : Out (View C) :=
  match v.gibbsScore X r with
  | .err e v1 => .err e v1
  | .ok ws v1 =>
    match logPflip (ws.map fun p => Fl.ofLogP p.2) (ws.map Prod.fst) u with
    | .error e => .err e v1
    | .ok z => if v1.seat r = some z then .ok v1 else v1.migrateRow X r z

/-- src/mixtures/view.py:247-252 `transition_rows`: `draws` lists the rows in the order of
`rng.permutation`, each with the uniform draw of its transition. -/
noncomputable def transitionRows (X : C.Tbl) (v : View C) : List (Row × ℝ) → Out (View C)
  | [] => .ok v
  | (r, u) :: draws => (v.gibbsRow X r u).bind fun v1 => v1.transitionRows X draws

end View
end Cgpm
