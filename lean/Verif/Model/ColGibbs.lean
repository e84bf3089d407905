import Verif.Model.State
import Verif.Model.HyperGrid

/-
Model of the column inference of src/crosscat/state.py with its random draws:
`gibbsTransitionDim` of Verif/Model/State.lean takes the auxiliary views as arguments, here they are
drawn as the constructor of View draws them.

All draws are uniform on [0, 1).  Where numpy makes no draw (`pflip` with one candidate) the model
is given one that it does not use, and auxiliary views are drawn before the column is scored; as the
draws are independent, this changes neither the outcomes nor their probabilities.
-/
namespace Cgpm

/-- src/primitives/crp.py:71-81 `Crp.simulate`, with the uniform draw `u` of `log_pflip`. -/
noncomputable def Crp.simulate (s : Crp) (r : Row) (u : ℝ) : Except Exn Tab :=
  match s.data.get? r with
  | some x => .ok x
  | none =>
    logPflip (s.simulateSupport.map fun x => Fl.ofLogP (s.logpdf (some r) x)) s.simulateSupport u

namespace State
variable {C : Cat}

/-- src/mixtures/view.py:96-99: the clusters of the rows `i, i + 1, …` of a new view, one uniform
draw each. -/
noncomputable def simulateRows (crp : Crp) : List ℝ → Nat → Out Crp
  | [], _ => .ok crp
  | u :: us, i =>
    match crp.simulate i u with
    | .error e => .err e crp
    | .ok z => (crp.incorporate i z).bind fun crp' => simulateRows crp' us (i + 1)

/-- `rng.choice(grid)`: the position drawn from a grid of `n` entries. -/
noncomputable def uniformIndex (n : Nat) (u : ℝ) : Nat := ⌊u * n⌋₊

/-- src/mixtures/view.py:83-95: the row partition of a new view is a Dim without hyperparameters,
whose grids are built for `n` rows (src/mixtures/dim.py:78-91, 176-183); the concentration is drawn
from its grid. -/
noncomputable def newCrp (n : Nat) (u : ℝ) : Except Exn Crp :=
  match Hyper.transitionHyperGrids Hyper.crpApi Hyper.crpGrids (fun _ => uniformIndex 30 u)
      (List.replicate n (some 1)) 30
      { hypers := [], grids := [], clusters := [], aux := Crp.init 1 } with
  | .err e _ => .error e
  | .ok g => .ok g.aux

/-- src/mixtures/view.py:83-99: the concentration and the clusters of the rows of a new view. -/
noncomputable def drawView (n : Nat) : List ℝ → Except Exn (ℝ × (Row → Tab))
  | [] => .error .runtime
  | u :: us =>
    match newCrp n u with
    | .error e => .error e
    | .ok crp =>
      match simulateRows crp (us.take n) 0 with
      | .err e _ => .error e
      | .ok crp' => .ok (crp'.alpha, fun r => (crp'.data.get? r).getD 0)

/-- src/crosscat/state.py:1077-1082: `k` auxiliary views. -/
noncomputable def auxViews (n : Nat) : Nat → List ℝ → Except Exn (List (ℝ × (Row → Tab)))
  | 0, _ => .ok []
  | k + 1, us =>
    match drawView n (us.take (n + 1)) with
    | .error e => .error e
    | .ok a =>
      match auxViews n k (us.drop (n + 1)) with
      | .error e => .error e
      | .ok l => .ok (a :: l)

/-- src/crosscat/state.py:1050-1123 `_gibbs_transition_dim`; the first draws are those of the
auxiliary views, the last one is that of `log_pflip`.  (A column that is alone in its view needs one
view less than `m`; the last one drawn here is then not used.) -/
noncomputable def gibbsDim (cfg : Cfg C) (s : State C) (col : Col) (m : Nat) (us : List ℝ) :
    Out (State C) :=
  match auxViews s.nRows m (us.take (m * (s.nRows + 1))), us.drop (m * (s.nRows + 1)) with
  | .error e, _ => .err e s
  | .ok _, [] => .err .runtime s
  | .ok l, u :: _ => s.gibbsTransitionDim cfg col m (fun j => (l[j]?).getD (1, fun _ => 0)) u

/-- The number of draws of one column transition. -/
def dimDraws (s : State C) (m : Nat) : Nat := m * (s.nRows + 1) + 1

/-- src/crosscat/state.py:804-811 `transition_dims`: the columns in the order of
`rng.permutation`. -/
noncomputable def transitionDims (cfg : Cfg C) (s : State C) (m : Nat) :
    List Col → List ℝ → Out (State C)
  | [], _ => .ok s
  | c :: cs, us => (s.gibbsDim cfg c m (us.take (s.dimDraws m))).bind fun s' =>
      s'.transitionDims cfg m cs (us.drop (s.dimDraws m))

end State
end Cgpm
