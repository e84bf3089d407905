import Verif.Spec.RowGibbs
import Verif.Spec.State
import Verif.Model.HyperGrid

/-!
Specification vocabulary for C60: the latent structure of a State (column partition, and for each
block of columns a concentration and a partition of the rows), its posterior weight, and the States
of one model.
-/
namespace Cgpm.Spec
open Cgpm Cgpm.Props

/-! ### Concentrations -/

/-- SPEC. The values among which the concentration of a partition of `n` things is drawn: the grid
that the library builds for `n` observations. -/
noncomputable def concentrations (n : ℕ) : List ℝ :=
  match Hyper.crpGrids (List.replicate n 1) 30 with
  | .ok [(_, l)] => l
  | _ => []

open Classical in
/-- SPEC. The prior of a concentration: uniform over the entries of the grid (a value that occurs
twice in the grid counts twice). -/
noncomputable def concentrationPrior (n : ℕ) (a : ℝ) : ℝ :=
  (concentrations n).count a / (concentrations n).length

/-! ### Latent structure -/

/-- SPEC. The latent structure of a State over the columns `cols` and the rows `rows`: the
concentration of the column partition, the column partition, and for each column the concentration
and the row partition of its view, which are the same for all columns of a block. -/
@[ext] structure Latent (cols : Finset Col) (rows : Finset Row) where
  alpha : ℝ
  part : Setoid {c // c ∈ cols}
  view : {c // c ∈ cols} → ℝ × RowPartition rows
  same : ∀ a b, part.r a b → view a = view b

/-- SPEC. The view of a column. -/
def viewOf {C : Cat} (s : State C) (c : Col) : Option (View C) := (s.Zv c).bind s.views.get?

/-- SPEC. The latent structure of a State.  The labels of views and clusters do not matter. -/
def latentOf {C : Cat} (cols : Finset Col) (rows : Finset Row) (s : State C) : Latent cols rows where
  alpha := s.crp.alpha
  part := Setoid.ker fun c => s.Zv c.1
  view := fun c => match viewOf s c.1 with
    | some v => (v.crp.alpha, partitionOf rows v)
    | none => (0, Setoid.ker fun r => r)
  same := fun a b h => by
    have h' : s.Zv a.1 = s.Zv b.1 := h
    simp only [viewOf, h']

/-- SPEC. The concentrations of a latent structure are values of the grids. -/
def Latent.OnGrid {cols : Finset Col} {rows : Finset Row} (L : Latent cols rows) : Prop :=
  L.alpha ∈ concentrations cols.card ∧ ∀ c, (L.view c).1 ∈ concentrations rows.card

theorem finite_onGrid (cols : Finset Col) (rows : Finset Row) :
    {L : Latent cols rows | L.OnGrid}.Finite := by
  have hf : Finite (Setoid {c // c ∈ cols}) :=
    Finite.of_injective (fun q : Setoid {c // c ∈ cols} => fun a b => q.r a b)
      (fun q q' h => Setoid.ext fun a b => by rw [show q.r a b = q'.r a b from congrFun₂ h a b])
  refine Set.Finite.of_injOn (t := {x : ℝ × Setoid {c // c ∈ cols} ×
      ({c // c ∈ cols} → ℝ × RowPartition rows) | x.1 ∈ concentrations cols.card ∧
        ∀ c, (x.2.2 c).1 ∈ concentrations rows.card})
    (f := fun L => (L.alpha, L.part, L.view)) ?_ ?_ ?_
  · intro L hL; exact hL
  · intro L _ L' _ h
    simp only [Prod.mk.injEq] at h
    exact Latent.ext h.1 h.2.1 h.2.2
  · have h1 : {a : ℝ | a ∈ concentrations cols.card}.Finite := List.finite_toSet _
    have h2 : (Set.univ : Set (Setoid {c // c ∈ cols})).Finite := Set.finite_univ
    have h3 : (Set.univ.pi fun _ : {c // c ∈ cols} =>
        {x : ℝ × RowPartition rows | x.1 ∈ concentrations rows.card}).Finite := by
      refine Set.Finite.pi fun _ => ?_
      refine ((List.finite_toSet (concentrations rows.card)).prod
        (Set.finite_univ (α := RowPartition rows))).subset fun x hx => ?_
      exact ⟨hx, Set.mem_univ _⟩
    refine (h1.prod (h2.prod h3)).subset fun x hx => ?_
    exact ⟨hx.1, Set.mem_univ _, fun c _ => hx.2 c⟩

/-- SPEC. All latent structures whose concentrations are values of the grids. -/
noncomputable def latents (cols : Finset Col) (rows : Finset Row) : Finset (Latent cols rows) :=
  (finite_onGrid cols rows).toFinset

/-! ### The posterior -/

/-- SPEC. The columns of a State. -/
def colsOf {C : Cat} (s : State C) : Finset Col := s.outputs.toFinset

/-- SPEC. The rows of a State. -/
def rowsOf {C : Cat} (s : State C) : Finset Row := Finset.range s.nRows

/-- SPEC. The States that share the data, the columns with their types and hyperparameters, and the
constraints of `s`, and whose views are listed in increasing order: they differ in their latent
structure, and in the labels of views and clusters. -/
structure SameState {C : Cat} (cfg : Cfg C) (s t : State C) : Prop where
  reachable : StateReachable cfg t
  sorted : viewsSorted t
  data : t.X = s.X
  outputs : t.outputs = s.outputs
  dependent : t.Cd = s.Cd
  independent : t.Ci = s.Ci
  columns : ∀ c d d', s.dimFor c = .ok d → t.dimFor c = .ok d' →
    d'.index = d.index ∧ d'.inputs = d.inputs ∧ d'.kind = d.kind ∧ d'.hyp = d.hyp

/-- SPEC. No two columns declared independent share a view. -/
def Separated {C : Cat} (t : State C) : Prop :=
  ∀ a b, (a, b) ∈ t.Ci → a ≠ b → ∀ v, t.Zv a = some v → t.Zv b ≠ some v

open Classical in
/-- SPEC. The posterior weight of a State, up to a constant factor: the prior of its concentrations,
times the exponential of its score (log probability of the column partition, of the row partitions,
and of the data); zero if columns declared independent share a view. -/
noncomputable def posteriorWeight {C : Cat} (t : State C) : ℝ :=
  if Separated t then
    concentrationPrior (colsOf t).card t.crp.alpha *
      (t.views.vals.map fun v => concentrationPrior (rowsOf t).card v.crp.alpha).prod *
      Real.exp t.score
  else 0

/-- SPEC. `W` is the posterior weight of each latent structure of the model of `s`. -/
def IsJointPosterior {C : Cat} (cfg : Cfg C) (s : State C)
    (W : Latent (colsOf s) (rowsOf s) → ℝ) : Prop :=
  ∀ t, SameState cfg s t → W (latentOf (colsOf s) (rowsOf s) t) = posteriorWeight t

end Cgpm.Spec
