import Verif.Lemmas.RowDemo
import Mathlib.Analysis.SpecificLimits.Basic

/-!
C58: inference over rows is Gibbs sampling from the posterior over partitions of the rows.
C59: repeated inference over rows converges to that posterior, from every start.

Both are about catalogues of collapsed types (`C.Chain`), for which the parameters of the clusters
are integrated out.
-/
namespace Cgpm.Props
open Cgpm Cgpm.View Cgpm.Spec Cgpm.Spec.Hyper

variable {C : Cat} {X : C.Tbl} {v : View C} {rows : Finset Row}

/-! ### C58 -/

/-- **C58** The score of a view does not depend on how its clusters are labelled: two views of the
same model that partition the rows in the same way have the same score. -/
theorem C58_score_of_partition (hC : C.Lawful) (hrows : IsRows rows v) {a b : View C}
    (ha : SameModel X v a) (hb : SameModel X v b) (hp : partitionOf rows a = partitionOf rows b) :
    a.score = b.score := score_eq_of_partition hC hrows ha hb hp

/-- **C58** Hence there is a posterior over the partitions of the rows; it gives every partition
positive weight, and every partition is that of some view of the model. -/
theorem C58_posterior (hC : C.Lawful) (h : Reachable X v) (hrows : IsRows rows v) :
    (∃ W : RowPartition rows → ℝ, IsPosterior X v W) ∧
    (∀ q : RowPartition rows, ∃ u, SameModel X v u ∧ partitionOf rows u = q) ∧
    ∀ W : RowPartition rows → ℝ, IsPosterior X v W → ∀ q, 0 < W q := by
  have hex := fun q => exists_view hC h hrows q
  refine ⟨?_, hex, fun W hW q => ?_⟩
  · choose V hV1 hV2 using hex
    exact ⟨fun q => Real.exp (V q).score, fun u hu =>
      congrArg Real.exp (score_eq_of_partition hC hrows (hV1 _) hu (hV2 _))⟩
  · obtain ⟨u, hu, rfl⟩ := hex q
    rw [hW u hu]
    exact Real.exp_pos _

/-- **C58** Inference over any rows of the view, in any order and whatever the random draws, does not
raise.  It keeps the data, the rows, the concentration and the columns with their types and
hyperparameters, leaves a consistent view, and does not move the rows it was not asked to move. -/
theorem C58_transition (hC : C.Lawful) (hCh : C.Chain) (h : Reachable X v) (hrows : IsRows rows v)
    {draws : List (Row × ℝ)} (hd : ∀ d ∈ draws, d.1 ∈ rows ∧ 0 ≤ d.2 ∧ d.2 < 1) :
    ∃ v', v.transitionRows X draws = .ok v' ∧ SameModel X v v' ∧ Consistent X v' ∧
      ∀ r, r ∉ draws.map Prod.fst → v'.seat r = v.seat r := by
  obtain ⟨v', h1, h2, h3⟩ := transitionRows_ok hC hCh hrows (SameModel.refl' h) draws hd
  refine ⟨v', h1, h2, consistent_of (h2.reachable.inv hC), fun r hr => h3 r fun d hd e => ?_⟩
  exact hr (List.mem_map.mpr ⟨d, hd, e⟩)

/-- **C58** A row that the view does not have is refused, and nothing changes. -/
theorem C58_missing_row {r : Row} (hr : v.seat r = none) (u : ℝ) (draws : List (Row × ℝ)) :
    ∃ e, v.transitionRows X ((r, u) :: draws) = .err e v := by
  obtain ⟨e, he⟩ := gibbsScore_missing (X := X) hr
  exact ⟨e, by simp [View.transitionRows, View.gibbsRow, he, Out.bind]⟩

/-- **C58** The transition of one row draws the new partition from its conditional distribution given
the partition of the other rows: each partition that agrees off the row, with probability
proportional to its posterior weight. -/
theorem C58_conditional (hC : C.Lawful) (hCh : C.Chain) (h : Reachable X v) (hrows : IsRows rows v)
    {W : RowPartition rows → ℝ} (hW : IsPosterior X v W) {r : Row} (hr : r ∈ rows)
    (f : RowPartition rows → ℝ) :
    ∫ u in (0 : ℝ)..1, f (partitionOf rows (v.gibbsRow X r u).state)
      = redraw W r f (partitionOf rows v) :=
  gibbsRow_average hC hCh hrows hW (SameModel.refl' h) hr (fun u => f (partitionOf rows u)) f
    fun _ _ => rfl

/-- **C58** The posterior over the partitions of the rows is invariant under a pass over rows, in
whatever order: if the partition has probability proportional to its posterior weight, it still has
it after the pass.  `V q` is any view of the model with partition `q`. -/
theorem C58_invariant (hC : C.Lawful) (hCh : C.Chain) (h : Reachable X v) (hrows : IsRows rows v)
    {W : RowPartition rows → ℝ} (hW : IsPosterior X v W) {V : RowPartition rows → View C}
    (hV : ∀ q, SameModel X v (V q) ∧ partitionOf rows (V q) = q) {order : List Row}
    (ho : ∀ r ∈ order, r ∈ rows) (f : RowPartition rows → ℝ) :
    ∑ q, W q * average order.length (fun us =>
        f (partitionOf rows ((V q).transitionRows X (order.zip us)).state))
      = ∑ q, W q * f q := by
  rw [← redraws_invariant ((C58_posterior hC h hrows).2.2 W hW) order f]
  refine Finset.sum_congr rfl fun q _ => ?_
  rw [transitionRows_average hC hCh hrows hW order ho f (hV q).1, (hV q).2]

/-- **C58** Two passes in a row are one pass over the concatenated list. -/
theorem C58_passes (v : View C) (a b : List (Row × ℝ)) :
    v.transitionRows X (a ++ b) = (v.transitionRows X a).bind fun v' => v'.transitionRows X b := by
  induction a generalizing v with
  | nil => rfl
  | cons d a ih =>
    simp only [List.cons_append, View.transitionRows]
    cases v.gibbsRow X d.1 d.2 with
    | err e s => rfl
    | ok s => exact ih s

/-! ### C59 -/

/-- **C59** Passes over all rows converge geometrically to the posterior: there is `ε > 0` such that
from every view of the model, for every sequence of passes (each over all rows, in any order) and
every function of the partition whose values differ by at most `D`, its expected value after `n`
passes differs from its posterior expectation by at most `(1 - ε) ^ n * D`. -/
theorem C59_convergence (hC : C.Lawful) (hCh : C.Chain) (h : Reachable X v) (hrows : IsRows rows v)
    {W : RowPartition rows → ℝ} (hW : IsPosterior X v W) :
    ∃ ε : ℝ, 0 < ε ∧ ε ≤ 1 ∧ ∀ u, SameModel X v u → ∀ orders : List (List Row),
      (∀ o ∈ orders, o.Perm rows.toList) → ∀ (f : RowPartition rows → ℝ) (D : ℝ),
      (∀ q q', |f q - f q'| ≤ D) →
        |average orders.flatten.length (fun us =>
            f (partitionOf rows (u.transitionRows X (orders.flatten.zip us)).state))
          - expectation W f| ≤ (1 - ε) ^ orders.length * D := by
  have hpos := (C58_posterior hC h hrows).2.2 W hW
  obtain ⟨ε, h0, h1, hε⟩ := redraws_converge hpos rows.card
  refine ⟨ε, h0, h1, fun u hu orders ho f D hD => ?_⟩
  rw [transitionRows_average hC hCh hrows hW _ (fun r hr => ?_) f hu]
  · refine hε orders (fun o hoo => ⟨fun r hr => ?_, ?_⟩) f D (fun q => ?_) _
    · rw [(ho o hoo).mem_iff]; simpa using hr
    · rw [(ho o hoo).length_eq]; simp
    · rw [abs_le]
      constructor
      · have := expectation_le hpos (f := f) (x := f q + D) fun q' => by
          have := (abs_le.mp (hD q q')).1; linarith
        linarith
      · have := le_expectation hpos (f := f) (x := f q - D) fun q' => by
          have := (abs_le.mp (hD q q')).2; linarith
        linarith
  · obtain ⟨o, hoo, hro⟩ := List.mem_flatten.mp hr
    rw [(ho o hoo).mem_iff] at hro
    simpa using hro

/-- **C59** In the limit: with any sequence of passes, the expected value of any function of the
partition tends to its posterior expectation. -/
theorem C59_limit (hC : C.Lawful) (hCh : C.Chain) (h : Reachable X v) (hrows : IsRows rows v)
    {W : RowPartition rows → ℝ} (hW : IsPosterior X v W) {pass : ℕ → List Row}
    (hp : ∀ n, (pass n).Perm rows.toList) (f : RowPartition rows → ℝ) :
    Filter.Tendsto (fun n =>
        average ((List.range n).map pass).flatten.length (fun us => f (partitionOf rows
          (v.transitionRows X (((List.range n).map pass).flatten.zip us)).state)))
      Filter.atTop (nhds (expectation W f)) := by
  obtain ⟨ε, h0, h1, hε⟩ := C59_convergence hC hCh h hrows hW
  obtain ⟨M, hM⟩ : ∃ M, ∀ q, |f q| ≤ M := by
    refine ⟨∑ q, |f q|, fun q => ?_⟩
    exact Finset.single_le_sum (f := fun q => |f q|) (fun q _ => abs_nonneg _) (Finset.mem_univ q)
  rw [tendsto_iff_dist_tendsto_zero]
  refine squeeze_zero (fun _ => dist_nonneg) (fun n => ?_)
    (g := fun n => (1 - ε) ^ n * (2 * M)) ?_
  · rw [Real.dist_eq]
    have := hε v (SameModel.refl' h) ((List.range n).map pass) (fun o ho => by
      obtain ⟨i, -, rfl⟩ := List.mem_map.mp ho; exact hp i) f (2 * M) (fun q q' => by
        have a := hM q; have b := hM q'
        have := abs_sub (f q) (f q')
        linarith)
    simpa using this
  · have := tendsto_pow_atTop_nhds_zero_of_lt_one (r := 1 - ε) (by linarith) (by linarith)
    simpa using this.mul_const (2 * M)

/-! ### The hypotheses hold -/

/-- A view of three rows in two clusters, with a posterior, on which a pass over the rows does not
raise, and whose partition converges to the posterior. -/
example : ∃ (v : View colCat) (W : RowPartition {0, 1, 2} → ℝ), Reachable rowDemoX v ∧
    IsRows {0, 1, 2} v ∧ IsPosterior rowDemoX v W ∧ v.seat 0 = v.seat 1 ∧ v.seat 0 ≠ v.seat 2 ∧
    (∃ v', v.transitionRows rowDemoX [(2, 1 / 2), (0, 1 / 3), (1, 0)] = .ok v') ∧
    ∀ f, Filter.Tendsto (fun n => average ((List.range n).map fun _ => [0, 1, 2]).flatten.length
        (fun us => f (partitionOf {0, 1, 2} (v.transitionRows rowDemoX
          (((List.range n).map fun _ => [0, 1, 2]).flatten.zip us)).state)))
      Filter.atTop (nhds (expectation W f)) := by
  have hC := catOf_lawful Prim.collapsed
  obtain ⟨v, h1, h2, -, h4, h5, h6⟩ := rowDemo_view
  obtain ⟨⟨W, hW⟩, -⟩ := C58_posterior hC h1 h2
  obtain ⟨v', e, -⟩ := C58_transition hC collapsedCat_chain h1 h2
    (draws := [(2, 1 / 2), (0, 1 / 3), (1, 0)]) (by
      intro d hd
      simp only [List.mem_cons, List.not_mem_nil, or_false] at hd
      rcases hd with rfl | rfl | rfl <;> norm_num)
  refine ⟨v, W, h1, h2, hW, by rw [h4, h5], by rw [h4, h6]; decide, ⟨v', e⟩, fun f => ?_⟩
  exact C59_limit hC collapsedCat_chain h1 h2 hW (pass := fun _ => [0, 1, 2]) (fun _ => by
    rw [List.perm_ext_iff_of_nodup (by decide) (Finset.nodup_toList _)]
    intro a; simp) f

end Cgpm.Props
