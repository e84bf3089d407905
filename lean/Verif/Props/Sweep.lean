import Verif.Lemmas.SweepChain
import Mathlib.Analysis.SpecificLimits.Basic

/-!
C62. Inference on a State converges to the CrossCat posterior, whatever the State it starts from.

`State.transition` (Model/Transition) runs the kernels of a list in turn.  If the list holds the
kernels for all parts of the latent structure, in any order, then the expected value of any function
of the latent structure tends to its expected value under the posterior, at a geometric rate that is
the same for all starting States, orders and functions.
-/
namespace Cgpm.Props
open Cgpm Cgpm.View Cgpm.State Cgpm.Spec Cgpm.Spec.Hyper

variable {C : Cat} {cfg : Cfg C} {s : State C}

/-- **C62** Geometric convergence.  Let the list of kernels hold those for the concentration of the
columns, the concentrations of the views, the rows and the columns.  There is a rate `ε > 0` such
that, from every State of the model whose concentrations are on their grids, for every number of
kernel calls, all orders and every function `f` of the latent structure that is within `D` of its
posterior expectation, the expected value of `f` after `calls` kernel calls is within
`(1 - ε) ^ (calls / (2 * kernels.length)) * D` of that expectation: every two rounds of the list shrink the
difference. -/
theorem C62_convergence (hL : C.Lawful) (hCh : C.Chain) (hs : StateReachable cfg s)
    {kernels : List Kernel} (h1 : .alpha ∈ kernels) (h2 : .viewAlphas ∈ kernels)
    (h3 : .rows ∈ kernels) (h4 : .columns ∈ kernels) (hm : ColumnsMove cfg s none)
    {W : Latent (colsOf s) (rowsOf s) → ℝ} (hW : IsJointPosterior cfg s W) :
    ∃ ε : ℝ, 0 < ε ∧ ε ≤ 1 ∧ ∀ t, SameState cfg s t → (latentOf (colsOf s) (rowsOf s) t).OnGrid →
      ∀ (calls : ℕ) (orders : ℕ → Orders), (∀ i, Orders.Lists s none none (orders i)) →
      ∀ (f : Latent (colsOf s) (rowsOf s) → ℝ) (D : ℝ),
        (∀ L ∈ latents (colsOf s) (rowsOf s), |f L - latentMean W f| ≤ D) →
        |average (totalDraws s none none kernels calls) (fun us => f (latentOf (colsOf s) (rowsOf s)
            (t.transition cfg calls kernels none none orders us).state)) - latentMean W f|
          ≤ (1 - ε) ^ (calls / (2 * kernels.length)) * D := by
  obtain ⟨ε, h0, e1, hε⟩ := passOver_converges hL hCh hs hm hW h1 h2 h3 h4
  refine ⟨ε, h0, e1, fun t ht hg calls orders ho f D hD => ?_⟩
  have ht' := sameState_onModel hL ht hg
  obtain ⟨P, hP, hc⟩ := hε (calls / (2 * kernels.length)) (calls % (2 * kernels.length)) 0 orders
    (Nat.zero_mod _) ho
  have e : calls / (2 * kernels.length) * (2 * kernels.length) + calls % (2 * kernels.length)
      = calls := by rw [mul_comm]; exact Nat.div_add_mod _ _
  have hl : callsFrom kernels orders 0 calls = (List.range calls).filterMap fun i =>
      (kernels[i % kernels.length]?).map fun k => (k, orders i) := by
    unfold callsFrom; rw [List.range_eq_range']
  rw [e, hl, totalDraws_eq] at hP
  have hlaw := hP.law t ht' f
  have hrun : ∀ us, t.transition cfg calls kernels none none orders us
      = callKernels cfg none none ((List.range calls).filterMap fun i =>
        (kernels[i % kernels.length]?).map fun k => (k, orders i)) t us := fun us => by
    unfold transition
    rw [if_neg (by simp), if_neg (List.ne_nil_of_mem h1)]
  simp only [hrun]
  rw [hlaw]
  exact hc f D hD _ (Latent.mem_latents.mpr hg)

/-- **C62** In the limit: the expected value of any function of the latent structure tends to its
expected value under the posterior as the number of kernel calls grows. -/
theorem C62_limit (hL : C.Lawful) (hCh : C.Chain) (hs : StateReachable cfg s)
    {kernels : List Kernel} (h1 : .alpha ∈ kernels) (h2 : .viewAlphas ∈ kernels)
    (h3 : .rows ∈ kernels) (h4 : .columns ∈ kernels) (hm : ColumnsMove cfg s none)
    {W : Latent (colsOf s) (rowsOf s) → ℝ} (hW : IsJointPosterior cfg s W) {t : State C}
    (ht : SameState cfg s t) (hg : (latentOf (colsOf s) (rowsOf s) t).OnGrid)
    {orders : ℕ → Orders} (ho : ∀ i, Orders.Lists s none none (orders i))
    (f : Latent (colsOf s) (rowsOf s) → ℝ) :
    Filter.Tendsto (fun calls => average (totalDraws s none none kernels calls)
        (fun us => f (latentOf (colsOf s) (rowsOf s)
          (t.transition cfg calls kernels none none orders us).state)))
      Filter.atTop (nhds (latentMean W f)) := by
  obtain ⟨ε, h0, e1, hε⟩ := C62_convergence hL hCh hs h1 h2 h3 h4 hm hW
  have hn : 0 < 2 * kernels.length := by
    have := List.length_pos_of_mem h1
    omega
  set D := ∑ L ∈ latents (colsOf s) (rowsOf s), |f L - latentMean W f| with hD
  rw [tendsto_iff_dist_tendsto_zero]
  refine squeeze_zero (fun _ => dist_nonneg) (fun n => ?_)
    (g := fun n => (1 - ε) ^ (n / (2 * kernels.length)) * D) ?_
  · rw [Real.dist_eq]
    exact hε t ht hg n orders ho f D fun L hLg =>
      Finset.single_le_sum (f := fun L => |f L - latentMean W f|) (fun _ _ => abs_nonneg _) hLg
  · have h := (tendsto_pow_atTop_nhds_zero_of_lt_one (r := 1 - ε) (by linarith) (by linarith)).comp
      (Nat.tendsto_div_const_atTop hn.ne')
    simpa using h.mul_const D

/-- **C62** The limit for one structure: the probability that inference ends in a given latent
structure tends to its share of the posterior weight; it tends to zero just for the structures that put
together columns declared independent. -/
theorem C62_probability (hL : C.Lawful) (hCh : C.Chain) (hs : StateReachable cfg s)
    {kernels : List Kernel} (h1 : .alpha ∈ kernels) (h2 : .viewAlphas ∈ kernels)
    (h3 : .rows ∈ kernels) (h4 : .columns ∈ kernels) (hm : ColumnsMove cfg s none)
    {W : Latent (colsOf s) (rowsOf s) → ℝ} (hW : IsJointPosterior cfg s W) {t : State C}
    (ht : SameState cfg s t) (hg : (latentOf (colsOf s) (rowsOf s) t).OnGrid)
    {orders : ℕ → Orders} (ho : ∀ i, Orders.Lists s none none (orders i))
    {L : Latent (colsOf s) (rowsOf s)} (hLg : L ∈ latents (colsOf s) (rowsOf s)) :
    Filter.Tendsto (fun calls => average (totalDraws s none none kernels calls)
        (fun us => Set.indicator {L} 1 (latentOf (colsOf s) (rowsOf s)
          (t.transition cfg calls kernels none none orders us).state)))
      Filter.atTop (nhds (W L / ∑ M ∈ latents (colsOf s) (rowsOf s), W M)) ∧
    (0 < W L / ∑ M ∈ latents (colsOf s) (rowsOf s), W M ↔
      ∀ a b, (a.1, b.1) ∈ s.Ci → a ≠ b → ¬ L.part.r a b) := by
  classical
  obtain ⟨-, -, p3⟩ := C60_posterior hL hs
  obtain ⟨p4, p5⟩ := p3 W hW
  constructor
  · have := C62_limit hL hCh hs h1 h2 h3 h4 hm hW ht hg ho (Set.indicator {L} 1)
    have e : latentMean W (Set.indicator {L} 1) = W L / ∑ M ∈ latents (colsOf s) (rowsOf s), W M := by
      unfold latentMean
      congr 1
      rw [Finset.sum_eq_single_of_mem L hLg]
      · simp
      · intro M _ hne
        simp [hne]
    rwa [e] at this
  · rw [div_pos_iff_of_pos_right p5]
    exact (p4 L hLg).2

/-! ### The hypotheses hold -/

/-- A State with three columns, two of them declared independent, and two rows: the kernels in the
order of `State.transition` (except the hyperparameters), and any State with a latent structure of
the model to start from. -/
example : ∃ (s : State colCat) (W : Latent (colsOf s) (rowsOf s) → ℝ),
    StateReachable (libCfg _) s ∧ s.outputs = [0, 1, 2] ∧ s.nRows = 2 ∧ s.Ci = [(0, 1)] ∧
    IsJointPosterior (libCfg _) s W ∧ ∀ L ∈ latents (colsOf s) (rowsOf s), ∃ t,
      SameState (libCfg _) s t ∧ latentOf (colsOf s) (rowsOf s) t = L ∧ ∀ f, Filter.Tendsto
        (fun calls => average
          (totalDraws s none none [.alpha, .viewAlphas, .columnParams, .rows, .columns] calls)
          (fun us => f (latentOf (colsOf s) (rowsOf s) (t.transition (libCfg _) calls
            [.alpha, .viewAlphas, .columnParams, .rows, .columns] none none
            (fun _ => plainOrders s) us).state)))
        Filter.atTop (nhds (latentMean W f)) := by
  have hL := catOf_lawful Prim.collapsed
  obtain ⟨s, h1, h2, h3, h4, h5, h6, h7, h8, -⟩ := sweepDemo
  obtain ⟨p1, ⟨W, hW⟩, p3⟩ := C60_posterior hL h1
  refine ⟨s, W, h1, h3, h4, h5, hW, fun L hLg => ?_⟩
  obtain ⟨t, ht, hl⟩ := p1 L hLg
  refine ⟨t, ht, hl, fun f => ?_⟩
  exact C62_limit hL collapsedCat_chain h1 (by simp) (by simp) (by simp) (by simp) ⟨h7, h6, h8⟩ hW ht
    (by rw [hl]; exact Latent.mem_latents.mp hLg) (fun _ => plainOrders_lists s) f

end Cgpm.Props
