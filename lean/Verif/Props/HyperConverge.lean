import Verif.Lemmas.HyperReach
import Verif.Props.HyperSweep
import Mathlib.Analysis.SpecificLimits.Basic

/-!
C64. Inference with all kernels, also that of the hyperparameters, converges to the posterior on
hyperparameters and latent structures, whatever the State it starts from.
-/
namespace Cgpm.Props
open Cgpm Cgpm.View Cgpm.State Cgpm.Spec Cgpm.Spec.Hyper Cgpm.Hyper

variable {cfg : Cfg colCat} {s : State colCat} {grids : Col → Grids}

theorem fullMean_eq (W : Choice (colsOf s) grids → Latent (colsOf s) (rowsOf s) → ℝ)
    (f : ({c // c ∈ colsOf s} → Hypers) → Latent (colsOf s) (rowsOf s) → ℝ) :
    Mix.mean (fullLatents s grids) (fun x => W x.1 x.2) (onChoice f) = fullMean W f := by
  unfold Mix.mean fullMean fullLatents
  rw [Finset.sum_product, Finset.sum_product]
  rfl

/-- **C64** Geometric convergence.  Let the list of kernels hold those for the concentration of the
columns, the concentrations of the views, the hyperparameters, the rows and the columns.  There is a
rate `ε > 0` such that, from every State of the model whose hyperparameters and concentrations are on
their grids, for every number of kernel calls, all orders and every function `f` of hyperparameters and
latent structure that is within `D` of its posterior expectation, the expected value of `f` after `calls`
kernel calls is within `(1 - ε) ^ (calls / (2 * kernels.length)) * D` of that expectation. -/
theorem C64_convergence (hs : StateReachable cfg s) (hg : GridsBuilt s grids)
    {kernels : List AnyKernel} (h1 : .of .alpha ∈ kernels) (h2 : .of .viewAlphas ∈ kernels)
    (h3 : .of .rows ∈ kernels) (h4 : .of .columns ∈ kernels) (h5 : .columnHypers ∈ kernels)
    (hm : ColumnsMove cfg s none)
    {W : Choice (colsOf s) grids → Latent (colsOf s) (rowsOf s) → ℝ}
    (hW : IsFullPosterior cfg primLib grids s W) :
    ∃ ε : ℝ, 0 < ε ∧ ε ≤ 1 ∧ ∀ t, FullState cfg s t → ∀ κ : Choice (colsOf s) grids,
      hypersOf primLib (colsOf s) t = κ.hypers → (latentOf (colsOf s) (rowsOf s) t).OnGrid →
      ∀ (calls : ℕ) (orders : ℕ → AnyOrders), (∀ i, AnyOrders.Lists grids s none none (orders i)) →
      ∀ (f : ({c // c ∈ colsOf s} → Hypers) → Latent (colsOf s) (rowsOf s) → ℝ) (D : ℝ),
        (∀ (κ : Choice (colsOf s) grids), ∀ L ∈ latents (colsOf s) (rowsOf s),
          |f κ.hypers L - fullMean W f| ≤ D) →
        |average (totalAnyDraws grids s none none kernels calls) (fun us =>
            f (hypersOf primLib (colsOf s)
                (t.transitionAny cfg primLib grids calls kernels none none orders us).state)
              (latentOf (colsOf s) (rowsOf s)
                (t.transitionAny cfg primLib grids calls kernels none none orders us).state))
            - fullMean W f|
          ≤ (1 - ε) ^ (calls / (2 * kernels.length)) * D := by
  have hL := catOf_lawful Prim.collapsed
  obtain ⟨-, -, p3⟩ := C63_posterior hs hg
  obtain ⟨p4, p5⟩ := p3 W hW
  obtain ⟨ε, h0, e1, hε⟩ := passAny_converges hL collapsedCat_chain hs (gridsBuilt_sound hg) hm hW
    (fun x hx => (p4 x.1 x.2 (mem_fullLatents.mp hx)).1)
    (by unfold fullLatents; rw [Finset.sum_product]; exact p5) h1 h2 h3 h4 h5
  refine ⟨ε, h0, e1, fun t ht κ hκ hgr calls orders ho f D hD => ?_⟩
  obtain ⟨P, hP, hc⟩ := hε (calls / (2 * kernels.length)) (calls % (2 * kernels.length)) 0 orders
    (Nat.zero_mod _) ho
  have e : calls / (2 * kernels.length) * (2 * kernels.length) + calls % (2 * kernels.length)
      = calls := by rw [mul_comm]; exact Nat.div_add_mod _ _
  have hl : anysFrom kernels orders 0 calls = (List.range calls).filterMap fun i =>
      (kernels[i % kernels.length]?).map fun k => (k, orders i) := by
    unfold anysFrom; rw [List.range_eq_range']
  rw [e, hl, totalAnyDraws_eq] at hP
  have hlaw := hP.law κ t ⟨ht, hκ, hgr⟩ f
  have hrun : ∀ us, t.transitionAny cfg primLib grids calls kernels none none orders us
      = callAnys cfg primLib grids none none ((List.range calls).filterMap fun i =>
        (kernels[i % kernels.length]?).map fun k => (k, orders i)) t us := fun us => by
    unfold transitionAny
    rw [if_neg (by simp), if_neg (List.ne_nil_of_mem h1)]
  simp only [hrun]
  rw [hlaw]
  have := hc (onChoice f) D (fun x hx => by
    rw [fullMean_eq]; exact hD x.1 x.2 (mem_fullLatents.mp hx))
    (κ, latentOf (colsOf s) (rowsOf s) t) (mem_fullLatents.mpr (Latent.mem_latents.mpr hgr))
  rw [fullMean_eq] at this
  exact this

/-- **C64** In the limit: the expected value of any function of hyperparameters and latent structure tends
to its expected value under the posterior as the number of kernel calls grows. -/
theorem C64_limit (hs : StateReachable cfg s) (hg : GridsBuilt s grids)
    {kernels : List AnyKernel} (h1 : .of .alpha ∈ kernels) (h2 : .of .viewAlphas ∈ kernels)
    (h3 : .of .rows ∈ kernels) (h4 : .of .columns ∈ kernels) (h5 : .columnHypers ∈ kernels)
    (hm : ColumnsMove cfg s none)
    {W : Choice (colsOf s) grids → Latent (colsOf s) (rowsOf s) → ℝ}
    (hW : IsFullPosterior cfg primLib grids s W) {t : State colCat} (ht : FullState cfg s t)
    {κ : Choice (colsOf s) grids} (hκ : hypersOf primLib (colsOf s) t = κ.hypers)
    (hgr : (latentOf (colsOf s) (rowsOf s) t).OnGrid) {orders : ℕ → AnyOrders}
    (ho : ∀ i, AnyOrders.Lists grids s none none (orders i))
    (f : ({c // c ∈ colsOf s} → Hypers) → Latent (colsOf s) (rowsOf s) → ℝ) :
    Filter.Tendsto (fun calls => average (totalAnyDraws grids s none none kernels calls) (fun us =>
        f (hypersOf primLib (colsOf s)
            (t.transitionAny cfg primLib grids calls kernels none none orders us).state)
          (latentOf (colsOf s) (rowsOf s)
            (t.transitionAny cfg primLib grids calls kernels none none orders us).state)))
      Filter.atTop (nhds (fullMean W f)) := by
  obtain ⟨ε, h0, e1, hε⟩ := C64_convergence hs hg h1 h2 h3 h4 h5 hm hW
  have hn : 0 < 2 * kernels.length := by
    have := List.length_pos_of_mem h1
    omega
  set D := ∑ κ : Choice (colsOf s) grids, ∑ L ∈ latents (colsOf s) (rowsOf s),
    |f κ.hypers L - fullMean W f| with hD
  rw [tendsto_iff_dist_tendsto_zero]
  refine squeeze_zero (fun _ => dist_nonneg) (fun n => ?_)
    (g := fun n => (1 - ε) ^ (n / (2 * kernels.length)) * D) ?_
  · rw [Real.dist_eq]
    refine hε t ht κ hκ hgr n orders ho f D fun κ L hLg => ?_
    refine le_trans ?_ (Finset.single_le_sum (f := fun κ : Choice (colsOf s) grids =>
      ∑ L ∈ latents (colsOf s) (rowsOf s), |f κ.hypers L - fullMean W f|)
      (fun _ _ => Finset.sum_nonneg fun _ _ => abs_nonneg _) (Finset.mem_univ κ))
    exact Finset.single_le_sum (f := fun L => |f κ.hypers L - fullMean W f|)
      (fun _ _ => abs_nonneg _) hLg
  · have h := (tendsto_pow_atTop_nhds_zero_of_lt_one (r := 1 - ε) (by linarith) (by linarith)).comp
      (Nat.tendsto_div_const_atTop hn.ne')
    simpa using h.mul_const D

open Classical in
/-- **C64** The limit for given hyperparameters and latent structure: the probability that inference ends
in them tends to their share of the posterior weight (that of all choices with these
hyperparameters), which is positive just if the structure keeps the columns declared independent apart. -/
theorem C64_probability (hs : StateReachable cfg s) (hg : GridsBuilt s grids)
    {kernels : List AnyKernel} (h1 : .of .alpha ∈ kernels) (h2 : .of .viewAlphas ∈ kernels)
    (h3 : .of .rows ∈ kernels) (h4 : .of .columns ∈ kernels) (h5 : .columnHypers ∈ kernels)
    (hm : ColumnsMove cfg s none)
    {W : Choice (colsOf s) grids → Latent (colsOf s) (rowsOf s) → ℝ}
    (hW : IsFullPosterior cfg primLib grids s W) {t : State colCat} (ht : FullState cfg s t)
    {κ : Choice (colsOf s) grids} (hκ : hypersOf primLib (colsOf s) t = κ.hypers)
    (hgr : (latentOf (colsOf s) (rowsOf s) t).OnGrid) {orders : ℕ → AnyOrders}
    (ho : ∀ i, AnyOrders.Lists grids s none none (orders i)) (κ' : Choice (colsOf s) grids)
    {L : Latent (colsOf s) (rowsOf s)} (hLg : L ∈ latents (colsOf s) (rowsOf s)) :
    Filter.Tendsto (fun calls => average (totalAnyDraws grids s none none kernels calls) (fun us =>
        if hypersOf primLib (colsOf s)
            (t.transitionAny cfg primLib grids calls kernels none none orders us).state = κ'.hypers ∧
          latentOf (colsOf s) (rowsOf s)
            (t.transitionAny cfg primLib grids calls kernels none none orders us).state = L
          then 1 else 0))
      Filter.atTop (nhds ((∑ η : Choice (colsOf s) grids, if η.hypers = κ'.hypers then W η L else 0)
        / ∑ η, ∑ M ∈ latents (colsOf s) (rowsOf s), W η M)) ∧
    (0 < (∑ η : Choice (colsOf s) grids, if η.hypers = κ'.hypers then W η L else 0)
        / ∑ η, ∑ M ∈ latents (colsOf s) (rowsOf s), W η M ↔
      ∀ a b, (a.1, b.1) ∈ s.Ci → a ≠ b → ¬ L.part.r a b) := by
  obtain ⟨-, -, p3⟩ := C63_posterior hs hg
  obtain ⟨p4, p5⟩ := p3 W hW
  constructor
  · have := C64_limit hs hg h1 h2 h3 h4 h5 hm hW ht hκ hgr ho
      (fun η M => if η = κ'.hypers ∧ M = L then 1 else 0)
    have e : fullMean W (fun η M => if η = κ'.hypers ∧ M = L then 1 else 0)
        = (∑ η : Choice (colsOf s) grids, if η.hypers = κ'.hypers then W η L else 0)
          / ∑ η, ∑ M ∈ latents (colsOf s) (rowsOf s), W η M := by
      unfold fullMean
      congr 1
      refine Finset.sum_congr rfl fun η _ => ?_
      rw [Finset.sum_eq_single_of_mem L hLg]
      · by_cases h : η.hypers = κ'.hypers <;> simp [h]
      · intro M _ hne
        simp [hne]
    rw [e] at this
    exact this
  · rw [div_pos_iff_of_pos_right p5, ← (p4 κ' L hLg).2]
    have hnn : ∀ η : Choice (colsOf s) grids,
        0 ≤ if η.hypers = κ'.hypers then W η L else 0 := fun η => by
      split
      · exact (p4 η L hLg).1
      · exact le_rfl
    constructor
    · intro h
      obtain ⟨η, -, hη⟩ := Finset.exists_ne_zero_of_sum_ne_zero h.ne'
      have : W η L ≠ 0 := by
        intro h0
        rw [h0] at hη
        simp at hη
      have hη' := lt_of_le_of_ne (p4 η L hLg).1 this.symm
      exact (p4 κ' L hLg).2.mpr ((p4 η L hLg).2.mp hη')
    · intro h
      refine lt_of_lt_of_le h ?_
      have := Finset.single_le_sum (f := fun η : Choice (colsOf s) grids =>
        if η.hypers = κ'.hypers then W η L else 0) (fun η _ => hnn η) (Finset.mem_univ κ')
      simpa using this

/-! ### The hypotheses hold -/

/-- A State with three columns, two of them declared independent, and two rows: all the kernels, and any
State with hyperparameters on the grids and a latent structure of the model to start from. -/
example : ∃ (s : State colCat) (grids : Col → Grids)
    (W : Choice (colsOf s) grids → Latent (colsOf s) (rowsOf s) → ℝ),
    StateReachable (libCfg _) s ∧ s.outputs = [0, 1, 2] ∧ s.nRows = 2 ∧ s.Ci = [(0, 1)] ∧
    IsFullPosterior (libCfg _) primLib grids s W ∧
    ∀ κ : Choice (colsOf s) grids, ∀ L ∈ latents (colsOf s) (rowsOf s), ∃ t,
      FullState (libCfg _) s t ∧ hypersOf primLib (colsOf s) t = κ.hypers ∧
      latentOf (colsOf s) (rowsOf s) t = L ∧
      ∀ f : ({c // c ∈ colsOf s} → Hypers) → Latent (colsOf s) (rowsOf s) → ℝ, Filter.Tendsto
        (fun calls => average (totalAnyDraws grids s none none allKernels calls) (fun us =>
          f (hypersOf primLib (colsOf s) (t.transitionAny (libCfg _) primLib grids calls allKernels none
              none (fun _ => plainAny s grids) us).state)
            (latentOf (colsOf s) (rowsOf s) (t.transitionAny (libCfg _) primLib grids calls allKernels
              none none (fun _ => plainAny s grids) us).state)))
        Filter.atTop (nhds (fullMean W f)) := by
  obtain ⟨s, grids, h1, h2, h3, h4, h5, h6, h7, -⟩ := hyperDemo
  obtain ⟨p1, ⟨W, hW⟩, p3⟩ := C63_posterior h1 h6
  refine ⟨s, grids, W, h1, h2, h3, h4, hW, fun κ L hLg => ?_⟩
  obtain ⟨t, t1, t2, t3⟩ := p1 κ L hLg
  refine ⟨t, t1, t2, t3, fun f => ?_⟩
  exact C64_limit h1 h6 (by simp [allKernels]) (by simp [allKernels]) (by simp [allKernels])
    (by simp [allKernels]) (by simp [allKernels]) h5 hW t1 t2
    (by rw [t3]; exact Latent.mem_latents.mp hLg) (fun _ => plainAny_lists s grids) f

end Cgpm.Props
