import Verif.Lemmas.NetConverge
import Verif.Props.NetDraws

/-!
Property C72: queries of a network with evidence converge (src/network/importance.py).

`conditionalMean … g` is the expected value of `g` under the conditional density given the constraints,
`evidenceDensity` the marginal density of the constraints, and `weightMoment` the second moment of the
importance weight (Spec/NetDraws.lean).
-/
namespace Cgpm.Props
open Cgpm Cgpm.Net MeasureTheory
open scoped ENNReal
variable {R Ω : Type}
variable {μ : Nat → Measure ℝ} [∀ v, SigmaFinite (μ v)] {rowid : R} {cgpms : List (NetCgpm R ℝ Ω)}
  {draw : NetDraws R ℝ Ω} {p : Nat → (Nat → ℝ) → ℝ≥0∞} {ord : PyOrder} {acc : Option Nat}
  {net : Network R ℝ Ω} {targets : List Nat} {constraints inputs : Dict Nat ℝ}

/-- **C72.** With evidence, what `simulate` returns follows the conditional law up to an error that
falls with the root of the accuracy: for every function `g` of the targets with values in `[0, 1]`, so
for the probability of every event. -/
theorem C72_simulate (hord : ord.Lists) (hb : build ord cgpms acc = .ok net)
    (hsim : ∀ c ∈ cgpms, SimKeys c) (hq : GoodQuery cgpms targets constraints inputs)
    (hs : Supplied cgpms targets constraints inputs)
    (hp : ∀ l c, cgpms[l]? = some c → Behaves μ rowid c (draw l) (p l))
    (hpos : Possible μ cgpms p constraints) (hacc : net.accuracy ≠ 0) (x : Nat → ℝ)
    (hM : weightMoment μ cgpms p constraints (fillWith x inputs) ≠ ⊤)
    {g : (Nat → ℝ) → ℝ≥0∞} (hg : Measurable g) (hg1 : ∀ y, g y ≤ 1)
    (hloc : ∀ y z : Nat → ℝ, (∀ v ∈ targets, y v = z v) → g y = g z) :
    |((simulateDraws ord draw rowid net targets constraints inputs).E
          (fun d => g (fillWith (fillWith x inputs) d))).toReal
        - (conditionalMean μ cgpms p constraints (fillWith x inputs) g).toReal|
      ≤ 2 * Real.sqrt ((weightMoment μ cgpms p constraints (fillWith x inputs)).toReal / net.accuracy)
        / (evidenceDensity μ cgpms p constraints (fillWith x inputs)).toReal := by
  have hB := built_of_build hord hb
  obtain ⟨TA, hQ, hTA, hw⟩ := weighted_facts hord hB hsim hq hs hp
  haveI := proposal_prob hB hQ hp hpos (hw x)
  have ht : ∀ t ∈ targets, t ∈ TA := fun t h =>
    (hTA t).mpr ⟨.target h, hq.disjoint t h, hq.produced t h⟩
  have hWm := evidenceWeight_measurable hp constraints.keys.toFinset
  obtain ⟨h1, h2, h3⟩ := proposal_facts hB hQ hTA hp hpos (hw x)
  have h4 := proposal_integral hB hQ hTA hp hpos (hw x) hg fun y z h => hloc y z fun v hv =>
    h v fun _ => .inr (.target hv)
  have key := self_normalised_lintegral hWm hg hg1 h3 (by rw [h2]; exact hM) hacc
  rw [h1, h2, h4] at key
  rw [simulate_E hB hp hpos hacc hQ ht (hw x) hg hloc]
  exact key

/-- **C72.** So every required precision is reached, for all functions of the targets at once, by a
large enough accuracy. -/
theorem C72_simulate_limit (hord : ord.Lists)
    (hsim : ∀ c ∈ cgpms, SimKeys c) (hq : GoodQuery cgpms targets constraints inputs)
    (hs : Supplied cgpms targets constraints inputs)
    (hp : ∀ l c, cgpms[l]? = some c → Behaves μ rowid c (draw l) (p l))
    (hpos : Possible μ cgpms p constraints) (x : Nat → ℝ)
    (hM : weightMoment μ cgpms p constraints (fillWith x inputs) ≠ ⊤) {ε : ℝ} (hε : 0 < ε) :
    ∃ N, ∀ n ≥ N, ∀ net, build ord cgpms (some n) = .ok net →
      ∀ g : (Nat → ℝ) → ℝ≥0∞, Measurable g → (∀ y, g y ≤ 1) →
        (∀ y z : Nat → ℝ, (∀ v ∈ targets, y v = z v) → g y = g z) →
        |((simulateDraws ord draw rowid net targets constraints inputs).E
            (fun d => g (fillWith (fillWith x inputs) d))).toReal
          - (conditionalMean μ cgpms p constraints (fillWith x inputs) g).toReal| ≤ ε := by
  set M := (weightMoment μ cgpms p constraints (fillWith x inputs)).toReal
  set Z := (evidenceDensity μ cgpms p constraints (fillWith x inputs)).toReal
  have hlim : Filter.Tendsto (fun n : ℕ => 2 * Real.sqrt (M / n) / Z) Filter.atTop (nhds 0) := by
    have h1 : Filter.Tendsto (fun n : ℕ => M / (n : ℝ)) Filter.atTop (nhds 0) :=
      tendsto_const_div_atTop_nhds_zero_nat M
    have h2 := (Real.continuous_sqrt.tendsto 0).comp h1
    have h3 := (h2.const_mul 2).div_const Z
    simpa using h3
  obtain ⟨N, hN⟩ := (hlim.eventually (gt_mem_nhds hε)).exists_forall_of_atTop
  refine ⟨max N 1, fun n hn net hb g hg hg1 hloc => ?_⟩
  have ha := (C26_accepted_network ord hord cgpms (some n) net hb).2.1
  have ha' : net.accuracy = n := ha
  have hn1 : n ≠ 0 := by
    have := (le_max_right N 1).trans hn
    omega
  have := C72_simulate hord hb hsim hq hs hp hpos (by rw [ha']; exact hn1) x hM hg hg1 hloc
  refine this.trans ?_
  rw [ha']
  exact (hN n ((le_max_left N 1).trans hn)).le

/-- **C72.** The density that `logpdf` reports without evidence is within `ε` of the density of the
query, but for a probability that falls with the accuracy. -/
theorem C72_logpdf {query : Dict Nat ℝ} (hord : ord.Lists) (hb : build ord cgpms acc = .ok net)
    (hsim : ∀ c ∈ cgpms, SimKeys c) (hq : GoodQuery cgpms [] query inputs)
    (hs : Supplied cgpms [] query inputs)
    (hp : ∀ l c, cgpms[l]? = some c → Behaves μ rowid c (draw l) (p l))
    (hpos : Possible μ cgpms p query) (hacc : net.accuracy ≠ 0) (x : Nat → ℝ)
    (hM : weightMoment μ cgpms p query (fillWith x inputs) ≠ ⊤) {ε : ℝ} (hε : 0 < ε) :
    (logpdfDraws ord draw rowid net query [] inputs).E
        ({r | ε ≤ |(mass r).toReal
          - (evidenceDensity μ cgpms p query (fillWith x inputs)).toReal|}.indicator fun _ => 1)
      ≤ ENNReal.ofReal ((weightMoment μ cgpms p query (fillWith x inputs)).toReal
          / net.accuracy / ε ^ 2) := by
  have hB := built_of_build hord hb
  obtain ⟨TA, hQ, hTA, hw⟩ := weighted_facts hord hB hsim hq hs hp
  haveI := proposal_prob hB hQ hp hpos (hw x)
  have hWm := evidenceWeight_measurable hp query.keys.toFinset
  obtain ⟨h1, h2, h3⟩ := proposal_facts hB hQ hTA hp hpos (hw x)
  set Z := (evidenceDensity μ cgpms p query (fillWith x inputs)).toReal with hZ
  have hS : MeasurableSet {q : ℝ≥0∞ | ε ≤ |q.toReal - Z|} :=
    measurableSet_le measurable_const ((ENNReal.measurable_toReal.sub measurable_const).abs)
  have hE := logpdf_E_plain hB hp hpos hacc hQ (hw x)
    (F := {q : ℝ≥0∞ | ε ≤ |q.toReal - Z|}.indicator fun _ => 1) (measurable_const.indicator hS)
  have key := mean_chebyshev hWm (by rw [h2]; exact hM) hacc hε
  rw [h1, h2] at key
  refine le_trans (le_of_eq ?_) key
  refine Eq.trans (b := (logpdfDraws ord draw rowid net query [] inputs).E fun r =>
    {q : ℝ≥0∞ | ε ≤ |q.toReal - Z|}.indicator (fun _ => 1) (mass r)) rfl ?_
  rw [hE]
  have hm : Measurable fun z : Fin net.accuracy → (Nat → ℝ) =>
      (∑ i, evidenceWeight μ cgpms p query.keys.toFinset (z i)) / net.accuracy :=
    (Finset.measurable_fun_sum _ fun i _ => hWm.comp (measurable_pi_apply i)).div_const _
  have hS' : MeasurableSet {z : Fin net.accuracy → (Nat → ℝ) |
      ε ≤ |((∑ i, evidenceWeight μ cgpms p query.keys.toFinset (z i)) / net.accuracy).toReal - Z|} :=
    hm hS
  refine Eq.trans ?_ (lintegral_indicator_one hS')
  rfl

/-- How close the two means have to be. -/
noncomputable def margin (a b ε : ℝ) : ℝ := min (b / 2) (ε * b ^ 2 / (2 * (a + b)))

/-- **C72.** With evidence: the density that `logpdf` reports is within `ε` of the conditional density
(the density of targets and evidence together, over that of the evidence), but for a probability that
falls with the accuracy. -/
theorem C72_logpdf_given {query : Dict Nat ℝ} (hord : ord.Lists) (hb : build ord cgpms acc = .ok net)
    (hsim : ∀ c ∈ cgpms, SimKeys c) (hne : constraints ≠ [])
    (hqJ : GoodQuery cgpms [] (query.update constraints) inputs)
    (hsJ : Supplied cgpms [] (query.update constraints) inputs)
    (hq : GoodQuery cgpms [] constraints inputs) (hs : Supplied cgpms [] constraints inputs)
    (hp : ∀ l c, cgpms[l]? = some c → Behaves μ rowid c (draw l) (p l))
    (hposJ : Possible μ cgpms p (query.update constraints)) (hpos : Possible μ cgpms p constraints)
    (hacc : net.accuracy ≠ 0) (x : Nat → ℝ)
    (hMJ : weightMoment μ cgpms p (query.update constraints) (fillWith x inputs) ≠ ⊤)
    (hM : weightMoment μ cgpms p constraints (fillWith x inputs) ≠ ⊤) {ε : ℝ} (hε : 0 < ε) :
    let a := (evidenceDensity μ cgpms p (query.update constraints) (fillWith x inputs)).toReal
    let b := (evidenceDensity μ cgpms p constraints (fillWith x inputs)).toReal
    0 < margin a b ε ∧
    (logpdfDraws ord draw rowid net query constraints inputs).E
        ({r | ε ≤ |(mass r).toReal - a / b|}.indicator fun _ => 1)
      ≤ ENNReal.ofReal ((weightMoment μ cgpms p (query.update constraints)
            (fillWith x inputs)).toReal / net.accuracy / margin a b ε ^ 2)
        + ENNReal.ofReal ((weightMoment μ cgpms p constraints (fillWith x inputs)).toReal
            / net.accuracy / margin a b ε ^ 2) := by
  intro a b
  have hB := built_of_build hord hb
  obtain ⟨TJ, hQJ, hTJ, hwJ⟩ := weighted_facts hord hB hsim hqJ hsJ hp
  obtain ⟨TC, hQC, hTC, hwC⟩ := weighted_facts hord hB hsim hq hs hp
  haveI := proposal_prob hB hQJ hp hposJ (hwJ x)
  haveI := proposal_prob hB hQC hp hpos (hwC x)
  have hJm := evidenceWeight_measurable hp (query.update constraints).keys.toFinset
  have hCm := evidenceWeight_measurable hp constraints.keys.toFinset
  obtain ⟨j1, j2, j3⟩ := proposal_facts hB hQJ hTJ hp hposJ (hwJ x)
  obtain ⟨c1, c2, c3⟩ := proposal_facts hB hQC hTC hp hpos (hwC x)
  obtain ⟨ct, cL, -⟩ := memLp_toReal hCm (by rw [c2]; exact hM)
  have hbpos : 0 < b := by
    have h1 : ∫ y, (evidenceWeight μ cgpms p constraints.keys.toFinset y).toReal
        ∂proposal μ cgpms p constraints TC net.topo (fillWith x inputs) = b := by
      rw [integral_toReal hCm.aemeasurable (ct.mono fun y hy => hy.lt_top), c1]
    rw [← h1]
    refine lt_of_le_of_ne (integral_nonneg fun _ => ENNReal.toReal_nonneg) fun h0 => ?_
    have h2 := (integral_eq_zero_iff_of_nonneg (fun _ => ENNReal.toReal_nonneg)
      (cL.integrable one_le_two)).mp h0.symm
    refine c3 ((lintegral_eq_zero_iff hCm).mpr ?_)
    filter_upwards [h2, ct] with y hy hyt
    exact (ENNReal.toReal_eq_zero_iff _).mp hy |>.resolve_right hyt
  have ha : 0 ≤ a := ENNReal.toReal_nonneg
  have hδ : 0 < margin a b ε := lt_min (by positivity) (by positivity)
  refine ⟨hδ, ?_⟩
  have hS : MeasurableSet {q : ℝ≥0∞ | ε ≤ |q.toReal - a / b|} :=
    measurableSet_le measurable_const ((ENNReal.measurable_toReal.sub measurable_const).abs)
  have hE := logpdf_E_cond hB hne hp hposJ hpos hacc hQJ hQC (hwJ x) (hwC x)
    (F := {q : ℝ≥0∞ | ε ≤ |q.toReal - a / b|}.indicator fun _ => 1) (measurable_const.indicator hS)
  have kJ := mean_chebyshev hJm (by rw [j2]; exact hMJ) hacc hδ
  have kC := mean_chebyshev hCm (by rw [c2]; exact hM) hacc hδ
  rw [j1, j2] at kJ
  rw [c1, c2] at kC
  generalize proposal μ cgpms p constraints TC net.topo (fillWith x inputs) = QC at *
  generalize proposal μ cgpms p (query.update constraints) TJ net.topo (fillWith x inputs) = QJ at *
  generalize evidenceWeight μ cgpms p (query.update constraints).keys.toFinset = WJ at *
  generalize evidenceWeight μ cgpms p constraints.keys.toFinset = WC at *
  refine Eq.trans_le (b := (logpdfDraws ord draw rowid net query constraints inputs).E fun r =>
    {q : ℝ≥0∞ | ε ≤ |q.toReal - a / b|}.indicator (fun _ => 1) (mass r)) rfl ?_
  rw [hE]
  set SJ := {z : Fin net.accuracy → (Nat → ℝ) |
    margin a b ε ≤ |((∑ i, WJ (z i)) / net.accuracy).toReal - a|} with hSJ
  set SC := {z : Fin net.accuracy → (Nat → ℝ) |
    margin a b ε ≤ |((∑ i, WC (z i)) / net.accuracy).toReal - b|} with hSC
  have mJ : MeasurableSet SJ := by
    have : Measurable fun z : Fin net.accuracy → (Nat → ℝ) => (∑ i, WJ (z i)) / net.accuracy :=
      (Finset.measurable_fun_sum _ fun i _ => hJm.comp (measurable_pi_apply i)).div_const _
    exact measurableSet_le measurable_const (((this.ennreal_toReal).sub measurable_const).abs)
  have mC : MeasurableSet SC := by
    have : Measurable fun z : Fin net.accuracy → (Nat → ℝ) => (∑ i, WC (z i)) / net.accuracy :=
      (Finset.measurable_fun_sum _ fun i _ => hCm.comp (measurable_pi_apply i)).div_const _
    exact measurableSet_le measurable_const (((this.ennreal_toReal).sub measurable_const).abs)
  have hn : (net.accuracy : ℝ) ≠ 0 := by exact_mod_cast hacc
  have hpt : ∀ z y : Fin net.accuracy → (Nat → ℝ),
      ({q : ℝ≥0∞ | ε ≤ |q.toReal - a / b|}.indicator (fun _ => 1)
        ((∑ i, WJ (z i)) / ∑ i, WC (y i)) : ℝ≥0∞)
        ≤ SJ.indicator (fun _ => 1) z + SC.indicator (fun _ => 1) y := by
    intro z y
    by_cases h1 : z ∈ SJ
    · rw [Set.indicator_of_mem h1]
      exact (Set.indicator_le_self' (fun _ _ => zero_le) _).trans (le_add_right le_rfl)
    by_cases h2 : y ∈ SC
    · rw [Set.indicator_of_mem h2]
      exact (Set.indicator_le_self' (fun _ _ => zero_le) _).trans (le_add_left le_rfl)
    rw [Set.indicator_of_notMem]
    · exact zero_le
    · simp only [Set.mem_setOf_eq, not_le, hSJ, hSC] at h1 h2 ⊢
      have e : ((∑ i, WJ (z i)) / ∑ i, WC (y i)).toReal
          = ((∑ i, WJ (z i)) / net.accuracy).toReal / ((∑ i, WC (y i)) / net.accuracy).toReal := by
        rw [ENNReal.toReal_div, ENNReal.toReal_div, ENNReal.toReal_div, ENNReal.toReal_natCast,
          div_div_div_cancel_right₀ hn]
      rw [e]
      exact quotient_close hbpos ha hε (h1.trans_le (min_le_right _ _)) h2
  refine (lintegral_mono fun z => lintegral_mono fun y => hpt z y).trans ?_
  have h5 : ∀ z : Fin net.accuracy → (Nat → ℝ), (∫⁻ y, SJ.indicator (fun _ => 1) z
        + SC.indicator (fun _ => 1) y ∂(Measure.pi fun _ : Fin net.accuracy => QC))
      = SJ.indicator (fun _ => 1) z + (Measure.pi fun _ : Fin net.accuracy => QC) SC := by
    intro z
    rw [lintegral_add_left measurable_const, lintegral_const, measure_univ, mul_one]
    congr 1
    exact lintegral_indicator_one mC
  simp only [h5]
  rw [lintegral_add_right _ measurable_const, lintegral_const, measure_univ, mul_one]
  refine add_le_add (le_trans (le_of_eq ?_) kJ) kC
  exact lintegral_indicator_one mJ

/-- **C72.** So the probability of an error of `ε` or more becomes as small as is wished. -/
theorem C72_logpdf_limit {query : Dict Nat ℝ} (hord : ord.Lists)
    (hsim : ∀ c ∈ cgpms, SimKeys c) (hne : constraints ≠ [])
    (hqJ : GoodQuery cgpms [] (query.update constraints) inputs)
    (hsJ : Supplied cgpms [] (query.update constraints) inputs)
    (hq : GoodQuery cgpms [] constraints inputs) (hs : Supplied cgpms [] constraints inputs)
    (hp : ∀ l c, cgpms[l]? = some c → Behaves μ rowid c (draw l) (p l))
    (hposJ : Possible μ cgpms p (query.update constraints)) (hpos : Possible μ cgpms p constraints)
    (x : Nat → ℝ) (hMJ : weightMoment μ cgpms p (query.update constraints) (fillWith x inputs) ≠ ⊤)
    (hM : weightMoment μ cgpms p constraints (fillWith x inputs) ≠ ⊤) {ε η : ℝ} (hε : 0 < ε)
    (hη : 0 < η) :
    ∃ N, ∀ n ≥ N, ∀ net, build ord cgpms (some n) = .ok net →
      (logpdfDraws ord draw rowid net query constraints inputs).E
        ({r | ε ≤ |(mass r).toReal
          - (evidenceDensity μ cgpms p (query.update constraints) (fillWith x inputs)).toReal
            / (evidenceDensity μ cgpms p constraints (fillWith x inputs)).toReal|}.indicator
          fun _ => 1) ≤ ENNReal.ofReal η := by
  set a := (evidenceDensity μ cgpms p (query.update constraints) (fillWith x inputs)).toReal
  set b := (evidenceDensity μ cgpms p constraints (fillWith x inputs)).toReal
  set MJ := (weightMoment μ cgpms p (query.update constraints) (fillWith x inputs)).toReal
  set M := (weightMoment μ cgpms p constraints (fillWith x inputs)).toReal
  have hlim : Filter.Tendsto (fun n : ℕ => MJ / n / margin a b ε ^ 2 + M / n / margin a b ε ^ 2)
      Filter.atTop (nhds 0) := by
    have h1 : ∀ m : ℝ, Filter.Tendsto (fun n : ℕ => m / (n : ℝ)) Filter.atTop (nhds 0) := fun m =>
      tendsto_const_div_atTop_nhds_zero_nat m
    have h2 := ((h1 MJ).div_const (margin a b ε ^ 2)).add ((h1 M).div_const (margin a b ε ^ 2))
    simpa using h2
  obtain ⟨N, hN⟩ := (hlim.eventually (gt_mem_nhds hη)).exists_forall_of_atTop
  refine ⟨max N 1, fun n hn net hb => ?_⟩
  have ha' : net.accuracy = n := (C26_accepted_network ord hord cgpms (some n) net hb).2.1
  have hn1 : n ≠ 0 := by
    have := (le_max_right N 1).trans hn
    omega
  have := (C72_logpdf_given hord hb hsim hne hqJ hsJ hq hs hp hposJ hpos (by rw [ha']; exact hn1) x
    hMJ hM hε).2
  refine this.trans ?_
  rw [ha', ← ENNReal.ofReal_add (by positivity) (by positivity)]
  exact ENNReal.ofReal_le_ofReal (hN n ((le_max_left N 1).trans hn)).le

end Cgpm.Props
