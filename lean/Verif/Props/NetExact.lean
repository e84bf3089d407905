import Verif.Props.NetOneSample

/-!
Property C72, continued: queries whose evidence is about components without random inputs are answered
exactly, at every accuracy.
-/
namespace Cgpm.Props
open Cgpm Cgpm.Net MeasureTheory
open scoped ENNReal

variable {R Ω : Type}
variable {μ : Nat → Measure ℝ} [∀ v, SigmaFinite (μ v)] {rowid : R} {cgpms : List (NetCgpm R ℝ Ω)}
  {draw : NetDraws R ℝ Ω} {p : Nat → (Nat → ℝ) → ℝ≥0∞} {ord : PyOrder} {acc : Option Nat}
  {net : Network R ℝ Ω} {targets : List Nat} {constraints inputs : Dict Nat ℝ}

theorem evidenceWeight_settled
    (hp : ∀ l c, cgpms[l]? = some c → Behaves μ rowid c (draw l) (p l))
    (hset : Settled cgpms constraints) {y z : Nat → ℝ}
    (h : ∀ v, (Produced cgpms v → v ∈ constraints.keys) → y v = z v) :
    evidenceWeight μ cgpms p constraints.keys.toFinset y
      = evidenceWeight μ cgpms p constraints.keys.toFinset z := by
  rw [evidenceWeight_eq, evidenceWeight_eq]
  congr 1
  refine List.map_congr_left fun l hl => ?_
  rw [List.mem_range] at hl
  have hc := List.getElem?_eq_getElem hl
  by_cases hk : ∃ k ∈ cgpms[l].outputs, k ∈ constraints.keys.toFinset
  · unfold odAt
    simp only [hc]
    refine outDensity_scope (hp l _ hc) _ fun v hv => h v fun hpv => ?_
    obtain ⟨k, hk1, hk2⟩ := hk
    rw [List.mem_toFinset] at hk2
    rcases hv with ⟨-, hv⟩ | hv
    · exact List.mem_toFinset.mp hv
    · exact hset _ (List.getElem_mem hl) ⟨k, hk1, hk2⟩ v hv hpv
  · rw [od_empty hp hc hk, od_empty hp hc hk]

theorem evidenceWeight_fin
    (hp : ∀ l c, cgpms[l]? = some c → Behaves μ rowid c (draw l) (p l)) (S : Finset Nat)
    (y : Nat → ℝ) : evidenceWeight μ cgpms p S y ≠ ⊤ := by
  rw [evidenceWeight_eq]
  refine prod_ne_top fun a ha => ?_
  obtain ⟨l, hl, rfl⟩ := List.mem_map.mp ha
  rw [List.mem_range] at hl
  have hc := List.getElem?_eq_getElem hl
  by_cases hk : ∃ k ∈ cgpms[l].outputs, k ∈ S
  · obtain ⟨k, hk1, hk2⟩ := hk
    obtain ⟨w, -, hw⟩ := (hp l _ hc).logpdf (S ∩ cgpms[l].outputs.toFinset)
      Finset.inter_subset_right ⟨k, by simp [hk1, hk2]⟩ y
    unfold odAt
    simp only [hc]
    rw [outDensity_inter (T := S ∩ cgpms[l].outputs.toFinset) _ _ fun v hv => by simp [hv], ← hw]
    exact ENNReal.ofReal_ne_top
  · rw [od_empty hp hc hk]
    exact ENNReal.one_ne_top

/-- The weight of a sample is then the density of the evidence. -/
theorem settled_facts {C : Dict Nat ℝ} (hB : Built cgpms net)
    {TA : List Nat} (hQ : Query cgpms C TA)
    (hTA : ∀ v, v ∈ TA ↔ (Needed cgpms (· ∈ targets) (· ∈ C.keys) v ∧ v ∉ C.keys ∧
        Produced cgpms v))
    (hp : ∀ l c, cgpms[l]? = some c → Behaves μ rowid c (draw l) (p l)) (hpos : Possible μ cgpms p C)
    {x : Nat → ℝ} {wd : Draws (Dict Nat ℝ × LogP)} (hw : Weighted μ cgpms p C TA net.topo x wd)
    (hset : Settled cgpms C) :
    (∀ᵐ y ∂proposal μ cgpms p C TA net.topo x,
      evidenceWeight μ cgpms p C.keys.toFinset y = evidenceDensity μ cgpms p C x) ∧
    evidenceDensity μ cgpms p C x ≠ 0 ∧ evidenceDensity μ cgpms p C x ≠ ⊤ := by
  haveI := proposal_prob hB hQ hp hpos hw
  have hWm := evidenceWeight_measurable hp C.keys.toFinset
  set w := evidenceWeight μ cgpms p C.keys.toFinset (fillWith x C) with hwdef
  have h1 : ∀ᵐ y ∂proposal μ cgpms p C TA net.topo x,
      evidenceWeight μ cgpms p C.keys.toFinset y = w := by
    unfold proposal
    refine (withDensity_absolutelyContinuous _ _).ae_le ?_
    refine (ae_map_iff (p := fun y => evidenceWeight μ cgpms p C.keys.toFinset y = w)
      measurable_updateFinset.aemeasurable (hWm (measurableSet_singleton w))).mpr ?_
    refine Filter.Eventually.of_forall fun z => ?_
    refine evidenceWeight_settled hp hset fun v hv => ?_
    have : v ∉ TA.toFinset := by
      rw [List.mem_toFinset, hTA]
      exact fun h => h.2.1 (hv h.2.2)
    simp [Function.updateFinset, this]
  have h2 : evidenceDensity μ cgpms p C x = w := by
    rw [← (proposal_facts hB hQ hTA hp hpos hw).1, lintegral_congr_ae h1, lintegral_const,
      measure_univ, mul_one]
  rw [h2]
  exact ⟨h1, hpos x, evidenceWeight_fin hp _ _⟩

/-- **C72.** If components with constrained outputs have no random inputs, simulation is exact at every
accuracy: the targets are drawn from the conditional density given the constraints. -/
theorem C72_exact (hord : ord.Lists) (hb : build ord cgpms acc = .ok net)
    (hsim : ∀ c ∈ cgpms, SimKeys c) (hq : GoodQuery cgpms targets constraints inputs)
    (hs : Supplied cgpms targets constraints inputs)
    (hp : ∀ l c, cgpms[l]? = some c → Behaves μ rowid c (draw l) (p l))
    (hpos : Possible μ cgpms p constraints) (hset : Settled cgpms constraints)
    (hacc : net.accuracy ≠ 0) (x : Nat → ℝ) {g : (Nat → ℝ) → ℝ≥0∞} (hg : Measurable g)
    (hloc : ∀ y z : Nat → ℝ, (∀ v ∈ targets, y v = z v) → g y = g z) :
    (simulateDraws ord draw rowid net targets constraints inputs).E
        (fun d => g (fillWith (fillWith x inputs) d))
      = conditionalMean μ cgpms p constraints (fillWith x inputs) g := by
  have hB := built_of_build hord hb
  obtain ⟨TA, hQ, hTA, hw⟩ := weighted_facts hord hB hsim hq hs hp
  haveI := proposal_prob hB hQ hp hpos (hw x)
  have ht : ∀ t ∈ targets, t ∈ TA := fun t h =>
    (hTA t).mpr ⟨.target h, hq.disjoint t h, hq.produced t h⟩
  obtain ⟨h1, h0, htop⟩ := settled_facts hB hQ hTA hp hpos (hw x) hset
  have h2 := proposal_integral hB hQ hTA hp hpos (hw x) hg fun y z h => hloc y z fun v hv =>
    h v fun _ => .inr (.target hv)
  rw [simulate_E hB hp hpos hacc hQ ht (hw x) hg hloc]
  unfold conditionalMean
  generalize evidenceDensity μ cgpms p constraints (fillWith x inputs) = Z at *
  rw [← h2]
  generalize proposal μ cgpms p constraints TA net.topo (fillWith x inputs) = Q at *
  generalize evidenceWeight μ cgpms p constraints.keys.toFinset = W at *
  have h3 : ∫⁻ y, W y * g y ∂Q = Z * ∫⁻ y, g y ∂Q := by
    rw [← lintegral_const_mul _ hg]
    refine lintegral_congr_ae ?_
    filter_upwards [h1] with y hy
    rw [hy]
  rw [h3, mul_comm, mul_div_assoc, ENNReal.div_self h0 htop, mul_one, ← lintegral_mean Q hg hacc]
  refine lintegral_congr_ae ?_
  filter_upwards [pi_ae h1 net.accuracy] with z hz
  simp only [hz, Finset.sum_const, Finset.card_univ, Fintype.card_fin, nsmul_eq_mul]
  rw [← Finset.mul_sum, mul_comm (net.accuracy : ℝ≥0∞), ENNReal.mul_div_mul_left _ _ h0 htop]

/-- **C72.** Likewise `logpdf` reports the density of the targets, without error. -/
theorem C72_logpdf_exact {query : Dict Nat ℝ} (hord : ord.Lists) (hb : build ord cgpms acc = .ok net)
    (hsim : ∀ c ∈ cgpms, SimKeys c) (hq : GoodQuery cgpms [] query inputs)
    (hs : Supplied cgpms [] query inputs)
    (hp : ∀ l c, cgpms[l]? = some c → Behaves μ rowid c (draw l) (p l))
    (hpos : Possible μ cgpms p query) (hset : Settled cgpms query)
    (hacc : net.accuracy ≠ 0) (x : Nat → ℝ) {F : ℝ≥0∞ → ℝ≥0∞} (hF : Measurable F) :
    (logpdfDraws ord draw rowid net query [] inputs).E (fun r => F (mass r))
      = F (evidenceDensity μ cgpms p query (fillWith x inputs)) := by
  have hB := built_of_build hord hb
  obtain ⟨TA, hQ, hTA, hw⟩ := weighted_facts hord hB hsim hq hs hp
  haveI := proposal_prob hB hQ hp hpos (hw x)
  obtain ⟨h1, h0, htop⟩ := settled_facts hB hQ hTA hp hpos (hw x) hset
  rw [logpdf_E_plain hB hp hpos hacc hQ (hw x) hF]
  generalize evidenceDensity μ cgpms p query (fillWith x inputs) = Z at *
  have h2 : ∫⁻ _ : Fin net.accuracy → (Nat → ℝ), F Z
      ∂(Measure.pi fun _ : Fin net.accuracy => proposal μ cgpms p query TA net.topo (fillWith x inputs))
      = F Z := by rw [lintegral_const, measure_univ, mul_one]
  refine Eq.trans (lintegral_congr_ae ?_) h2
  filter_upwards [pi_ae h1 net.accuracy] with z hz
  simp only [hz, Finset.sum_const, Finset.card_univ, Fintype.card_fin, nsmul_eq_mul]
  have hn : (net.accuracy : ℝ≥0∞) ≠ 0 := by exact_mod_cast hacc
  rw [mul_comm, mul_div_assoc, ENNReal.div_self hn (ENNReal.natCast_ne_top _), mul_one]

/-- **C72.** Likewise `logpdf` reports the conditional density of the targets given the constraints,
without error. -/
theorem C72_logpdf_given_exact {query : Dict Nat ℝ} (hord : ord.Lists)
    (hb : build ord cgpms acc = .ok net)
    (hsim : ∀ c ∈ cgpms, SimKeys c) (hne : constraints ≠ [])
    (hqJ : GoodQuery cgpms [] (query.update constraints) inputs)
    (hsJ : Supplied cgpms [] (query.update constraints) inputs)
    (hq : GoodQuery cgpms [] constraints inputs) (hs : Supplied cgpms [] constraints inputs)
    (hp : ∀ l c, cgpms[l]? = some c → Behaves μ rowid c (draw l) (p l))
    (hposJ : Possible μ cgpms p (query.update constraints)) (hpos : Possible μ cgpms p constraints)
    (hsetJ : Settled cgpms (query.update constraints)) (hset : Settled cgpms constraints)
    (hacc : net.accuracy ≠ 0) (x : Nat → ℝ) {F : ℝ≥0∞ → ℝ≥0∞} (hF : Measurable F) :
    (logpdfDraws ord draw rowid net query constraints inputs).E (fun r => F (mass r))
      = F (evidenceDensity μ cgpms p (query.update constraints) (fillWith x inputs)
          / evidenceDensity μ cgpms p constraints (fillWith x inputs)) := by
  have hB := built_of_build hord hb
  obtain ⟨TJ, hQJ, hTJ, hwJ⟩ := weighted_facts hord hB hsim hqJ hsJ hp
  obtain ⟨TC, hQC, hTC, hwC⟩ := weighted_facts hord hB hsim hq hs hp
  haveI := proposal_prob hB hQJ hp hposJ (hwJ x)
  haveI := proposal_prob hB hQC hp hpos (hwC x)
  obtain ⟨j1, j0, jt⟩ := settled_facts hB hQJ hTJ hp hposJ (hwJ x) hsetJ
  obtain ⟨c1, c0, ct⟩ := settled_facts hB hQC hTC hp hpos (hwC x) hset
  rw [logpdf_E_cond hB hne hp hposJ hpos hacc hQJ hQC (hwJ x) (hwC x) hF]
  generalize evidenceDensity μ cgpms p (query.update constraints) (fillWith x inputs) = A at *
  generalize evidenceDensity μ cgpms p constraints (fillWith x inputs) = Z at *
  have hn : (net.accuracy : ℝ≥0∞) ≠ 0 := by exact_mod_cast hacc
  have hJ : ∀ᵐ z ∂(Measure.pi fun _ : Fin net.accuracy =>
      proposal μ cgpms p (query.update constraints) TJ net.topo (fillWith x inputs)),
      (∫⁻ y, F ((∑ i, evidenceWeight μ cgpms p (query.update constraints).keys.toFinset (z i))
            / ∑ i, evidenceWeight μ cgpms p constraints.keys.toFinset (y i))
          ∂(Measure.pi fun _ : Fin net.accuracy =>
            proposal μ cgpms p constraints TC net.topo (fillWith x inputs))) = F (A / Z) := by
    filter_upwards [pi_ae j1 net.accuracy] with z hz
    have h2 : ∫⁻ _ : Fin net.accuracy → (Nat → ℝ), F (A / Z)
        ∂(Measure.pi fun _ : Fin net.accuracy =>
          proposal μ cgpms p constraints TC net.topo (fillWith x inputs)) = F (A / Z) := by
      rw [lintegral_const, measure_univ, mul_one]
    refine Eq.trans (lintegral_congr_ae ?_) h2
    filter_upwards [pi_ae c1 net.accuracy] with y hy
    simp only [hz, hy, Finset.sum_const, Finset.card_univ, Fintype.card_fin, nsmul_eq_mul]
    rw [ENNReal.mul_div_mul_left _ _ hn (ENNReal.natCast_ne_top _)]
  rw [lintegral_congr_ae hJ, lintegral_const, measure_univ, mul_one]

/-- The hypotheses are met: in the network of the coin and its copy, the coin is given and the copy
asked for. -/
example : Settled flipNet [(0, 1)] ∧ Possible (fun _ => coinBase) flipNet flipDensity [(0, 1)] ∧
    ¬ Settled flipNet [(1, 1)] := by
  refine ⟨?_, ?_, ?_⟩
  · intro c hc ho i hi _
    simp only [flipNet, List.mem_cons, List.not_mem_nil, or_false] at hc
    rcases hc with rfl | rfl
    · simp [coinNet] at hi
    · simp [coinNet, Dict.keys] at ho
  · intro x
    have he : (Dict.keys [(0, (1 : ℝ))]).toFinset = {0} := rfl
    have hlen : flipNet.length = 2 := rfl
    have h1 := od_empty flip_behaves (S := {0}) (l := 1) rfl (by simp [coinNet])
      (fillWith x [(0, 1)])
    have h0 : odAt (fun _ => coinBase) flipNet flipDensity {0} 0 (fillWith x [(0, 1)])
        = coinDensity 0 (fun _ => 1 / 2) (fillWith x [(0, 1)]) := by
      have : odAt (fun _ => coinBase) flipNet flipDensity {0} 0
        = outDensity (fun _ => coinBase) [0] (flipDensity 0) {0} := rfl
      rw [this]
      unfold outDensity
      have he : ([0] : List Nat).toFinset \ {0} = ∅ := by simp
      rw [he, lmarginal_empty]
      rfl
    rw [he, evidenceWeight_eq, hlen]
    simp only [List.range_succ, List.range_zero, List.nil_append, List.map_append, List.map_cons,
      List.map_nil, List.prod_append, List.prod_cons, List.prod_nil, mul_one]
    rw [h0, h1, mul_one]
    unfold coinDensity
    rw [Ne, ENNReal.ofReal_eq_zero, not_le]
    split <;> norm_num
  · intro h
    have := h (coinNet 1 [0] copyProb) (by simp [flipNet]) ⟨1, by simp [coinNet], by simp [Dict.keys]⟩ 0
      (by simp [coinNet]) ⟨coinNet 0 [] fun _ => 1 / 2, by simp [flipNet], by simp [coinNet]⟩
    simp [Dict.keys] at this

end Cgpm.Props
