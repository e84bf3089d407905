import Verif.Lemmas.NetBehaves
import Verif.Lemmas.SelfNormalised

/-! The proposal in terms of the joint density. -/
namespace Cgpm.Net
open Cgpm MeasureTheory Classical Cgpm.Props
open scoped ENNReal
variable {R Ω : Type}
variable {μ : Nat → Measure ℝ} [∀ v, SigmaFinite (μ v)] {rowid : R} {cgpms : List (NetCgpm R ℝ Ω)}
  {draw : NetDraws R ℝ Ω} {p : Nat → (Nat → ℝ) → ℝ≥0∞}

theorem evidenceWeight_concerns (hp : ∀ l c, cgpms[l]? = some c → Behaves μ rowid c (draw l) (p l))
    (targets : List Nat) (C : Dict Nat ℝ) :
    Concerns cgpms targets C (evidenceWeight μ cgpms p C.keys.toFinset) := by
  intro y z h
  rw [evidenceWeight_eq, evidenceWeight_eq]
  congr 1
  refine List.map_congr_left fun l hl => ?_
  rw [List.mem_range] at hl
  have hc := List.getElem?_eq_getElem hl
  by_cases hk : ∃ k ∈ cgpms[l].outputs, k ∈ C.keys.toFinset
  · unfold odAt
    simp only [hc]
    refine outDensity_scope (hp l _ hc) _ fun v hv => h v fun hpv => ?_
    obtain ⟨k, hk1, hk2⟩ := hk
    rw [List.mem_toFinset] at hk2
    rcases hv with ⟨-, hv⟩ | hv
    · exact .inl (List.mem_toFinset.mp hv)
    · exact .inr (.constr (List.getElem_mem hl) hk1 hk2 hv)
  · rw [od_empty hp hc hk, od_empty hp hc hk]

/-- Integrals of weighted functions over the proposal. -/
theorem proposal_integral {net : Network R ℝ Ω} (hB : Built cgpms net) {C : Dict Nat ℝ}
    {targets TA : List Nat} (hQ : Query cgpms C TA)
    (hTA : ∀ v, v ∈ TA ↔ (Needed cgpms (· ∈ targets) (· ∈ C.keys) v ∧ v ∉ C.keys ∧
        Produced cgpms v))
    (hp : ∀ l c, cgpms[l]? = some c → Behaves μ rowid c (draw l) (p l)) (hpos : Possible μ cgpms p C)
    {x : Nat → ℝ} {wd : Draws (Dict Nat ℝ × LogP)} (hw : Weighted μ cgpms p C TA net.topo x wd)
    {g : (Nat → ℝ) → ℝ≥0∞} (hg : Measurable g) (hc : Concerns cgpms targets C g) :
    ∫⁻ y, evidenceWeight μ cgpms p C.keys.toFinset y * g y ∂proposal μ cgpms p C TA net.topo x
      = heldIntegral μ cgpms p C x g := by
  have hWm := evidenceWeight_measurable hp C.keys.toFinset
  have hm : Measurable fun y => evidenceWeight μ cgpms p C.keys.toFinset y * g y := hWm.mul hg
  rw [← weighted_hasLaw hB hQ hp hpos hw _ hm]
  unfold heldIntegral
  rw [← hw.joint_concerns hB hQ hTA hp hg hc]
  refine E_congr_always hw.always fun r h => ?_
  rw [h.2.2.2, mul_comm]

theorem proposal_facts {net : Network R ℝ Ω} (hB : Built cgpms net) {C : Dict Nat ℝ}
    {targets TA : List Nat} (hQ : Query cgpms C TA)
    (hTA : ∀ v, v ∈ TA ↔ (Needed cgpms (· ∈ targets) (· ∈ C.keys) v ∧ v ∉ C.keys ∧
        Produced cgpms v))
    (hp : ∀ l c, cgpms[l]? = some c → Behaves μ rowid c (draw l) (p l)) (hpos : Possible μ cgpms p C)
    {x : Nat → ℝ} {wd : Draws (Dict Nat ℝ × LogP)} (hw : Weighted μ cgpms p C TA net.topo x wd) :
    let W := evidenceWeight μ cgpms p C.keys.toFinset
    let Q := proposal μ cgpms p C TA net.topo x
    ∫⁻ y, W y ∂Q = evidenceDensity μ cgpms p C x ∧ ∫⁻ y, W y * W y ∂Q = weightMoment μ cgpms p C x ∧
      ∫⁻ y, W y ∂Q ≠ 0 := by
  intro W Q
  have hWm : Measurable W := evidenceWeight_measurable hp C.keys.toFinset
  have h1 := proposal_integral hB hQ hTA hp hpos hw (g := fun _ => 1) measurable_const
    fun _ _ _ => rfl
  simp only [mul_one] at h1
  refine ⟨h1, proposal_integral hB hQ hTA hp hpos hw hWm (evidenceWeight_concerns hp _ _),
    fun h0 => ?_⟩
  rw [lintegral_eq_zero_iff hWm] at h0
  have hQp := proposal_prob hB hQ hp hpos hw
  have hms : MeasurableSet {y | W y = 0} := hWm (measurableSet_singleton 0)
  have h2 := weighted_hasLaw hB hQ hp hpos hw ({y | W y = 0}.indicator fun _ => 1)
    (measurable_const.indicator hms)
  have h3 : wd.E (fun r => ({y | W y = 0}.indicator (fun _ => 1) (fillWith x r.1) : ℝ≥0∞))
      = wd.E fun _ => 0 := by
    refine E_congr_always hw.always fun r h => ?_
    refine Set.indicator_of_notMem ?_ _
    show W (fillWith x r.1) ≠ 0
    rw [← fillWith_agree h.2.2.1]
    exact hpos _
  have h4 : wd.E (fun _ => (0 : ℝ≥0∞)) = 0 := by
    have := weighted_hasLaw hB hQ hp hpos hw (fun _ => 0) measurable_const
    simpa using this
  rw [h3, h4, lintegral_indicator hms, setLIntegral_one] at h2
  have h5 : Q {y | W y = 0} = 1 := by
    rw [prob_compl_eq_zero_iff hms |>.symm]
    exact h0
  rw [h5] at h2
  exact zero_ne_one h2

end Cgpm.Net
