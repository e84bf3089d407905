import Verif.Lemmas.NetDrawsLogpdf

/-! From the components in their order of evaluation to the joint density. -/
namespace Cgpm.Net
open Cgpm MeasureTheory Classical Cgpm.Props
open scoped ENNReal
variable {R Ω : Type}
variable {μ : Nat → Measure ℝ} [∀ v, SigmaFinite (μ v)] {rowid : R} {cgpms : List (NetCgpm R ℝ Ω)}
  {draw : NetDraws R ℝ Ω} {p : Nat → (Nat → ℝ) → ℝ≥0∞}

omit [∀ v, SigmaFinite (μ v)] in
theorem jointDensity_topo {net : Network R ℝ Ω} (hB : Built cgpms net) (x : Nat → ℝ) :
    (net.topo.map fun l => p l x).prod = jointDensity cgpms p x := by
  unfold jointDensity
  rw [(hB.perm.map _).prod_eq, Finset.prod_eq_multiset_prod]
  rfl

omit [∀ v, SigmaFinite (μ v)] in
theorem allOutputs_topo {net : Network R ℝ Ω} (hB : Built cgpms net) :
    (net.topo.flatMap (outsAt cgpms)).toFinset = allOutputs cgpms := by
  ext v
  unfold allOutputs
  rw [List.mem_toFinset, List.mem_toFinset, List.mem_flatMap, List.mem_flatMap]
  constructor
  · rintro ⟨l, -, hv⟩
    unfold outsAt at hv
    cases h : cgpms[l]? with
    | none => rw [h] at hv; cases hv
    | some c => rw [h] at hv; exact ⟨c, List.mem_of_getElem? h, hv⟩
  · rintro ⟨c, hc, hv⟩
    obtain ⟨l, hl⟩ := List.mem_iff_getElem?.mp hc
    refine ⟨l, ?_, by unfold outsAt; rw [hl]; exact hv⟩
    rw [hB.perm.mem_iff, List.mem_range]
    exact (List.getElem?_eq_some_iff.mp hl).1

/-- The law of a weighted sample in terms of the joint density. -/
theorem Weighted.joint {net : Network R ℝ Ω} (hB : Built cgpms net) {C : Dict Nat ℝ} {TA : List Nat}
    (hQ : Query cgpms C TA) (hp : ∀ l c, cgpms[l]? = some c → Behaves μ rowid c (draw l) (p l))
    {x : Nat → ℝ} {wd : Draws (Dict Nat ℝ × LogP)} (hw : Weighted μ cgpms p C TA net.topo x wd)
    {g : (Nat → ℝ) → ℝ≥0∞} (hg : Measurable g)
    (hloc : ∀ y z : Nat → ℝ, (∀ v, ¬ (Produced cgpms v ∧ v ∉ C.keys ∧ v ∉ TA) → y v = z v) →
      g y = g z) :
    (wd.E fun r => g (fillWith x r.1) * ENNReal.ofReal (pr r.2))
      = (∫⋯∫⁻_(allOutputs cgpms \ C.keys.toFinset), (fun y => g y * jointDensity cgpms p y) ∂μ)
          (fillWith x C) := by
  rw [hw.law g hg, future_prune hB hp hQ hg hloc net.topo [] rfl, allOutputs_topo hB]
  simp only [jointDensity_topo hB]

theorem Weighted.joint_concerns {net : Network R ℝ Ω} (hB : Built cgpms net) {C : Dict Nat ℝ}
    {targets TA : List Nat} (hQ : Query cgpms C TA)
    (hTA : ∀ v, v ∈ TA ↔ (Needed cgpms (· ∈ targets) (· ∈ C.keys) v ∧ v ∉ C.keys ∧
        Produced cgpms v))
    (hp : ∀ l c, cgpms[l]? = some c → Behaves μ rowid c (draw l) (p l))
    {x : Nat → ℝ} {wd : Draws (Dict Nat ℝ × LogP)} (hw : Weighted μ cgpms p C TA net.topo x wd)
    {g : (Nat → ℝ) → ℝ≥0∞} (hg : Measurable g) (hc : Concerns cgpms targets C g) :
    (wd.E fun r => g (fillWith x r.1) * ENNReal.ofReal (pr r.2))
      = (∫⋯∫⁻_(allOutputs cgpms \ C.keys.toFinset), (fun y => g y * jointDensity cgpms p y) ∂μ)
          (fillWith x C) := by
  refine hw.joint hB hQ hp hg fun y z h => hc y z fun v hv => h v ?_
  rintro ⟨h1, h2, h3⟩
  rcases hv h1 with h | h
  · exact h2 h
  · exact h3 ((hTA v).mpr ⟨h, h2, h1⟩)

/-- Without constraints the values are worth 1. -/
theorem evidenceWeight_nil (hp : ∀ l c, cgpms[l]? = some c → Behaves μ rowid c (draw l) (p l))
    (x : Nat → ℝ) : evidenceWeight μ cgpms p ∅ x = 1 := by
  rw [evidenceWeight_eq]
  refine List.prod_eq_one fun a ha => ?_
  obtain ⟨l, hl, rfl⟩ := List.mem_map.mp ha
  rw [List.mem_range] at hl
  exact od_empty hp (List.getElem?_eq_getElem hl) (by simp) x

theorem possible_nil (hp : ∀ l c, cgpms[l]? = some c → Behaves μ rowid c (draw l) (p l)) :
    Possible μ cgpms p [] := by
  intro x
  have : (Dict.keys ([] : Dict Nat ℝ)).toFinset = ∅ := rfl
  rw [this, evidenceWeight_nil hp]
  exact one_ne_zero

theorem fillWith_nil (x : Nat → ℝ) : fillWith x [] = x := rfl

/-- The mean of a function of independent draws. -/
theorem lintegral_mean {X : Type} [MeasurableSpace X] (Q : Measure X) [IsProbabilityMeasure Q]
    {f : X → ℝ≥0∞} (hf : Measurable f) {n : Nat} (hn : n ≠ 0) :
    ∫⁻ z, (∑ i, f (z i)) / n ∂(Measure.pi fun _ : Fin n => Q) = ∫⁻ y, f y ∂Q := by
  simp only [div_eq_mul_inv]
  have hm : ∀ i : Fin n, Measurable fun z : Fin n → X => f (z i) :=
    fun i => hf.comp (measurable_pi_apply i)
  rw [lintegral_mul_const _ (Finset.measurable_fun_sum _ fun i _ => hm i),
    lintegral_finset_sum _ fun i _ => hm i]
  have : ∀ i : Fin n, ∫⁻ z : Fin n → X, f (z i) ∂(Measure.pi fun _ : Fin n => Q) = ∫⁻ y, f y ∂Q :=
    fun i => (measurePreserving_eval (fun _ : Fin n => Q) i).lintegral_comp hf
  simp only [this, Finset.sum_const, Finset.card_univ, Fintype.card_fin, nsmul_eq_mul]
  rw [mul_comm, ← mul_assoc, ENNReal.inv_mul_cancel (by exact_mod_cast hn)
    (ENNReal.natCast_ne_top n), one_mul]

end Cgpm.Net
