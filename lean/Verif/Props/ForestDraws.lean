import Verif.Spec.RegDraws
import Verif.Props.Forest
import Verif.Props.RegDraws
import Verif.Lemmas.NetBehaves
import Verif.Lemmas.PrimSimulateMore

/-!
Property C74 for random forests.
-/
namespace Cgpm.Props
open Cgpm Cgpm.Net Cgpm.Spec Cgpm.Spec.Forest MeasureTheory
open scoped ENNReal

variable {o : RForest}

theorem categoryBase_lintegral (k : Nat) (f : ℝ → ℝ≥0∞) :
    ∫⁻ t, f t ∂categoryBase k = ∑ j ∈ Finset.range k, f j := by
  unfold categoryBase
  rw [lintegral_finset_sum_measure]
  simp

instance (k : Nat) : IsFiniteMeasure (categoryBase k) := by
  refine ⟨?_⟩
  rw [← lintegral_one, categoryBase_lintegral]
  simp

theorem forest_given (hV : Valid o) (x : Nat → ℝ) :
    Given o (lookVals o.g.inputs (lookAt o.g.inputs.toFinset x)) ∧
    covariates (lookVals o.g.inputs (lookAt o.g.inputs.toFinset x))
      = (o.g.inputs.mergeSort (· ≤ ·)).map x := by
  have hget : ∀ c ∈ o.g.inputs, Dict.get? (lookVals o.g.inputs (lookAt o.g.inputs.toFinset x)) c
      = some (some (x c)) := by
    intro c hc
    rw [lookVals_get?, if_pos hc]
    simp [lookAt, hc]
  refine ⟨⟨by rw [lookVals_keys]; exact hV.nodup, fun c => by rw [lookVals_keys], fun c hc => ?_⟩, ?_⟩
  · rw [lookVals_keys] at hc
    exact ⟨_, hget c hc⟩
  · unfold covariates
    rw [lookVals_keys]
    refine List.map_congr_left fun c hc => ?_
    rw [hget c (List.mem_mergeSort.mp hc)]
    rfl

/-- **C74.** What `simulate` of a random forest draws, as a program that draws from the generator. -/
theorem C74_forest_simulate (hV : Valid o) {r : Option Row} (hr : ∀ s, r = some s → s ∉ rows o)
    {ins : Vals} (hI : Given o ins) (g : Dict Col Nat → ℝ≥0∞) :
    (Draws.ofRand (o.simulateOne r [o.g.output] [] (some ins))).E g
      = ∑ x ∈ Finset.range o.g.k, ENNReal.ofReal (density o (covariates ins) x) * g [(o.g.output, x)] := by
  have hy := RForest.covariates_length hV hI
  have h1 : Net.collect (fun x : Nat => o.logpdf r [(o.g.output, some (x : ℝ))] [] (some ins))
      (List.range o.g.k) = .ok ((List.range o.g.k).map fun x => Knn.logOf (density o (covariates ins) x)) :=
    Kde.collect_map fun x hx => forest_logpdf hV hr hI (List.mem_range.mp hx)
  have hsum : ((List.range o.g.k).map fun x => density o (covariates ins) x).sum = 1 := by
    rw [← (C67_normalised hV hI).2]; rfl
  have h2 := fun g' => Draws.E_logPflip (l := List.range o.g.k)
    (a := fun x => Knn.logOf (density o (covariates ins) x))
    (p := fun x => density o (covariates ins) x) id (fun i _ => density_nonneg hV hy i)
    (fun i _ => Knn.isLog_logOf (density_nonneg hV hy i)) (by rw [hsum]; exact one_pos) g'
  unfold RForest.simulateOne
  rw [if_neg (by simp), if_neg (by simp), (forest_unseen hr).2]
  simp only
  rw [h1, Draws.ofRand_bind, Draws.E_bind]
  change (Draws.ofRand ((Rand.logPflip _ (List.range o.g.k)).bind _)).E g = _
  rw [Draws.ofRand_bind, Draws.E_bind]
  rw [List.map_id] at h2
  rw [h2, hsum]
  simp only [div_one]
  rfl

/-- The inputs as a vector. -/
theorem sorted_ofFn (hV : Valid o) (x : Nat → ℝ) : (o.g.inputs.mergeSort (· ≤ ·)).map x
    = List.ofFn fun i : Fin o.g.p => x ((o.g.inputs.mergeSort (· ≤ ·)).getD i 0) := by
  refine List.ext_getElem (by simp [hV.inputs]) fun i h1 h2 => ?_
  have : i < (o.g.inputs.mergeSort (· ≤ ·)).length := by simpa using h1
  simp only [List.getElem_map, List.getElem_ofFn]
  rw [List.getD_eq_getElem _ _ this]

theorem forest_density_measurable (hV : Valid o) (hm : Forest.Regular o) (j : Nat) :
    Measurable fun x : Nat → ℝ => density o ((o.g.inputs.mergeSort (· ≤ ·)).map x) j := by
  unfold density chance
  cases hc : o.clf with
  | none => exact measurable_const
  | some c =>
    simp only
    refine measurable_const.add (measurable_const.mul ?_)
    unfold share
    by_cases hj : j ∈ c.classes
    · simp only [hj, if_true, sorted_ofFn hV]
      exact (hm c hc _).comp (measurable_pi_iff.mpr fun i => measurable_pi_apply _)
    · simp only [hj, if_false]
      exact measurable_const

theorem forest_outputDensity_at (o : RForest) {x : Nat → ℝ} {j : Nat} (hj : j < o.g.k)
    (hx : x o.g.output = j) : Forest.outputDensity o x
      = ENNReal.ofReal (density o ((o.g.inputs.mergeSort (· ≤ ·)).map x) j) := by
  unfold Forest.outputDensity
  rw [Finset.sum_eq_single j]
  · rw [if_pos hx]
  · intro i _ hi
    rw [if_neg]
    rw [hx]
    exact_mod_cast hi.symm
  · intro h; exact absurd (Finset.mem_range.mpr hj) h

/-- **C74.** A random forest keeps the contract of a component of a network: the probabilities of its
categories add up to one, `logpdf` reports them, and `simulate` draws from them. -/
theorem C74_forest {μ : Nat → Measure ℝ} [∀ v, SigmaFinite (μ v)] (hV : Valid o)
    (hm : Forest.Regular o) {rowid : Option Row} (hr : ∀ s, rowid = some s → s ∉ rows o)
    (hμ : μ o.g.output = categoryBase o.g.k) :
    Behaves μ rowid (forestNet o) (forestDraws o) (Forest.outputDensity o) := by
  have hout : ∀ (x : Nat → ℝ) (t : ℝ), (o.g.inputs.mergeSort (· ≤ ·)).map
      (Function.update x o.g.output t) = (o.g.inputs.mergeSort (· ≤ ·)).map x := by
    intro x t
    refine List.map_congr_left fun i hi => ?_
    rw [Function.update_of_ne]
    rintro rfl
    exact hV.apart (List.mem_mergeSort.mp hi)
  have hup : ∀ (x : Nat → ℝ) (j : Nat), j < o.g.k →
      Forest.outputDensity o (Function.update x o.g.output j)
        = ENNReal.ofReal (density o ((o.g.inputs.mergeSort (· ≤ ·)).map x) j) := by
    intro x j hj
    rw [forest_outputDensity_at o hj (by simp), hout]
  refine behaves_single (o := o.g.output) rfl ?_ ?_ ?_ ?_ ?_
  · unfold Forest.outputDensity
    refine Finset.measurable_sum _ fun j _ => ?_
    exact Measurable.ite (measurableSet_eq_fun (measurable_pi_apply o.g.output) measurable_const)
      (forest_density_measurable hV hm j).ennreal_ofReal measurable_const
  · intro x y h
    have h1 : x o.g.output = y o.g.output := h _ (.inl rfl)
    have h2 : (o.g.inputs.mergeSort (· ≤ ·)).map x = (o.g.inputs.mergeSort (· ≤ ·)).map y :=
      List.map_congr_left fun i hi => h i (.inr (List.mem_mergeSort.mp hi))
    unfold Forest.outputDensity
    rw [h1, h2]
  · intro x
    rw [hμ, categoryBase_lintegral]
    obtain ⟨hI, hc⟩ := forest_given hV x
    obtain ⟨h0, h1⟩ := C67_normalised hV hI
    rw [hc] at h0 h1
    rw [Finset.sum_congr rfl fun j hj => hup x j (Finset.mem_range.mp hj),
      ← ENNReal.ofReal_sum_of_nonneg fun j _ => h0 j, h1, ENNReal.ofReal_one]
  · intro x
    obtain ⟨hI, hc⟩ := forest_given hV x
    have hv : lookVals [o.g.output] (lookAt {o.g.output} x) = [(o.g.output, some (x o.g.output))] := by
      simp [lookVals, lookAt]
    by_cases hx : ∃ j < o.g.k, x o.g.output = j
    · obtain ⟨j, hj, hxj⟩ := hx
      have h1 := forest_logpdf hV hr hI hj
      rw [← hxj] at h1
      have h0 := (C67_normalised hV hI).1 j
      rw [forest_outputDensity_at o hj hxj, ← hc]
      simp only [forestNet, hv, h1]
      unfold Knn.logOf
      by_cases hp : 0 < density o (covariates (lookVals o.g.inputs (lookAt o.g.inputs.toFinset x))) j
      · refine ⟨_, by rw [if_pos hp], ?_⟩
        show ENNReal.ofReal (Real.exp (Real.log _)) = _
        rw [Real.exp_log hp]
      · have h00 : density o (covariates (lookVals o.g.inputs (lookAt o.g.inputs.toFinset x))) j = 0 :=
          le_antisymm (not_lt.mp hp) h0
        refine ⟨⊥, by rw [if_neg hp], ?_⟩
        rw [h00]
        show ENNReal.ofReal 0 = _
        rfl
    · have h1 := (C67_logpdf hV hr hI).2 (x o.g.output) fun j hj e => hx ⟨j, hj, e⟩
      refine ⟨⊥, by simp only [forestNet, hv, h1], ?_⟩
      unfold Forest.outputDensity
      rw [Finset.sum_eq_zero fun j hj => if_neg fun e => hx ⟨j, Finset.mem_range.mp hj, e⟩]
      show ENNReal.ofReal 0 = 0
      exact ENNReal.ofReal_zero
  · intro x g hg
    obtain ⟨hI, hc⟩ := forest_given hV x
    have hv : lookVals [o.g.output] (lookAt ∅ x) = [] := by
      simp [lookVals, lookAt]
    have hE := C74_forest_simulate hV hr hI fun d => (Draws.ofExcept ((forestNet o).simulate
        (fun v => ((d.get? v).getD 0 : Nat)) rowid [o.g.output] (lookAt ∅ x)
        (lookAt (forestNet o).inputs.toFinset x))).E fun d => g (fillWith x d)
    unfold forestDraws
    rw [hv, Draws.E_bind, Draws.E_bind, hμ, categoryBase_lintegral]
    refine hE.trans (Finset.sum_congr rfl fun j hj => ?_)
    rw [hup x j (Finset.mem_range.mp hj), hc, mul_comm]
    congr 1
    show g (fillWith x [(o.g.output, (((Dict.get? [(o.g.output, j)] o.g.output).getD 0 : Nat) : ℝ))]) = _
    rw [fillWith_single]
    simp [Dict.get?]

end Cgpm.Props
