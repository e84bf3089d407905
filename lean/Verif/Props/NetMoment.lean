import Verif.Lemmas.NetConverge
import Verif.Lemmas.NetDrawsJoint

/-!
Property C72: the condition under which answers approach the conditional law, a finite second moment of
the importance weight, in terms of the components.
-/
namespace Cgpm.Props
open Cgpm Cgpm.Net MeasureTheory
open scoped ENNReal

variable {R Ω : Type}
variable {μ : Nat → Measure ℝ} [∀ v, SigmaFinite (μ v)] {rowid : R} {cgpms : List (NetCgpm R ℝ Ω)}
  {draw : NetDraws R ℝ Ω} {p : Nat → (Nat → ℝ) → ℝ≥0∞} {ord : PyOrder} {acc : Option Nat}
  {net : Network R ℝ Ω} {targets : List Nat} {constraints inputs : Dict Nat ℝ}

/-- The weights have a second moment if they are bounded where the constraints hold and variables that no
component produces have the values given. -/
theorem moment_le (hord : ord.Lists) (hb : build ord cgpms acc = .ok net)
    (hsim : ∀ c ∈ cgpms, SimKeys c) (hq : GoodQuery cgpms targets constraints inputs)
    (hs : Supplied cgpms targets constraints inputs)
    (hp : ∀ l c, cgpms[l]? = some c → Behaves μ rowid c (draw l) (p l))
    (hpos : Possible μ cgpms p constraints) (x : Nat → ℝ) {B : ℝ≥0∞}
    (h1 : ∀ y : Nat → ℝ, (∀ v, v ∈ constraints.keys ∨ ¬ Produced cgpms v →
        y v = fillWith (fillWith x inputs) constraints v) →
      evidenceWeight μ cgpms p constraints.keys.toFinset y ≤ B) :
    weightMoment μ cgpms p constraints (fillWith x inputs) ≤ B * B := by
  have hB := built_of_build hord hb
  obtain ⟨TA, hQ, hTA, hw⟩ := weighted_facts hord hB hsim hq hs hp
  have := proposal_prob hB hQ hp hpos (hw x)
  rw [← (proposal_facts hB hQ hTA hp hpos (hw x)).2.1]
  have hWm := evidenceWeight_measurable hp constraints.keys.toFinset
  have hae : ∀ᵐ y ∂proposal μ cgpms p constraints TA net.topo (fillWith x inputs),
      evidenceWeight μ cgpms p constraints.keys.toFinset y ≤ B := by
    unfold proposal
    refine (withDensity_absolutelyContinuous _ _).ae_le ?_
    refine (ae_map_iff (p := fun y => evidenceWeight μ cgpms p constraints.keys.toFinset y ≤ B)
      measurable_updateFinset.aemeasurable (hWm measurableSet_Iic)).mpr ?_
    refine Filter.Eventually.of_forall fun z => h1 _ fun v hv => ?_
    unfold Function.updateFinset
    rw [dif_neg]
    rw [List.mem_toFinset]
    intro h
    rcases hv with hv | hv
    · exact hQ.disj v h hv
    · exact hv (hQ.prod v h)
  calc ∫⁻ y, evidenceWeight μ cgpms p constraints.keys.toFinset y
        * evidenceWeight μ cgpms p constraints.keys.toFinset y
          ∂proposal μ cgpms p constraints TA net.topo (fillWith x inputs)
      ≤ ∫⁻ _, B * B ∂proposal μ cgpms p constraints TA net.topo (fillWith x inputs) :=
        lintegral_mono_ae (hae.mono fun y h => mul_le_mul' h h)
    _ = B * B := by simp

/-- **C72.** The weights have a finite second moment, as the limit theorems of C72 and C73 require, if
every component with constrained outputs has a bounded density, or has no random inputs. -/
theorem C72_moment (hord : ord.Lists) (hb : build ord cgpms acc = .ok net)
    (hsim : ∀ c ∈ cgpms, SimKeys c) (hq : GoodQuery cgpms targets constraints inputs)
    (hs : Supplied cgpms targets constraints inputs)
    (hp : ∀ l c, cgpms[l]? = some c → Behaves μ rowid c (draw l) (p l))
    (hpos : Possible μ cgpms p constraints)
    (hbnd : ∀ l c, cgpms[l]? = some c → (∃ o ∈ c.outputs, o ∈ constraints.keys) →
      (∀ i ∈ c.inputs, Produced cgpms i → i ∈ constraints.keys) ∨
      ∃ B, B ≠ ⊤ ∧ ∀ y, outDensity μ c.outputs (p l) constraints.keys.toFinset y ≤ B)
    (x : Nat → ℝ) : weightMoment μ cgpms p constraints (fillWith x inputs) ≠ ⊤ := by
  have key : ∀ l, ∃ B, B ≠ ⊤ ∧ ∀ y : Nat → ℝ, (∀ v, v ∈ constraints.keys ∨ ¬ Produced cgpms v →
      y v = fillWith (fillWith x inputs) constraints v) →
      odAt μ cgpms p constraints.keys.toFinset l y ≤ B := by
    intro l
    cases hc : cgpms[l]? with
    | none =>
      refine ⟨1, ENNReal.one_ne_top, fun y _ => ?_⟩
      unfold odAt
      simp only [hc]
      exact le_rfl
    | some c =>
      by_cases ho : ∃ o ∈ c.outputs, o ∈ constraints.keys
      · rcases hbnd l c hc ho with hset | ⟨B, hB, hle⟩
        · refine ⟨odAt μ cgpms p constraints.keys.toFinset l
            (fillWith (fillWith x inputs) constraints), ?_, fun y hy => le_of_eq ?_⟩
          · unfold odAt
            simp only [hc]
            have hi := outDensity_inter (μ := μ) (S := constraints.keys.toFinset)
              (T := constraints.keys.toFinset ∩ c.outputs.toFinset) c.outputs (p l) fun v hv => by
                simp [hv]
            rw [hi]
            obtain ⟨o, h1, h2⟩ := ho
            obtain ⟨w, -, hw⟩ := (hp l c hc).logpdf
              (constraints.keys.toFinset ∩ c.outputs.toFinset) Finset.inter_subset_right
              ⟨o, by simp [h1, h2]⟩ (fillWith (fillWith x inputs) constraints)
            rw [← hw]
            exact ENNReal.ofReal_ne_top
          · unfold odAt
            simp only [hc]
            refine outDensity_scope (hp l c hc) _ fun v hv => hy v ?_
            rcases hv with hv | hv
            · exact .inl (by simpa using hv.2)
            · by_cases hpr : Produced cgpms v
              · exact .inl (hset v hv hpr)
              · exact .inr hpr
        · refine ⟨B, hB, fun y _ => ?_⟩
          unfold odAt
          simp only [hc]
          exact hle y
      · refine ⟨1, ENNReal.one_ne_top, fun y _ => le_of_eq (od_empty hp hc ?_ y)⟩
        rintro ⟨k, h1, h2⟩
        exact ho ⟨k, h1, by simpa using h2⟩
  choose B hB hle using key
  have hprod : ∀ ls : List Nat, (ls.map B).prod ≠ ⊤ := by
    intro ls
    induction ls with
    | nil => simp
    | cons a t ih => rw [List.map_cons, List.prod_cons]; exact ENNReal.mul_ne_top (hB a) ih
  have := moment_le (B := ((List.range cgpms.length).map B).prod) hord hb hsim hq hs hp hpos x
    fun y hy => by
      rw [evidenceWeight_eq]
      generalize List.range cgpms.length = ls
      induction ls with
      | nil => simp
      | cons a t ih =>
        simp only [List.map_cons, List.prod_cons]
        exact mul_le_mul' (hle a y hy) ih
  exact ne_top_of_le_ne_top (ENNReal.mul_ne_top (hprod _) (hprod _)) this

end Cgpm.Props
