import Verif.Lemmas.CompositeDraws
import Verif.Props.NetExact
import Verif.Props.StateDraws

/-!
Property C73: the law of the queries of a composite State.

A new row of a composite State has a joint density: for every view the prior probability of a cluster
times the density of the values in that cluster, times the densities of the composed models given their
inputs.  `conditionalMean` and `evidenceDensity` (Spec/NetDraws.lean) are its integrals.
-/
namespace Cgpm.Props
open Cgpm Cgpm.State Cgpm.Net MeasureTheory
open scoped ENNReal

section
variable {R Ω : Type}
variable {μ : Nat → Measure ℝ} [∀ v, SigmaFinite (μ v)] {rowid : R} {cgpms : List (NetCgpm R ℝ Ω)}
  {draw : NetDraws R ℝ Ω} {p : Nat → (Nat → ℝ) → ℝ≥0∞} {ord : PyOrder} {acc : Option Nat}
  {net : Network R ℝ Ω} {targets : List Nat} {constraints inputs : Dict Nat ℝ}

/-- The density of evidence about components without random inputs. -/
theorem evidence_settled (hord : ord.Lists) (hb : build ord cgpms acc = .ok net)
    (hsim : ∀ c ∈ cgpms, SimKeys c) (hq : GoodQuery cgpms targets constraints inputs)
    (hs : Supplied cgpms targets constraints inputs)
    (hp : ∀ l c, cgpms[l]? = some c → Behaves μ rowid c (draw l) (p l))
    (hpos : Possible μ cgpms p constraints) (hset : Settled cgpms constraints) (x : Nat → ℝ) :
    evidenceDensity μ cgpms p constraints (fillWith x inputs)
      = evidenceWeight μ cgpms p constraints.keys.toFinset
          (fillWith (fillWith x inputs) constraints) := by
  have hB := built_of_build hord hb
  obtain ⟨TA, hQ, hTA, hw⟩ := weighted_facts hord hB hsim hq hs hp
  have := proposal_prob hB hQ hp hpos (hw x)
  have hWm := evidenceWeight_measurable hp constraints.keys.toFinset
  have h1 : ∀ᵐ y ∂proposal μ cgpms p constraints TA net.topo (fillWith x inputs),
      evidenceWeight μ cgpms p constraints.keys.toFinset y
        = evidenceWeight μ cgpms p constraints.keys.toFinset
          (fillWith (fillWith x inputs) constraints) := by
    unfold proposal
    refine (withDensity_absolutelyContinuous _ _).ae_le ?_
    refine (ae_map_iff (p := fun y => evidenceWeight μ cgpms p constraints.keys.toFinset y = _)
      measurable_updateFinset.aemeasurable (hWm (measurableSet_singleton _))).mpr ?_
    refine Filter.Eventually.of_forall fun z => ?_
    refine evidenceWeight_settled hp hset fun v hv => ?_
    have : v ∉ TA.toFinset := by
      rw [List.mem_toFinset, hTA]
      exact fun h => h.2.1 (hv h.2.2)
    simp [Function.updateFinset, this]
  rw [← (proposal_facts hB hQ hTA hp hpos (hw x)).1, lintegral_congr_ae h1, lintegral_const,
    measure_univ, mul_one]

theorem evidenceWeight_none
    (hp : ∀ l c, cgpms[l]? = some c → Behaves μ rowid c (draw l) (p l)) (y : Nat → ℝ) :
    evidenceWeight μ cgpms p ∅ y = 1 := by
  rw [evidenceWeight_eq]
  refine List.prod_eq_one fun a ha => ?_
  obtain ⟨l, hl, rfl⟩ := List.mem_map.mp ha
  rw [List.mem_range] at hl
  exact od_empty (S := ∅) hp (List.getElem?_eq_getElem hl) (by simp) y

end

variable {P : Prim → Prop} {close : ℝ → ℝ → Bool} {ord : PyOrder} {rowid : Option Row}

/-- **C73.** A view is a component as C71 and C72 ask: `logpdf` reports the density of any of its
variables (the cluster variable and the columns), and `simulate` draws any of them from the conditional
density given any others, for every reachable view and every new row. -/
theorem C73_view {X : (catOf P).Tbl} {v : View (catOf P)} {z : Nat} {μ : Nat → Measure ℝ}
    [∀ c, SigmaFinite (μ c)] (hR : Reachable X v) (hv : SimView μ v z) (hord : ord.Lists)
    (hr : FreshRow v rowid) :
    Behaves μ rowid (viewNet close X ord z v) (viewDraws close X ord z v) (clusterRowDensity v z) :=
  view_behaves (hR.inv (catOf_lawful P)) hv hord hr

variable {cfg : Cfg (catOf P)} {s : State (catOf P)} {ν : Nat → Measure ℝ} [∀ c, SigmaFinite (ν c)]
  {hooked : List Composed} {q : Nat → (Nat → ℝ) → ℝ≥0∞} {targets : List Nat}
  {query constraints inputs : Dict Nat ℝ} {accuracy : Option Nat}

theorem composite_build (hord : ord.Lists) (hw : WellFormed (s.netCgpms close ord hooked))
    (n : Nat) : ∃ net, build ord (s.netCgpms close ord hooked) (some n) = .ok net ∧
      net.accuracy = n := by
  obtain ⟨net, hb⟩ := (C26_accepted_iff ord hord _ (some n)).1 hw
  exact ⟨net, hb, (C26_accepted_network ord hord _ _ net hb).2.1⟩

/-- **C73.** If components with constrained outputs have no random inputs, `simulate` of a composite
State draws the targets from their conditional density given the constraints, at every accuracy: for
every reachable State, all composed models that keep their contract, and every new row. -/
theorem C73_simulate (hR : StateReachable cfg s) (hs : SimState s) (hord : ord.Lists)
    (hr : NewRowId s rowid) (hw : WellFormed (s.netCgpms close ord hooked))
    (hk : ∀ m ∈ hooked, SimKeys m.cgpm)
    (hh : ∀ l m, hooked[l]? = some m → Behaves (rowBase s ν) rowid m.cgpm m.draw (q l))
    (hq : GoodQuery (s.netCgpms close ord hooked) targets constraints inputs)
    (hsup : Supplied (s.netCgpms close ord hooked) targets constraints inputs)
    (hpos : Possible (rowBase s ν) (s.netCgpms close ord hooked) (rowDensities s q) constraints)
    (hset : Settled (s.netCgpms close ord hooked) constraints) (hacc : accuracy ≠ some 0)
    (x : Nat → ℝ) {g : (Nat → ℝ) → ℝ≥0∞} (hg : Measurable g)
    (hloc : ∀ y z : Nat → ℝ, (∀ v ∈ targets, y v = z v) → g y = g z) :
    (s.sampleComposite close ord hooked rowid targets constraints inputs accuracy).E
        (fun d => g (fillWith (fillWith x inputs) d))
      = conditionalMean (rowBase s ν) (s.netCgpms close ord hooked) (rowDensities s q) constraints
          (fillWith x inputs) g := by
  have h := hR.inv (catOf_lawful P)
  obtain ⟨net, hb, ha⟩ := composite_build hord hw (accuracy.getD 1)
  rw [sampleComposite_new hr hq.nodup hq.disjoint hb]
  refine C72_exact hord hb (composite_simKeys hk) hq hsup
    (fun l c hc => composite_behaves h hs hord hr hh l c hc) hpos hset ?_ x hg hloc
  rw [ha]
  cases accuracy with
  | none => simp
  | some n =>
    rintro rfl
    exact hacc rfl

/-- **C73.** With any constraints, what `simulate` of a composite State returns follows the conditional
law as closely as is wished, if the accuracy is large enough: for all functions of the targets with
values in `[0, 1]` at once. -/
theorem C73_simulate_limit (hR : StateReachable cfg s) (hs : SimState s) (hord : ord.Lists)
    (hr : NewRowId s rowid) (hw : WellFormed (s.netCgpms close ord hooked))
    (hk : ∀ m ∈ hooked, SimKeys m.cgpm)
    (hh : ∀ l m, hooked[l]? = some m → Behaves (rowBase s ν) rowid m.cgpm m.draw (q l))
    (hq : GoodQuery (s.netCgpms close ord hooked) targets constraints inputs)
    (hsup : Supplied (s.netCgpms close ord hooked) targets constraints inputs)
    (hpos : Possible (rowBase s ν) (s.netCgpms close ord hooked) (rowDensities s q) constraints)
    (x : Nat → ℝ)
    (hM : weightMoment (rowBase s ν) (s.netCgpms close ord hooked) (rowDensities s q) constraints
      (fillWith x inputs) ≠ ⊤) {ε : ℝ} (hε : 0 < ε) :
    ∃ N, ∀ n ≥ N, ∀ g : (Nat → ℝ) → ℝ≥0∞, Measurable g → (∀ y, g y ≤ 1) →
      (∀ y z : Nat → ℝ, (∀ v ∈ targets, y v = z v) → g y = g z) →
      |((s.sampleComposite close ord hooked rowid targets constraints inputs (some n)).E
          (fun d => g (fillWith (fillWith x inputs) d))).toReal
        - (conditionalMean (rowBase s ν) (s.netCgpms close ord hooked) (rowDensities s q) constraints
            (fillWith x inputs) g).toReal| ≤ ε := by
  have h := hR.inv (catOf_lawful P)
  obtain ⟨N, hN⟩ := C72_simulate_limit hord (composite_simKeys hk) hq hsup
    (fun l c hc => composite_behaves h hs hord hr hh l c hc) hpos x hM hε
  refine ⟨N, fun n hn g hg hg1 hloc => ?_⟩
  obtain ⟨net, hb, -⟩ := composite_build hord hw n
  rw [sampleComposite_new hr hq.nodup hq.disjoint (accuracy := some n) hb]
  exact hN n hn net hb g hg hg1 hloc

/-- **C73.** If components with targets or constraints among their outputs have no random inputs,
`logpdf` of a composite State reports the conditional density of the targets given the constraints,
without error: whatever is drawn, for all functions `F` of the answer. -/
theorem C73_logpdf (hR : StateReachable cfg s) (hs : SimState s) (hord : ord.Lists)
    (hr : NewRowId s rowid) (hw : WellFormed (s.netCgpms close ord hooked))
    (hk : ∀ m ∈ hooked, SimKeys m.cgpm)
    (hh : ∀ l m, hooked[l]? = some m → Behaves (rowBase s ν) rowid m.cgpm m.draw (q l))
    (hd : ∀ c ∈ query.keys, c ∉ constraints.keys)
    (hqJ : GoodQuery (s.netCgpms close ord hooked) [] (query.update constraints) inputs)
    (hsJ : Supplied (s.netCgpms close ord hooked) [] (query.update constraints) inputs)
    (hq : GoodQuery (s.netCgpms close ord hooked) [] constraints inputs)
    (hsup : Supplied (s.netCgpms close ord hooked) [] constraints inputs)
    (hposJ : Possible (rowBase s ν) (s.netCgpms close ord hooked) (rowDensities s q)
      (query.update constraints))
    (hpos : Possible (rowBase s ν) (s.netCgpms close ord hooked) (rowDensities s q) constraints)
    (hsetJ : Settled (s.netCgpms close ord hooked) (query.update constraints))
    (hset : Settled (s.netCgpms close ord hooked) constraints) (hacc : accuracy ≠ some 0)
    (x : Nat → ℝ) {F : ℝ≥0∞ → ℝ≥0∞} (hF : Measurable F) :
    (s.densityComposite close ord hooked rowid query constraints inputs accuracy).E
        (fun r => F (mass r))
      = F (evidenceDensity (rowBase s ν) (s.netCgpms close ord hooked) (rowDensities s q)
            (query.update constraints) (fillWith x inputs)
          / evidenceDensity (rowBase s ν) (s.netCgpms close ord hooked) (rowDensities s q) constraints
            (fillWith x inputs)) := by
  have h := hR.inv (catOf_lawful P)
  obtain ⟨net, hb, ha⟩ := composite_build hord hw (accuracy.getD 1)
  have hB : ∀ l c, (s.netCgpms close ord hooked)[l]? = some c → _ := fun l c hc =>
    composite_behaves h hs hord hr hh l c hc
  have ha0 : net.accuracy ≠ 0 := by
    rw [ha]
    cases accuracy with
    | none => simp
    | some n =>
      rintro rfl
      exact hacc rfl
  rw [densityComposite_new hr hd hb]
  by_cases hne : constraints = []
  · subst hne
    have h1 : query.update [] = query := rfl
    rw [h1] at hqJ hsJ hposJ hsetJ ⊢
    have h2 : evidenceDensity (rowBase s ν) (s.netCgpms close ord hooked) (rowDensities s q) []
        (fillWith x inputs) = 1 :=
      (evidence_settled hord hb (composite_simKeys hk) hq hsup hB hpos hset x).trans
        (evidenceWeight_none hB _)
    rw [h2, div_one]
    exact C72_logpdf_exact hord hb (composite_simKeys hk) hqJ hsJ hB hposJ hsetJ ha0 x hF
  · exact C72_logpdf_given_exact hord hb (composite_simKeys hk) hne hqJ hsJ hq hsup hB hposJ hpos
      hsetJ hset ha0 x hF

/-- **C73.** With any constraints, the density that `logpdf` of a composite State reports is as close to
the conditional density as is wished, with probability as high as is wished, if the accuracy is large
enough. -/
theorem C73_logpdf_limit (hR : StateReachable cfg s) (hs : SimState s) (hord : ord.Lists)
    (hr : NewRowId s rowid) (hw : WellFormed (s.netCgpms close ord hooked))
    (hk : ∀ m ∈ hooked, SimKeys m.cgpm)
    (hh : ∀ l m, hooked[l]? = some m → Behaves (rowBase s ν) rowid m.cgpm m.draw (q l))
    (hne : constraints ≠ []) (hd : ∀ c ∈ query.keys, c ∉ constraints.keys)
    (hqJ : GoodQuery (s.netCgpms close ord hooked) [] (query.update constraints) inputs)
    (hsJ : Supplied (s.netCgpms close ord hooked) [] (query.update constraints) inputs)
    (hq : GoodQuery (s.netCgpms close ord hooked) [] constraints inputs)
    (hsup : Supplied (s.netCgpms close ord hooked) [] constraints inputs)
    (hposJ : Possible (rowBase s ν) (s.netCgpms close ord hooked) (rowDensities s q)
      (query.update constraints))
    (hpos : Possible (rowBase s ν) (s.netCgpms close ord hooked) (rowDensities s q) constraints)
    (x : Nat → ℝ)
    (hMJ : weightMoment (rowBase s ν) (s.netCgpms close ord hooked) (rowDensities s q)
      (query.update constraints) (fillWith x inputs) ≠ ⊤)
    (hM : weightMoment (rowBase s ν) (s.netCgpms close ord hooked) (rowDensities s q) constraints
      (fillWith x inputs) ≠ ⊤) {ε η : ℝ} (hε : 0 < ε) (hη : 0 < η) :
    ∃ N, ∀ n ≥ N,
      (s.densityComposite close ord hooked rowid query constraints inputs (some n)).E
        ({r | ε ≤ |(mass r).toReal
          - (evidenceDensity (rowBase s ν) (s.netCgpms close ord hooked) (rowDensities s q)
              (query.update constraints) (fillWith x inputs)).toReal
            / (evidenceDensity (rowBase s ν) (s.netCgpms close ord hooked) (rowDensities s q) constraints
              (fillWith x inputs)).toReal|}.indicator fun _ => 1) ≤ ENNReal.ofReal η := by
  have h := hR.inv (catOf_lawful P)
  obtain ⟨N, hN⟩ := C72_logpdf_limit hord (composite_simKeys hk) hne hqJ hsJ hq hsup
    (fun l c hc => composite_behaves h hs hord hr hh l c hc) hposJ hpos x hMJ hM hε hη
  refine ⟨N, fun n hn => ?_⟩
  obtain ⟨net, hb, -⟩ := composite_build hord hw n
  rw [densityComposite_new hr hd (accuracy := some n) hb]
  exact hN n hn net hb

end Cgpm.Props
