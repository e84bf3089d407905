import Verif.Props.RegDraws
import Verif.Props.FactorDraws
import Verif.Props.ForestDraws
import Verif.Props.NetMoment
import Verif.Props.CompositeOwn
import Verif.Lemmas.LinRegBound

/-!
Property C74: queries of a State composed with linear regressions, factor analyses and random forests.
-/
namespace Cgpm.Props
open Cgpm Cgpm.Net Cgpm.State Cgpm.Spec Cgpm.LinReg Cgpm.Spec.LinReg MeasureTheory
open scoped ENNReal

variable {factor : Root} {ν : Nat → Measure ℝ} {rowid : Option Row} {m : Composed}
  {q : (Nat → ℝ) → ℝ≥0∞}

theorem library_simKeys (h : LibraryModel factor ν rowid m q) : SimKeys m.cgpm := by
  cases h <;> exact simKeys_values fun _ _ _ _ _ => rfl

/-- **C74.** These models keep the contract of a component of a network: their densities integrate to
one, `logpdf` reports them, and `simulate` draws from them. -/
theorem C74_contract {μ : Nat → Measure ℝ} [∀ v, SigmaFinite (μ v)] (hf : factor.Good)
    (h : LibraryModel factor ν rowid m q) (hμ : ∀ o ∈ m.cgpm.outputs, μ o = ν o) :
    Behaves μ rowid m.cgpm m.draw q := by
  cases h with
  | linreg H hnum hR hr hv =>
    have hg := (linreg_schema H.schema).outp
    exact C74_linreg hf H hnum hR hr (by rw [hμ _ (by simp [linregNet, hg]), hv])
  | factor loser hV hR hr hv =>
    exact C74_factor hf hV hR loser hr fun v h => by rw [hμ v h, hv v h]
  | forest hV hm hr hv =>
    exact C74_forest hV hm hr (by rw [hμ _ (by simp [forestNet]), hv])

theorem forest_outputDensity_le {o : RForest} (hV : Forest.Valid o) (x : Nat → ℝ) :
    Forest.outputDensity o x ≤ 1 := by
  obtain ⟨hI, hc⟩ := forest_given hV x
  obtain ⟨h0, h1⟩ := C67_normalised hV hI
  rw [hc] at h0 h1
  unfold Forest.outputDensity
  calc _ ≤ ∑ j ∈ Finset.range o.g.k, ENNReal.ofReal
        (Forest.density o ((o.g.inputs.mergeSort (· ≤ ·)).map x) j) :=
        Finset.sum_le_sum fun j _ => by split <;> simp
    _ = 1 := by
        rw [← ENNReal.ofReal_sum_of_nonneg fun j _ => h0 j, h1, ENNReal.ofReal_one]

/-- The densities of the models with inputs are bounded. -/
theorem library_bounded {μ : Nat → Measure ℝ} (h : LibraryModel factor ν rowid m q) :
    m.cgpm.inputs = [] ∨ ∃ B, B ≠ ⊤ ∧ ∀ (S : Finset Nat), (∃ o ∈ m.cgpm.outputs, o ∈ S) →
      ∀ y, outDensity μ m.cgpm.outputs q S y ≤ B := by
  have single : ∀ {out : Nat} {p : (Nat → ℝ) → ℝ≥0∞} {B : ℝ≥0∞}, (∀ y, p y ≤ B) →
      ∀ S : Finset Nat, (∃ o ∈ [out], o ∈ S) → ∀ y, outDensity μ [out] p S y ≤ B := by
    intro out p B hp S hS y
    unfold outDensity
    have : [out].toFinset \ S = ∅ := by
      obtain ⟨o, h1, h2⟩ := hS
      rw [List.mem_singleton] at h1
      subst h1
      simpa using h2
    rw [this, lmarginal_empty]
    exact hp y
  cases h with
  | @linreg out inputs types ops o R H hnum hR hr hv =>
    refine .inr ⟨1 + ENNReal.ofReal ((postHyp o.hyp R).a / (postHyp o.hyp R).b), by simp,
      single fun y => ?_⟩
    rw [outputDensity_post H.hyp]
    exact LinReg.evidence_bounded (postHyp_valid H.hyp R) _
  | factor loser hV hR hr hv => exact .inl rfl
  | forest hV hm hr hv =>
    exact .inr ⟨1, ENNReal.one_ne_top, single fun y => forest_outputDensity_le hV y⟩

variable {P : Prim → Prop} {close : ℝ → ℝ → Bool} {ord : PyOrder} {cfg : Cfg (catOf P)}
  {s : State (catOf P)} {hooked : List Composed} {d : Nat → (Nat → ℝ) → ℝ≥0∞} {targets : List Nat}
  {query constraints inputs : Dict Nat ℝ}

theorem netCgpms_hooked {l : Nat} {m : Composed} (hl : hooked[l]? = some m) :
    (s.netCgpms close ord hooked)[s.views.length + l]? = some m.cgpm := by
  unfold netCgpms
  rw [List.getElem?_append_right (by simp), List.length_map, Nat.add_sub_cancel_left,
    List.getElem?_map, hl]
  rfl

/-- The variables of composed models keep their base measure. -/
theorem rowBase_hooked (h : State.Inv s) (hw : WellFormed (s.netCgpms close ord hooked))
    {m : Composed} (hm : m ∈ hooked) {o : Nat} (ho : o ∈ m.cgpm.outputs) : rowBase s ν o = ν o := by
  obtain ⟨l, hl⟩ := List.mem_iff_getElem?.mp hm
  have hll : l < hooked.length := (List.getElem?_eq_some_iff.mp hl).1
  have hcl := netCgpms_hooked (s := s) (close := close) (ord := ord) hl
  unfold rowBase
  rw [if_neg]
  · unfold clusterOwner
    split
    · rename_i v hv
      split at hv
      · rename_i hge
        exfalso
        obtain ⟨j, hj, e⟩ := List.mem_iff_getElem.mp (Dict.mem_of_get? hv)
        have : o = token s.views[j].1 := by
          rw [e]
          unfold token
          simp only
          omega
        have := hw.unique j _ _ _ (netCgpms_view hj) hcl o (by rw [this]; exact List.mem_cons_self) ho
        omega
      · cases hv
    · rfl
  · intro hc
    obtain ⟨j, hj, hk⟩ := own_produced h hc
    have := hw.unique j _ _ _ (netCgpms_view hj) hcl o (List.mem_cons_of_mem _ hk) ho
    omega

variable [∀ c, SigmaFinite (ν c)]

/-- The composed models meet the hypotheses of C73. -/
theorem library_behaves (hf : factor.Good) (h : State.Inv s)
    (hw : WellFormed (s.netCgpms close ord hooked))
    (hh : ∀ l m, hooked[l]? = some m → LibraryModel factor ν rowid m (d l)) :
    ∀ l m, hooked[l]? = some m → Behaves (rowBase s ν) rowid m.cgpm m.draw (d l) := fun l m hl =>
  C74_contract hf (hh l m hl) fun _ ho => rowBase_hooked h hw (List.mem_of_getElem? hl) ho

/-- What values of columns of the State and of variables of composed models are worth. -/
theorem composite_weight (h : State.Inv s) (hs : SimState s) (hord : ord.Lists)
    (hr : NewRowId s rowid) (hw : WellFormed (s.netCgpms close ord hooked))
    (hh : ∀ l m, hooked[l]? = some m → Behaves (rowBase s ν) rowid m.cgpm m.draw (d l))
    {S : Finset Nat} (hS : ∀ c ∈ S, c ∈ s.outputs ∨ ∃ m ∈ hooked, c ∈ m.cgpm.outputs)
    {y : Nat → ℝ} {D : Col → Option (catOf P).Cell}
    (hD : ∀ c ∈ s.outputs, D c = if c ∈ S then some (some (y c)) else none) :
    evidenceWeight (rowBase s ν) (s.netCgpms close ord hooked) (rowDensities s d) S y
      = stateDensity s D * ((List.range hooked.length).map fun j =>
          odAt (rowBase s ν) (s.netCgpms close ord hooked) (rowDensities s d) S
            (s.views.length + j) y).prod := by
  let T := S.filter (· ∈ s.outputs)
  have hB : ∀ l c, (s.netCgpms close ord hooked)[l]? = some c → _ := fun l c hc =>
    composite_behaves (ν := ν) h hs hord hr hh l c hc
  have hlen : (s.netCgpms close ord hooked).length = s.views.length + hooked.length := by
    simp [netCgpms]
  rw [← own_weight (S := T) (y := y) h hs hord hr hw hh (fun c hc => (Finset.mem_filter.mp hc).2)
    (fun c hc => by
      rw [hD c hc]
      by_cases hcS : c ∈ S
      · rw [if_pos hcS, if_pos (Finset.mem_filter.mpr ⟨hcS, hc⟩)]
      · rw [if_neg hcS, if_neg fun h => hcS (Finset.mem_filter.mp h).1])]
  rw [evidenceWeight_eq, evidenceWeight_eq, hlen, List.range_add, List.map_append, List.map_append,
    List.prod_append, List.prod_append, List.map_map, List.map_map]
  have h2 : ((List.range hooked.length).map ((fun l =>
      odAt (rowBase s ν) (s.netCgpms close ord hooked) (rowDensities s d) T l y) ∘
        fun x => s.views.length + x)).prod = 1 := by
    refine List.prod_eq_one fun a ha => ?_
    obtain ⟨j, hj, rfl⟩ := List.mem_map.mp ha
    rw [List.mem_range] at hj
    have hlt : s.views.length + j < (s.netCgpms close ord hooked).length := by omega
    refine od_empty hB (List.getElem?_eq_getElem hlt) ?_ y
    rintro ⟨k, hk1, hk2⟩
    obtain ⟨l, hl, hk⟩ := own_produced h (Finset.mem_filter.mp hk2).2
    have := hw.unique l _ _ _ (netCgpms_view hl) (List.getElem?_eq_getElem hlt) k
      (List.mem_cons_of_mem _ hk) hk1
    omega
  rw [h2, mul_one]
  congr 2
  refine List.map_congr_left fun l hl => ?_
  rw [List.mem_range] at hl
  unfold odAt
  simp only [netCgpms_view hl]
  rw [outDensity_inter (T := T)]
  intro v hv
  refine ⟨fun hvS => Finset.mem_filter.mpr ⟨hvS, ?_⟩, fun h => (Finset.mem_filter.mp h).1⟩
  rcases hS v hvS with h1 | ⟨m, hm, ho⟩
  · exact h1
  · exfalso
    obtain ⟨j, hj⟩ := List.mem_iff_getElem?.mp hm
    have := hw.unique l _ _ _ (netCgpms_view hl)
      (netCgpms_hooked (s := s) (close := close) (ord := ord) hj) v hv ho
    omega

/-- A forest whose alpha is positive rules out none of its categories. -/
theorem forest_positive {o : RForest} (hV : Forest.Valid o) (ha : 0 < o.alpha) {j : Nat}
    (hj : j < o.g.k) {x : Nat → ℝ} (hx : x o.g.output = j) : Forest.outputDensity o x ≠ 0 := by
  rw [forest_outputDensity_at o hj hx, Ne, ENNReal.ofReal_eq_zero, not_le]
  have hk0 : (0 : ℝ) < 1 / o.g.k := by
    have := hV.k
    positivity
  unfold Forest.density Forest.chance
  split
  · exact hk0
  · rename_i c hclf
    refine add_pos_of_pos_of_nonneg (mul_pos ha hk0)
      (mul_nonneg (sub_nonneg.mpr hV.alpha.2) ?_)
    unfold Forest.share
    split
    · rw [List.getD_eq_getElem?_getD]
      cases hi : ((c.proba ((o.g.inputs.mergeSort (· ≤ ·)).map x))[c.classes.idxOf j]?) with
      | none => simp
      | some w =>
        exact (hV.clf c hclf).1.nonneg _ (by simp [hV.inputs]) w (List.mem_of_getElem? hi)
    · exact le_rfl

omit [∀ c, SigmaFinite (ν c)] in
/-- These models rule out no value, apart from what is not a category. -/
theorem library_positive {μ : Nat → Measure ℝ} [∀ v, SigmaFinite (μ v)]
    {l : Nat} (h : LibraryModel factor ν rowid m (d l)) (hμ : ∀ o ∈ m.cgpm.outputs, μ o = ν o)
    (hm : hooked[l]? = some m) (hfe : Feasible hooked d constraints)
    (x : Nat → ℝ) (hc : ∃ o ∈ m.cgpm.outputs, o ∈ constraints.keys) :
    outDensity μ m.cgpm.outputs (d l) constraints.keys.toFinset (fillWith x constraints) ≠ 0 := by
  have single : ∀ {out : Nat} {p : (Nat → ℝ) → ℝ≥0∞}, (∃ o ∈ [out], o ∈ constraints.keys) →
      p (fillWith x constraints) ≠ 0 →
      outDensity μ [out] p constraints.keys.toFinset (fillWith x constraints) ≠ 0 := by
    intro out p hS hp
    unfold outDensity
    have : [out].toFinset \ constraints.keys.toFinset = ∅ := by
      obtain ⟨o, h1, h2⟩ := hS
      rw [List.mem_singleton] at h1
      subst h1
      simpa using h2
    rw [this, lmarginal_empty]
    exact hp
  generalize hq : d l = q at h ⊢
  cases h with
  | @linreg out inputs types ops o R H hnum hR hr hv =>
    refine single hc ?_
    unfold Spec.LinReg.outputDensity
    rw [Ne, ENNReal.ofReal_eq_zero, not_le]
    exact div_pos (evidence_pos H.hyp _) (evidence_pos H.hyp _)
  | @factor f loser hV hR hr hv =>
    have := factor_outDensity (μ := μ) hV (fun v h => by rw [hμ v h, hv v h]) constraints.keys.toFinset
      (M := f.outputs.filter fun v => decide (v ∈ constraints.keys.toFinset)) (hV.nodup.filter _)
      (fun v => by simp) (fillWith x constraints)
    refine this.trans_ne ?_
    rw [Ne, ENNReal.ofReal_eq_zero, not_le]
    exact Factor.density_pos hV (at_assigns (hV.nodup.filter _)
      (fun v hv => (List.mem_filter.mp hv).1) _)
  | @forest o hV hreg hr hv =>
    refine single hc ?_
    have hk : o.g.output ∈ constraints.keys := by
      obtain ⟨o', h1, h2⟩ := hc
      rw [show (⟨forestNet o, forestDraws o⟩ : Composed).cgpm.outputs = [o.g.output] from rfl,
        List.mem_singleton] at h1
      rwa [← h1]
    exact hfe l o hm hq hk x

/-- **C74.** Evidence that no forest rules out is possible, as far as the State
gives the evidence about its own columns a positive density. -/
theorem C74_possible (hf : factor.Good) (hR : StateReachable cfg s) (hs : SimState s)
    (hord : ord.Lists) (hr : NewRowId s rowid) (hw : WellFormed (s.netCgpms close ord hooked))
    (hh : ∀ l m, hooked[l]? = some m → LibraryModel factor ν rowid m (d l))
    (hE : ∀ c ∈ constraints.keys, c ∈ s.outputs ∨ ∃ m ∈ hooked, c ∈ m.cgpm.outputs)
    (hfe : Feasible hooked d constraints)
    (hpos : stateDensity s (Dict.get? (cellsFrom (P := P) constraints)) ≠ 0) :
    Possible (rowBase s ν) (s.netCgpms close ord hooked) (rowDensities s d) constraints := by
  have h := hR.inv (catOf_lawful P)
  have hb := library_behaves hf h hw hh
  intro x
  rw [composite_weight h hs hord hr hw hb (D := Dict.get? (cellsFrom (P := P) constraints))
    (fun c hc => hE c (List.mem_toFinset.mp hc)) (fun c _ => ?_)]
  · refine mul_ne_zero hpos fun h0 => ?_
    obtain ⟨j, hj, h0⟩ := List.mem_map.mp (List.prod_eq_zero_iff.mp h0)
    rw [List.mem_range] at hj
    have hm := List.getElem?_eq_getElem hj
    have hcl := netCgpms_hooked (s := s) (close := close) (ord := ord) hm
    by_cases hk : ∃ k ∈ hooked[j].cgpm.outputs, k ∈ constraints.keys.toFinset
    · have hd : rowDensities s d (s.views.length + j) = d j := by
        unfold rowDensities
        rw [List.getElem?_eq_none (by omega)]
        simp
      unfold odAt at h0
      simp only [hcl, hd] at h0
      refine library_positive (hh j _ hm) (fun o ho => rowBase_hooked h hw (List.getElem_mem hj) ho)
        hm hfe x ?_ h0
      obtain ⟨k, h1, h2⟩ := hk
      exact ⟨k, h1, List.mem_toFinset.mp h2⟩
    · rw [od_empty (fun l c hc => composite_behaves h hs hord hr hb l c hc) hcl hk] at h0
      exact one_ne_zero h0
  · rw [cellsFrom_get?]
    by_cases hc : c ∈ constraints.keys.toFinset
    · rw [if_pos hc]
      rw [List.mem_toFinset] at hc
      unfold fillWith
      cases hd : constraints.get? c with
      | none => exact absurd hc ((Dict.get?_eq_none_iff _ _).mp hd)
      | some y => rfl
    · rw [if_neg hc, (Dict.get?_eq_none_iff _ _).mpr (fun h => hc (List.mem_toFinset.mpr h))]
      rfl

/-- **C74.** Whatever the evidence, the importance weights have a finite second moment. -/
theorem C74_moment (hf : factor.Good) (hR : StateReachable cfg s) (hs : SimState s)
    (hord : ord.Lists) (hr : NewRowId s rowid) (hw : WellFormed (s.netCgpms close ord hooked))
    (hh : ∀ l m, hooked[l]? = some m → LibraryModel factor ν rowid m (d l))
    (hq : GoodQuery (s.netCgpms close ord hooked) targets constraints inputs)
    (hsup : Supplied (s.netCgpms close ord hooked) targets constraints inputs)
    (hpos : Possible (rowBase s ν) (s.netCgpms close ord hooked) (rowDensities s d) constraints)
    (x : Nat → ℝ) :
    weightMoment (rowBase s ν) (s.netCgpms close ord hooked) (rowDensities s d) constraints
      (fillWith x inputs) ≠ ⊤ := by
  have h := hR.inv (catOf_lawful P)
  have hb := library_behaves hf h hw hh
  obtain ⟨net, hbuild, -⟩ := composite_build hord hw 1
  refine C72_moment hord hbuild (composite_simKeys fun m hm => ?_) hq hsup
    (fun l c hc => composite_behaves h hs hord hr hb l c hc) hpos (fun l c hc ho => ?_) x
  · obtain ⟨l, hl⟩ := List.mem_iff_getElem?.mp hm
    exact library_simKeys (hh l m hl)
  · by_cases hl : l < s.views.length
    · rw [netCgpms_view hl] at hc
      cases hc
      exact .inl fun i hi => by cases hi
    · obtain ⟨j, rfl⟩ := Nat.exists_eq_add_of_le (not_lt.mp hl)
      have hj : j < hooked.length := by
        have := (List.getElem?_eq_some_iff.mp hc).1
        simp only [netCgpms, List.length_append, List.length_map] at this
        omega
      have hm := List.getElem?_eq_getElem hj
      rw [netCgpms_hooked hm] at hc
      cases hc
      have hd : rowDensities s d (s.views.length + j) = d j := by
        unfold rowDensities
        rw [List.getElem?_eq_none (by omega)]
        simp
      rcases library_bounded (μ := rowBase s ν) (hh j _ hm) with h0 | ⟨B, hB, hle⟩
      · exact .inl fun i hi => by rw [h0] at hi; cases hi
      · refine .inr ⟨B, hB, fun y => ?_⟩
        rw [hd]
        obtain ⟨o, ho1, ho2⟩ := ho
        exact hle _ ⟨o, ho1, List.mem_toFinset.mpr ho2⟩ y

/-- **C74.** If the evidence is about columns of the State, what `simulate` of the composite State draws
for columns and for variables of these models follows the conditional law exactly, at every accuracy. -/
theorem C74_simulate (hf : factor.Good) (hR : StateReachable cfg s) (hs : SimState s)
    (hord : ord.Lists) (hr : NewRowId s rowid) (hw : WellFormed (s.netCgpms close ord hooked))
    (hh : ∀ l m, hooked[l]? = some m → LibraryModel factor ν rowid m (d l))
    (hq : GoodQuery (s.netCgpms close ord hooked) targets constraints inputs)
    (hsup : Supplied (s.netCgpms close ord hooked) targets constraints inputs)
    (hE : ∀ c ∈ constraints.keys, c ∈ s.outputs)
    (hpos : stateDensity s (Dict.get? (cellsFrom (P := P) constraints)) ≠ 0)
    {accuracy : Option Nat} (hacc : accuracy ≠ some 0) (x : Nat → ℝ) {g : (Nat → ℝ) → ℝ≥0∞}
    (hg : Measurable g) (hloc : ∀ y z : Nat → ℝ, (∀ v ∈ targets, y v = z v) → g y = g z) :
    (s.sampleComposite close ord hooked rowid targets constraints inputs accuracy).E
        (fun r => g (fillWith (fillWith x inputs) r))
      = conditionalMean (rowBase s ν) (s.netCgpms close ord hooked) (rowDensities s d) constraints
          (fillWith x inputs) g := by
  have h := hR.inv (catOf_lawful P)
  have hb := library_behaves hf h hw hh
  refine C73_simulate hR hs hord hr hw (fun m hm => ?_) hb hq hsup
    (own_possible h hs hord hr hw hb hE hpos) (C73_settled hR hw hE) hacc x hg hloc
  obtain ⟨l, hl⟩ := List.mem_iff_getElem?.mp hm
  exact library_simKeys (hh l m hl)

/-- **C74.** Whatever the evidence, what `simulate` of the composite State draws approaches the
conditional law as the accuracy grows. -/
theorem C74_simulate_limit (hf : factor.Good) (hR : StateReachable cfg s) (hs : SimState s)
    (hord : ord.Lists) (hr : NewRowId s rowid) (hw : WellFormed (s.netCgpms close ord hooked))
    (hh : ∀ l m, hooked[l]? = some m → LibraryModel factor ν rowid m (d l))
    (hq : GoodQuery (s.netCgpms close ord hooked) targets constraints inputs)
    (hsup : Supplied (s.netCgpms close ord hooked) targets constraints inputs)
    (hpos : Possible (rowBase s ν) (s.netCgpms close ord hooked) (rowDensities s d) constraints)
    (x : Nat → ℝ) {ε : ℝ} (hε : 0 < ε) :
    ∃ N, ∀ n ≥ N, ∀ g : (Nat → ℝ) → ℝ≥0∞, Measurable g → (∀ y, g y ≤ 1) →
      (∀ y z : Nat → ℝ, (∀ v ∈ targets, y v = z v) → g y = g z) →
      |((s.sampleComposite close ord hooked rowid targets constraints inputs (some n)).E
          (fun r => g (fillWith (fillWith x inputs) r))).toReal
        - (conditionalMean (rowBase s ν) (s.netCgpms close ord hooked) (rowDensities s d) constraints
            (fillWith x inputs) g).toReal| ≤ ε := by
  have hb := library_behaves hf (hR.inv (catOf_lawful P)) hw hh
  refine C73_simulate_limit hR hs hord hr hw (fun m hm => ?_) hb hq hsup hpos x
    (C74_moment hf hR hs hord hr hw hh hq hsup hpos x) hε
  obtain ⟨l, hl⟩ := List.mem_iff_getElem?.mp hm
  exact library_simKeys (hh l m hl)

/-- **C74.** Whatever the evidence, what `logpdf` of the composite State reports approaches the
conditional density, in probability, as the accuracy grows. -/
theorem C74_logpdf_limit (hf : factor.Good) (hR : StateReachable cfg s) (hs : SimState s)
    (hord : ord.Lists) (hr : NewRowId s rowid) (hw : WellFormed (s.netCgpms close ord hooked))
    (hh : ∀ l m, hooked[l]? = some m → LibraryModel factor ν rowid m (d l))
    (hne : constraints ≠ []) (hd : ∀ c ∈ query.keys, c ∉ constraints.keys)
    (hqJ : GoodQuery (s.netCgpms close ord hooked) [] (query.update constraints) inputs)
    (hsJ : Supplied (s.netCgpms close ord hooked) [] (query.update constraints) inputs)
    (hq : GoodQuery (s.netCgpms close ord hooked) [] constraints inputs)
    (hsup : Supplied (s.netCgpms close ord hooked) [] constraints inputs)
    (hposJ : Possible (rowBase s ν) (s.netCgpms close ord hooked) (rowDensities s d)
      (query.update constraints))
    (hpos : Possible (rowBase s ν) (s.netCgpms close ord hooked) (rowDensities s d) constraints)
    (x : Nat → ℝ) {ε η : ℝ} (hε : 0 < ε) (hη : 0 < η) :
    ∃ N, ∀ n ≥ N,
      (s.densityComposite close ord hooked rowid query constraints inputs (some n)).E
        ({r | ε ≤ |(mass r).toReal
          - (evidenceDensity (rowBase s ν) (s.netCgpms close ord hooked) (rowDensities s d)
              (query.update constraints) (fillWith x inputs)).toReal
            / (evidenceDensity (rowBase s ν) (s.netCgpms close ord hooked) (rowDensities s d) constraints
              (fillWith x inputs)).toReal|}.indicator fun _ => 1) ≤ ENNReal.ofReal η := by
  have hb := library_behaves hf (hR.inv (catOf_lawful P)) hw hh
  refine C73_logpdf_limit hR hs hord hr hw (fun m hm => ?_) hb hne hd hqJ hsJ hq hsup hposJ hpos x
    (C74_moment hf hR hs hord hr hw hh hqJ hsJ hposJ x)
    (C74_moment hf hR hs hord hr hw hh hq hsup hpos x) hε hη
  obtain ⟨l, hl⟩ := List.mem_iff_getElem?.mp hm
  exact library_simKeys (hh l m hl)

/-! ### Non-vacuity -/

section
open scoped MatrixOrder ComplexOrder Matrix.Norms.L2Operator

/-- There are square roots of covariance matrices. -/
theorem root_exists : ∃ factor : Root, factor.Good := by
  classical
  have h : ∀ (n : Nat) (S : Matrix (Fin n) (Fin n) ℝ), ∃ A : Matrix (Fin n) (Fin n) ℝ,
      S.PosSemidef → A * A.transpose = S := by
    intro n S
    by_cases hS : S.PosSemidef
    · obtain ⟨B, hB⟩ := CStarAlgebra.nonneg_iff_eq_star_mul_self.mp hS.nonneg
      refine ⟨B.transpose, fun _ => ?_⟩
      rw [Matrix.transpose_transpose, hB]
      simp [Matrix.star_eq_conjTranspose]
    · exact ⟨0, fun h => absurd h hS⟩
  choose A hA using h
  exact ⟨A, hA⟩

end

/-- A regression of variable 2 on the numerical column 1, which has observed one row. -/
noncomputable def libraryCalls : List Obj.Op := [.inc 5 [(2, some 3)] (some [(1, some 2)])]

noncomputable def libraryReg : Obj := Obj.run ⟨⟨2, [1], 2, []⟩, .empty, Hyp.default 2⟩ libraryCalls

theorem library_reg_reached : Reached 2 [1] [.numeric] (LinReg.rowCalls libraryCalls) libraryReg :=
  C55_history (fun p => hyp_default_valid p) (hypers := Hyp.default) rfl libraryCalls

theorem library_reg_keeps : keeps 2 [1] [.numeric] ([(2, some 3)], some [(1, some 2)])
    = some (3, [some 1, some 2]) := by
  unfold keeps linregKeeps
  simp only [Dict.get?, if_true]
  have hv : ValidRow (linregLevels [.numeric]) (inputRow [1] [(1, some 2)]) := by
    intro i v hi
    match i with
    | 0 => trivial
    | i + 1 => simp [inputRow] at hi
  refine (if_pos ⟨by simp [Dict.keys], hv⟩).trans ?_
  · simp [rowCode, inputRow, codeOf, linregLevels, Dict.get?, List.zipIdx]

theorem library_reg_lists_two : Lists (p := 2) (table 2 [1] [.numeric] (LinReg.rowCalls libraryCalls))
    [(3, ![1, 2])] := by
  have e : table 2 [1] [.numeric] (LinReg.rowCalls libraryCalls)
      = fun r => if r = 5 then some (3, [some 1, some 2]) else none := by
    have h : LinReg.rowCalls libraryCalls = [.inc 5 ([(2, some 3)], some [(1, some 2)])] := rfl
    rw [h]
    unfold table kept
    simp only [List.foldl_cons, List.foldl_nil, library_reg_keeps]
    funext r
    by_cases h5 : r = 5
    · simp [h5]
    · simp [h5]
  rw [e]
  refine ⟨[5], by simp, fun r => ?_, .cons ⟨[some 1, some 2], rfl, ?_⟩ .nil⟩
  · by_cases h5 : r = 5 <;> simp [h5]
  · simp [IsVec, List.ofFn_succ]

theorem library_reg_lists : ∃ R : List (ℝ × (Fin libraryReg.g.p → ℝ)), Lists
    (table 2 [1] [.numeric] (LinReg.rowCalls libraryCalls)) R := by
  have hp : libraryReg.g.p = 2 := by
    have := library_reg_reached.schema
    unfold RegSchema.new at this
    have h := (linreg_schema library_reg_reached.schema).width
    rw [h]
    rfl
  rw [hp]
  exact ⟨_, library_reg_lists_two⟩

theorem forest_outputDensity_half (o : RForest) : Forest.outputDensity o (fun _ => 1 / 2) = 0 := by
  unfold Forest.outputDensity
  refine Finset.sum_eq_zero fun j _ => if_neg fun h => ?_
  have : (1 : ℝ) = ((2 * j : Nat) : ℝ) := by push_cast; linarith
  have : 1 = 2 * j := by exact_mod_cast this
  omega

/-- A forest of two categories for variable 8, with the input 1, and alpha = 1/2. -/
noncomputable def libraryForest : RForest :=
  ⟨⟨8, [1], 2, 1⟩, ⟨⟨1, [(7, 1)], [(7, [some 5])]⟩, [0, 1]⟩, 1 / 2, some onlyOne⟩

theorem library_forest_valid : Forest.Valid libraryForest where
  inputs := rfl
  nodup := by simp [libraryForest]
  apart := by simp [libraryForest]
  k := by simp [libraryForest]
  counts := rfl
  alpha := by constructor <;> norm_num [libraryForest]
  clf := by
    intro c hc
    cases hc
    exact ⟨onlyOne_proper _, by simp [onlyOne, libraryForest]⟩
  rows := by simp [libraryForest, Dict.keys]
  keys := rfl
  category := by
    intro r x h
    simp only [libraryForest, Dict.get?] at h
    split at h
    · cases h; simp [libraryForest]
    · cases h
  width := by
    intro r x h
    simp only [libraryForest, Dict.get?] at h
    split at h
    · cases h; rfl
    · cases h

/-- The base measures of the variables of the three models. -/
noncomputable def libraryBase (v : Nat) : Measure ℝ := if v = 8 then categoryBase 2 else volume

instance (v : Nat) : SigmaFinite (libraryBase v) := by
  unfold libraryBase
  split <;> infer_instance

/-- A regression, a forest and a factor analysis. -/
noncomputable def libraryModels (factor : Root) : List Composed :=
  [⟨linregNet libraryReg, linregDraws factor libraryReg⟩,
    ⟨forestNet libraryForest, forestDraws libraryForest⟩,
    ⟨factorNet (fun _ _ _ => .nan) factorDemo, factorDraws factor factorDemo⟩]

/-- Their densities, given the rows of the regression. -/
noncomputable def libraryDensity (R : List (ℝ × (Fin libraryReg.g.p → ℝ))) : Nat → (Nat → ℝ) → ℝ≥0∞
  | 0 => Spec.LinReg.outputDensity libraryReg.hyp R 2 [1]
  | 1 => Forest.outputDensity libraryForest
  | _ => Factor.outputDensity factorDemo

/-- A State with the columns 0 and 1 is composed with a regression of 2 on 1, a forest for 8 given 1, and
a factor analysis of 7, 3 and 5: the hypotheses are met by a query about 1 and 3 given the output of the
regression, the category of the forest, another variable of the factor analysis, and column 0. -/
example : ∃ (factor : Root) (s : State libCat) (d : Nat → (Nat → ℝ) → ℝ≥0∞), factor.Good ∧
    StateReachable plainCfg s ∧ SimState s ∧ NewRowId s none ∧
    (let hooked := libraryModels factor
     let cgpms := s.netCgpms (fun x y : ℝ => decide (x = y)) idOrder hooked
     let C := [(2, (5 : ℝ)), (8, 0), (7, 3), (0, 1)]
     WellFormed cgpms ∧
     (∀ l m, hooked[l]? = some m → LibraryModel factor libraryBase none m (d l)) ∧
     GoodQuery cgpms [1, 3] C [] ∧ Supplied cgpms [1, 3] C [] ∧ Feasible hooked d C ∧
     stateDensity s (Dict.get? (cellsFrom C)) ≠ 0 ∧
     Possible (rowBase s libraryBase) cgpms (rowDensities s d) C ∧ ¬ Settled cgpms C) := by
  obtain ⟨factor, hf⟩ := root_exists
  obtain ⟨R, hR⟩ := library_reg_lists
  obtain ⟨s, h1, h2, h3, h4, h5, h6, h7, h8, -, -, h11, h12⟩ :=
    stateDemo_init (normal_remembered 2) normal_hyp (a := 0) (b := 1) (by decide) [] []
  have hsim : SimState s := by
    refine ⟨by rw [h4]; simp, fun c d hd => (h12 c d hd).2.1, fun c _ d hd => ?_⟩
    rw [(h12 c d hd).2.2]
    exact trivial
  have hnew : NewRowId s none := fun r e => by cases e
  have hpos : ∀ D : Dict Col libCat.Cell, stateDensity s D.get? ≠ 0 := by
    intro D h0
    unfold stateDensity at h0
    obtain ⟨e, he, h0⟩ := List.mem_map.mp (List.prod_eq_zero_iff.mp h0)
    have hv := Dict.get?_of_mem h2.views.wf he
    obtain ⟨c, d, x, g1, g2, -, g3⟩ := (inv_refusal (h2.views.view e.1 e.2 hv).inv _).mp h0
    rw [(h12 c d (h2.dimFor_of_view hv g1)).1] at g3
    exact g3 trivial
  have ho1 : (linregNet libraryReg).outputs = [2] := by
    show [libraryReg.g.output] = _
    rw [(linreg_schema library_reg_reached.schema).outp]
  have hi1 : (linregNet libraryReg).inputs = [1] := by
    show libraryReg.g.inputs = _
    rw [(linreg_schema library_reg_reached.schema).inp]
  have hwf : WellFormed (s.netCgpms (fun x y : ℝ => decide (x = y)) idOrder (libraryModels factor)) := by
    refine composite_wellFormed h2 hsim id ?_ ?_ ?_ ?_ <;>
      simp [libraryModels, h4, ho1, hi1, forestNet, factorNet, libraryForest, factorDemo]
  have hh : ∀ l m, (libraryModels factor)[l]? = some m → LibraryModel factor libraryBase none m
      (libraryDensity R l) := by
    intro l m hm
    match l with
    | 0 =>
      cases hm
      exact .linreg library_reg_reached (by simp) hR (by simp) rfl
    | 1 =>
      cases hm
      refine .forest library_forest_valid ?_ (by simp) rfl
      intro c hc i
      cases hc
      exact (measurable_const : Measurable fun _ : Fin libraryForest.g.p → ℝ => ([1] : List ℝ).getD i 0)
    | 2 =>
      cases hm
      refine .factor _ factorDemo_valid factorDemo_rows (by simp) ?_
      intro v hv
      unfold libraryBase
      rw [if_neg]
      rintro rfl
      simp [factorDemo] at hv
    | l + 3 => simp [libraryModels] at hm
  have hfe : Feasible (libraryModels factor) (libraryDensity R) [(2, (5 : ℝ)), (8, 0), (7, 3), (0, 1)] := by
    intro l o hl hd _ x
    match l with
    | 0 =>
      exfalso
      have := congrFun hd fun _ => 1 / 2
      rw [forest_outputDensity_half o, libraryDensity, Spec.LinReg.outputDensity,
        ENNReal.ofReal_eq_zero, ← not_lt] at this
      exact this (div_pos (evidence_pos library_reg_reached.hyp _)
        (evidence_pos library_reg_reached.hyp _))
    | 1 =>
      rw [← hd]
      refine forest_positive library_forest_valid (by norm_num [libraryForest]) (j := 0)
        (by norm_num [libraryForest]) ?_
      simp [fillWith, libraryForest, Dict.get?]
    | l + 2 =>
      exfalso
      have : Spec.Factor.outputDensity factorDemo (fun _ => 1 / 2) = 0 :=
        (congrFun hd fun _ => 1 / 2).trans (forest_outputDensity_half o)
      rw [Spec.Factor.outputDensity,
        ENNReal.ofReal_eq_zero, ← not_lt] at this
      exact this (Factor.density_pos factorDemo_valid (at_assigns factorDemo_valid.nodup
        (fun v hv => hv) _))
  have hmem : (⟨linregNet libraryReg, linregDraws factor libraryReg⟩ : Composed).cgpm ∈
      s.netCgpms (fun x y : ℝ => decide (x = y)) idOrder (libraryModels factor) :=
    List.mem_append_right _ (List.mem_map_of_mem (by simp [libraryModels]))
  have hmemF : (⟨factorNet (fun _ _ _ => .nan) factorDemo, factorDraws factor factorDemo⟩ :
      Composed).cgpm ∈ s.netCgpms (fun x y : ℝ => decide (x = y)) idOrder (libraryModels factor) :=
    List.mem_append_right _ (List.mem_map_of_mem (by simp [libraryModels]))
  have hin : ∀ m ∈ s.netCgpms (fun x y : ℝ => decide (x = y)) idOrder (libraryModels factor),
      ∀ v ∈ m.inputs, v = 1 := by
    intro m hm v hv
    rcases List.mem_append.mp hm with hm | hm
    · obtain ⟨e, -, rfl⟩ := List.mem_map.mp hm
      cases hv
    · simp only [libraryModels, List.map_cons, List.map_nil, List.mem_cons, List.not_mem_nil,
        or_false] at hm
      rcases hm with rfl | rfl | rfl
      · rw [hi1] at hv; simpa using hv
      · simpa [forestNet, libraryForest] using hv
      · cases hv
  have hprod : ∀ c ∈ s.outputs,
      Produced (s.netCgpms (fun x y : ℝ => decide (x = y)) idOrder (libraryModels factor)) c := by
    intro c hc
    obtain ⟨l, hl, hk⟩ := own_produced h2 hc
    exact ⟨_, List.mem_of_getElem? (netCgpms_view hl), List.mem_cons_of_mem _ hk⟩
  have hprod1 := hprod 1 (by rw [h4]; simp)
  refine ⟨factor, s, libraryDensity R, hf, h1, hsim, hnew, hwf, hh, ?_, ?_, hfe, hpos _, ?_, ?_⟩
  · refine ⟨by simp [Dict.WF, Dict.keys], by simp [Dict.WF, Dict.keys], by simp, ?_,
      by simp [Dict.keys]⟩
    intro t ht
    simp only [List.mem_cons, List.not_mem_nil, or_false] at ht
    rcases ht with rfl | rfl
    · exact hprod1
    · exact ⟨_, hmemF, by simp [factorNet, factorDemo]⟩
  · intro m hm _ v hv
    rw [hin m hm v hv]
    exact .inl hprod1
  · refine C74_possible hf h1 hsim idOrder_lists hnew hwf hh ?_ hfe (hpos _)
    intro c hc
    simp only [Dict.keys, List.map_cons, List.map_nil, List.mem_cons, List.not_mem_nil, or_false] at hc
    rcases hc with rfl | rfl | rfl | rfl
    · exact .inr ⟨_, List.mem_cons_self, by rw [ho1]; simp⟩
    · exact .inr ⟨_, List.mem_cons_of_mem _ List.mem_cons_self, by simp [forestNet, libraryForest]⟩
    · exact .inr ⟨_, List.mem_cons_of_mem _ (List.mem_cons_of_mem _ List.mem_cons_self),
        by simp [factorNet, factorDemo]⟩
    · exact .inl (by rw [h4]; simp)
  · intro h
    have := h _ hmem ⟨2, by rw [ho1]; simp, by simp [Dict.keys]⟩ 1 (by rw [hi1]; simp) hprod1
    simp [Dict.keys] at this

end Cgpm.Props
