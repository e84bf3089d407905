import Verif.Lemmas.NetDraws
import Verif.Lemmas.DrawsMany
import Verif.Lemmas.PrimSimulateMore

/-! The law of `weighted_sample` and of `simulate`. -/
namespace Cgpm.Net
open Cgpm MeasureTheory Classical Cgpm.Props
open scoped ENNReal
variable {R Ω : Type}

section
variable {μ : Nat → Measure ℝ} [∀ v, SigmaFinite (μ v)] {rowid : R} {cgpms : List (NetCgpm R ℝ Ω)}
  {draw : NetDraws R ℝ Ω} {p : Nat → (Nat → ℝ) → ℝ≥0∞}

omit [∀ v, SigmaFinite (μ v)] in
theorem evidenceWeight_eq (S : Finset Nat) (x : Nat → ℝ) : evidenceWeight μ cgpms p S x
    = ((List.range cgpms.length).map fun l => odAt μ cgpms p S l x).prod := by
  unfold evidenceWeight
  congr 1
  refine List.ext_getElem (by simp) fun i h1 h2 => ?_
  simp only [List.length_map, List.length_zipIdx] at h1
  simp [odAt, h1]

omit [∀ v, SigmaFinite (μ v)] in
theorem evidenceWeight_topo {net : Network R ℝ Ω} (hB : Built cgpms net) (S : Finset Nat)
    (x : Nat → ℝ) : evidenceWeight μ cgpms p S x
      = (net.topo.map fun l => odAt μ cgpms p S l x).prod := by
  rw [evidenceWeight_eq]
  exact (hB.perm.symm.map _).prod_eq

theorem evidenceWeight_measurable
    (hp : ∀ l c, cgpms[l]? = some c → Behaves μ rowid c (draw l) (p l)) (S : Finset Nat) :
    Measurable (evidenceWeight μ cgpms p S) := by
  have : evidenceWeight μ cgpms p S
      = fun x => ((List.range cgpms.length).map fun l => odAt μ cgpms p S l x).prod :=
    funext fun x => evidenceWeight_eq S x
  rw [this]
  exact od_prod_measurable hp S _

/-- Everything about one weighted sample. -/
structure Weighted (μ : Nat → Measure ℝ) (cgpms : List (NetCgpm R ℝ Ω))
    (p : Nat → (Nat → ℝ) → ℝ≥0∞) (C : Dict Nat ℝ) (TA topo : List Nat) (x : Nat → ℝ)
    (wd : Draws (Dict Nat ℝ × LogP)) : Prop where
  law : ∀ g : (Nat → ℝ) → ℝ≥0∞, Measurable g →
    (wd.E fun r => g (fillWith x r.1) * ENNReal.ofReal (pr r.2))
      = futureOf μ cgpms p (C.keys.toFinset ∪ TA.toFinset) TA.toFinset g topo (fillWith x C)
  always : wd.Always fun r => r.1.WF ∧ (∀ k, k ∈ r.1.keys ↔ k ∈ C.keys ∨ k ∈ TA) ∧
    (∀ k v, C.get? k = some v → r.1.get? k = some v) ∧
    ENNReal.ofReal (pr r.2) = evidenceWeight μ cgpms p C.keys.toFinset (fillWith x r.1)
  total : Possible μ cgpms p C → wd.E (fun _ => 1) = 1

theorem weighted_facts {ord : PyOrder} (hord : ord.Lists) {net : Network R ℝ Ω}
    (hB : Built cgpms net) (hsim : ∀ c ∈ cgpms, SimKeys c) {targets : List Nat}
    {C inputs : Dict Nat ℝ} (hq : GoodQuery cgpms targets C inputs)
    (hgiven : Supplied cgpms targets C inputs)
    (hp : ∀ l c, cgpms[l]? = some c → Behaves μ rowid c (draw l) (p l)) :
    ∃ TA : List Nat, Query cgpms C TA ∧
      (∀ v, v ∈ TA ↔ (Needed cgpms (· ∈ targets) (· ∈ C.keys) v ∧ v ∉ C.keys ∧
        Produced cgpms v)) ∧
      ∀ x, Weighted μ cgpms p C TA net.topo (fillWith x inputs)
        (weightedDraws ord draw rowid net targets C inputs) := by
  have hfun : (fun v => C.has v = true) = (· ∈ C.keys) := by
    funext v; exact propext (Dict.has_iff C v)
  obtain ⟨req, hr, hnd, hmem⟩ := requiredInputs_spec hord hB targets C.has
  rw [hfun] at hmem
  have hmemC : ∀ v, C.has v = false ↔ v ∉ C.keys := by
    intro v; rw [← Dict.has_iff, Bool.not_eq_true]
  have hTA : ∀ v, v ∈ targets ++ req ↔ (Needed cgpms (· ∈ targets) (· ∈ C.keys) v ∧ v ∉ C.keys ∧
        Produced cgpms v) := by
    intro v
    rw [List.mem_append, hmem, hmemC]
    constructor
    · rintro (h | ⟨h1, h2, h3, h4⟩)
      · exact ⟨.target h, hq.disjoint v h, hq.produced v h⟩
      · exact ⟨h1, h3, h4⟩
    · rintro ⟨h1, h2, h3⟩
      by_cases ht : v ∈ targets
      · exact .inl ht
      · exact .inr ⟨h1, ht, h2, h3⟩
  have hQ : Query cgpms C (targets ++ req) := by
    refine ⟨?_, fun t ht => ((hTA t).mp ht).2.1, fun t ht => ((hTA t).mp ht).2.2, ?_⟩
    · rw [List.nodup_append]
      exact ⟨hq.nodup, hnd, fun a ha b hb e => ((hmem b).mp hb).2.1 (e ▸ ha)⟩
    · rintro c hc ⟨o, ho, h⟩ v hv hp
      by_cases hvC : v ∈ C.keys
      · exact .inr hvC
      · left
        rw [hTA]
        refine ⟨?_, hvC, hp⟩
        rcases h with h | h
        · exact .input hc ho ((hTA o).mp h).1 hv
        · exact .constr hc ho h hv
  have hI0 : SInv cgpms C (targets ++ req) [] C :=
    ⟨hq.constraints_wf, fun k => by simp, fun _ _ h => h⟩
  have hgiven' : ∀ c ∈ cgpms, (∃ o ∈ c.outputs, o ∈ targets ++ req ∨ o ∈ C.keys) → ∀ v ∈ c.inputs,
      Produced cgpms v ∨ v ∈ C.keys ∨ v ∈ inputs.keys := by
    rintro c hc ⟨o, ho, h⟩
    exact hgiven c hc ⟨o, ho, h.imp_left fun h => ((hTA o).mp h).1⟩
  have hkeys : ∀ {s : Dict Nat ℝ}, SInv cgpms C (targets ++ req) net.topo s → ∀ k, k ∈ s.keys ↔
      k ∈ C.keys ∨ k ∈ targets ++ req := by
    intro s hI k
    rw [hI.keys]
    refine or_congr_right ⟨fun h => h.1, fun h => ⟨h, ?_⟩⟩
    obtain ⟨c, hc, hk⟩ := hQ.prod k h
    obtain ⟨l, hl⟩ := List.mem_iff_getElem?.mp hc
    refine ⟨l, ?_, c, hl, hk⟩
    rw [hB.perm.mem_iff, List.mem_range]
    exact (List.getElem?_eq_some_iff.mp hl).1
  refine ⟨targets ++ req, hQ, hTA, fun x => ?_⟩
  have halw := loopDraws_always hB hQ hq.inputs_wf hsim hp hgiven' x net.topo [] C 0 rfl hI0
  have hE : ∀ F : Dict Nat ℝ × LogP → ℝ≥0∞,
      (weightedDraws ord draw rowid net targets C inputs).E F
        = (loopDraws draw rowid cgpms (targets ++ req) inputs net.topo C 0).E F := by
    intro F
    unfold weightedDraws
    rw [hr, hB.cgpms_eq]
    simp only [Draws.ofExcept, Draws.bind]
    rw [Draws.E_bind]
    refine E_congr_always halw fun r h => ?_
    rw [if_pos (hkeys h.1)]
    rfl
  refine ⟨fun g hg => ?_, ?_, fun hpos => ?_⟩
  · rw [hE, loopDraws_law hB hQ hq.inputs_wf hsim hp hgiven' x hg net.topo [] C 0 rfl hI0]
    simp [pr]
  · unfold weightedDraws
    rw [hr, hB.cgpms_eq]
    simp only [Draws.ofExcept, Draws.bind]
    refine always_bind halw fun r h => ?_
    rw [if_pos (hkeys h.1)]
    refine ⟨h.1.wf, hkeys h.1, h.1.agree, ?_⟩
    rw [h.2.2, evidenceWeight_topo hB]
    simp [pr]
  · rw [hE]
    refine loopDraws_total hB hQ hq.inputs_wf hsim hp hgiven' x ?_ net.topo [] C 0 rfl hI0
    intro l y hy
    by_cases hl : l < cgpms.length
    · have h1 := hpos y
      have h2 : fillWith y C = y := by
        funext v
        unfold fillWith
        cases h : C.get? v with
        | none => rfl
        | some a => exact (hy v a h).symm
      rw [h2, evidenceWeight_eq] at h1
      intro h0
      exact h1 (List.prod_eq_zero (List.mem_map.mpr ⟨l, List.mem_range.mpr hl, h0⟩))
    · unfold odAt
      rw [List.getElem?_eq_none (by omega)]
      exact one_ne_zero

/-- The law of the sample that `weighted_sample` returns. -/
noncomputable def proposal (μ : Nat → Measure ℝ) (cgpms : List (NetCgpm R ℝ Ω))
    (p : Nat → (Nat → ℝ) → ℝ≥0∞) (C : Dict Nat ℝ) (TA topo : List Nat) (x : Nat → ℝ) :
    Measure (Nat → ℝ) :=
  ((Measure.pi fun i : TA.toFinset => μ i).map fun z =>
      Function.updateFinset (fillWith x C) TA.toFinset z).withDensity fun y =>
    (evidenceWeight μ cgpms p C.keys.toFinset y)⁻¹ *
      (topo.map fun l => odAt μ cgpms p (C.keys.toFinset ∪ TA.toFinset) l y).prod

theorem fillWith_agree {x : Nat → ℝ} {C s : Dict Nat ℝ}
    (h : ∀ k v, C.get? k = some v → s.get? k = some v) :
    fillWith (fillWith x s) C = fillWith x s := by
  funext v
  unfold fillWith
  cases hv : C.get? v with
  | none => rfl
  | some a => simp [h v a hv]

theorem outs_topo {net : Network R ℝ Ω} (hB : Built cgpms net) {TA : List Nat}
    (h : ∀ t ∈ TA, Produced cgpms t) :
    (net.topo.flatMap (outsAt cgpms)).toFinset ∩ TA.toFinset = TA.toFinset := by
  rw [Finset.inter_eq_right]
  intro t ht
  rw [List.mem_toFinset] at ht ⊢
  obtain ⟨c, hc, hk⟩ := h t ht
  obtain ⟨l, hl⟩ := List.mem_iff_getElem?.mp hc
  refine List.mem_flatMap.mpr ⟨l, ?_, by unfold outsAt; rw [hl]; exact hk⟩
  rw [hB.perm.mem_iff, List.mem_range]
  exact (List.getElem?_eq_some_iff.mp hl).1

theorem weighted_hasLaw {net : Network R ℝ Ω} (hB : Built cgpms net) {C : Dict Nat ℝ}
    {TA : List Nat} (hQ : Query cgpms C TA)
    (hp : ∀ l c, cgpms[l]? = some c → Behaves μ rowid c (draw l) (p l)) (hpos : Possible μ cgpms p C)
    {x : Nat → ℝ} {wd : Draws (Dict Nat ℝ × LogP)}
    (hw : Weighted μ cgpms p C TA net.topo x wd) :
    wd.HasLaw (fun r => fillWith x r.1) (proposal μ cgpms p C TA net.topo x) := by
  intro g hg
  have hWm := evidenceWeight_measurable hp C.keys.toFinset
  have hm : Measurable fun y => g y * (evidenceWeight μ cgpms p C.keys.toFinset y)⁻¹ :=
    hg.mul hWm.inv
  have h1 := hw.law _ hm
  have h2 : wd.E (fun r => g (fillWith x r.1)) = wd.E fun r => g (fillWith x r.1) *
      (evidenceWeight μ cgpms p C.keys.toFinset (fillWith x r.1))⁻¹ * ENNReal.ofReal (pr r.2) := by
    refine E_congr_always hw.always fun r h => ?_
    rw [mul_assoc, h.2.2.2, ENNReal.inv_mul_cancel, mul_one]
    · rw [← fillWith_agree h.2.2.1]
      exact hpos _
    · rw [← h.2.2.2]
      exact ENNReal.ofReal_ne_top
  rw [h2, h1]
  unfold futureOf proposal
  rw [outs_topo hB hQ.prod]
  have hD : Measurable fun y => (net.topo.map fun l =>
      odAt μ cgpms p (C.keys.toFinset ∪ TA.toFinset) l y).prod := od_prod_measurable hp _ _
  have hDm : Measurable fun y => (evidenceWeight μ cgpms p C.keys.toFinset y)⁻¹ * (net.topo.map fun l =>
      odAt μ cgpms p (C.keys.toFinset ∪ TA.toFinset) l y).prod := hWm.inv.mul hD
  rw [lintegral_withDensity_eq_lintegral_mul _ hDm hg,
    lintegral_map (hDm.mul hg) measurable_updateFinset]
  refine lintegral_congr fun z => ?_
  simp only [Pi.mul_apply]
  ring

theorem proposal_prob {net : Network R ℝ Ω} (hB : Built cgpms net) {C : Dict Nat ℝ}
    {TA : List Nat} (hQ : Query cgpms C TA)
    (hp : ∀ l c, cgpms[l]? = some c → Behaves μ rowid c (draw l) (p l)) (hpos : Possible μ cgpms p C)
    {x : Nat → ℝ} {wd : Draws (Dict Nat ℝ × LogP)}
    (hw : Weighted μ cgpms p C TA net.topo x wd) :
    IsProbabilityMeasure (proposal μ cgpms p C TA net.topo x) := by
  constructor
  have := weighted_hasLaw hB hQ hp hpos hw (fun _ => 1) measurable_const
  rw [hw.total hpos, lintegral_one] at this
  exact this.symm

end

/-! ### the choice of a sample -/

theorem always_many {α : Type} {m : Draws α} {P : α → Prop} (h : m.Always P) (n : Nat) :
    (m.many n).Always fun l => l.length = n ∧ ∀ a ∈ l, P a := by
  induction n with
  | zero => exact ⟨rfl, by simp⟩
  | succ n ih =>
    simp only [Draws.many]
    refine always_bind h fun a ha => always_bind ih fun l hl => ⟨by simp [hl.1], ?_⟩
    intro b hb
    rcases List.mem_cons.mp hb with rfl | hb
    · exact ha
    · exact hl.2 b hb

theorem nths_sum {α X : Type} [Inhabited X] (φ : α → X) (F : X → ℝ≥0∞) (l : List α) {n : Nat}
    (hn : l.length = n) : ∑ i, F (nths φ n l i) = (l.map fun a => F (φ a)).sum := by
  subst hn
  induction l with
  | nil => simp
  | cons a t ih =>
    rw [List.length_cons, nths_cons, Fin.sum_univ_succ]
    simp [ih]

theorem isLog_ofLogP (w : LogP) : Spec.Knn.IsLog (Fl.ofLogP w) (pr w) ∧ Fl.ofLogP w ≠ .pinf := by
  cases w with
  | none => exact ⟨⟨by simp [Fl.ofLogP], by simp [Fl.ofLogP, mass, pr]⟩, by simp [Fl.ofLogP]⟩
  | some x => exact ⟨⟨by simp [Fl.ofLogP], by simp [Fl.ofLogP, mass, pr]⟩, by simp [Fl.ofLogP]⟩

/-- A sample is chosen with probability proportional to its weight. -/
theorem choose_E {β : Type} {sw : List (Dict Nat ℝ × LogP)} {n : Nat} (hn : sw.length = n)
    (hn0 : n ≠ 0) (hpos : ∀ r ∈ sw, pr r.2 ≠ 0) (body : Dict Nat ℝ × LogP → Draws β)
    (G : β → ℝ≥0∞) :
    ((if n = 1 then .pure 0
        else Draws.ofRand (Rand.logPflip (sw.map fun p => Fl.ofLogP p.2)
          (List.range sw.length))).bind fun index : Nat =>
      match sw[index]? with
      | none => .raise .indexError
      | some r => body r).E G
    = (sw.map fun r => ENNReal.ofReal (pr r.2) * (body r).E G).sum
      / (sw.map fun r => ENNReal.ofReal (pr r.2)).sum := by
  subst hn
  by_cases h1 : sw.length = 1
  · obtain ⟨r, rfl⟩ := List.length_eq_one_iff.mp h1
    have hr : ENNReal.ofReal (pr r.2) ≠ 0 := by
      rw [Ne, ENNReal.ofReal_eq_zero, not_le]
      exact lt_of_le_of_ne (pr_nonneg _) (Ne.symm (hpos r (by simp)))
    simp only [List.length_singleton, if_true, Draws.bind, List.map_cons, List.map_nil,
      List.sum_cons, List.sum_nil, add_zero]
    rw [mul_comm, ENNReal.mul_div_cancel_right hr ENNReal.ofReal_ne_top]
    rfl
  · rw [if_neg h1, Draws.E_bind]
    obtain ⟨d⟩ : Nonempty (Dict Nat ℝ × LogP) := ⟨([], 0)⟩
    have hmap : ∀ {γ : Type} (F : Dict Nat ℝ × LogP → γ),
        sw.map F = (List.range sw.length).map fun i => F (sw.getD i d) := by
      intro γ F
      refine List.ext_getElem (by simp) fun i h1 h2 => ?_
      simp only [List.length_map] at h1
      simp [List.getD, h1]
    have hsum : 0 < ((List.range sw.length).map fun i => pr (sw.getD i d).2).sum := by
      rw [← hmap fun r => pr r.2]
      clear * - hn0 hpos
      cases sw with
      | nil => simp at hn0
      | cons r t =>
        rw [List.map_cons, List.sum_cons]
        have h1 : 0 < pr r.2 := lt_of_le_of_ne (pr_nonneg _) (Ne.symm (hpos r (by simp)))
        have h2 : 0 ≤ (t.map fun r => pr r.2).sum :=
          List.sum_nonneg fun a ha => by
            obtain ⟨r, -, rfl⟩ := List.mem_map.mp ha
            exact pr_nonneg _
        linarith
    have hE := Draws.E_logPflip (l := List.range sw.length)
      (a := fun i => Fl.ofLogP (sw.getD i d).2) (p := fun i => pr (sw.getD i d).2) (id : ℕ → ℕ)
      (fun _ _ => pr_nonneg _) (fun i _ => isLog_ofLogP _) hsum
      (fun index => (match sw[index]? with
        | none => Draws.raise .indexError
        | some r => body r).E G)
    rw [List.map_id] at hE
    rw [hmap fun p => Fl.ofLogP p.2, hE, hmap fun r => ENNReal.ofReal (pr r.2) * (body r).E G,
      hmap fun r => ENNReal.ofReal (pr r.2)]
    have hsumE : ((List.range sw.length).map fun i => ENNReal.ofReal (pr (sw.getD i d).2)).sum
        = ENNReal.ofReal ((List.range sw.length).map fun i => pr (sw.getD i d).2).sum := by
      generalize List.range sw.length = L
      induction L with
      | nil => simp
      | cons i t ih =>
        rw [List.map_cons, List.sum_cons, List.map_cons, List.sum_cons, ENNReal.ofReal_add
          (pr_nonneg _), ih]
        exact List.sum_nonneg fun a ha => by
          obtain ⟨r, -, rfl⟩ := List.mem_map.mp ha
          exact pr_nonneg _
    rw [hsumE, div_eq_mul_inv, ← List.sum_map_mul_right]
    congr 1
    refine List.map_congr_left fun i hi => ?_
    rw [List.mem_range] at hi
    simp only [id, List.getD, List.getElem?_eq_getElem hi, Option.getD_some]
    rw [ENNReal.ofReal_div_of_pos (by simpa [List.getD] using hsum), div_eq_mul_inv]
    ring

theorem collect_get (s : Dict Nat ℝ) (targets : List Nat) (h : ∀ q ∈ targets, q ∈ s.keys) :
    ∃ d, collect (fun q => match s.get? q with
      | none => Except.error Exn.keyError
      | some v => .ok (q, v)) targets = .ok d ∧ Dict.keys d = targets ∧
      ∀ q v, (q, v) ∈ d → s.get? q = some v := by
  induction targets with
  | nil => exact ⟨[], rfl, rfl, by simp⟩
  | cons q t ih =>
    obtain ⟨d, h1, h2, h3⟩ := ih fun r hr => h r (by simp [hr])
    obtain ⟨v, hv⟩ := Dict.exists_of_mem_keys (h q (by simp))
    refine ⟨(q, v) :: d, by simp only [collect, hv, h1, Except.map], ?_, ?_⟩
    · rw [Dict.keys, List.map_cons, ← Dict.keys, h2]
    · intro r w hr
      rcases List.mem_cons.mp hr with h | h
      · cases h; exact hv
      · exact h3 r w h

section
variable {μ : Nat → Measure ℝ} [∀ v, SigmaFinite (μ v)] {rowid : R} {cgpms : List (NetCgpm R ℝ Ω)}
  {draw : NetDraws R ℝ Ω} {p : Nat → (Nat → ℝ) → ℝ≥0∞}

theorem simulate_E {ord : PyOrder} {net : Network R ℝ Ω}
    (hB : Built cgpms net) {targets : List Nat} {C inputs : Dict Nat ℝ}
    (hp : ∀ l c, cgpms[l]? = some c → Behaves μ rowid c (draw l) (p l)) (hpos : Possible μ cgpms p C)
    (hacc : net.accuracy ≠ 0) {TA : List Nat} (hQ : Query cgpms C TA) (ht : ∀ t ∈ targets, t ∈ TA)
    {x : Nat → ℝ} (hw : Weighted μ cgpms p C TA net.topo x
      (weightedDraws ord draw rowid net targets C inputs))
    {g : (Nat → ℝ) → ℝ≥0∞} (hg : Measurable g)
    (hloc : ∀ y z : Nat → ℝ, (∀ v ∈ targets, y v = z v) → g y = g z) :
    (simulateDraws ord draw rowid net targets C inputs).E (fun d => g (fillWith x d))
      = ∫⁻ z, (∑ i, evidenceWeight μ cgpms p C.keys.toFinset (z i) * g (z i))
          / ∑ i, evidenceWeight μ cgpms p C.keys.toFinset (z i)
        ∂(Measure.pi fun _ : Fin net.accuracy => proposal μ cgpms p C TA net.topo x) := by
  haveI := proposal_prob hB hQ hp hpos hw
  set W := evidenceWeight μ cgpms p C.keys.toFinset with hW
  have hWm : Measurable W := evidenceWeight_measurable hp C.keys.toFinset
  have hH : Measurable fun z : Fin net.accuracy → (Nat → ℝ) =>
      (∑ i, W (z i) * g (z i)) / ∑ i, W (z i) := by
    refine Measurable.div ?_ ?_
    · exact Finset.measurable_fun_sum _ fun i _ =>
        (hWm.comp (measurable_pi_apply i)).mul (hg.comp (measurable_pi_apply i))
    · exact Finset.measurable_fun_sum _ fun i _ => hWm.comp (measurable_pi_apply i)
  rw [← (weighted_hasLaw hB hQ hp hpos hw).many net.accuracy _ hH]
  unfold simulateDraws
  rw [if_neg hacc, Draws.E_bind]
  refine E_congr_always (always_many hw.always net.accuracy) fun sw hsw => ?_
  obtain ⟨hlen, hall⟩ := hsw
  have hprW : ∀ r ∈ sw, ENNReal.ofReal (pr r.2) = W (fillWith x r.1) := fun r hr =>
    (hall r hr).2.2.2
  have hpr : ∀ r ∈ sw, pr r.2 ≠ 0 := by
    intro r hr h0
    have := hpos (fillWith x r.1)
    rw [fillWith_agree (hall r hr).2.2.1] at this
    rw [← hW, ← hprW r hr, h0] at this
    simp at this
  have hnb : ¬ ∀ p ∈ sw, p.2 = ⊥ := by
    intro h
    cases sw with
    | nil => exact hacc hlen.symm
    | cons r t =>
      refine hpr r (by simp) ?_
      rw [h r (by simp)]
      rfl
  rw [if_neg hnb]
  have hch := choose_E hlen hacc hpr (fun p => Draws.ofExcept (collect (fun q =>
    match p.1.get? q with
      | none => .error .keyError
      | some v => .ok (q, v)) targets)) (fun d => g (fillWith x d))
  refine Eq.trans ?_ (hch.trans ?_)
  · congr 2
    funext index
    cases h : sw[index]? <;> simp only []
    rename_i r
    congr 2
    funext q
    cases hq : r.1.get? q <;> rfl
  have hbody : ∀ r ∈ sw, (Draws.ofExcept (collect (fun q => match r.1.get? q with
      | none => Except.error Exn.keyError
      | some v => .ok (q, v)) targets)).E (fun d => g (fillWith x d)) = g (fillWith x r.1) := by
    intro r hr
    obtain ⟨d, h1, h2, h3⟩ := collect_get r.1 targets fun q hq =>
      ((hall r hr).2.1 q).mpr (.inr (ht q hq))
    rw [h1]
    show g (fillWith x d) = _
    refine hloc _ _ fun v hv => ?_
    rw [← h2] at hv
    obtain ⟨a, ha⟩ := Dict.exists_of_mem_keys hv
    have := h3 v a (Dict.mem_of_get? ha)
    unfold fillWith
    rw [ha, this]
  rw [nths_sum (fun r : Dict Nat ℝ × LogP => fillWith x r.1) (fun y => W y * g y) sw hlen,
    nths_sum (fun r : Dict Nat ℝ × LogP => fillWith x r.1) W sw hlen]
  congr 1
  · refine congrArg _ (List.map_congr_left fun r hr => ?_)
    rw [hbody r hr, hprW r hr]
  · exact congrArg _ (List.map_congr_left fun r hr => hprW r hr)

end
end Cgpm.Net
