import Verif.Lemmas.NetSample
import Verif.Props.LogSpace

/-
C26: composite networks.  C27: importance sampling.
-/
namespace Cgpm.Props
open Cgpm Cgpm.Net Classical
variable {R V Ω : Type}

/-- **C26.** A network is accepted exactly when it is well formed (every component produces
something, no variable has two producers, no cyclic dependency); otherwise ValueError is raised. -/
theorem C26_accepted_iff (ord : PyOrder) (hord : ord.Lists) (cgpms : List (NetCgpm R V Ω))
    (acc : Option Nat) :
    (WellFormed cgpms → ∃ net, build ord cgpms acc = .ok net) ∧
    (¬ WellFormed cgpms → build ord cgpms acc = .error .valueError) := by
  rcases build_cases ord hord cgpms acc with ⟨h, net, hn, -⟩ | ⟨h, he⟩
  · exact ⟨fun _ => ⟨net, hn⟩, fun h' => absurd h h'⟩
  · exact ⟨fun h' => absurd h' h, fun _ => he⟩

/-- **C26.** In an accepted network every variable is mapped to its unique producer, the
evaluation order lists every component exactly once, a component that feeds another is evaluated
strictly before it, and the inputs reported as extraneous are those nobody produces. -/
theorem C26_accepted_network (ord : PyOrder) (hord : ord.Lists) (cgpms : List (NetCgpm R V Ω))
    (acc : Option Nat) (net : Network R V Ω) (h : build ord cgpms acc = .ok net) :
    net.cgpms = cgpms ∧ net.accuracy = acc.getD 1 ∧
    (∀ v i, net.vToC.get? v = some i ↔ ∃ c, cgpms[i]? = some c ∧ v ∈ c.outputs) ∧
    net.topo.Perm (List.range cgpms.length) ∧
    (∀ i j, Feeds cgpms i j → net.topo.idxOf i < net.topo.idxOf j) ∧
    (∀ v, v ∈ net.extraneous ↔ (∃ c ∈ cgpms, v ∈ c.inputs) ∧ ¬ Produced cgpms v) := by
  rcases build_cases ord hord cgpms acc with ⟨hw, net', hn, hB, ha, hv⟩ | ⟨-, he⟩
  · rw [h] at hn; cases hn
    refine ⟨hB.cgpms_eq, ha, fun v i => by rw [hv]; exact vToC_iff hw.unique v i, hB.perm, ?_,
      hB.ext⟩
    intro i j hf
    have hj : j ∈ net.topo := by
      obtain ⟨a, b, -, hb, -⟩ := hf
      rw [hB.perm.mem_iff, List.mem_range]
      exact (List.getElem?_eq_some_iff.mp hb).1
    obtain ⟨pre, post, hsp⟩ := List.append_of_mem hj
    have hi := hB.first _ _ _ hsp i hf
    have hnd : net.topo.Nodup := hB.perm.nodup_iff.mpr List.nodup_range
    have hj' : j ∉ pre := by
      rw [hsp, List.nodup_append] at hnd
      exact fun h => hnd.2.2 j h j (by simp) rfl
    rw [hsp, List.idxOf_append_of_mem hi, List.idxOf_append_of_notMem hj']
    have := List.idxOf_lt_length_iff.mpr hi
    omega
  · rw [h] at he; cases he

theorem built_of_build {ord : PyOrder} (hord : ord.Lists) {cgpms : List (NetCgpm R V Ω)}
    {acc : Option Nat} {net : Network R V Ω} (h : build ord cgpms acc = .ok net) :
    Built cgpms net := by
  rcases build_cases ord hord cgpms acc with ⟨-, net', hn, hB, -⟩ | ⟨-, he⟩
  · rw [h] at hn; cases hn; exact hB
  · rw [h] at he; cases he

/-- **C27.** A weighted sample on an accepted network, for every query and all outcomes of the
draws.  Let `needed` be the variables the query needs.
* The sample binds exactly the constrained variables and the needed variables that somebody
  produces, and constraint values are never overwritten.
* Every component that takes part got a value for each of its inputs.
* The log weight is the sum, over the components with a constrained output, of the log density
  of the constraints bearing on that component, given the values of its inputs in the sample
  (or, for variables not in the sample, in `inputs`); the others contribute nothing.
* Every other value in the sample is what its producer simulated, given the constraints bearing
  on it and the values of its inputs in the sample. -/
theorem C27_weighted_sample (ord : PyOrder) (hord : ord.Lists) (cgpms : List (NetCgpm R V Ω))
    (acc : Option Nat) (net : Network R V Ω) (hb : build ord cgpms acc = .ok net)
    (hsim : ∀ c ∈ cgpms, SimKeys c) (targets : List Nat) (constraints inputs : Dict Nat V)
    (hq : GoodQuery cgpms targets constraints inputs) (ω : Nat → Ω) (rowid : R)
    (s : Dict Nat V) (w : LogP)
    (hrun : weightedSample ord ω rowid net targets constraints inputs = .ok (s, w)) :
    let needed := Needed cgpms (· ∈ targets) (· ∈ constraints.keys)
    (∀ k, k ∈ s.keys ↔ k ∈ constraints.keys ∨ (needed k ∧ Produced cgpms k)) ∧
    (∀ k v, constraints.get? k = some v → s.get? k = some v) ∧
    (∀ c ∈ cgpms, Active cgpms (· ∈ targets) (· ∈ constraints.keys) c →
      ∀ v ∈ c.inputs, inputsFrom c s.get? inputs.get? v ≠ none) ∧
    (∃ ws : List LogP, w = ws.sum ∧ List.Forall₂ (fun c wc =>
      ((∃ k ∈ c.outputs, k ∈ constraints.keys) → c.logpdf rowid (constrFor c constraints.get?)
        (inputsFrom c s.get? inputs.get?) = .ok wc) ∧
      ((¬ ∃ k ∈ c.outputs, k ∈ constraints.keys) → wc = 0)) cgpms ws) ∧
    (∀ (l : Nat) (c : NetCgpm R V Ω), cgpms[l]? = some c → ∃ ts : List Nat, ts.Nodup ∧
      (∀ k, k ∈ ts ↔ k ∈ c.outputs ∧ needed k ∧ k ∉ constraints.keys) ∧
      (ts ≠ [] → ∃ d, c.simulate (ω l) rowid ts (constrFor c constraints.get?)
        (inputsFrom c s.get? inputs.get?) = .ok d ∧ ∀ k ∈ ts, s.get? k = d.get? k)) := by
  have hB := built_of_build hord hb
  obtain ⟨TA, hQ, hTA, h⟩ := weightedSample_cases hord hB hsim hq ω rowid
  rcases h with ⟨s', w', ws, hr, hw, hI, hst⟩ | ⟨e, he, -⟩
  swap
  · rw [hrun] at he; cases he
  rw [hrun] at hr
  cases hr
  have hin : ∀ k, k ∈ TA → ∃ l ∈ net.topo, ∃ c, cgpms[l]? = some c ∧ k ∈ c.outputs := by
    intro k h
    obtain ⟨c, hc, hk⟩ := hQ.prod k h
    obtain ⟨l, hl⟩ := List.mem_iff_getElem?.mp hc
    refine ⟨l, ?_, c, hl, hk⟩
    rw [hB.perm.mem_iff, List.mem_range]
    exact (List.getElem?_eq_some_iff.mp hl).1
  refine ⟨fun k => ?_, hI.agree, ?_, ⟨(List.range cgpms.length).map ws, ?_, ?_⟩, ?_⟩
  · rw [hI.keys]
    by_cases hk : k ∈ constraints.keys
    · simp [hk]
    · simp only [hk, false_or]
      rw [hTA]
      constructor
      · rintro ⟨⟨h1, -, h3⟩, -⟩; exact ⟨h1, h3⟩
      · rintro ⟨h1, h3⟩
        exact ⟨⟨h1, hk, h3⟩, hin k ((hTA k).mpr ⟨h1, hk, h3⟩)⟩
  · rintro c hc ⟨o, ho, h⟩
    obtain ⟨l, hl⟩ := List.mem_iff_getElem?.mp hc
    refine (hst l c hl).2.2.2 ⟨o, ho, ?_⟩
    by_cases hoC : o ∈ constraints.keys
    · exact .inr hoC
    · exact .inl ((hTA o).mpr ⟨h.resolve_right hoC, hoC, c, hc, ho⟩)
  · rw [hw]; exact (hB.perm.map ws).sum_eq
  · rw [List.forall₂_iff_get]
    refine ⟨by simp, fun i h1 h2 => ?_⟩
    have := hst i cgpms[i] (List.getElem?_eq_getElem h1)
    simp only [List.get_eq_getElem, List.getElem_map, List.getElem_range]
    exact ⟨this.1, this.2.1⟩
  · intro l c hc
    refine ⟨TA.filter fun q => c.outputs.contains q, hQ.nodup.filter _, fun k => ?_, fun hne => ?_⟩
    · rw [List.mem_filter, hTA]
      simp only [List.contains_iff_mem]
      constructor
      · rintro ⟨⟨h1, h2, -⟩, h3⟩; exact ⟨h3, h1, h2⟩
      · rintro ⟨h3, h1, h2⟩; exact ⟨⟨h1, h2, c, List.mem_of_getElem? hc, h3⟩, h3⟩
    · obtain ⟨d, hd, hd'⟩ := (hst l c hc).2.2.1 hne
      refine ⟨d, hd, fun k hk => ?_⟩
      have := List.mem_filter.mp hk
      exact hd' k this.1 (by simpa using this.2)

/-- **C27.** With no constraints the log weight is zero. -/
theorem C27_no_constraints (ord : PyOrder) (hord : ord.Lists) (cgpms : List (NetCgpm R V Ω))
    (acc : Option Nat) (net : Network R V Ω) (hb : build ord cgpms acc = .ok net)
    (hsim : ∀ c ∈ cgpms, SimKeys c) (targets : List Nat) (inputs : Dict Nat V)
    (hq : GoodQuery cgpms targets [] inputs) (ω : Nat → Ω) (rowid : R)
    (s : Dict Nat V) (w : LogP)
    (hrun : weightedSample ord ω rowid net targets [] inputs = .ok (s, w)) : w = 0 := by
  obtain ⟨-, -, -, ⟨ws, hw, hf⟩, -⟩ :=
    C27_weighted_sample ord hord cgpms acc net hb hsim targets [] inputs hq ω rowid s w hrun
  rw [hw]
  refine List.sum_eq_zero fun x hx => ?_
  obtain ⟨i, hi, rfl⟩ := List.getElem_of_mem hx
  have := (List.forall₂_iff_get.mp hf).2 i (by rw [hf.length_eq]; exact hi) hi
  exact this.2 (by simp [Dict.keys])

/-- **C27.** A weighted sample fails only when a component raises, on a call in which it was
given a value for every one of its inputs, those of the constraints unchanged, or (AssertionError) when an input that nobody
produces is needed by a component taking part, and is neither constrained nor given. -/
theorem C27_failure (ord : PyOrder) (hord : ord.Lists) (cgpms : List (NetCgpm R V Ω))
    (acc : Option Nat) (net : Network R V Ω) (hb : build ord cgpms acc = .ok net)
    (hsim : ∀ c ∈ cgpms, SimKeys c) (targets : List Nat) (constraints inputs : Dict Nat V)
    (hq : GoodQuery cgpms targets constraints inputs) (ω : Nat → Ω) (rowid : R) (e : Exn)
    (hrun : weightedSample ord ω rowid net targets constraints inputs = .error e) :
    ∃ c ∈ cgpms, Active cgpms (· ∈ targets) (· ∈ constraints.keys) c ∧
      ((e = .assertion ∧ ∃ v ∈ c.inputs, ¬ Produced cgpms v ∧ v ∉ constraints.keys ∧
        v ∉ inputs.keys) ∨
      ∃ sample : Look V, (∀ v x, constraints.get? v = some x → sample v = some x) ∧
        let ins := inputsFrom c sample inputs.get?
        (∀ v ∈ c.inputs, ins v ≠ none) ∧
        (((∃ k ∈ c.outputs, k ∈ constraints.keys) ∧
          c.logpdf rowid (constrFor c constraints.get?) ins = .error e) ∨
         ∃ l ts, ts ≠ [] ∧ (∀ k ∈ ts, k ∈ c.outputs ∧ k ∉ constraints.keys ∧
           Needed cgpms (· ∈ targets) (· ∈ constraints.keys) k) ∧
           c.simulate (ω l) rowid ts (constrFor c constraints.get?) ins = .error e)) := by
  have hB := built_of_build hord hb
  obtain ⟨TA, hQ, hTA, h⟩ := weightedSample_cases hord hB hsim hq ω rowid
  rcases h with ⟨s', w', ws, hr, -⟩ | ⟨e', he, l, c, hc, hE⟩
  · rw [hrun] at hr; cases hr
  rw [hrun] at he
  cases he
  refine ⟨c, List.mem_of_getElem? hc, ?_⟩
  rcases hE with ⟨h1, ⟨o, ho, h2⟩, h3⟩ | ⟨sample, hsa, hins, ⟨⟨k, hk, hkC⟩, h⟩ | ⟨hne, h⟩⟩
  · exact ⟨⟨o, ho, h2.imp_left fun h => ((hTA o).mp h).1⟩, .inl ⟨h1, h3⟩⟩
  · exact ⟨⟨k, hk, .inr hkC⟩, .inr ⟨sample, hsa, hins, .inl ⟨⟨k, hk, hkC⟩, h⟩⟩⟩
  · have hmem : ∀ k ∈ TA.filter fun q => c.outputs.contains q, k ∈ c.outputs ∧
        k ∉ constraints.keys ∧ Needed cgpms (· ∈ targets) (· ∈ constraints.keys) k := by
      intro k hk
      obtain ⟨h1, h2⟩ := List.mem_filter.mp hk
      exact ⟨by simpa using h2, ((hTA k).mp h1).2.1, ((hTA k).mp h1).1⟩
    refine ⟨?_, .inr ⟨sample, hsa, hins, .inr ⟨l, _, hne, hmem, h⟩⟩⟩
    obtain ⟨k, t, hkt⟩ := List.exists_cons_of_ne_nil hne
    have : k ∈ TA.filter fun q => c.outputs.contains q := by rw [hkt]; simp
    obtain ⟨h1, h2⟩ := List.mem_filter.mp this
    exact ⟨k, by simpa using h2, .inl ((hTA k).mp h1).1⟩

/-- **C27.** Conversely a needed input that nobody produces and that is neither constrained nor
given always makes the weighted sample raise. -/
theorem C27_missing_input (ord : PyOrder) (hord : ord.Lists) (cgpms : List (NetCgpm R V Ω))
    (acc : Option Nat) (net : Network R V Ω) (hb : build ord cgpms acc = .ok net)
    (hsim : ∀ c ∈ cgpms, SimKeys c) (targets : List Nat) (constraints inputs : Dict Nat V)
    (hq : GoodQuery cgpms targets constraints inputs) (ω : Nat → Ω) (rowid : R)
    (c : NetCgpm R V Ω) (hc : c ∈ cgpms)
    (ha : Active cgpms (· ∈ targets) (· ∈ constraints.keys) c)
    (v : Nat) (hv : v ∈ c.inputs) (hp : ¬ Produced cgpms v) (hvC : v ∉ constraints.keys)
    (hvi : v ∉ inputs.keys) :
    ∃ e, weightedSample ord ω rowid net targets constraints inputs = .error e := by
  cases hrun : weightedSample ord ω rowid net targets constraints inputs with
  | error e => exact ⟨e, rfl⟩
  | ok r =>
    obtain ⟨s, w⟩ := r
    obtain ⟨hk, -, hin, -⟩ := C27_weighted_sample ord hord cgpms acc net hb hsim targets
      constraints inputs hq ω rowid s w hrun
    refine absurd ?_ (hin c hc ha v hv)
    unfold inputsFrom
    rw [if_pos hv, Option.or_eq_none_iff, Dict.get?_eq_none_iff, Dict.get?_eq_none_iff, hk]
    exact ⟨fun h => h.elim hvC fun h => hp h.2, hvi⟩

theorem ofLogP_props (w : LogP) : Fl.ofLogP w ≠ .nan ∧ Fl.ofLogP w ≠ .pinf ∧
    (mass (Fl.ofLogP w) = 0 ↔ w = ⊥) := by
  cases w with
  | none => exact ⟨by simp [Fl.ofLogP], by simp [Fl.ofLogP], by simp [Fl.ofLogP, mass]; rfl⟩
  | some x =>
    refine ⟨by simp [Fl.ofLogP], by simp [Fl.ofLogP], ?_⟩
    simp only [Fl.ofLogP, mass, ENNReal.ofReal_eq_zero, not_le.mpr (Real.exp_pos x), false_iff]
    exact WithBot.coe_ne_bot

theorem total_ofLogP (l : List LogP) : (total (l.map Fl.ofLogP) = 0 ↔ ∀ w ∈ l, w = ⊥) ∧
    total (l.map Fl.ofLogP) ≠ ⊤ := by
  constructor
  · unfold total
    rw [List.sum_eq_zero_iff]
    simp only [List.mem_map, forall_exists_index, and_imp, forall_apply_eq_imp_iff₂]
    exact forall₂_congr fun w _ => (ofLogP_props w).2.2
  · rw [total_eq_rel 0]
    · exact ENNReal.ofReal_ne_top
    · intro h
      obtain ⟨w, -, hw⟩ := List.mem_map.mp h
      exact (ofLogP_props w).2.1 hw

/-- **C27.** `logpdf`, when no weighted sample raises (`sj i`, `wj i` and `sm i`, `wm i` are the
results of the joint and of the marginal ones): the density is the ratio of the mean joint
weight to the mean weight of the constraints (no constraints: the mean joint weight), and
ValueError is raised when the constraints got density zero in every sample. -/
theorem C27_logpdf (ord : PyOrder) (ωj ωm : Nat → Nat → Ω) (rowid : R)
    (net : Network R V Ω) (hacc : net.accuracy ≠ 0) (targets constraints inputs : Dict Nat V)
    (sj sm : Nat → Dict Nat V) (wj wm : Nat → LogP)
    (hj : ∀ i < net.accuracy, weightedSample ord (ωj i) rowid net [] (targets.update constraints)
      inputs = .ok (sj i, wj i))
    (hm : ∀ i < net.accuracy, weightedSample ord (ωm i) rowid net [] constraints inputs
      = .ok (sm i, wm i)) :
    let W (w : Nat → LogP) := total ((List.range net.accuracy).map fun i => Fl.ofLogP (w i))
    (constraints = [] → ∃ r, Net.logpdf ord ωj ωm rowid net targets constraints inputs = .ok r ∧
      r ≠ .nan ∧ mass r = W wj / net.accuracy) ∧
    (constraints ≠ [] → (∀ i < net.accuracy, wm i = ⊥) →
      Net.logpdf ord ωj ωm rowid net targets constraints inputs = .error .valueError) ∧
    (constraints ≠ [] → (¬ ∀ i < net.accuracy, wm i = ⊥) →
      ∃ r, Net.logpdf ord ωj ωm rowid net targets constraints inputs = .ok r ∧
        r ≠ .nan ∧ W wm ≠ 0 ∧ mass r * W wm = W wj) := by
  intro W
  have hj' := collect_ok (fun i => weightedSample ord (ωj i) rowid net [] (targets.update
    constraints) inputs) (fun i => (sj i, wj i)) (List.range net.accuracy)
    (fun i hi => hj i (List.mem_range.mp hi))
  have hm' := collect_ok (fun i => weightedSample ord (ωm i) rowid net [] constraints inputs)
    (fun i => (sm i, wm i)) (List.range net.accuracy) (fun i hi => hm i (List.mem_range.mp hi))
  have hmean : ∀ w : Nat → LogP, ∃ r, logmeanexp ((List.range net.accuracy).map fun i =>
      Fl.ofLogP (w i)) = .ok r ∧ r ≠ .nan ∧ mass r = W w / net.accuracy := by
    intro w
    obtain ⟨r, h1, h2, -, h3⟩ := C35_logmeanexp ((List.range net.accuracy).map fun i =>
      Fl.ofLogP (w i)) (by
        intro h
        obtain ⟨i, -, hi⟩ := List.mem_map.mp h
        exact (ofLogP_props _).1 hi)
    refine ⟨r, h1, h2, ?_⟩
    rw [h3 (by simp [hacc])]
    simp [W]
  obtain ⟨rj, j1, j2, j3⟩ := hmean wj
  unfold Net.logpdf
  simp only [if_neg hacc, hj', hm', List.map_map, Function.comp_def, j1, Except.map]
  refine ⟨fun h => ?_, fun h hall => ?_, fun h hall => ?_⟩
  · subst h
    simp only [List.isEmpty_nil, if_true, List.mem_singleton, forall_eq]
    rw [if_neg (by exact WithBot.coe_ne_bot (a := (0 : ℝ)))]
    obtain ⟨r0, h1, h2, -, h3⟩ := C35_logmeanexp ([(0 : LogP)].map Fl.ofLogP) (by
      simp only [List.map_cons, List.map_nil, List.mem_singleton]
      exact fun h => (ofLogP_props _).1 h.symm)
    have hr0 : r0 = .fin 0 := by
      refine C35_mass_determines _ _ h2 (by simp) ?_
      rw [h3 (by simp)]
      have : Fl.ofLogP (0 : LogP) = .fin 0 := rfl
      simp [total, this, mass]
    rw [h1, hr0]
    obtain ⟨k1, k2⟩ := mass_sub_fin 0 j2
    refine ⟨_, rfl, k2, ?_⟩
    rw [← j3]; simpa using k1
  · rw [if_neg (by simpa using h)]
    simp only []
    rw [if_pos]
    intro w hw
    obtain ⟨i, hi, rfl⟩ := List.mem_map.mp hw
    exact hall i (List.mem_range.mp hi)
  · have hne : ¬ ∀ w ∈ (List.range net.accuracy).map wm, w = (⊥ : LogP) := by
      intro hh
      exact hall fun i hi => hh _ (List.mem_map.mpr ⟨i, List.mem_range.mpr hi, rfl⟩)
    rw [if_neg (by simpa using h)]
    simp only [if_neg hne]
    obtain ⟨rm, m1, m2, m3⟩ := hmean wm
    have hWm := total_ofLogP ((List.range net.accuracy).map wm)
    simp only [List.map_map, Function.comp_def] at hWm m1 ⊢
    have hW0 : W wm ≠ 0 := fun h0 => hne (hWm.1.mp h0)
    have hWt : W wm ≠ ⊤ := hWm.2
    have hn0 : (net.accuracy : ENNReal) ≠ 0 := by exact_mod_cast hacc
    have hnt : (net.accuracy : ENNReal) ≠ ⊤ := ENNReal.natCast_ne_top _
    rw [m1]
    cases rm with
    | nan => exact absurd rfl m2
    | ninf =>
      exfalso
      have : W wm / net.accuracy = 0 := by rw [← m3]; rfl
      rw [ENNReal.div_eq_zero_iff] at this
      exact this.elim hW0 hnt
    | pinf =>
      exfalso
      have : W wm / net.accuracy = ⊤ := by rw [← m3]; rfl
      rw [ENNReal.div_eq_top] at this
      exact this.elim (fun h => hn0 h.2) (fun h => hWt h.1)
    | fin x =>
      obtain ⟨k1, k2⟩ := mass_sub_fin x j2
      refine ⟨_, rfl, k2, hW0, ?_⟩
      have hx : ENNReal.ofReal (Real.exp x) = W wm / net.accuracy := m3
      rw [hx, j3] at k1
      have := congrArg (· * (net.accuracy : ENNReal)) k1
      simp only [mul_assoc, ENNReal.div_mul_cancel hn0 hnt] at this
      exact this

/-- **C27.** `simulate`, when no weighted sample raises: ValueError when the constraints got
density zero in every sample; otherwise the answer binds exactly the targets (in the order
given) and is taken from one of the samples, sample `i` being chosen with probability
proportional to its weight (`pick u` is the sample chosen when the uniform draw is `u`). -/
theorem C27_simulate (ord : PyOrder) (ω : Nat → Nat → Ω) (rowid : R)
    (net : Network R V Ω) (hacc : net.accuracy ≠ 0) (targets : List Nat)
    (constraints inputs : Dict Nat V)
    (s : Nat → Dict Nat V) (w : Nat → LogP)
    (hs : ∀ i < net.accuracy, weightedSample ord (ω i) rowid net targets constraints
      inputs = .ok (s i, w i)) (ht : ∀ i < net.accuracy, ∀ q ∈ targets, q ∈ (s i).keys) :
    ((∀ i < net.accuracy, w i = ⊥) →
      ∀ u, Net.simulate ord ω u rowid net targets constraints inputs = .error .valueError) ∧
    ((¬ ∀ i < net.accuracy, w i = ⊥) → ∃ pick : ℝ → Nat,
      (∀ u, 0 ≤ u → u < 1 → pick u < net.accuracy ∧ w (pick u) ≠ ⊥ ∧
        ∃ d, Net.simulate ord ω u rowid net targets constraints inputs = .ok d ∧
          d.keys = targets ∧ ∀ q v, (q, v) ∈ d → (s (pick u)).get? q = some v) ∧
      ∀ i < net.accuracy, MeasureTheory.volume {u : ℝ | 0 ≤ u ∧ u < 1 ∧ pick u = i}
        = mass (Fl.ofLogP (w i)) /
          total ((List.range net.accuracy).map fun i => Fl.ofLogP (w i))) := by
  have hs' := collect_ok (fun i => weightedSample ord (ω i) rowid net targets constraints inputs)
    (fun i => (s i, w i)) (List.range net.accuracy) (fun i hi => hs i (List.mem_range.mp hi))
  have hbody : ∀ i < net.accuracy, ∃ d, collect (fun q => match (s i).get? q with
      | none => Except.error Exn.keyError
      | some v => .ok (q, v)) targets = .ok d ∧ Dict.keys d = targets ∧
      ∀ q v, (q, v) ∈ d → (s i).get? q = some v := by
    intro i hi
    have ht' := ht i hi
    generalize s i = si at ht' ⊢
    clear * - ht'
    induction targets with
    | nil => exact ⟨[], rfl, rfl, by simp⟩
    | cons q t ih =>
      obtain ⟨d, h1, h2, h3⟩ := ih fun r hr => ht' r (by simp [hr])
      obtain ⟨v, hv⟩ := Dict.exists_of_mem_keys (ht' q (by simp))
      refine ⟨(q, v) :: d, by simp only [collect, hv, h1, Except.map], ?_, ?_⟩
      · simp only [Dict.keys, List.map_cons] at h2 ⊢; rw [h2]
      · intro q' v' hm
        rcases List.mem_cons.mp hm with h | h
        · cases h; exact hv
        · exact h3 q' v' h
  unfold Net.simulate
  simp only [if_neg hacc, hs']
  have hiff : (∀ p ∈ (List.range net.accuracy).map fun i => (s i, w i), p.2 = (⊥ : LogP)) ↔
      ∀ i < net.accuracy, w i = ⊥ := by
    simp only [List.mem_map, List.mem_range, forall_exists_index, and_imp]
    constructor
    · intro h i hi; exact h _ i hi rfl
    · rintro h p i hi rfl; exact h i hi
  refine ⟨fun h u => by rw [if_pos (hiff.mpr h)], fun h => ?_⟩
  simp only [if_neg (mt hiff.mp h), List.map_map, Function.comp_def, List.length_map,
    List.length_range]
  by_cases h1 : net.accuracy = 1
  · have hw0 : w 0 ≠ ⊥ := fun h0 => h fun i hi => by
      have : i = 0 := by omega
      rw [this]; exact h0
    refine ⟨fun _ => 0, fun u _ _ => ⟨Nat.pos_of_ne_zero hacc, hw0, ?_⟩, fun i hi => ?_⟩
    · obtain ⟨d, d1, d2, d3⟩ := hbody 0 (by omega)
      refine ⟨d, ?_, d2, d3⟩
      simp only [h1, if_true, List.range_one, List.map_cons, List.map_nil]
      exact d1
    · have hi0 : i = 0 := by omega
      subst hi0
      have hset : {u : ℝ | 0 ≤ u ∧ u < 1 ∧ (0 : Nat) = 0} = Set.Ico 0 1 := by
        ext u; simp
      rw [hset, Real.volume_Ico]
      have ht := total_ofLogP [w 0]
      have hm0 : mass (Fl.ofLogP (w 0)) ≠ 0 := mt (ofLogP_props _).2.2.mp hw0
      have hmt : mass (Fl.ofLogP (w 0)) ≠ ⊤ := by
        have := ht.2
        simpa [total] using this
      simp only [h1, List.range_one, List.map_cons, List.map_nil, total, List.sum_cons,
        List.sum_nil, add_zero]
      rw [ENNReal.div_self hm0 hmt]; simp
  · obtain ⟨hT0, hTt⟩ := total_ofLogP ((List.range net.accuracy).map w)
    rw [List.map_map] at hT0 hTt
    simp only [Function.comp_def] at hT0 hTt
    have h0 : total ((List.range net.accuracy).map fun i => Fl.ofLogP (w i)) ≠ 0 := by
      rw [Ne, hT0]
      intro hh
      exact h fun i hi => hh _ (List.mem_map.mpr ⟨i, List.mem_range.mpr hi, rfl⟩)
    obtain ⟨p, hpl, hp0, hps, hpm, hd⟩ := logPflip_eq
      ((List.range net.accuracy).map fun i => Fl.ofLogP (w i)) (List.range net.accuracy)
      (by
        intro a ha
        obtain ⟨i, -, rfl⟩ := List.mem_map.mp ha
        exact ⟨(ofLogP_props _).1, (ofLogP_props _).2.1⟩) h0 (by simp)
    have hpl' : p.length = net.accuracy := by simpa using hpl
    have hpm' : ∀ i (hi : i < p.length), ENNReal.ofReal p[i] *
        total ((List.range net.accuracy).map fun i => Fl.ofLogP (w i))
        = mass (Fl.ofLogP (w i)) := by
      intro i hi
      have := hpm i hi (by rw [← hpl]; exact hi)
      simpa using this
    refine ⟨choiceIdx p, fun u hu hu1 => ?_, fun i hi => ?_⟩
    · obtain ⟨hlt, he⟩ := hd u hu hu1
      have hlt' : choiceIdx p u < net.accuracy := by simpa using hlt
      refine ⟨hlt', ?_, ?_⟩
      · intro hbot
        have hip : choiceIdx p u < p.length := by omega
        have h2 := hpm' _ hip
        rw [(ofLogP_props _).2.2.mpr hbot] at h2
        have hi := (choiceIdx_iff hp0 hu hip).mp rfl
        rw [prefSum_succ hip] at hi
        have hpos : 0 < p[choiceIdx p u] := by linarith [hi.1, hi.2]
        exact mul_ne_zero (by simpa using hpos) h0 h2
      · obtain ⟨d, d1, d2, d3⟩ := hbody _ hlt'
        refine ⟨d, ?_, d2, d3⟩
        simp only [if_neg h1, he, List.getElem_range, List.getElem?_map,
          List.getElem?_range hlt', Option.map_some]
        exact d1
    · rw [volume_choice hp0 hps (by omega : i < p.length), ← hpm' i (by omega),
        ENNReal.mul_div_cancel_right h0 hTt]

/-! ### The hypotheses are met -/

/-- A two-component chain: component 0 produces variable 5 (uniform on two values), component 1
produces variable 7 from variable 5 and from variable 9, which nobody produces. -/
noncomputable def chainNet : List (NetCgpm Unit ℕ ℕ) :=
  [{ outputs := [5], inputs := [], logpdf := fun _ _ _ => .ok ((Real.log (1/2) : ℝ) : LogP),
     simulate := fun ω _ ts _ _ => .ok (ts.map fun t => (t, ω % 2)) },
   { outputs := [7], inputs := [5, 9],
     logpdf := fun _ t i => .ok (if t 7 = i 5 then 0 else ⊥),
     simulate := fun _ _ ts _ i => .ok (ts.map fun t => (t, (i 5).getD 0)) }]

def idOrder : PyOrder := ⟨fun _ g => g, fun l => l⟩

theorem idOrder_lists : idOrder.Lists := ⟨fun _ _ => .refl _, fun _ => .refl _⟩

theorem chainNet_wf : WellFormed chainNet := by
  have hf : ∀ i j, Feeds chainNet i j → i = 0 ∧ j = 1 := by
    rintro i j ⟨a, b, ha, hb, v, hva, hvb⟩
    rcases i with _ | _ | i <;> rcases j with _ | _ | j <;>
      simp [chainNet] at ha hb <;> subst ha hb <;> simp_all
  refine ⟨by simp [chainNet], ?_, ?_⟩
  · intro i j a b ha hb v hva hvb
    rcases i with _ | _ | i <;> rcases j with _ | _ | j <;>
      simp [chainNet] at ha hb <;> subst ha hb <;> simp_all
  · intro i hi
    have : ∀ a b, Relation.TransGen (Feeds chainNet) a b → a = 0 ∧ b = 1 := by
      intro a b h
      induction h with
      | single h => exact hf _ _ h
      | tail _ h ih => exact ⟨ih.1, (hf _ _ h).2⟩
    have := this i i hi
    omega

example : ∃ net, build idOrder chainNet none = .ok net :=
  (C26_accepted_iff idOrder idOrder_lists chainNet none).1 chainNet_wf

example : ∀ c ∈ chainNet, SimKeys c := by
  intro c hc ω r ts constr ins d hts hd
  have key : ∀ f : ℕ → ℕ, Dict.WF (ts.map fun t => (t, f t)) ∧
      ∀ k, k ∈ Dict.keys (ts.map fun t => (t, f t)) ↔ k ∈ ts := by
    intro f
    have : Dict.keys (ts.map fun t => (t, f t)) = ts := by
      simp [Dict.keys, Function.comp_def]
    exact ⟨by unfold Dict.WF; rw [this]; exact hts, fun k => by rw [this]⟩
  simp only [chainNet, List.mem_cons, List.not_mem_nil, or_false] at hc
  rcases hc with rfl | rfl
  · cases hd; exact key _
  · cases hd; exact key _

example : GoodQuery chainNet [5] [(7, 1)] [(9, 3)] :=
  ⟨by simp [Dict.WF, Dict.keys], by simp [Dict.WF, Dict.keys], by simp,
    by simp [Produced, chainNet], by simp [Dict.keys]⟩

end Cgpm.Props
