import Verif.Lemmas.NetBehaves

/-!
Property C71: the law of importance sampling in a network (src/network/importance.py).

The components are described by `Behaves` (Spec/NetDraws.lean): component `l` has the density `p l` of
its outputs given its inputs, which its `logpdf` reports and from which its `simulate` draws.  The joint
density of the variables is the product of the `p l`.  A point `x` gives values to the variables that
nobody produces, the caller's `inputs` being put in their place.
-/
namespace Cgpm.Props
open Cgpm Cgpm.Net MeasureTheory
open scoped ENNReal
variable {R Ω : Type}
variable {μ : Nat → Measure ℝ} [∀ v, SigmaFinite (μ v)] {rowid : R} {cgpms : List (NetCgpm R ℝ Ω)}
  {draw : NetDraws R ℝ Ω} {p : Nat → (Nat → ℝ) → ℝ≥0∞} {ord : PyOrder} {acc : Option Nat}
  {net : Network R ℝ Ω} {targets : List Nat} {constraints inputs : Dict Nat ℝ}

/-- **C71.** A weighted sample is properly weighted: the expected value of `g` of the sample times its
weight is the integral of `g` times the joint density over all variables that are not constrained,
those that are being held at their values.  For all networks, queries, and functions `g` of the
variables that the query concerns. -/
theorem C71_law (hord : ord.Lists) (hb : build ord cgpms acc = .ok net)
    (hsim : ∀ c ∈ cgpms, SimKeys c) (hq : GoodQuery cgpms targets constraints inputs)
    (hs : Supplied cgpms targets constraints inputs)
    (hp : ∀ l c, cgpms[l]? = some c → Behaves μ rowid c (draw l) (p l))
    {g : (Nat → ℝ) → ℝ≥0∞} (hg : Measurable g) (hc : Concerns cgpms targets constraints g)
    (x : Nat → ℝ) :
    ((weightedDraws ord draw rowid net targets constraints inputs).E fun r =>
        g (fillWith (fillWith x inputs) r.1) * ENNReal.ofReal (pr r.2))
      = (∫⋯∫⁻_(allOutputs cgpms \ constraints.keys.toFinset),
          (fun y => g y * jointDensity cgpms p y) ∂μ)
          (fillWith (fillWith x inputs) constraints) := by
  have hB := built_of_build hord hb
  obtain ⟨TA, hQ, hTA, hw⟩ := weighted_facts hord hB hsim hq hs hp
  exact (hw x).joint_concerns hB hQ hTA hp hg hc

/-- **C71.** The expected weight is the marginal density of the constraints. -/
theorem C71_evidence (hord : ord.Lists) (hb : build ord cgpms acc = .ok net)
    (hsim : ∀ c ∈ cgpms, SimKeys c) (hq : GoodQuery cgpms targets constraints inputs)
    (hs : Supplied cgpms targets constraints inputs)
    (hp : ∀ l c, cgpms[l]? = some c → Behaves μ rowid c (draw l) (p l)) (x : Nat → ℝ) :
    ((weightedDraws ord draw rowid net targets constraints inputs).E fun r => ENNReal.ofReal (pr r.2))
      = (∫⋯∫⁻_(allOutputs cgpms \ constraints.keys.toFinset), jointDensity cgpms p ∂μ)
          (fillWith (fillWith x inputs) constraints) := by
  have := C71_law hord hb hsim hq hs hp (g := fun _ => 1) measurable_const (fun _ _ _ => rfl) x
  simpa only [one_mul] using this

/-- **C71.** If the constraints have positive density whatever the values of the other variables, a
weighted sample and a simulation return with probability one. -/
theorem C71_returns (hord : ord.Lists) (hb : build ord cgpms acc = .ok net)
    (hsim : ∀ c ∈ cgpms, SimKeys c) (hq : GoodQuery cgpms targets constraints inputs)
    (hs : Supplied cgpms targets constraints inputs)
    (hp : ∀ l c, cgpms[l]? = some c → Behaves μ rowid c (draw l) (p l))
    (hpos : Possible μ cgpms p constraints) :
    (weightedDraws ord draw rowid net targets constraints inputs).E (fun _ => 1) = 1 ∧
    (net.accuracy ≠ 0 →
      (simulateDraws ord draw rowid net targets constraints inputs).E (fun _ => 1) = 1) := by
  have hB := built_of_build hord hb
  obtain ⟨TA, hQ, hTA, hw⟩ := weighted_facts hord hB hsim hq hs hp
  have hw0 := hw 0
  refine ⟨hw0.total hpos, fun hacc => ?_⟩
  haveI := proposal_prob hB hQ hp hpos hw0
  have hWm := evidenceWeight_measurable hp constraints.keys.toFinset
  have ht : ∀ t ∈ targets, t ∈ TA := fun t h =>
    (hTA t).mpr ⟨.target h, hq.disjoint t h, hq.produced t h⟩
  have h1 := simulate_E hB hp hpos hacc hQ ht hw0 (g := fun _ => 1) measurable_const
    (fun _ _ _ => rfl)
  refine h1.trans ?_
  simp only [mul_one]
  have hH : Measurable fun z : Fin net.accuracy → (Nat → ℝ) =>
      (∑ i, evidenceWeight μ cgpms p constraints.keys.toFinset (z i))
        / ∑ i, evidenceWeight μ cgpms p constraints.keys.toFinset (z i) := by
    have := Finset.measurable_fun_sum (Finset.univ : Finset (Fin net.accuracy)) fun i _ =>
      hWm.comp (measurable_pi_apply (X := fun _ : Fin net.accuracy => Nat → ℝ) i)
    exact this.div this
  rw [← (weighted_hasLaw hB hQ hp hpos hw0).many net.accuracy _ hH]
  have h2 : ((weightedDraws ord draw rowid net targets constraints inputs).many net.accuracy).E
      (fun _ => 1) = 1 := by
    have := (weighted_hasLaw hB hQ hp hpos hw0).many net.accuracy (fun _ => 1) measurable_const
    rw [this]
    simp
  rw [← h2]
  refine E_congr_always (always_many hw0.always net.accuracy) fun sw hsw => ?_
  obtain ⟨hlen, hall⟩ := hsw
  rw [← weights_sum hlen fun r hr => (hall r hr).2.2.2]
  have hpr : ∀ r ∈ sw, pr r.2 ≠ 0 := by
    intro r hr h0
    have h3 := hpos (fillWith (fillWith 0 inputs) r.1)
    rw [fillWith_agree (hall r hr).2.2.1, ← (hall r hr).2.2.2, h0] at h3
    simp at h3
  obtain ⟨h0, ht⟩ := sum_pr_ne hlen hacc hpr
  exact ENNReal.div_self h0 ht

/-- **C71.** Without constraints simulation is exact, at every accuracy: the targets are drawn from
their marginal of the joint density. -/
theorem C71_simulate (hord : ord.Lists) (hb : build ord cgpms acc = .ok net)
    (hsim : ∀ c ∈ cgpms, SimKeys c) (hq : GoodQuery cgpms targets [] inputs)
    (hs : Supplied cgpms targets [] inputs)
    (hp : ∀ l c, cgpms[l]? = some c → Behaves μ rowid c (draw l) (p l)) (hacc : net.accuracy ≠ 0)
    {g : (Nat → ℝ) → ℝ≥0∞} (hg : Measurable g)
    (hloc : ∀ y z : Nat → ℝ, (∀ v ∈ targets, y v = z v) → g y = g z) (x : Nat → ℝ) :
    (simulateDraws ord draw rowid net targets [] inputs).E
        (fun d => g (fillWith (fillWith x inputs) d))
      = (∫⋯∫⁻_(allOutputs cgpms), (fun y => g y * jointDensity cgpms p y) ∂μ)
          (fillWith x inputs) := by
  have hB := built_of_build hord hb
  have hpos := possible_nil hp
  obtain ⟨TA, hQ, hTA, hw⟩ := weighted_facts hord hB hsim hq hs hp
  haveI := proposal_prob hB hQ hp hpos (hw x)
  have ht : ∀ t ∈ targets, t ∈ TA := fun t h =>
    (hTA t).mpr ⟨.target h, hq.disjoint t h, hq.produced t h⟩
  have h1 := simulate_E hB hp hpos hacc hQ ht (hw x) hg hloc
  rw [h1]
  have he : (Dict.keys ([] : Dict Nat ℝ)).toFinset = ∅ := rfl
  simp only [he, evidenceWeight_nil hp, one_mul, Finset.sum_const, Finset.card_univ,
    Fintype.card_fin, nsmul_eq_mul, mul_one]
  rw [lintegral_mean _ hg hacc, ← weighted_hasLaw hB hQ hp hpos (hw x) g hg]
  have h2 := (hw x).joint_concerns hB hQ hTA hp hg fun y z h => hloc y z fun v hv =>
    h v fun _ => .inr (.target hv)
  rw [he, Finset.sdiff_empty, fillWith_nil] at h2
  rw [← h2]
  refine E_congr_always (hw x).always fun r h => ?_
  rw [h.2.2.2, he, evidenceWeight_nil hp, mul_one]

/-- **C71.** Without constraints `logpdf` is unbiased, at every accuracy: the expected value of the
density it reports is the marginal density of the targets. -/
theorem C71_logpdf {query : Dict Nat ℝ} (hord : ord.Lists) (hb : build ord cgpms acc = .ok net)
    (hsim : ∀ c ∈ cgpms, SimKeys c) (hq : GoodQuery cgpms [] query inputs)
    (hs : Supplied cgpms [] query inputs)
    (hp : ∀ l c, cgpms[l]? = some c → Behaves μ rowid c (draw l) (p l))
    (hpos : Possible μ cgpms p query) (hacc : net.accuracy ≠ 0) (x : Nat → ℝ) :
    (logpdfDraws ord draw rowid net query [] inputs).E mass
      = (∫⋯∫⁻_(allOutputs cgpms \ query.keys.toFinset), jointDensity cgpms p ∂μ)
          (fillWith (fillWith x inputs) query) := by
  have hB := built_of_build hord hb
  obtain ⟨TA, hQ, hTA, hw⟩ := weighted_facts hord hB hsim hq hs hp
  haveI := proposal_prob hB hQ hp hpos (hw x)
  have hWm := evidenceWeight_measurable hp query.keys.toFinset
  have h1 := logpdf_E_plain hB hp hpos hacc hQ (hw x) (F := fun a => a) measurable_id
  refine h1.trans ?_
  rw [lintegral_mean _ hWm hacc, ← weighted_hasLaw hB hQ hp hpos (hw x) _ hWm,
    ← C71_evidence hord hb hsim hq hs hp x]
  exact E_congr_always (hw x).always fun r h => h.2.2.2.symm

/-! ### Components that behave -/

/-- **C71.** The components of src/primitives behave so, in every state they can reach, at a row that
is not incorporated. -/
theorem C71_primitive (q : Prim) (h : q.H) (hk : q.fam.hypOk h) (ops : List (Comp.Op ℝ q.H)) (out : Col)
    (r : Option Row) (hμ : μ out = q.base) :
    let c := (Comp.init q.fam h).run q.fam ops
    q.Proper c.hyp → r.bind c.data.get? = none →
    SimKeys (primNet q c out) ∧ Behaves μ r (primNet q c out) (primDraws q c out)
      fun x => ENNReal.ofReal (pr (q.fam.logpdf c.hyp c.stat (x out))) := by
  intro c hP hr
  refine ⟨simKeys_values fun _ _ _ _ _ => rfl, behaves_single (o := out) rfl ?_ ?_ ?_ ?_ ?_⟩
  · exact (prim_measurable q _ hP _).comp (measurable_pi_apply out)
  · intro x y h
    rw [h out (.inl rfl)]
  · intro x
    rw [hμ]
    simp only [Function.update_self]
    exact C69_normalised q h hk ops hP
  · intro x
    refine ⟨_, ?_, rfl⟩
    simp only [primNet, lookAt, Finset.mem_singleton, if_true, Comp.logpdf, hr]
  · intro x g hg
    have hu : Measurable fun t => Function.update x out t := measurable_update x
    have hg' : Measurable fun t => (fun d : Dict Col ℝ => g (fillWith x d)) [(out, t)] := by
      simp only [fillWith_single]
      exact hg.comp hu
    have := C69_law q h hk ops out r (fun t => q.fam.logpdf c.hyp c.stat t) hP
      (fun t => by unfold Comp.logpdf; rw [hr]) (fun d => g (fillWith x d)) hg'
    rw [hμ]
    simp only [Function.update_self, fillWith_single] at this ⊢
    rw [← this]
    unfold primDraws
    rw [Draws.E_bind, Draws.E_bind]
    unfold Prim.simulate
    rw [if_neg (by simp), if_neg (by simp), if_neg (by simp), hr]
    simp only
    rw [Draws.E_bind, Draws.E_bind]
    simp [Draws.E, primNet, Draws.ofExcept, Dict.get?]

/-! ### The hypotheses are met -/

/-- A component that draws variable 1 from a normal distribution around variable 0. -/
noncomputable def aroundNet : NetCgpm (Option Row) ℝ (Nat → ℝ) where
  outputs := [1]
  inputs := [0]
  logpdf := fun _ T I => .ok ((Real.log (ProbabilityTheory.gaussianPDFReal ((I 0).getD 0) 1
    ((T 1).getD 0)) : ℝ) : LogP)
  simulate := fun ω _ ts _ _ => .ok (ts.map fun t => (t, ω t))

noncomputable def aroundDraws (_ : Option Row) (_ : List Nat) (_ I : Look ℝ) : Draws (Nat → ℝ) :=
  .draw (npNormal ((I 0).getD 0) 1) fun x => .pure fun _ => x

theorem aroundNet_behaves (μ : Nat → Measure ℝ) [∀ v, SigmaFinite (μ v)] (hμ : μ 1 = volume)
    (r : Option Row) : Behaves μ r aroundNet aroundDraws
      fun x => ProbabilityTheory.gaussianPDF (x 0) 1 (x 1) := by
  have hm2 : Measurable fun x : Nat → ℝ => ProbabilityTheory.gaussianPDFReal (x 0) 1 (x 1) := by
    unfold ProbabilityTheory.gaussianPDFReal
    have h0 : Measurable fun x : Nat → ℝ => x 0 := measurable_pi_apply 0
    have h1 : Measurable fun x : Nat → ℝ => x 1 := measurable_pi_apply 1
    fun_prop
  refine behaves_single (o := 1) rfl hm2.ennreal_ofReal ?_ ?_ ?_ ?_
  · intro x y h
    rw [h 0 (.inr (by simp [aroundNet])), h 1 (.inl rfl)]
  · intro x
    rw [hμ]
    simp only [Function.update_self, Function.update_of_ne (show (0 : ℕ) ≠ 1 by decide)]
    exact ProbabilityTheory.lintegral_gaussianPDF_eq_one _ one_ne_zero
  · intro x
    refine ⟨_, rfl, ?_⟩
    have hp := ProbabilityTheory.gaussianPDFReal_pos (x 0) 1 (x 1) one_ne_zero
    show ENNReal.ofReal (Real.exp (Real.log _)) = _
    simp only [lookAt, aroundNet, Finset.mem_singleton, if_true, Option.getD_some,
      List.toFinset_cons, List.toFinset_nil, Finset.mem_insert, true_or]
    rw [Real.exp_log hp]
    rfl
  · intro x g hg
    have hu : Measurable fun t => Function.update x 1 t := measurable_update x
    rw [hμ]
    unfold aroundDraws npNormal
    simp only [Draws.bind, Draws.E, aroundNet, Draws.ofExcept, List.map_cons, List.map_nil,
      fillWith_single, Function.update_self, Function.update_of_ne (show (0 : ℕ) ≠ 1 by decide)]
    have h1 : Real.toNNReal (1 ^ 2) = 1 := by simp
    simp only [lookAt, List.toFinset_cons, List.toFinset_nil, Finset.mem_insert, true_or, if_true,
      Option.getD_some, h1, ProbabilityTheory.gaussianReal_of_var_ne_zero _ one_ne_zero]
    have hgu : Measurable fun t => g (Function.update x 1 t) := hg.comp hu
    rw [lintegral_withDensity_eq_lintegral_mul _ (ProbabilityTheory.measurable_gaussianPDF _ _) hgu]
    refine lintegral_congr fun t => ?_
    rw [Pi.mul_apply, mul_comm]

/-- A normal component that holds two rows, and one around it. -/
noncomputable def pairComp : Comp ℝ NormalS NormalH :=
  (Comp.init normal ⟨0, 1, 1, 1⟩).run normal [.inc 0 2, .inc 1 5]

noncomputable def pairNet : List (NetCgpm (Option Row) ℝ (Nat → ℝ)) :=
  [primNet .normal pairComp 0, aroundNet]

noncomputable def pairDraws : NetDraws (Option Row) ℝ (Nat → ℝ)
  | 0 => primDraws .normal pairComp 0
  | _ => aroundDraws

noncomputable def pairDensity : Nat → (Nat → ℝ) → ℝ≥0∞
  | 0 => fun x => ENNReal.ofReal (pr (normal.logpdf pairComp.hyp pairComp.stat (x 0)))
  | _ => fun x => ProbabilityTheory.gaussianPDF (x 0) 1 (x 1)

theorem pairNet_wf : WellFormed pairNet := by
  have hf : ∀ i j, Feeds pairNet i j → i = 0 ∧ j = 1 := by
    rintro i j ⟨a, b, ha, hb, v, hva, hvb⟩
    rcases i with _ | _ | i <;> rcases j with _ | _ | j <;>
      simp [pairNet, primNet, aroundNet] at ha hb <;> subst ha hb <;> simp_all
  refine ⟨by simp [pairNet, primNet, aroundNet], ?_, ?_⟩
  · intro i j a b ha hb v hva hvb
    rcases i with _ | _ | i <;> rcases j with _ | _ | j <;>
      simp [pairNet, primNet, aroundNet] at ha hb <;> subst ha hb <;> simp_all
  · intro i hi
    have : ∀ a b, Relation.TransGen (Feeds pairNet) a b → a = 0 ∧ b = 1 := by
      intro a b h
      induction h with
      | single h => exact hf _ _ h
      | tail _ h ih => exact ⟨ih.1, (hf _ _ h).2⟩
    have := this i i hi
    omega

theorem pairNet_behaves (l : Nat) (c : NetCgpm (Option Row) ℝ (Nat → ℝ)) (h : pairNet[l]? = some c) :
    SimKeys c ∧ Behaves (fun _ => volume) none c (pairDraws l) (pairDensity l) := by
  rcases l with _ | _ | l
  · simp [pairNet] at h
    subst h
    exact C71_primitive .normal ⟨0, 1, 1, 1⟩ ⟨one_pos, one_pos, one_pos⟩ [.inc 0 2, .inc 1 5] 0 none
      rfl trivial rfl
  · simp [pairNet] at h
    subst h
    exact ⟨simKeys_values fun _ _ _ _ _ => rfl, aroundNet_behaves _ rfl none⟩
  · simp [pairNet] at h

theorem pairNet_behaves' : (∀ c ∈ pairNet, SimKeys c) ∧ ∀ l c, pairNet[l]? = some c →
    Behaves (fun _ => volume) none c (pairDraws l) (pairDensity l) :=
  ⟨fun c hc => by
    obtain ⟨l, hl⟩ := List.mem_iff_getElem?.mp hc
    exact (pairNet_behaves l c hl).1, fun l c h => (pairNet_behaves l c h).2⟩

theorem pairNet_possible (y : ℝ) : Possible (fun _ => volume) pairNet pairDensity [(1, y)] := by
  intro x
  have hb := pairNet_behaves'.2
  rw [evidenceWeight_eq]
  have h0 := od_empty hb (S := (Dict.keys [(1, y)]).toFinset) (l := 0) rfl
    (by simp [Dict.keys, primNet]) (fillWith x [(1, y)])
  have h1 : odAt (fun _ => volume) pairNet pairDensity (Dict.keys [(1, y)]).toFinset 1
      (fillWith x [(1, y)]) = ProbabilityTheory.gaussianPDF (x 0) 1 y := by
    have : odAt (fun _ => volume) pairNet pairDensity (Dict.keys [(1, y)]).toFinset 1
      = outDensity (fun _ => volume) [1] (pairDensity 1) (Dict.keys [(1, y)]).toFinset := rfl
    rw [this]
    unfold outDensity
    have he : ([1] : List Nat).toFinset \ (Dict.keys [(1, y)]).toFinset = ∅ := by simp [Dict.keys]
    rw [he, lmarginal_empty]
    simp [pairDensity, fillWith, Dict.get?]
  have hlen : pairNet.length = 2 := rfl
  rw [hlen]
  simp only [List.range_succ, List.range_zero, List.nil_append, List.map_append, List.map_cons,
    List.map_nil, List.prod_append, List.prod_cons, List.prod_nil, mul_one]
  rw [h0, h1, one_mul]
  exact (ProbabilityTheory.gaussianPDF_pos _ one_ne_zero _).ne'

/-- The hypotheses are met by this network, asked for variable 0 given that variable 1 is `y`; and so
are those of `C71_logpdf`. -/
example (y : ℝ) : ∃ net, build idOrder pairNet (some 3) = .ok net ∧ net.accuracy ≠ 0 ∧
    GoodQuery pairNet [0] [(1, y)] [] ∧ Supplied pairNet [0] [(1, y)] [] ∧
    GoodQuery pairNet [] [(1, y)] [] ∧ Supplied pairNet [] [(1, y)] [] ∧
    Concerns pairNet [0] [(1, y)] (fun x => ENNReal.ofReal (x 0)) := by
  obtain ⟨net, hn⟩ := (C26_accepted_iff idOrder idOrder_lists pairNet (some 3)).1 pairNet_wf
  have ha := (C26_accepted_network idOrder idOrder_lists pairNet (some 3) net hn).2.1
  have hs : ∀ T, Supplied pairNet T [(1, y)] [] := by
    intro T c hc _ v hv
    simp only [pairNet, List.mem_cons, List.not_mem_nil, or_false] at hc
    rcases hc with rfl | rfl
    · simp [primNet] at hv
    · simp [aroundNet] at hv
      subst hv
      exact .inl ⟨_, List.mem_cons_self, by simp [primNet]⟩
  refine ⟨net, hn, by rw [ha]; simp, ⟨?_, ?_, ?_, ?_, ?_⟩, hs _, ⟨?_, ?_, ?_, ?_, ?_⟩, hs _,
    fun u v h => congrArg ENNReal.ofReal (h 0 fun _ => .inr (.target (by simp)))⟩
  all_goals simp [Dict.WF, Dict.keys, Produced, pairNet, primNet, aroundNet]

end Cgpm.Props
