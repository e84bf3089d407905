import Verif.Spec.NetDraws
import Verif.Lemmas.NetSample
import Verif.Lemmas.StateDraws

/-! The law of a weighted sample. -/
namespace Cgpm.Net
open Cgpm MeasureTheory Classical Cgpm.Props
open scoped ENNReal
variable {R Ω : Type}

theorem lmarginal_scope {μ : Nat → Measure ℝ} (T : Finset Nat) {f : (Nat → ℝ) → ℝ≥0∞}
    {N : Nat → Prop} (hf : ∀ x y : Nat → ℝ, (∀ v, ¬ N v → x v = y v) → f x = f y)
    {x y : Nat → ℝ} (h : ∀ v, ¬ N v → v ∉ T → x v = y v) :
    (∫⋯∫⁻_T, f ∂μ) x = (∫⋯∫⁻_T, f ∂μ) y := by
  refine lintegral_congr fun z => hf _ _ fun v hv => ?_
  by_cases hT : v ∈ T
  · simp [Function.updateFinset, hT]
  · simp only [Function.updateFinset, hT, dite_false]
    exact h v hv hT

/-- Density of the outputs in `S` of component number `l`. -/
noncomputable def odAt (μ : Nat → Measure ℝ) (cgpms : List (NetCgpm R ℝ Ω))
    (p : Nat → (Nat → ℝ) → ℝ≥0∞) (S : Finset Nat) (l : Nat) : (Nat → ℝ) → ℝ≥0∞ :=
  match cgpms[l]? with
  | none => fun _ => 1
  | some c => outDensity μ c.outputs (p l) S

/-- Outputs of component number `l`. -/
def outsAt (cgpms : List (NetCgpm R ℝ Ω)) (l : Nat) : List Nat :=
  match cgpms[l]? with
  | none => []
  | some c => c.outputs

section
variable {μ : Nat → Measure ℝ} [∀ v, SigmaFinite (μ v)] {rowid : R} {cgpms : List (NetCgpm R ℝ Ω)}
  {draw : NetDraws R ℝ Ω} {p : Nat → (Nat → ℝ) → ℝ≥0∞}

theorem outDensity_measurable {outs : List Nat} {q : (Nat → ℝ) → ℝ≥0∞} (hq : Measurable q)
    (S : Finset Nat) : Measurable (outDensity μ outs q S) := Measurable.lmarginal μ hq

theorem outDensity_inter (outs : List Nat) (q : (Nat → ℝ) → ℝ≥0∞) {S T : Finset Nat}
    (h : ∀ v ∈ outs, v ∈ S ↔ v ∈ T) : outDensity μ outs q S = outDensity μ outs q T := by
  unfold outDensity
  have : outs.toFinset \ S = outs.toFinset \ T := by
    ext v
    simp only [Finset.mem_sdiff, List.mem_toFinset]
    exact and_congr_right fun hv => not_congr (h v hv)
  rw [this]

theorem outDensity_scope {c : NetCgpm R ℝ Ω} {d : R → List Nat → Look ℝ → Look ℝ → Draws Ω}
    {q : (Nat → ℝ) → ℝ≥0∞} (h : Behaves μ rowid c d q) (S : Finset Nat) {x y : Nat → ℝ}
    (hxy : ∀ v, (v ∈ c.outputs ∧ v ∈ S) ∨ v ∈ c.inputs → x v = y v) :
    outDensity μ c.outputs q S x = outDensity μ c.outputs q S y := by
  refine lmarginal_scope (N := fun v => ¬ (v ∈ c.outputs ∨ v ∈ c.inputs)) _
    (fun x y hxy => h.scope x y fun v hv => hxy v (not_not.mpr hv)) fun v hv hn => hxy v ?_
  rw [not_not] at hv
  rcases hv with hv | hv
  · left
    refine ⟨hv, ?_⟩
    by_contra hS
    exact hn (by simp [hv, hS])
  · exact .inr hv

/-- Integrating further outputs out. -/
theorem outDensity_lmarginal {outs : List Nat} {q : (Nat → ℝ) → ℝ≥0∞} (hq : Measurable q)
    {S T : Finset Nat} (hT : ∀ v ∈ T, v ∈ outs ∧ v ∉ S) :
    (∫⋯∫⁻_T, outDensity μ outs q (S ∪ T) ∂μ) = outDensity μ outs q S := by
  unfold outDensity
  have : outs.toFinset \ S = T ∪ (outs.toFinset \ (S ∪ T)) := by
    ext v
    simp only [Finset.mem_sdiff, Finset.mem_union, List.mem_toFinset]
    constructor
    · rintro ⟨h1, h2⟩
      by_cases hv : v ∈ T
      · exact .inl hv
      · exact .inr ⟨h1, by tauto⟩
    · rintro (h | ⟨h1, h2⟩)
      · exact hT v h
      · exact ⟨h1, by tauto⟩
  rw [this, lmarginal_union _ _ hq]
  rw [Finset.disjoint_left]
  intro v hv hv'
  simp only [Finset.mem_sdiff, Finset.mem_union] at hv'
  exact hv'.2 (.inr hv)

/-- The law of `simulate`, also when the evidence has density zero. -/
theorem behaves_simulate {c : NetCgpm R ℝ Ω} {d : R → List Nat → Look ℝ → Look ℝ → Draws Ω}
    {q : (Nat → ℝ) → ℝ≥0∞} (h : Behaves μ rowid c d q) {S : Finset Nat} {ts : List Nat}
    (hS : S ⊆ c.outputs.toFinset) (hn : ts.Nodup) (hne : ts ≠ [])
    (hts : ∀ t ∈ ts, t ∈ c.outputs ∧ t ∉ S) (x : Nat → ℝ) {g : (Nat → ℝ) → ℝ≥0∞}
    (hg : Measurable g) :
    ((d rowid ts (lookAt S x) (lookAt c.inputs.toFinset x)).bind fun ω => Draws.ofExcept
          (c.simulate ω rowid ts (lookAt S x) (lookAt c.inputs.toFinset x))).E
            (fun d => g (fillWith x d)) * outDensity μ c.outputs q S x
        = (∫⋯∫⁻_ts.toFinset, (fun y => g y * outDensity μ c.outputs q (S ∪ ts.toFinset) y) ∂μ) x := by
  by_cases h0 : outDensity μ c.outputs q S x = 0
  · rw [h0, mul_zero]
    have h1 := congrFun (outDensity_lmarginal (μ := μ) h.measurable
      (S := S) (T := ts.toFinset) (outs := c.outputs) (by simpa using hts)) x
    rw [h0] at h1
    have hm : Measurable fun y : ts.toFinset → ℝ => outDensity μ c.outputs q (S ∪ ts.toFinset)
        (Function.updateFinset x ts.toFinset y) :=
      (outDensity_measurable h.measurable _).comp measurable_updateFinset
    have h2 := (lintegral_eq_zero_iff hm).mp h1
    symm
    refine (lintegral_congr_ae (h2.mono fun y hy => ?_)).trans lintegral_zero
    show g _ * outDensity μ c.outputs q (S ∪ ts.toFinset) _ = 0
    have hy' : outDensity μ c.outputs q (S ∪ ts.toFinset) (Function.updateFinset x ts.toFinset y) = 0 := hy
    rw [hy', mul_zero]
  · exact h.simulate S ts hS hn hne hts x h0 g hg

theorem od_measurable (hp : ∀ l c, cgpms[l]? = some c → Behaves μ rowid c (draw l) (p l))
    (S : Finset Nat) (l : Nat) : Measurable (odAt μ cgpms p S l) := by
  unfold odAt
  cases h : cgpms[l]? with
  | none => exact measurable_const
  | some c => exact outDensity_measurable (hp l c h).measurable _

theorem od_prod_measurable (hp : ∀ l c, cgpms[l]? = some c → Behaves μ rowid c (draw l) (p l))
    (S : Finset Nat) (ls : List Nat) :
    Measurable fun y => (ls.map fun l => odAt μ cgpms p S l y).prod := by
  induction ls with
  | nil => exact measurable_const
  | cons l t ih =>
    simp only [List.map_cons, List.prod_cons]
    exact (od_measurable hp S l).mul ih

/-- What the components `ls` contribute, once the variables before them are given. -/
noncomputable def futureOf (μ : Nat → Measure ℝ) (cgpms : List (NetCgpm R ℝ Ω))
    (p : Nat → (Nat → ℝ) → ℝ≥0∞) (S U : Finset Nat) (g : (Nat → ℝ) → ℝ≥0∞) (ls : List Nat) :
    (Nat → ℝ) → ℝ≥0∞ :=
  ∫⋯∫⁻_((ls.flatMap (outsAt cgpms)).toFinset ∩ U),
    (fun y => g y * (ls.map fun l => odAt μ cgpms p S l y).prod) ∂μ

theorem future_measurable (hp : ∀ l c, cgpms[l]? = some c → Behaves μ rowid c (draw l) (p l))
    (S U : Finset Nat) {g : (Nat → ℝ) → ℝ≥0∞} (hg : Measurable g) (ls : List Nat) :
    Measurable (futureOf μ cgpms p S U g ls) :=
  Measurable.lmarginal μ (hg.mul (od_prod_measurable hp S ls))

theorem future_cons {net : Network R ℝ Ω} (hB : Built cgpms net)
    (hp : ∀ l c, cgpms[l]? = some c → Behaves μ rowid c (draw l) (p l))
    (S U : Finset Nat) {g : (Nat → ℝ) → ℝ≥0∞} (hg : Measurable g) {pre t : List Nat} {l : Nat}
    (hsp : net.topo = pre ++ l :: t) :
    futureOf μ cgpms p S U g (l :: t) = ∫⋯∫⁻_((outsAt cgpms l).toFinset ∩ U),
      (fun y => odAt μ cgpms p S l y * futureOf μ cgpms p S U g t y) ∂μ := by
  have hnd : net.topo.Nodup := hB.perm.nodup_iff.mpr List.nodup_range
  have hlt : l ∉ t := by
    rw [hsp, List.nodup_append] at hnd
    exact (List.nodup_cons.mp hnd.2.1).1
  have hpt : ∀ m ∈ t, m ∉ pre := by
    rw [hsp, List.nodup_append] at hnd
    exact fun m hm hm' => hnd.2.2 m hm' m (by simp [hm]) rfl
  have hdis : Disjoint ((outsAt cgpms l).toFinset ∩ U) ((t.flatMap (outsAt cgpms)).toFinset ∩ U) := by
    rw [Finset.disjoint_left]
    intro v hv hv'
    simp only [Finset.mem_inter, List.mem_toFinset, List.mem_flatMap] at hv hv'
    obtain ⟨⟨m, hm, hvm⟩, -⟩ := hv'
    unfold outsAt at hv hvm
    cases hl : cgpms[l]? with
    | none => simp [hl] at hv
    | some c =>
      cases hm' : cgpms[m]? with
      | none => simp [hm'] at hvm
      | some c' =>
        simp only [hl, hm'] at hv hvm
        have := hB.wf.unique _ _ _ _ hl hm' v hv.1 hvm
        exact hlt (this ▸ hm)
  have hm' : Measurable fun y => g y * ((l :: t).map fun l => odAt μ cgpms p S l y).prod :=
    hg.mul (od_prod_measurable hp S (l :: t))
  have hm : Measurable fun y => g y * (t.map fun l => odAt μ cgpms p S l y).prod :=
    hg.mul (od_prod_measurable hp S t)
  funext x
  unfold futureOf
  rw [List.flatMap_cons, List.toFinset_append, Finset.union_inter_distrib_right,
    lmarginal_union _ _ hm' hdis]
  refine congrFun (congrArg _ (funext fun y => ?_)) x
  rw [← lmarginal_pull (D := odAt μ cgpms p S l) _ hm y]
  · refine congrFun (congrArg _ (funext fun z => ?_)) y
    simp only [List.map_cons, List.prod_cons]
    ring
  · intro w hw
    unfold odAt
    cases hl : cgpms[l]? with
    | none => rfl
    | some c =>
      refine outDensity_scope (hp l c hl) S fun v hv => hw v fun hv' => ?_
      simp only [Finset.mem_inter, List.mem_toFinset, List.mem_flatMap] at hv'
      obtain ⟨⟨m, hm, hvm⟩, -⟩ := hv'
      unfold outsAt at hvm
      cases hm' : cgpms[m]? with
      | none => simp [hm'] at hvm
      | some c' =>
        simp only [hm'] at hvm
        rcases hv with hv | hv
        · exact hlt (hB.wf.unique _ _ _ _ hl hm' v hv.1 hvm ▸ hm)
        · exact hpt m hm (hB.first _ _ _ hsp m ⟨c', c, hm', hl, v, hvm, hv⟩)

/-- Components that take no part can be left out: they integrate to one. -/
theorem future_prune {net : Network R ℝ Ω} (hB : Built cgpms net)
    (hp : ∀ l c, cgpms[l]? = some c → Behaves μ rowid c (draw l) (p l))
    {C : Dict Nat ℝ} {TA : List Nat} (hQ : Query cgpms C TA) {g : (Nat → ℝ) → ℝ≥0∞}
    (hg : Measurable g)
    (hloc : ∀ y z : Nat → ℝ, (∀ v, ¬ (Produced cgpms v ∧ v ∉ C.keys ∧ v ∉ TA) → y v = z v) →
      g y = g z) (ls : List Nat) :
    ∀ pre, net.topo = pre ++ ls →
      futureOf μ cgpms p (C.keys.toFinset ∪ TA.toFinset) TA.toFinset g ls
        = ∫⋯∫⁻_((ls.flatMap (outsAt cgpms)).toFinset \ C.keys.toFinset),
            (fun y => g y * (ls.map fun l => p l y).prod) ∂μ := by
  set S := C.keys.toFinset ∪ TA.toFinset with hSdef
  induction ls with
  | nil => intro pre _; simp [futureOf]
  | cons l t ih =>
    intro pre hsp
    have hl' : l < cgpms.length := by
      have : l ∈ net.topo := by rw [hsp]; simp
      rw [hB.perm.mem_iff, List.mem_range] at this
      exact this
    have hl : cgpms[l]? = some cgpms[l] := List.getElem?_eq_getElem hl'
    have hiht := ih (pre ++ [l]) (by rw [hsp]; simp)
    have hnd : net.topo.Nodup := hB.perm.nodup_iff.mpr List.nodup_range
    have hlt : l ∉ t := by
      rw [hsp, List.nodup_append] at hnd
      exact (List.nodup_cons.mp hnd.2.1).1
    have hpt : ∀ m ∈ t, m ∉ pre := by
      rw [hsp, List.nodup_append] at hnd
      exact fun m hm hm' => hnd.2.2 m hm' m (by simp [hm]) rfl
    have htl : ∀ m ∈ t, ∃ c, cgpms[m]? = some c := by
      intro m hm
      have : m ∈ net.topo := by rw [hsp]; simp [hm]
      rw [hB.perm.mem_iff, List.mem_range] at this
      exact ⟨_, List.getElem?_eq_getElem this⟩
    set c := cgpms[l] with hcdef
    have hpm : Measurable fun y => g y * (t.map fun l => p l y).prod := by
      refine hg.mul ?_
      clear * - htl hp
      induction t with
      | nil => exact measurable_const
      | cons m t ih =>
        simp only [List.map_cons, List.prod_cons]
        obtain ⟨c, hc⟩ := htl m List.mem_cons_self
        exact (hp m c hc).measurable.mul (ih fun m' h => htl m' (List.mem_cons_of_mem _ h))
    have hpm' : Measurable fun y => g y * ((l :: t).map fun l => p l y).prod := by
      have : (fun y => g y * ((l :: t).map fun l => p l y).prod)
          = fun y => p l y * (g y * (t.map fun l => p l y).prod) := by
        funext y; simp only [List.map_cons, List.prod_cons]; ring
      rw [this]
      exact (hp l c hl).measurable.mul hpm
    have hout : outsAt cgpms l = c.outputs := by unfold outsAt; rw [hl]
    have hod : odAt μ cgpms p S l = outDensity μ c.outputs (p l) S := by unfold odAt; rw [hl]
    have hdis : Disjoint (c.outputs.toFinset \ C.keys.toFinset)
        ((t.flatMap (outsAt cgpms)).toFinset \ C.keys.toFinset) := by
      rw [Finset.disjoint_left]
      intro v hv hv'
      simp only [Finset.mem_sdiff, List.mem_toFinset, List.mem_flatMap] at hv hv'
      obtain ⟨⟨m, hm, hvm⟩, -⟩ := hv'
      obtain ⟨c', hc'⟩ := htl m hm
      unfold outsAt at hvm
      simp only [hc'] at hvm
      exact hlt (hB.wf.unique _ _ _ _ hl hc' v hv.1 hvm ▸ hm)
    -- the full integral, one component at a time
    have hfull : (∫⋯∫⁻_(((l :: t).flatMap (outsAt cgpms)).toFinset \ C.keys.toFinset),
          (fun y => g y * ((l :: t).map fun l => p l y).prod) ∂μ)
        = ∫⋯∫⁻_(c.outputs.toFinset \ C.keys.toFinset),
          (fun y => p l y * futureOf μ cgpms p S TA.toFinset g t y) ∂μ := by
      rw [hiht, List.flatMap_cons, List.toFinset_append, Finset.union_sdiff_distrib, hout,
        lmarginal_union _ _ hpm' hdis]
      refine congrArg _ (funext fun y => ?_)
      rw [← lmarginal_pull (D := p l) _ hpm y]
      · refine congrFun (congrArg _ (funext fun z => ?_)) y
        simp only [List.map_cons, List.prod_cons]
        ring
      · intro w hw
        refine (hp l c hl).scope _ _ fun v hv => hw v fun hv' => ?_
        simp only [Finset.mem_sdiff, List.mem_toFinset, List.mem_flatMap] at hv'
        obtain ⟨⟨m, hm, hvm⟩, -⟩ := hv'
        obtain ⟨c', hc'⟩ := htl m hm
        unfold outsAt at hvm
        simp only [hc'] at hvm
        rcases hv with hv | hv
        · exact hlt (hB.wf.unique _ _ _ _ hl hc' v hv hvm ▸ hm)
        · exact hpt m hm (hB.first _ _ _ hsp m ⟨c', c, hc', hl, v, hvm, hv⟩)
    -- the future does not depend on what was left out
    have hfloc : ∀ y z : Nat → ℝ,
        (∀ v, ¬ (Produced cgpms v ∧ v ∉ C.keys ∧ v ∉ TA) → y v = z v) →
        futureOf μ cgpms p S TA.toFinset g t y = futureOf μ cgpms p S TA.toFinset g t z := by
      intro y z hyz
      refine lmarginal_scope (N := fun v => Produced cgpms v ∧ v ∉ C.keys ∧ v ∉ TA) _ ?_
        fun v hv _ => hyz v hv
      intro y z hyz
      show g y * _ = g z * _
      rw [hloc y z hyz]
      congr 2
      refine List.map_congr_left fun m hm => ?_
      obtain ⟨c', hc'⟩ := htl m hm
      unfold odAt
      simp only [hc']
      by_cases hact : ∃ o ∈ c'.outputs, o ∈ TA ∨ o ∈ C.keys
      · refine outDensity_scope (hp m c' hc') S fun v hv => hyz v ?_
        rintro ⟨h1, h2, h3⟩
        rcases hv with hv | hv
        · simp [hSdef, h2, h3] at hv
        · exact (hQ.closed c' (List.mem_of_getElem? hc') hact v hv h1).elim h3 h2
      · have : outDensity μ c'.outputs (p m) S = outDensity μ c'.outputs (p m) ∅ := by
          refine outDensity_inter _ _ fun v hv => ?_
          simp only [hSdef, Finset.mem_union, List.mem_toFinset, Finset.notMem_empty, iff_false]
          exact fun h => hact ⟨v, hv, h.symm⟩
        rw [this]
        unfold outDensity
        rw [Finset.sdiff_empty, (hp m c' hc').total, (hp m c' hc').total]
    have hsplit : c.outputs.toFinset \ C.keys.toFinset
        = (c.outputs.toFinset ∩ TA.toFinset) ∪ (c.outputs.toFinset \ S) := by
      ext v
      simp only [hSdef, Finset.mem_sdiff, Finset.mem_union, Finset.mem_inter, List.mem_toFinset]
      have := hQ.disj v
      tauto
    have hdis2 : Disjoint (c.outputs.toFinset ∩ TA.toFinset) (c.outputs.toFinset \ S) := by
      rw [Finset.disjoint_left]
      intro v hv hv'
      simp only [hSdef, Finset.mem_sdiff, Finset.mem_union, Finset.mem_inter,
        List.mem_toFinset] at hv hv'
      tauto
    have hfm := future_measurable hp S TA.toFinset hg t
    have hmm : Measurable fun y => p l y * futureOf μ cgpms p S TA.toFinset g t y :=
      (hp l c hl).measurable.mul hfm
    rw [future_cons hB hp S _ hg hsp, hfull, hsplit, lmarginal_union _ _ hmm hdis2, hout, hod]
    refine congrArg _ (funext fun y => ?_)
    have := lmarginal_pull (μ := μ) (D := futureOf μ cgpms p S TA.toFinset g t)
      (c.outputs.toFinset \ S) (hp l c hl).measurable y ?_
    · unfold outDensity
      rw [mul_comm, ← this]
      refine congrFun (congrArg _ (funext fun z => ?_)) y
      exact mul_comm _ _
    · intro w hw
      refine hfloc _ _ fun v hv => hw v fun hv' => hv ?_
      simp only [hSdef, Finset.mem_sdiff, Finset.mem_union, List.mem_toFinset] at hv'
      exact ⟨⟨c, List.getElem_mem hl', hv'.1⟩, fun h => hv'.2 (.inl h), fun h => hv'.2 (.inr h)⟩

/-! ### one weighted sample -/

theorem fillWith_update (x : Nat → ℝ) {s d : Dict Nat ℝ} (hd : d.WF) :
    fillWith x (s.update d) = fillWith (fillWith x s) d := by
  funext v
  unfold fillWith
  rw [Dict.get?_update _ _ hd]
  cases d.get? v <;> rfl

theorem lookAt_constr (c : NetCgpm R ℝ Ω) {C s : Dict Nat ℝ} (x : Nat → ℝ)
    (hs : ∀ k v, C.get? k = some v → s.get? k = some v) :
    constrFor c C.get? = lookAt (c.outputs.toFinset ∩ C.keys.toFinset) (fillWith x s) := by
  funext v
  unfold constrFor lookAt fillWith
  by_cases hv : v ∈ c.outputs
  · cases h : C.get? v with
    | none => 
      have : v ∉ C.keys := (Dict.get?_eq_none_iff _ _).mp h
      simp [this, hv]
    | some a =>
      simp [hv, Dict.mem_keys_of_get? h, hs v a h]
  · simp [hv]

theorem lookAt_inputs (c : NetCgpm R ℝ Ω) {s ins : Dict Nat ℝ} (x : Nat → ℝ)
    (h : ∀ v ∈ c.inputs, inputsFrom c s.get? ins.get? v ≠ none) :
    inputsFrom c s.get? ins.get? = lookAt c.inputs.toFinset (fillWith (fillWith x ins) s) := by
  funext v
  unfold lookAt fillWith
  by_cases hv : v ∈ c.inputs
  · have := h v hv
    unfold inputsFrom at this ⊢
    rw [if_pos hv] at this ⊢
    simp only [List.mem_toFinset, hv, if_true]
    cases h1 : s.get? v with
    | some a => simp
    | none =>
      cases h2 : ins.get? v with
      | some a => simp
      | none => simp [h1, h2] at this
  · simp [inputsFrom, hv]

theorem invokeDraws_eq {net : Network R ℝ Ω} (hB : Built cgpms net) {C inputs : Dict Nat ℝ}
    {TA : List Nat} (hi : inputs.WF) (draw : NetDraws R ℝ Ω) (rowid : R) {pre post : List Nat}
    {l : Nat} (hsp : net.topo = pre ++ l :: post) {c : NetCgpm R ℝ Ω} (hc : cgpms[l]? = some c)
    {s : Dict Nat ℝ} (hI : SInv cgpms C TA pre s)
    (hin : (∃ o ∈ c.outputs, o ∈ TA ∨ o ∈ C.keys) → ∀ v ∈ c.inputs,
      inputsFrom c s.get? inputs.get? v ≠ none) :
    invokeDraws draw l rowid c TA s inputs =
      (Draws.ofExcept (if ∃ k ∈ c.outputs, k ∈ C.keys then
          c.logpdf rowid (constrFor c C.get?) (inputsFrom c s.get? inputs.get?)
        else .ok (0 : LogP))).bind fun weight =>
      (if (TA.filter fun q => c.outputs.contains q) = [] then .pure [] else
        (draw l rowid (TA.filter fun q => c.outputs.contains q) (constrFor c C.get?)
          (inputsFrom c s.get? inputs.get?)).bind fun ω =>
          Draws.ofExcept (c.simulate ω rowid (TA.filter fun q => c.outputs.contains q)
            (constrFor c C.get?) (inputsFrom c s.get? inputs.get?))).bind fun d =>
      .pure (d, weight) := by
  have hcg : (cgpmConstraints c s).get? = constrFor c C.get? := by
    rw [cgpmConstraints_get? c hI.wf, sinv_constr hB hsp hc hI]
  have hemp : (cgpmConstraints c s).isEmpty = true ↔ ¬ ∃ k ∈ c.outputs, k ∈ C.keys := by
    rw [List.isEmpty_iff]
    constructor
    · rintro he ⟨k, hk, hkC⟩
      obtain ⟨v, hv⟩ := Dict.exists_of_mem_keys hkC
      have := congrFun hcg k
      rw [he] at this
      simp [constrFor, hk, hv] at this
    · intro hn
      rw [List.eq_nil_iff_forall_not_mem]
      rintro ⟨k, v⟩ hm
      unfold cgpmConstraints at hm
      obtain ⟨hm1, hm2⟩ := List.mem_filter.mp hm
      have hko : k ∈ c.outputs := by simpa using hm2
      have h1 : (constrFor c s.get?) k = some v := by
        unfold constrFor; rw [if_pos hko]; exact Dict.get?_of_mem hI.wf hm1
      rw [sinv_constr hB hsp hc hI] at h1
      unfold constrFor at h1
      rw [if_pos hko] at h1
      exact hn ⟨k, hko, Dict.mem_keys_of_get? h1⟩
  have hall : (c.inputs.all fun i => (cgpmInputs c s inputs).has i) = true ↔
      ∀ v ∈ c.inputs, inputsFrom c s.get? inputs.get? v ≠ none := by
    rw [List.all_eq_true]
    refine forall₂_congr fun v hv => ?_
    unfold Dict.has
    rw [cgpmInputs_get? c hI.wf hi, ← Option.isSome_iff_ne_none]
  have hcond : ((!(cgpmConstraints c s).isEmpty ||
      !(TA.filter fun q => c.outputs.contains q).isEmpty) &&
      !(c.inputs.all fun i => (cgpmInputs c s inputs).has i)) = false := by
    rw [Bool.eq_false_iff, Ne, Bool.and_eq_true, not_and, Bool.not_eq_true', Bool.not_eq_false]
    intro h
    rw [hall]
    refine hin ?_
    rw [Bool.or_eq_true, Bool.not_eq_true', Bool.not_eq_true', Bool.eq_false_iff, Ne, hemp, not_not,
      Bool.eq_false_iff, Ne, List.isEmpty_iff] at h
    rcases h with ⟨k, h1, h2⟩ | h
    · exact ⟨k, h1, .inr h2⟩
    · obtain ⟨k, hk⟩ := List.exists_mem_of_ne_nil _ h
      have := List.mem_filter.mp hk
      exact ⟨k, by simpa using this.2, .inl this.1⟩
  unfold invokeDraws
  simp only [hcond, Bool.false_eq_true, if_false, hcg, cgpmInputs_get? c hI.wf hi, List.isEmpty_iff,
    if_neg]
  congr 1
  by_cases h : ∃ k ∈ c.outputs, k ∈ C.keys
  · rw [if_pos h, if_neg]
    rw [← List.isEmpty_iff, hemp, not_not]; exact h
  · rw [if_neg h, if_pos]
    rw [← List.isEmpty_iff, hemp]; exact h

theorem sinv_step {net : Network R ℝ Ω} (hB : Built cgpms net) {C : Dict Nat ℝ}
    {TA : List Nat} (hQ : Query cgpms C TA) {pre post : List Nat}
    {l : Nat} (hsp : net.topo = pre ++ l :: post) {c : NetCgpm R ℝ Ω} (hc : cgpms[l]? = some c)
    {s d : Dict Nat ℝ} (hI : SInv cgpms C TA pre s) (hd : d.WF)
    (hk : ∀ k, k ∈ d.keys ↔ k ∈ TA.filter fun q => c.outputs.contains q) :
    SInv cgpms C TA (pre ++ [l]) (s.update d) := by
  have hk' : ∀ k, k ∈ d.keys ↔ k ∈ TA ∧ k ∈ c.outputs := by
    intro k; rw [hk]; simp [List.mem_filter]
  refine ⟨Dict.wf_update hI.wf _, fun k => ?_, fun k v hkv => ?_⟩
  · rw [Dict.mem_keys_update, hI.keys, hk']
    constructor
    · rintro ((h | ⟨h1, m, hm, c', hc', hk'⟩) | ⟨h1, h2⟩)
      · exact .inl h
      · exact .inr ⟨h1, m, by simp [hm], c', hc', hk'⟩
      · exact .inr ⟨h1, l, by simp, c, hc, h2⟩
    · rintro (h | ⟨h1, m, hm, c', hc', hk'⟩)
      · exact .inl (.inl h)
      · rcases List.mem_append.mp hm with hm | hm
        · exact .inl (.inr ⟨h1, m, hm, c', hc', hk'⟩)
        · rw [List.mem_singleton] at hm
          subst hm
          rw [hc] at hc'; cases hc'
          exact .inr ⟨h1, hk'⟩
  · rw [Dict.get?_update _ _ hd]
    have : d.get? k = none := by
      rw [Dict.get?_eq_none_iff, hk']
      exact fun h => hQ.disj k h.1 (Dict.mem_keys_of_get? hkv)
    rw [this]
    exact hI.agree k v hkv

theorem ofExcept_always {α : Type} {Q : α → Prop} {e : Except Exn α} (h : ∀ a, e = .ok a → Q a) :
    (Draws.ofExcept e).Always Q := by
  cases e with
  | error e => trivial
  | ok a => exact h a rfl

theorem loopDraws_law {net : Network R ℝ Ω} (hB : Built cgpms net) {C inputs : Dict Nat ℝ}
    {TA : List Nat} (hQ : Query cgpms C TA) (hi : inputs.WF)
    (hsim : ∀ c ∈ cgpms, SimKeys c)
    (hp : ∀ l c, cgpms[l]? = some c → Behaves μ rowid c (draw l) (p l))
    (hgiven : ∀ c ∈ cgpms, (∃ o ∈ c.outputs, o ∈ TA ∨ o ∈ C.keys) → ∀ v ∈ c.inputs,
      Produced cgpms v ∨ v ∈ C.keys ∨ v ∈ inputs.keys)
    (x : Nat → ℝ) {g : (Nat → ℝ) → ℝ≥0∞} (hg : Measurable g) (ls : List Nat) :
    ∀ (pre : List Nat) (s : Dict Nat ℝ) (w : LogP), net.topo = pre ++ ls →
      SInv cgpms C TA pre s →
      (loopDraws draw rowid cgpms TA inputs ls s w).E
          (fun r => g (fillWith (fillWith x inputs) r.1) * ENNReal.ofReal (pr r.2))
        = ENNReal.ofReal (pr w) * futureOf μ cgpms p (C.keys.toFinset ∪ TA.toFinset) TA.toFinset g ls
            (fillWith (fillWith x inputs) s) := by
  induction ls with
  | nil =>
    intro pre s w _ _
    simp [loopDraws, Draws.E, futureOf, mul_comm]
  | cons l t ih =>
    intro pre s w hsp hI
    have hl' : l < cgpms.length := by
      have : l ∈ net.topo := by rw [hsp]; simp
      rw [hB.perm.mem_iff, List.mem_range] at this
      exact this
    obtain ⟨c, hl⟩ : ∃ c, cgpms[l]? = some c := ⟨_, List.getElem?_eq_getElem hl'⟩
    have hcm : c ∈ cgpms := List.mem_of_getElem? hl
    have hb := hp l c hl
    have hout : outsAt cgpms l = c.outputs := by unfold outsAt; rw [hl]
    have hin : (∃ o ∈ c.outputs, o ∈ TA ∨ o ∈ C.keys) → ∀ v ∈ c.inputs,
        inputsFrom c s.get? inputs.get? v ≠ none := by
      intro hact v hv hnone
      obtain ⟨h1, h2, h3⟩ := sinv_inputs_some hB hQ hsp hl hI hact hv hnone
      rcases hgiven c hcm hact v hv with h | h | h
      · exact h1 h
      · exact h2 h
      · exact h3 h
    set ts := TA.filter fun q => c.outputs.contains q with hts
    have htsm : ∀ k, k ∈ ts ↔ k ∈ TA ∧ k ∈ c.outputs := by
      intro k; rw [hts]; simp [List.mem_filter]
    set S := C.keys.toFinset ∪ TA.toFinset with hSdef
    set y := fillWith (fillWith x inputs) s with hy
    have hod : odAt μ cgpms p S l = outDensity μ c.outputs (p l) S := by unfold odAt; rw [hl]
    set S0 := c.outputs.toFinset ∩ C.keys.toFinset with hS0
    have hcl : constrFor c C.get? = lookAt S0 y := lookAt_constr c _ hI.agree
    -- the weight
    obtain ⟨wl, hwl, hwd⟩ : ∃ wl : LogP, (if ∃ k ∈ c.outputs, k ∈ C.keys then
          c.logpdf rowid (constrFor c C.get?) (inputsFrom c s.get? inputs.get?)
        else .ok (0 : LogP)) = .ok wl ∧ ENNReal.ofReal (pr wl) = outDensity μ c.outputs (p l) S0 y := by
      by_cases h : ∃ k ∈ c.outputs, k ∈ C.keys
      · rw [if_pos h]
        obtain ⟨k, hk, hkC⟩ := h
        rw [hcl, lookAt_inputs c x (hin ⟨k, hk, .inr hkC⟩)]
        exact hb.logpdf S0 Finset.inter_subset_left ⟨k, by simp [hS0, hk, hkC]⟩ y
      · rw [if_neg h]
        refine ⟨0, rfl, ?_⟩
        have hS0e : S0 = ∅ := by
          rw [Finset.eq_empty_iff_forall_notMem]
          intro k hk
          simp only [hS0, Finset.mem_inter, List.mem_toFinset] at hk
          exact h ⟨k, hk⟩
        rw [hS0e]
        unfold outDensity
        rw [Finset.sdiff_empty, hb.total]
        simp [pr]
    simp only [loopDraws, hl]
    rw [invokeDraws_eq hB hi draw rowid hsp hl hI hin, hwl, Draws.E_bind]
    simp only [Draws.ofExcept, Draws.bind, ← hts]
    rw [Draws.E_bind]
    simp only [Draws.E]
    have htail : ∀ d : Dict Nat ℝ, (d.WF ∧ ∀ k, k ∈ d.keys ↔ k ∈ ts) →
        (loopDraws draw rowid cgpms TA inputs t (s.update d) (w + wl)).E
          (fun r => g (fillWith (fillWith x inputs) r.1) * ENNReal.ofReal (pr r.2))
        = (ENNReal.ofReal (pr w) * ENNReal.ofReal (pr wl)) *
          futureOf μ cgpms p S TA.toFinset g t (fillWith y d) := by
      intro d hd
      rw [ih (pre ++ [l]) (s.update d) (w + wl) (by rw [hsp]; simp)
        (sinv_step hB hQ hsp hl hI hd.1 hd.2), pr_add, ENNReal.ofReal_mul (pr_nonneg w),
        fillWith_update _ hd.1]
    have hfm := future_measurable hp S TA.toFinset hg t
    rw [future_cons hB hp S _ hg hsp, hout]
    have hsame : outDensity μ c.outputs (p l) S = outDensity μ c.outputs (p l) (S0 ∪ ts.toFinset) := by
      refine outDensity_inter _ _ fun v hv => ?_
      simp only [hSdef, hS0, Finset.mem_union, Finset.mem_inter, List.mem_toFinset, htsm]
      tauto
    have hsets : c.outputs.toFinset ∩ TA.toFinset = ts.toFinset := by
      ext v
      simp only [Finset.mem_inter, List.mem_toFinset, htsm]
      tauto
    rw [hsets, hod, hsame]
    by_cases hte : ts = []
    · rw [if_pos hte]
      simp only [Draws.E]
      rw [htail [] ⟨Dict.wf_nil, by simp [hte, Dict.keys]⟩, hte]
      simp only [List.toFinset_nil, Finset.union_empty, lmarginal_empty]
      rw [← hwd, mul_assoc]
      rfl
    · rw [if_neg hte]
      have hact : ∃ o ∈ c.outputs, o ∈ TA ∨ o ∈ C.keys := by
        obtain ⟨k, hk⟩ := List.exists_mem_of_ne_nil _ hte
        exact ⟨k, ((htsm k).mp hk).2, .inl ((htsm k).mp hk).1⟩
      have hnd : ts.Nodup := hQ.nodup.filter _
      have halw : ((draw l rowid ts (constrFor c C.get?) (inputsFrom c s.get? inputs.get?)).bind
          fun ω => Draws.ofExcept (c.simulate ω rowid ts (constrFor c C.get?)
            (inputsFrom c s.get? inputs.get?))).Always
          fun d => d.WF ∧ ∀ k, k ∈ d.keys ↔ k ∈ ts :=
        always_bind (always_true _) fun ω _ => ofExcept_always fun d hd =>
          hsim c hcm ω rowid ts _ _ d hnd hd
      refine (E_congr_always halw htail).trans ?_
      have hne : ENNReal.ofReal (pr w) * ENNReal.ofReal (pr wl) ≠ ⊤ :=
        ENNReal.mul_ne_top ENNReal.ofReal_ne_top ENNReal.ofReal_ne_top
      rw [Draws.E_const_mul _ hne, mul_assoc, hwd, hcl, lookAt_inputs c x (hin hact), ← hy]
      congr 1
      rw [mul_comm, behaves_simulate hb Finset.inter_subset_left hnd hte ?_ y hfm]
      · refine congrFun (congrArg _ (funext fun z => ?_)) y
        exact mul_comm _ _
      · intro k hk
        obtain ⟨h1, h2⟩ := (htsm k).mp hk
        refine ⟨h2, ?_⟩
        simp only [hS0, Finset.mem_inter, List.mem_toFinset]
        exact fun h => hQ.disj k h1 h.2

theorem step_fresh {net : Network R ℝ Ω} (hB : Built cgpms net) {C : Dict Nat ℝ}
    {TA : List Nat} (hQ : Query cgpms C TA) {pre post : List Nat}
    {l : Nat} (hsp : net.topo = pre ++ l :: post) {c : NetCgpm R ℝ Ω} (hc : cgpms[l]? = some c)
    {s d : Dict Nat ℝ} (hI : SInv cgpms C TA pre s) (hd : d.WF)
    (hk : ∀ k, k ∈ d.keys ↔ k ∈ TA.filter fun q => c.outputs.contains q) (k : Nat) (v : ℝ)
    (hs : s.get? k = some v) : (s.update d).get? k = some v := by
  have hk' : ∀ k, k ∈ d.keys ↔ k ∈ TA ∧ k ∈ c.outputs := by
    intro k; rw [hk]; simp [List.mem_filter]
  have hnd : net.topo.Nodup := hB.perm.nodup_iff.mpr List.nodup_range
  rw [Dict.get?_update _ _ hd]
  have : d.get? k = none := by
    rw [Dict.get?_eq_none_iff, hk']
    rintro ⟨h1, h2⟩
    rcases (hI.keys k).mp (Dict.mem_keys_of_get? hs) with h | ⟨-, m, hm, c', hc', hk'⟩
    · exact hQ.disj k h1 h
    · have := hB.wf.unique _ _ _ _ hc hc' k h2 hk'
      subst this
      rw [hsp, List.nodup_append] at hnd
      exact hnd.2.2 l hm l (by simp) rfl
  rw [this]
  exact hs

theorem od_empty (hp : ∀ l c, cgpms[l]? = some c → Behaves μ rowid c (draw l) (p l))
    {S : Finset Nat} {l : Nat} {c : NetCgpm R ℝ Ω} (hl : cgpms[l]? = some c)
    (h : ¬ ∃ k ∈ c.outputs, k ∈ S) (y : Nat → ℝ) : odAt μ cgpms p S l y = 1 := by
  unfold odAt
  simp only [hl]
  rw [outDensity_inter (T := ∅) _ _ fun v hv => by
    simp only [Finset.notMem_empty, iff_false]; exact fun h' => h ⟨v, hv, h'⟩]
  unfold outDensity
  rw [Finset.sdiff_empty, (hp l c hl).total]

/-- What one call of `invoke_cgpm` does. -/
theorem invoke_facts {net : Network R ℝ Ω} (hB : Built cgpms net) {C inputs : Dict Nat ℝ}
    {TA : List Nat} (hQ : Query cgpms C TA) (hi : inputs.WF)
    (hp : ∀ l c, cgpms[l]? = some c → Behaves μ rowid c (draw l) (p l))
    (hgiven : ∀ c ∈ cgpms, (∃ o ∈ c.outputs, o ∈ TA ∨ o ∈ C.keys) → ∀ v ∈ c.inputs,
      Produced cgpms v ∨ v ∈ C.keys ∨ v ∈ inputs.keys)
    (x : Nat → ℝ) {pre post : List Nat} {l : Nat} (hsp : net.topo = pre ++ l :: post)
    {c : NetCgpm R ℝ Ω} (hl : cgpms[l]? = some c) {s : Dict Nat ℝ} (hI : SInv cgpms C TA pre s) :
    ((∃ o ∈ c.outputs, o ∈ TA ∨ o ∈ C.keys) → ∀ v ∈ c.inputs,
      inputsFrom c s.get? inputs.get? v ≠ none) ∧
    ∃ wl : LogP, ENNReal.ofReal (pr wl)
        = odAt μ cgpms p C.keys.toFinset l (fillWith (fillWith x inputs) s) ∧
      invokeDraws draw l rowid c TA s inputs =
      (if (TA.filter fun q => c.outputs.contains q) = [] then .pure [] else
        (draw l rowid (TA.filter fun q => c.outputs.contains q) (constrFor c C.get?)
          (inputsFrom c s.get? inputs.get?)).bind fun ω =>
          Draws.ofExcept (c.simulate ω rowid (TA.filter fun q => c.outputs.contains q)
            (constrFor c C.get?) (inputsFrom c s.get? inputs.get?))).bind fun d =>
      .pure (d, wl) := by
  have hcm : c ∈ cgpms := List.mem_of_getElem? hl
  have hb := hp l c hl
  have hin : (∃ o ∈ c.outputs, o ∈ TA ∨ o ∈ C.keys) → ∀ v ∈ c.inputs,
      inputsFrom c s.get? inputs.get? v ≠ none := by
    intro hact v hv hnone
    obtain ⟨h1, h2, h3⟩ := sinv_inputs_some hB hQ hsp hl hI hact hv hnone
    rcases hgiven c hcm hact v hv with h | h | h
    · exact h1 h
    · exact h2 h
    · exact h3 h
  refine ⟨hin, ?_⟩
  rw [invokeDraws_eq hB hi draw rowid hsp hl hI hin]
  by_cases h : ∃ k ∈ c.outputs, k ∈ C.keys
  · obtain ⟨k, hk, hkC⟩ := h
    obtain ⟨w, hw, hwd⟩ := hb.logpdf (c.outputs.toFinset ∩ C.keys.toFinset) Finset.inter_subset_left
      ⟨k, by simp [hk, hkC]⟩ (fillWith (fillWith x inputs) s)
    refine ⟨w, ?_, ?_⟩
    · rw [hwd]
      unfold odAt
      simp only [hl]
      rw [outDensity_inter]
      intro v hv
      simp [hv]
    · rw [if_pos ⟨k, hk, hkC⟩, lookAt_constr c (fillWith x inputs) hI.agree,
        lookAt_inputs c x (hin ⟨k, hk, .inr hkC⟩), hw]
      rfl
  · refine ⟨0, ?_, ?_⟩
    · rw [od_empty hp hl (by simpa using h)]
      simp [pr]
    · rw [if_neg h]
      rfl

theorem sim_always {c : NetCgpm R ℝ Ω} (hc : SimKeys c) (m : Draws Ω) (rowid : R) {ts : List Nat}
    (hn : ts.Nodup) (a b : Look ℝ) :
    (if ts = [] then .pure [] else m.bind fun ω => Draws.ofExcept (c.simulate ω rowid ts a b)).Always
      fun d : Dict Nat ℝ => d.WF ∧ ∀ k, k ∈ d.keys ↔ k ∈ ts := by
  by_cases h : ts = []
  · rw [if_pos h]
    exact ⟨Dict.wf_nil, by simp [h, Dict.keys]⟩
  · rw [if_neg h]
    exact always_bind (always_true _) fun ω _ => ofExcept_always fun d hd =>
      hc ω rowid ts _ _ d hn hd

theorem loopDraws_always {net : Network R ℝ Ω} (hB : Built cgpms net) {C inputs : Dict Nat ℝ}
    {TA : List Nat} (hQ : Query cgpms C TA) (hi : inputs.WF)
    (hsim : ∀ c ∈ cgpms, SimKeys c)
    (hp : ∀ l c, cgpms[l]? = some c → Behaves μ rowid c (draw l) (p l))
    (hgiven : ∀ c ∈ cgpms, (∃ o ∈ c.outputs, o ∈ TA ∨ o ∈ C.keys) → ∀ v ∈ c.inputs,
      Produced cgpms v ∨ v ∈ C.keys ∨ v ∈ inputs.keys)
    (x : Nat → ℝ) (ls : List Nat) :
    ∀ (pre : List Nat) (s : Dict Nat ℝ) (w : LogP), net.topo = pre ++ ls →
      SInv cgpms C TA pre s →
      (loopDraws draw rowid cgpms TA inputs ls s w).Always fun r =>
        SInv cgpms C TA net.topo r.1 ∧ (∀ k v, s.get? k = some v → r.1.get? k = some v) ∧
        ENNReal.ofReal (pr r.2) = ENNReal.ofReal (pr w) * (ls.map fun l =>
          odAt μ cgpms p C.keys.toFinset l (fillWith (fillWith x inputs) r.1)).prod := by
  induction ls with
  | nil =>
    intro pre s w hsp hI
    rw [List.append_nil] at hsp
    exact ⟨hsp ▸ hI, fun _ _ h => h, by simp⟩
  | cons l t ih =>
    intro pre s w hsp hI
    have hl' : l < cgpms.length := by
      have : l ∈ net.topo := by rw [hsp]; simp
      rw [hB.perm.mem_iff, List.mem_range] at this
      exact this
    obtain ⟨c, hl⟩ : ∃ c, cgpms[l]? = some c := ⟨_, List.getElem?_eq_getElem hl'⟩
    obtain ⟨hin, wl, hwl, heq⟩ := invoke_facts hB hQ hi hp hgiven x hsp hl hI
    simp only [loopDraws, hl, heq]
    refine always_bind (always_bind (sim_always (hsim c (List.mem_of_getElem? hl)) _ rowid
      (hQ.nodup.filter _) _ _) (R := fun r => (r.1.WF ∧ ∀ k, k ∈ r.1.keys ↔
        k ∈ TA.filter fun q => c.outputs.contains q) ∧ r.2 = wl) fun d hd => ⟨hd, rfl⟩)
      fun r hr => ?_
    obtain ⟨⟨hdw, hdk⟩, hr2⟩ := hr
    refine always_imp (ih (pre ++ [l]) _ _ (by rw [hsp]; simp)
      (sinv_step hB hQ hsp hl hI hdw hdk)) fun r' hr' => ?_
    obtain ⟨h1, h2, h3⟩ := hr'
    have hsub : ∀ k v, s.get? k = some v → r'.1.get? k = some v := fun k v hk =>
      h2 k v (step_fresh hB hQ hsp hl hI hdw hdk k v hk)
    refine ⟨h1, hsub, ?_⟩
    rw [h3, hr2, pr_add, ENNReal.ofReal_mul (pr_nonneg w), hwl, List.map_cons, List.prod_cons,
      mul_assoc]
    congr 2
    by_cases hc : ∃ k ∈ c.outputs, k ∈ C.keys
    · obtain ⟨k, hk, hkC⟩ := hc
      have hact : ∃ o ∈ c.outputs, o ∈ TA ∨ o ∈ C.keys := ⟨k, hk, .inr hkC⟩
      have hsame := sinv_inputs (inputs := inputs) hB hQ hsp hl hI h1 hsub hact
      have hin' := hin hact
      have e1 := lookAt_inputs c x hin'
      rw [hsame] at e1 hin'
      have e2 := lookAt_inputs c x hin'
      unfold odAt
      simp only [hl]
      refine outDensity_scope (hp l c hl) _ fun v hv => ?_
      rcases hv with ⟨-, hv⟩ | hv
      · rw [List.mem_toFinset] at hv
        obtain ⟨a, ha⟩ := Dict.exists_of_mem_keys hv
        unfold fillWith
        rw [hI.agree v a ha, h1.agree v a ha]
      · have := congrFun (e1.symm.trans e2) v
        simpa [lookAt, hv] using this
    · rw [od_empty hp hl (by simpa using hc), od_empty hp hl (by simpa using hc)]

theorem loopDraws_total {net : Network R ℝ Ω} (hB : Built cgpms net) {C inputs : Dict Nat ℝ}
    {TA : List Nat} (hQ : Query cgpms C TA) (hi : inputs.WF)
    (hsim : ∀ c ∈ cgpms, SimKeys c)
    (hp : ∀ l c, cgpms[l]? = some c → Behaves μ rowid c (draw l) (p l))
    (hgiven : ∀ c ∈ cgpms, (∃ o ∈ c.outputs, o ∈ TA ∨ o ∈ C.keys) → ∀ v ∈ c.inputs,
      Produced cgpms v ∨ v ∈ C.keys ∨ v ∈ inputs.keys)
    (x : Nat → ℝ)
    (hpos : ∀ l y, (∀ k v, C.get? k = some v → y k = v) → odAt μ cgpms p C.keys.toFinset l y ≠ 0)
    (ls : List Nat) :
    ∀ (pre : List Nat) (s : Dict Nat ℝ) (w : LogP), net.topo = pre ++ ls →
      SInv cgpms C TA pre s → (loopDraws draw rowid cgpms TA inputs ls s w).E (fun _ => 1) = 1 := by
  induction ls with
  | nil => intro pre s w hsp hI; rfl
  | cons l t ih =>
    intro pre s w hsp hI
    have hl' : l < cgpms.length := by
      have : l ∈ net.topo := by rw [hsp]; simp
      rw [hB.perm.mem_iff, List.mem_range] at this
      exact this
    obtain ⟨c, hl⟩ : ∃ c, cgpms[l]? = some c := ⟨_, List.getElem?_eq_getElem hl'⟩
    obtain ⟨hin, wl, hwl, heq⟩ := invoke_facts hB hQ hi hp hgiven x hsp hl hI
    have hb := hp l c hl
    have hnd : (TA.filter fun q => c.outputs.contains q).Nodup := hQ.nodup.filter _
    simp only [loopDraws, hl, heq]
    rw [Draws.E_bind, Draws.E_bind]
    simp only [Draws.E]
    refine (E_congr_always (g := fun _ => 1) (sim_always (hsim c (List.mem_of_getElem? hl)) _ rowid
      hnd _ _) fun d hd => ?_).trans ?_
    · exact ih (pre ++ [l]) _ _ (by rw [hsp]; simp) (sinv_step hB hQ hsp hl hI hd.1 hd.2)
    set ts := TA.filter fun q => c.outputs.contains q with hts
    have htsm : ∀ k, k ∈ ts ↔ k ∈ TA ∧ k ∈ c.outputs := by
      intro k; rw [hts]; simp [List.mem_filter]
    by_cases hte : ts = []
    · rw [if_pos hte]; rfl
    · rw [if_neg hte]
      have hact : ∃ o ∈ c.outputs, o ∈ TA ∨ o ∈ C.keys := by
        obtain ⟨k, hk⟩ := List.exists_mem_of_ne_nil _ hte
        exact ⟨k, ((htsm k).mp hk).2, .inl ((htsm k).mp hk).1⟩
      set y := fillWith (fillWith x inputs) s with hy
      have hod : odAt μ cgpms p C.keys.toFinset l y
          = outDensity μ c.outputs (p l) (c.outputs.toFinset ∩ C.keys.toFinset) y := by
        unfold odAt
        simp only [hl]
        rw [outDensity_inter]
        intro v hv
        simp [hv]
      have hne : odAt μ cgpms p C.keys.toFinset l y ≠ 0 := hpos l y fun k v hk => by
        rw [hy]; unfold fillWith; rw [hI.agree k v hk]; rfl
      have hfin : odAt μ cgpms p C.keys.toFinset l y ≠ ⊤ := by
        rw [← hwl]; exact ENNReal.ofReal_ne_top
      have hts' : ∀ t ∈ ts, t ∈ c.outputs ∧ t ∉ c.outputs.toFinset ∩ C.keys.toFinset := by
        intro k hk
        obtain ⟨h1, h2⟩ := (htsm k).mp hk
        refine ⟨h2, ?_⟩
        simp only [Finset.mem_inter, List.mem_toFinset]
        exact fun h => hQ.disj k h1 h.2
      have := behaves_simulate hb (S := c.outputs.toFinset ∩ C.keys.toFinset) (ts := ts)
        Finset.inter_subset_left hnd hte hts' y (g := fun _ => 1) measurable_const
      simp only [one_mul] at this
      have h2 := congrFun (outDensity_lmarginal (μ := μ) hb.measurable
        (S := c.outputs.toFinset ∩ C.keys.toFinset) (T := ts.toFinset) (outs := c.outputs)
        (by simpa only [List.mem_toFinset] using hts')) y
      rw [lookAt_constr c (fillWith x inputs) hI.agree, lookAt_inputs c x (hin hact)]
      rw [← hod] at this h2
      have h3 := this.trans h2
      exact (ENNReal.mul_eq_right hne hfin).mp h3

end
end Cgpm.Net
