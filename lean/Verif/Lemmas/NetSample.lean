import Verif.Lemmas.Network
import Verif.Lemmas.LogSpace

namespace Cgpm.Net
open Cgpm Classical
variable {R V Ω : Type}

/-- What the constructor establishes. -/
structure Built (cgpms : List (NetCgpm R V Ω)) (net : Network R V Ω) : Prop where
  cgpms_eq : net.cgpms = cgpms
  wf : WellFormed cgpms
  ext : ∀ v, v ∈ net.extraneous ↔ (∃ c ∈ cgpms, v ∈ c.inputs) ∧ ¬ Produced cgpms v
  perm : net.topo.Perm (List.range cgpms.length)
  first : ∀ pre l post, net.topo = pre ++ l :: post → ∀ i, Feeds cgpms i l → i ∈ pre

theorem extraneous_iff (cgpms : List (NetCgpm R V Ω)) (v : Nat) :
    v ∈ extraneousInputs cgpms (variableToCgpm cgpms) ↔
      (∃ c ∈ cgpms, v ∈ c.inputs) ∧ ¬ Produced cgpms v := by
  unfold extraneousInputs
  simp only [List.mem_flatMap, List.mem_filter, Bool.not_eq_true']
  rw [← vToC_has, Bool.not_eq_true]
  constructor
  · rintro ⟨c, hc, hv, h⟩; exact ⟨⟨c, hc, hv⟩, h⟩
  · rintro ⟨⟨c, hc, hv⟩, h⟩; exact ⟨c, hc, hv, h⟩

theorem cyclic_iff {cgpms : List (NetCgpm R V Ω)}
    (hu : ∀ (i j : Nat) (a b : NetCgpm R V Ω), cgpms[i]? = some a → cgpms[j]? = some b →
        ∀ v ∈ a.outputs, v ∈ b.outputs → i = j) :
    (adjacencyList cgpms (variableToCgpm cgpms)).Cyclic ↔
      ∃ i, Relation.TransGen (Feeds cgpms) i i := by
  have : (adjacencyList cgpms (variableToCgpm cgpms)).Edge = Feeds cgpms := by
    funext i j; exact propext (adjacency_edge hu i j)
  unfold Graph.Cyclic
  rw [this]

theorem topoSort_cases (order : Nat → Graph → List (Nat × List Nat))
    (hord : ∀ p g, (order p g).Perm g) (g : Graph) (hwf : g.WF) :
    (¬ g.Cyclic ∧ ∃ l, topologicalSort order g = some (.ok l) ∧ l.Perm g.keys ∧
        ParentsFirst g l) ∨
    (g.Cyclic ∧ topologicalSort order g = some (.error .valueError)) := by
  have h := topoLoop_spec order hord (g.length + 1) g [] (topoInv_init hwf) (Nat.lt_succ_self _)
  rcases h with ⟨l, hl, hI⟩ | ⟨he, v, -, hc⟩
  · have hall : ∀ n ∈ g.keys, n ∈ l := fun n hn => by
      have := (hI.split n).mp hn; simpa [Dict.keys] using this
    refine .inl ⟨no_cycle_of_parentsFirst hI.order hall, l, hl, ?_, hI.order⟩
    rw [List.perm_ext_iff_of_nodup hI.nodup hwf]
    exact fun n => ⟨fun hn => (hI.split n).mpr (.inr hn), hall n⟩
  · exact .inr ⟨⟨v, hc⟩, he⟩

theorem build_cases (ord : PyOrder) (hord : ord.Lists) (cgpms : List (NetCgpm R V Ω))
    (acc : Option Nat) :
    (WellFormed cgpms ∧ ∃ net, build ord cgpms acc = .ok net ∧ Built cgpms net ∧
      net.accuracy = acc.getD 1 ∧ net.vToC = variableToCgpm cgpms) ∨
    (¬ WellFormed cgpms ∧ build ord cgpms acc = .error .valueError) := by
  unfold build
  cases hv : validateCgpms cgpms with
  | error e =>
    right
    refine ⟨fun h => ?_, by rw [validate_error cgpms e hv]⟩
    rw [(validate_ok_iff cgpms).mpr ⟨h.nonempty, h.unique⟩] at hv
    cases hv
  | ok _ =>
    obtain ⟨hne, hu⟩ := (validate_ok_iff cgpms).mp hv
    obtain ⟨hk, -⟩ := adjacency_get? cgpms (variableToCgpm cgpms)
    rcases topoSort_cases ord.items hord.1 _ (adjacency_wf cgpms (variableToCgpm cgpms)) with
      ⟨hc, l, hl, hp, hf⟩ | ⟨hc, he⟩
    · left
      rw [cyclic_iff hu] at hc
      have hw : WellFormed cgpms := ⟨hne, hu, fun i hi => hc ⟨i, hi⟩⟩
      simp only [hl]
      refine ⟨hw, _, rfl, ⟨rfl, hw, extraneous_iff cgpms, ?_, ?_⟩, rfl, rfl⟩
      · rw [← hk]; exact hp
      · intro pre n post hsp i hi
        have hlt : pre.length < l.length := by
          have : l = pre ++ n :: post := hsp
          rw [this]; simp
        have hsp' : l = pre ++ n :: post := hsp
        have hn : l[pre.length] = n := by
          simp only [hsp']; simp
        have := hf pre.length hlt i (by rw [hn]; exact (adjacency_edge hu i n).mpr hi)
        rw [hsp'] at this
        simpa using this
    · right
      simp only [he]
      rw [cyclic_iff hu] at hc
      obtain ⟨i, hi⟩ := hc
      exact ⟨fun h => h.acyclic i hi, trivial⟩

theorem mem_setUpdate (s l : List Nat) (x : Nat) : x ∈ setUpdate s l ↔ x ∈ s ∨ x ∈ l := by
  unfold setUpdate
  induction l generalizing s with
  | nil => simp
  | cons y t ih =>
    rw [List.foldl_cons, ih]
    by_cases hy : y ∈ s
    · rw [if_pos hy, List.mem_cons]
      constructor
      · tauto
      · rintro (h | rfl | h) <;> tauto
    · rw [if_neg hy, List.mem_append, List.mem_singleton, List.mem_cons]; tauto

theorem nodup_setUpdate (s l : List Nat) (h : s.Nodup) : (setUpdate s l).Nodup := by
  unfold setUpdate
  induction l generalizing s with
  | nil => simpa
  | cons y t ih =>
    rw [List.foldl_cons]
    apply ih
    split
    · exact h
    · rename_i hy
      rw [List.nodup_append]
      exact ⟨h, by simp, fun a ha b hb e => by
        rw [List.mem_singleton] at hb; subst hb; subst e; exact hy ha⟩

theorem requiredLoop_spec {cgpms : List (NetCgpm R V Ω)} {net : Network R V Ω}
    (hB : Built cgpms net) (T : Nat → Prop) (isC : Nat → Bool) (ls : List Nat) :
    ∀ (done req : List Nat), net.topo.reverse = done ++ ls → req.Nodup →
      (∀ v ∈ req, Needed cgpms T (fun v => isC v = true) v) → (∀ v, T v → v ∈ req) →
      (∀ l ∈ done, ∀ c, cgpms[l]? = some c → (∃ o ∈ c.outputs, o ∈ req ∨ isC o = true) →
        ∀ v ∈ c.inputs, v ∈ req) →
      ∃ req', requiredLoop cgpms isC ls req = .ok req' ∧ req'.Nodup ∧
        ∀ v, v ∈ req' ↔ Needed cgpms T (fun v => isC v = true) v := by
  induction ls with
  | nil =>
    intro done req hsp hnd hN hT hd
    refine ⟨req, rfl, hnd, fun v => ⟨hN v, fun h => ?_⟩⟩
    rw [List.append_nil] at hsp
    have hall : ∀ c ∈ cgpms, (∃ o ∈ c.outputs, o ∈ req ∨ isC o = true) →
        ∀ v ∈ c.inputs, v ∈ req := by
      intro c hc
      obtain ⟨i, hi⟩ := List.mem_iff_getElem?.mp hc
      refine hd i ?_ c hi
      rw [← hsp, List.mem_reverse, hB.perm.mem_iff, List.mem_range]
      exact (List.getElem?_eq_some_iff.mp hi).1
    induction h with
    | target h => exact hT _ h
    | input hc ho _ hv ih => exact hall _ hc ⟨_, ho, .inl ih⟩ _ hv
    | constr hc ho hC hv => exact hall _ hc ⟨_, ho, .inr hC⟩ _ hv
  | cons l t ih =>
    intro done req hsp hnd hN hT hd
    have hl : l < cgpms.length := by
      have : l ∈ net.topo.reverse := by rw [hsp]; simp
      rw [List.mem_reverse, hB.perm.mem_iff, List.mem_range] at this
      exact this
    have htopo : net.topo = t.reverse ++ l :: done.reverse := by
      have := congrArg List.reverse hsp
      simpa using this
    have hsp' : net.topo.reverse = (done ++ [l]) ++ t := by rw [hsp]; simp
    have hnotfeed : ∀ m ∈ l :: done, ¬ Feeds cgpms m l := by
      intro m hm hf
      have h1 := hB.first _ _ _ htopo m hf
      have hnd : net.topo.Nodup := hB.perm.nodup_iff.mpr List.nodup_range
      rw [htopo, List.nodup_append] at hnd
      exact hnd.2.2 m h1 m (by
        rcases List.mem_cons.mp hm with rfl | h
        · simp
        · simp [h]) rfl
    have hcl : cgpms[l]? = some cgpms[l] := List.getElem?_eq_getElem hl
    simp only [requiredLoop, hcl]
    split
    · rename_i hact
      rw [List.any_eq_true] at hact
      obtain ⟨o, ho, hor⟩ := hact
      rw [Bool.or_eq_true, List.contains_iff_mem] at hor
      refine ih (done ++ [l]) _ hsp' (nodup_setUpdate _ _ hnd) ?_ ?_ ?_
      · intro v hv
        rw [mem_setUpdate] at hv
        rcases hv with hv | hv
        · exact hN v hv
        · rcases hor with h | h
          · exact .input (List.getElem_mem hl) ho (hN o h) hv
          · exact .constr (List.getElem_mem hl) ho h hv
      · intro v hv; rw [mem_setUpdate]; exact .inl (hT v hv)
      · intro m hm c hc hact' v hv
        rw [mem_setUpdate]
        rcases List.mem_append.mp hm with hm' | hm'
        · left
          refine hd m hm' c hc ?_ v hv
          obtain ⟨o', ho', h⟩ := hact'
          refine ⟨o', ho', h.imp_left fun h => ?_⟩
          rw [mem_setUpdate] at h
          rcases h with h | h
          · exact h
          · exact absurd ⟨c, _, hc, hcl, o', ho', h⟩ (hnotfeed m (by simp [hm']))
        · rw [List.mem_singleton] at hm'
          subst hm'
          rw [hcl] at hc; cases hc
          exact .inr hv
    · rename_i hact
      refine ih (done ++ [l]) _ hsp' hnd hN hT ?_
      intro m hm c hc hact' v hv
      rcases List.mem_append.mp hm with hm' | hm'
      · exact hd m hm' c hc hact' v hv
      · rw [List.mem_singleton] at hm'
        subst hm'
        rw [hcl] at hc; cases hc
        obtain ⟨o, ho, h⟩ := hact'
        refine absurd (List.any_eq_true.mpr ⟨o, ho, ?_⟩) hact
        rw [Bool.or_eq_true, List.contains_iff_mem]; exact h

theorem requiredInputs_spec {ord : PyOrder} (hord : ord.Lists) {cgpms : List (NetCgpm R V Ω)}
    {net : Network R V Ω} (hB : Built cgpms net) (targets : List Nat) (isC : Nat → Bool) :
    ∃ req, requiredInputs ord net targets isC = .ok req ∧ req.Nodup ∧
      ∀ v, v ∈ req ↔ Needed cgpms (· ∈ targets) (fun v => isC v = true) v ∧ v ∉ targets ∧
        isC v = false ∧ Produced cgpms v := by
  obtain ⟨req, h1, h2, h3⟩ := requiredLoop_spec hB (· ∈ targets) isC net.topo.reverse []
    (setUpdate [] targets) (by simp) (nodup_setUpdate _ _ List.nodup_nil)
    (fun v hv => .target (by simpa [mem_setUpdate] using hv))
    (fun v hv => by simpa [mem_setUpdate] using hv) (by simp)
  unfold requiredInputs
  rw [hB.cgpms_eq, h1]
  refine ⟨_, rfl, ((hord.2 req).nodup_iff.mpr h2).filter _, fun v => ?_⟩
  rw [List.mem_filter, (hord.2 req).mem_iff, h3]
  simp only [Bool.and_eq_true, Bool.not_eq_true', Bool.eq_false_iff, ne_eq, List.contains_iff_mem]
  rw [hB.ext]
  constructor
  · rintro ⟨hn, ⟨ht, hc⟩, hx⟩
    refine ⟨hn, ht, hc, ?_⟩
    by_contra hp
    cases hn with
    | target h => exact ht h
    | input hc _ _ hv => exact hx ⟨⟨_, hc, hv⟩, hp⟩
    | constr hc _ _ hv => exact hx ⟨⟨_, hc, hv⟩, hp⟩
  · rintro ⟨hn, ht, hc, hp⟩
    exact ⟨hn, ⟨ht, hc⟩, fun h => h.2 hp⟩

theorem cgpmInputs_get? (c : NetCgpm R V Ω) {s ins : Dict Nat V} (hs : s.WF) (hi : ins.WF) :
    (cgpmInputs c s ins).get? = inputsFrom c s.get? ins.get? := by
  funext k
  unfold cgpmInputs inputsFrom
  have hf : ∀ {d : Dict Nat V}, d.WF → Dict.WF (d.filter fun p => c.inputs.contains p.1) := by
    intro d hd
    unfold Dict.WF Dict.keys at *
    exact hd.sublist (List.filter_sublist.map _)
  rw [List.filter_append, Dict.update_append, Dict.get?_update _ _ (hf hs),
    Dict.get?_update_nil_of_wf (hf hi), Dict.get?_filter_of_wf hs, Dict.get?_filter_of_wf hi]
  by_cases hk : k ∈ c.inputs
  · cases s.get? k <;> cases ins.get? k <;> simp [hk]
  · cases s.get? k <;> cases ins.get? k <;> simp [hk]

theorem cgpmConstraints_get? (c : NetCgpm R V Ω) {s : Dict Nat V} (hs : s.WF) :
    (cgpmConstraints c s).get? = constrFor c s.get? := by
  funext k
  unfold cgpmConstraints constrFor
  rw [Dict.get?_filter_of_wf hs]
  by_cases hk : k ∈ c.outputs
  · cases s.get? k <;> simp [hk]
  · cases s.get? k <;> simp [hk]

/-- Invariant of the loop of `weighted_sample`, after the components of `pre`. -/
structure SInv (cgpms : List (NetCgpm R V Ω)) (C : Dict Nat V) (TA pre : List Nat)
    (s : Dict Nat V) : Prop where
  wf : s.WF
  keys : ∀ k, k ∈ s.keys ↔ k ∈ C.keys ∨
    (k ∈ TA ∧ ∃ l ∈ pre, ∃ c, cgpms[l]? = some c ∧ k ∈ c.outputs)
  agree : ∀ k v, C.get? k = some v → s.get? k = some v

/-- What is assumed of the query: `TA` is the list of targets and required inputs. -/
structure Query (cgpms : List (NetCgpm R V Ω)) (C : Dict Nat V) (TA : List Nat) : Prop where
  nodup : TA.Nodup
  disj : ∀ t ∈ TA, t ∉ C.keys
  prod : ∀ t ∈ TA, Produced cgpms t
  closed : ∀ c ∈ cgpms, (∃ o ∈ c.outputs, o ∈ TA ∨ o ∈ C.keys) → ∀ v ∈ c.inputs,
    Produced cgpms v → v ∈ TA ∨ v ∈ C.keys

/-- What one call of `invoke_cgpm` did, in terms of the final sample `s`. -/
def StepOk (ω : Ω) (rowid : R) (C inputs : Dict Nat V) (TA : List Nat) (s : Dict Nat V)
    (c : NetCgpm R V Ω) (w : LogP) : Prop :=
  ((∃ k ∈ c.outputs, k ∈ C.keys) →
    c.logpdf rowid (constrFor c C.get?) (inputsFrom c s.get? inputs.get?) = .ok w) ∧
  ((¬ ∃ k ∈ c.outputs, k ∈ C.keys) → w = 0) ∧
  ((TA.filter fun q => c.outputs.contains q) ≠ [] → ∃ d,
    c.simulate ω rowid (TA.filter fun q => c.outputs.contains q) (constrFor c C.get?)
      (inputsFrom c s.get? inputs.get?) = .ok d ∧
    ∀ k ∈ TA, k ∈ c.outputs → s.get? k = d.get? k) ∧
  ((∃ o ∈ c.outputs, o ∈ TA ∨ o ∈ C.keys) → ∀ v ∈ c.inputs,
    inputsFrom c s.get? inputs.get? v ≠ none)

/-- Why a call of `invoke_cgpm` may raise. -/
def StepErr (ω : Ω) (rowid : R) (C inputs : Dict Nat V) (TA : List Nat)
    (cgpms : List (NetCgpm R V Ω)) (c : NetCgpm R V Ω) (e : Exn) : Prop :=
  (e = .assertion ∧ (∃ o ∈ c.outputs, o ∈ TA ∨ o ∈ C.keys) ∧
    ∃ v ∈ c.inputs, ¬ Produced cgpms v ∧ v ∉ C.keys ∧ v ∉ inputs.keys) ∨
  ∃ sample : Look V, (∀ v x, C.get? v = some x → sample v = some x) ∧
    (∀ v ∈ c.inputs, inputsFrom c sample inputs.get? v ≠ none) ∧
    (((∃ k ∈ c.outputs, k ∈ C.keys) ∧ c.logpdf rowid (constrFor c C.get?)
      (inputsFrom c sample inputs.get?) = .error e) ∨
    ((TA.filter fun q => c.outputs.contains q) ≠ [] ∧
      c.simulate ω rowid (TA.filter fun q => c.outputs.contains q) (constrFor c C.get?)
        (inputsFrom c sample inputs.get?) = .error e))

section
variable {cgpms : List (NetCgpm R V Ω)} {net : Network R V Ω} {C inputs : Dict Nat V}
  {TA : List Nat}

theorem sinv_constr (hB : Built cgpms net) {pre post : List Nat} {l : Nat}
    (hsp : net.topo = pre ++ l :: post) {c : NetCgpm R V Ω} (hc : cgpms[l]? = some c)
    {s : Dict Nat V} (hI : SInv cgpms C TA pre s) :
    constrFor c s.get? = constrFor c C.get? := by
  funext k
  unfold constrFor
  split
  · rename_i hk
    cases hC : C.get? k with
    | some v => exact hI.agree k v hC
    | none =>
      rw [Dict.get?_eq_none_iff] at hC ⊢
      rw [hI.keys]
      rintro (h | ⟨-, m, hm, c', hc', hk'⟩)
      · exact hC h
      · have := hB.wf.unique _ _ _ _ hc hc' k hk hk'
        subst this
        have hnd : net.topo.Nodup := hB.perm.nodup_iff.mpr List.nodup_range
        rw [hsp, List.nodup_append] at hnd
        exact hnd.2.2 l hm l (by simp) rfl
  · rfl

theorem sinv_inputs (hB : Built cgpms net) (hQ : Query cgpms C TA) {pre post : List Nat} {l : Nat}
    (hsp : net.topo = pre ++ l :: post) {c : NetCgpm R V Ω} (hc : cgpms[l]? = some c)
    {s s' : Dict Nat V} (hI : SInv cgpms C TA pre s)
    (hI' : SInv cgpms C TA net.topo s')
    (hsub : ∀ k v, s.get? k = some v → s'.get? k = some v)
    (hact : ∃ o ∈ c.outputs, o ∈ TA ∨ o ∈ C.keys) :
    inputsFrom c s.get? inputs.get? = inputsFrom c s'.get? inputs.get? := by
  funext v
  unfold inputsFrom
  split
  · rename_i hv
    cases hs : s.get? v with
    | some x => rw [hsub v x hs]
    | none =>
      have : s'.get? v = none := by
        rw [Dict.get?_eq_none_iff] at hs ⊢
        rw [hI'.keys]
        rw [hI.keys] at hs
        push Not at hs
        rintro (h | ⟨hT, m, hm, c', hc', hk'⟩)
        · exact hs.1 h
        · have hf : Feeds cgpms m l := ⟨c', c, hc', hc, v, hk', hv⟩
          exact hs.2 hT m (hB.first _ _ _ hsp m hf) c' hc' hk'
      rw [this]
  · rfl

theorem sinv_inputs_some (hB : Built cgpms net) (hQ : Query cgpms C TA) {pre post : List Nat}
    {l : Nat} (hsp : net.topo = pre ++ l :: post) {c : NetCgpm R V Ω} (hc : cgpms[l]? = some c)
    {s : Dict Nat V} (hI : SInv cgpms C TA pre s)
    (hact : ∃ o ∈ c.outputs, o ∈ TA ∨ o ∈ C.keys) {v : Nat} (hv : v ∈ c.inputs)
    (hnone : inputsFrom c s.get? inputs.get? v = none) :
    ¬ Produced cgpms v ∧ v ∉ C.keys ∧ v ∉ inputs.keys := by
  unfold inputsFrom at hnone
  rw [if_pos hv, Option.or_eq_none_iff, Dict.get?_eq_none_iff, Dict.get?_eq_none_iff, hI.keys]
    at hnone
  push Not at hnone
  obtain ⟨⟨h1, h2⟩, h3⟩ := hnone
  refine ⟨fun hp => ?_, h1, h3⟩
  have hT := (hQ.closed c (List.mem_of_getElem? hc) hact v hv hp).resolve_right h1
  obtain ⟨c', hc', hk'⟩ := hp
  obtain ⟨m, hm⟩ := List.mem_iff_getElem?.mp hc'
  exact h2 hT m (hB.first _ _ _ hsp m ⟨c', c, hm, hc, v, hk', hv⟩) c' hm hk'

theorem invoke_cases (hB : Built cgpms net) (hQ : Query cgpms C TA) (hi : inputs.WF)
    (hsim : ∀ c ∈ cgpms, SimKeys c) (ω : Ω) (rowid : R) {pre post : List Nat}
    {l : Nat} (hsp : net.topo = pre ++ l :: post) {c : NetCgpm R V Ω} (hc : cgpms[l]? = some c)
    {s : Dict Nat V} (hI : SInv cgpms C TA pre s) :
    (∃ d w, invokeCgpm ω rowid c TA s inputs = .ok (d, w) ∧ d.WF ∧
      (∀ k, k ∈ d.keys ↔ k ∈ TA ∧ k ∈ c.outputs) ∧
      ((∃ k ∈ c.outputs, k ∈ C.keys) →
        c.logpdf rowid (constrFor c C.get?) (inputsFrom c s.get? inputs.get?) = .ok w) ∧
      ((¬ ∃ k ∈ c.outputs, k ∈ C.keys) → w = 0) ∧
      ((TA.filter fun q => c.outputs.contains q) ≠ [] →
        c.simulate ω rowid (TA.filter fun q => c.outputs.contains q) (constrFor c C.get?)
          (inputsFrom c s.get? inputs.get?) = .ok d) ∧
      ((∃ o ∈ c.outputs, o ∈ TA ∨ o ∈ C.keys) → ∀ v ∈ c.inputs,
        inputsFrom c s.get? inputs.get? v ≠ none)) ∨
    (∃ e, invokeCgpm ω rowid c TA s inputs = .error e ∧
      StepErr ω rowid C inputs TA cgpms c e) := by
  have hcg : (cgpmConstraints c s).get? = constrFor c C.get? := by
    rw [cgpmConstraints_get? c hI.wf, sinv_constr hB hsp hc hI]
  have hemp : (cgpmConstraints c s).isEmpty = true ↔ ¬ ∃ k ∈ c.outputs, k ∈ C.keys := by
    rw [List.isEmpty_iff]
    constructor
    · rintro he ⟨k, hk, hkC⟩
      obtain ⟨v, hv⟩ := Dict.exists_of_mem_keys hkC
      have := congrFun hcg k
      rw [he] at this
      simp [constrFor, hk, hv] at this
    · intro hn
      rw [List.eq_nil_iff_forall_not_mem]
      rintro ⟨k, v⟩ hm
      unfold cgpmConstraints at hm
      obtain ⟨hm1, hm2⟩ := List.mem_filter.mp hm
      have hko : k ∈ c.outputs := by simpa using hm2
      have h1 : (constrFor c s.get?) k = some v := by
        unfold constrFor; rw [if_pos hko]; exact Dict.get?_of_mem hI.wf hm1
      rw [sinv_constr hB hsp hc hI] at h1
      unfold constrFor at h1
      rw [if_pos hko] at h1
      exact hn ⟨k, hko, Dict.mem_keys_of_get? h1⟩
  have hts : ∀ k, k ∈ (TA.filter fun q => c.outputs.contains q) ↔ k ∈ TA ∧ k ∈ c.outputs := by
    intro k; simp [List.mem_filter]
  have hactive : ((!(cgpmConstraints c s).isEmpty ||
      !(TA.filter fun q => c.outputs.contains q).isEmpty) = true) ↔
      ∃ o ∈ c.outputs, o ∈ TA ∨ o ∈ C.keys := by
    rw [Bool.or_eq_true, Bool.not_eq_true', Bool.not_eq_true', Bool.eq_false_iff, Ne, hemp, not_not,
      Bool.eq_false_iff, Ne, List.isEmpty_iff, ← Ne, List.ne_nil_iff_exists_cons]
    constructor
    · rintro (⟨k, h1, h2⟩ | ⟨k, t, h⟩)
      · exact ⟨k, h1, .inr h2⟩
      · have := (hts k).mp (by rw [h]; simp)
        exact ⟨k, this.2, .inl this.1⟩
    · rintro ⟨o, ho, h | h⟩
      · right
        have := (hts o).mpr ⟨h, ho⟩
        exact List.exists_cons_of_ne_nil (List.ne_nil_of_mem this)
      · exact .inl ⟨o, ho, h⟩
  have hall : (c.inputs.all fun i => (cgpmInputs c s inputs).has i) = true ↔
      ∀ v ∈ c.inputs, inputsFrom c s.get? inputs.get? v ≠ none := by
    rw [List.all_eq_true]
    refine forall₂_congr fun v hv => ?_
    unfold Dict.has
    rw [cgpmInputs_get? c hI.wf hi, ← Option.isSome_iff_ne_none]
  unfold invokeCgpm
  simp only []
  by_cases ha : ∃ o ∈ c.outputs, o ∈ TA ∨ o ∈ C.keys
  · by_cases hin : ∀ v ∈ c.inputs, inputsFrom c s.get? inputs.get? v ≠ none
    · rw [hall.mpr hin]
      simp only [Bool.not_true, Bool.and_false, Bool.false_eq_true, if_false, hcg,
        cgpmInputs_get? c hI.wf hi]
      by_cases hcon : ∃ k ∈ c.outputs, k ∈ C.keys
      · have he : (cgpmConstraints c s).isEmpty = false := by
          rw [Bool.eq_false_iff, Ne, hemp, not_not]; exact hcon
        simp only [he, Bool.false_eq_true, if_false]
        cases hlp : c.logpdf rowid (constrFor c C.get?) (inputsFrom c s.get? inputs.get?) with
        | error e => exact .inr ⟨e, rfl, .inr ⟨_, hI.agree, hin, .inl ⟨hcon, hlp⟩⟩⟩
        | ok w =>
          by_cases ht : (TA.filter fun q => c.outputs.contains q) = []
          · simp only [ht, List.isEmpty_nil, if_true]
            refine .inl ⟨[], w, rfl, Dict.wf_nil, fun k => ?_, fun _ => rfl,
              fun h => absurd hcon h, fun h => absurd rfl h, fun _ => hin⟩
            rw [← hts, ht]; simp [Dict.keys]
          · have he' : (TA.filter fun q => c.outputs.contains q).isEmpty = false := by
              rw [Bool.eq_false_iff, Ne, List.isEmpty_iff]; exact ht
            simp only [he', Bool.false_eq_true, if_false]
            cases hs : c.simulate ω rowid (TA.filter fun q => c.outputs.contains q)
              (constrFor c C.get?) (inputsFrom c s.get? inputs.get?) with
            | error e => exact .inr ⟨e, rfl, .inr ⟨_, hI.agree, hin, .inr ⟨ht, hs⟩⟩⟩
            | ok d =>
              have := hsim c (List.mem_of_getElem? hc) _ _ _ _ _ d (hQ.nodup.filter _) hs
              exact .inl ⟨d, w, rfl, this.1, fun k => (this.2 k).trans (hts k), fun _ => rfl,
                fun h => absurd hcon h, fun _ => rfl, fun _ => hin⟩
      · have he : (cgpmConstraints c s).isEmpty = true := hemp.mpr hcon
        simp only [he, if_true]
        by_cases ht : (TA.filter fun q => c.outputs.contains q) = []
        · simp only [ht, List.isEmpty_nil, if_true]
          refine .inl ⟨[], 0, rfl, Dict.wf_nil, fun k => ?_, fun h => absurd h hcon,
            fun _ => rfl, fun h => absurd rfl h, fun _ => hin⟩
          rw [← hts, ht]; simp [Dict.keys]
        · have he' : (TA.filter fun q => c.outputs.contains q).isEmpty = false := by
            rw [Bool.eq_false_iff, Ne, List.isEmpty_iff]; exact ht
          simp only [he', Bool.false_eq_true, if_false]
          cases hs : c.simulate ω rowid (TA.filter fun q => c.outputs.contains q)
            (constrFor c C.get?) (inputsFrom c s.get? inputs.get?) with
          | error e => exact .inr ⟨e, rfl, .inr ⟨_, hI.agree, hin, .inr ⟨ht, hs⟩⟩⟩
          | ok d =>
            have := hsim c (List.mem_of_getElem? hc) _ _ _ _ _ d (hQ.nodup.filter _) hs
            exact .inl ⟨d, 0, rfl, this.1, fun k => (this.2 k).trans (hts k),
              fun h => absurd h hcon, fun _ => rfl, fun _ => rfl, fun _ => hin⟩
    · have hb : (c.inputs.all fun i => (cgpmInputs c s inputs).has i) = false := by
        rw [Bool.eq_false_iff, Ne, hall]; exact hin
      rw [hb, hactive.mpr ha]
      simp only [Bool.not_false, Bool.and_self, if_true]
      push Not at hin
      obtain ⟨v, hv, hnone⟩ := hin
      exact .inr ⟨_, rfl, .inl ⟨rfl, ha, v, hv, sinv_inputs_some hB hQ hsp hc hI ha hv hnone⟩⟩
  · have hfalse : (!(cgpmConstraints c s).isEmpty ||
        !(TA.filter fun q => c.outputs.contains q).isEmpty) = false := by
      rw [Bool.eq_false_iff, Ne, hactive]; exact ha
    rw [hfalse]
    obtain ⟨h1, h2⟩ := Bool.or_eq_false_iff.mp hfalse
    rw [Bool.not_eq_false'] at h1 h2
    simp only [Bool.false_and, Bool.false_eq_true, if_false, h1, h2, if_true]
    have ht : (TA.filter fun q => c.outputs.contains q) = [] := List.isEmpty_iff.mp h2
    refine .inl ⟨[], 0, rfl, Dict.wf_nil, fun k => ?_, fun h => absurd h (hemp.mp h1),
      fun _ => rfl, fun h => absurd ht h, fun h => absurd h ha⟩
    rw [← hts, ht]; simp [Dict.keys]

theorem sampleLoop_spec (hB : Built cgpms net) (hQ : Query cgpms C TA) (hi : inputs.WF)
    (hsim : ∀ c ∈ cgpms, SimKeys c) (ω : Nat → Ω) (rowid : R) (post : List Nat) :
    ∀ (pre : List Nat) (s : Dict Nat V) (w : LogP), net.topo = pre ++ post →
      SInv cgpms C TA pre s →
      (∃ s' ws, sampleLoop ω rowid cgpms TA inputs post s w
          = .ok (s', w + (post.map ws).sum) ∧ SInv cgpms C TA net.topo s' ∧
        (∀ k v, s.get? k = some v → s'.get? k = some v) ∧
        ∀ l ∈ post, ∀ c, cgpms[l]? = some c → StepOk (ω l) rowid C inputs TA s' c (ws l)) ∨
      (∃ e, sampleLoop ω rowid cgpms TA inputs post s w = .error e ∧
        ∃ l c, cgpms[l]? = some c ∧ StepErr (ω l) rowid C inputs TA cgpms c e) := by
  induction post with
  | nil =>
    intro pre s w hsp hI
    rw [List.append_nil] at hsp
    exact .inl ⟨s, fun _ => 0, by simp [sampleLoop], hsp ▸ hI, fun _ _ h => h, by simp⟩
  | cons l t ih =>
    intro pre s w hsp hI
    have hl : l < cgpms.length := by
      have : l ∈ net.topo := by rw [hsp]; simp
      rw [hB.perm.mem_iff, List.mem_range] at this
      exact this
    have hcl : cgpms[l]? = some cgpms[l] := List.getElem?_eq_getElem hl
    simp only [sampleLoop, hcl]
    rcases invoke_cases hB hQ hi hsim (ω l) rowid hsp hcl hI with
      ⟨d, wl, hd, hdw, hdk, h1, h2, h3, h4⟩ | ⟨e, he, hE⟩
    · rw [hd]
      have hnd : net.topo.Nodup := hB.perm.nodup_iff.mpr List.nodup_range
      have hfresh : ∀ k ∈ d.keys, k ∉ s.keys := by
        intro k hk hks
        obtain ⟨hkT, hko⟩ := (hdk k).mp hk
        rcases (hI.keys k).mp hks with h | ⟨-, m, hm, c', hc', hk'⟩
        · exact hQ.disj k hkT h
        · have := hB.wf.unique _ _ _ _ hcl hc' k hko hk'
          subst this
          rw [hsp, List.nodup_append] at hnd
          exact hnd.2.2 l hm l (by simp) rfl
      have hsub : ∀ k v, s.get? k = some v → (s.update d).get? k = some v := by
        intro k v hv
        rw [Dict.get?_update _ _ hdw]
        have : d.get? k = none := by
          rw [Dict.get?_eq_none_iff]
          exact fun h => hfresh k h (Dict.mem_keys_of_get? hv)
        rw [this, hv]; rfl
      have hI' : SInv cgpms C TA (pre ++ [l]) (s.update d) := by
        refine ⟨Dict.wf_update hI.wf d, fun k => ?_, fun k v hv => hsub k v (hI.agree k v hv)⟩
        rw [Dict.mem_keys_update, hI.keys, hdk]
        constructor
        · rintro ((h | ⟨hT, m, hm, h⟩) | ⟨hT, ho⟩)
          · exact .inl h
          · exact .inr ⟨hT, m, by simp [hm], h⟩
          · exact .inr ⟨hT, l, by simp, _, hcl, ho⟩
        · rintro (h | ⟨hT, m, hm, c', hc', hk⟩)
          · exact .inl (.inl h)
          · rcases List.mem_append.mp hm with hm | hm
            · exact .inl (.inr ⟨hT, m, hm, c', hc', hk⟩)
            · rw [List.mem_singleton] at hm
              subst hm
              rw [hcl] at hc'; cases hc'
              exact .inr ⟨hT, hk⟩
      rcases ih (pre ++ [l]) (s.update d) (w + wl) (by rw [hsp]; simp) hI' with
        ⟨s', ws, hr, hIs', hss, hst⟩ | ⟨e, he, hE⟩
      · refine .inl ⟨s', fun m => if m = l then wl else ws m, ?_, hIs',
          fun k v hv => hss k v (hsub k v hv), ?_⟩
        · simp only []
          rw [hr]
          have hlt : l ∉ t := by
            rw [hsp, List.nodup_append, List.nodup_cons] at hnd
            exact hnd.2.1.1
          have : t.map (fun m => if m = l then wl else ws m) = t.map ws := by
            refine List.map_congr_left fun m hm => ?_
            rw [if_neg]; rintro rfl; exact hlt hm
          rw [List.map_cons, List.sum_cons, this, if_pos rfl, add_assoc]
        · intro m hm c hc
          by_cases hml : m = l
          · subst hml
            rw [hcl] at hc; cases hc
            simp only [if_true]
            have hsub2 : ∀ k v, s.get? k = some v → s'.get? k = some v :=
              fun k v hv => hss k v (hsub k v hv)
            refine ⟨fun h => ?_, h2, fun h => ?_, fun h => ?_⟩
            · rw [← sinv_inputs hB hQ hsp hcl hI hIs' hsub2 (by
                obtain ⟨k, a, b⟩ := h; exact ⟨k, a, .inr b⟩)]
              exact h1 h
            · refine ⟨d, ?_, fun k hk hko => ?_⟩
              · rw [← sinv_inputs hB hQ hsp hcl hI hIs' hsub2 (by
                  obtain ⟨k, t', hkt⟩ := List.exists_cons_of_ne_nil h
                  have : k ∈ TA.filter fun q => cgpms[m].outputs.contains q := by rw [hkt]; simp
                  have := List.mem_filter.mp this
                  exact ⟨k, by simpa using this.2, .inl this.1⟩)]
                exact h3 h
              · obtain ⟨x, hx⟩ := Dict.exists_of_mem_keys ((hdk k).mpr ⟨hk, hko⟩)
                rw [hx]
                refine hss k x ?_
                rw [Dict.get?_update _ _ hdw, hx]; rfl
            · rw [← sinv_inputs hB hQ hsp hcl hI hIs' hsub2 h]
              exact h4 h
          · simp only [if_neg hml]
            exact hst m ((List.mem_cons.mp hm).resolve_left hml) c hc
      · exact .inr ⟨e, he, hE⟩
    · rw [he]
      exact .inr ⟨e, rfl, l, _, hcl, hE⟩

end

end Cgpm.Net

namespace Cgpm.Net
open Cgpm Classical
variable {R V Ω : Type}

/-- What is asked of a query on a network. -/
structure GoodQuery (cgpms : List (NetCgpm R V Ω)) (targets : List Nat)
    (constraints inputs : Dict Nat V) : Prop where
  constraints_wf : constraints.WF
  inputs_wf : inputs.WF
  nodup : targets.Nodup
  produced : ∀ t ∈ targets, Produced cgpms t
  disjoint : ∀ t ∈ targets, t ∉ constraints.keys

theorem weightedSample_cases {ord : PyOrder} (hord : ord.Lists) {cgpms : List (NetCgpm R V Ω)}
    {net : Network R V Ω} (hB : Built cgpms net) (hsim : ∀ c ∈ cgpms, SimKeys c)
    {targets : List Nat} {C inputs : Dict Nat V} (hq : GoodQuery cgpms targets C inputs)
    (ω : Nat → Ω) (rowid : R) :
    ∃ TA : List Nat, Query cgpms C TA ∧
      (∀ v, v ∈ TA ↔ (Needed cgpms (· ∈ targets) (· ∈ C.keys) v ∧ v ∉ C.keys ∧
        Produced cgpms v)) ∧
      ((∃ s w ws, weightedSample ord ω rowid net targets C inputs = .ok (s, w) ∧
        w = (net.topo.map ws).sum ∧ SInv cgpms C TA net.topo s ∧
        ∀ l c, cgpms[l]? = some c → StepOk (ω l) rowid C inputs TA s c (ws l)) ∨
      (∃ e, weightedSample ord ω rowid net targets C inputs = .error e ∧
        ∃ l c, cgpms[l]? = some c ∧ StepErr (ω l) rowid C inputs TA cgpms c e)) := by
  have hfun : (fun v => C.has v = true) = (· ∈ C.keys) := by
    funext v; exact propext (Dict.has_iff C v)
  obtain ⟨req, hr, hnd, hmem⟩ := requiredInputs_spec hord hB targets C.has
  rw [hfun] at hmem
  have hmemC : ∀ v, C.has v = false ↔ v ∉ C.keys := by
    intro v; rw [← Dict.has_iff, Bool.not_eq_true]
  have hTA : ∀ v, v ∈ targets ++ req ↔ (Needed cgpms (· ∈ targets) (· ∈ C.keys) v ∧ v ∉ C.keys ∧
        Produced cgpms v) := by
    intro v
    rw [List.mem_append, hmem, hmemC]
    constructor
    · rintro (h | ⟨h1, h2, h3, h4⟩)
      · exact ⟨.target h, hq.disjoint v h, hq.produced v h⟩
      · exact ⟨h1, h3, h4⟩
    · rintro ⟨h1, h2, h3⟩
      by_cases ht : v ∈ targets
      · exact .inl ht
      · exact .inr ⟨h1, ht, h2, h3⟩
  have hQ : Query cgpms C (targets ++ req) := by
    refine ⟨?_, fun t ht => ((hTA t).mp ht).2.1, fun t ht => ((hTA t).mp ht).2.2, ?_⟩
    · rw [List.nodup_append]
      exact ⟨hq.nodup, hnd, fun a ha b hb e => ((hmem b).mp hb).2.1 (e ▸ ha)⟩
    · rintro c hc ⟨o, ho, h⟩ v hv hp
      by_cases hvC : v ∈ C.keys
      · exact .inr hvC
      · left
        rw [hTA]
        refine ⟨?_, hvC, hp⟩
        rcases h with h | h
        · exact .input hc ho ((hTA o).mp h).1 hv
        · exact .constr hc ho h hv
  have hI0 : SInv cgpms C (targets ++ req) [] C :=
    ⟨hq.constraints_wf, fun k => by simp, fun _ _ h => h⟩
  refine ⟨targets ++ req, hQ, hTA, ?_⟩
  unfold weightedSample
  rw [hr, hB.cgpms_eq]
  simp only []
  rcases sampleLoop_spec hB hQ hq.inputs_wf hsim ω rowid net.topo [] C 0 rfl hI0 with
    ⟨s, ws, hs, hI, -, hst⟩ | ⟨e, he, hE⟩
  · rw [hs]
    simp only []
    left
    refine ⟨s, _, ws, ?_, rfl, hI, fun l c hc => hst l ?_ c hc⟩
    · rw [if_pos, zero_add]
      intro k
      rw [hI.keys]
      refine or_congr_right ⟨fun h => h.1, fun h => ⟨h, ?_⟩⟩
      obtain ⟨c, hc, hk⟩ := hQ.prod k h
      obtain ⟨l, hl⟩ := List.mem_iff_getElem?.mp hc
      refine ⟨l, ?_, c, hl, hk⟩
      rw [hB.perm.mem_iff, List.mem_range]
      exact (List.getElem?_eq_some_iff.mp hl).1
    · rw [hB.perm.mem_iff, List.mem_range]
      exact (List.getElem?_eq_some_iff.mp hc).1
  · rw [he]; exact .inr ⟨e, rfl, hE⟩

theorem collect_ok {α β : Type} (f : α → Except Exn β) (g : α → β) (l : List α)
    (h : ∀ a ∈ l, f a = .ok (g a)) : collect f l = .ok (l.map g) := by
  induction l with
  | nil => rfl
  | cons a t ih =>
    simp only [collect, h a (by simp), ih fun b hb => h b (by simp [hb])]
    rfl

theorem collect_inv {α β : Type} {f : α → Except Exn β} {l : List α} {r : List β}
    (h : collect f l = .ok r) : List.Forall₂ (fun a b => f a = .ok b) l r := by
  induction l generalizing r with
  | nil => cases h; exact .nil
  | cons a t ih =>
    simp only [collect] at h
    cases hf : f a with
    | error e => rw [hf] at h; cases h
    | ok b =>
      rw [hf] at h
      cases ht : collect f t with
      | error e => rw [ht] at h; cases h
      | ok r' =>
        rw [ht] at h
        cases h
        exact .cons hf (ih ht)

end Cgpm.Net
