import Verif.Lemmas.StateSimulate
import Verif.Lemmas.StateDemo
import Verif.Spec.StateSimulate
import Verif.Spec.Network
import Verif.Props.StateLogpdf

/-!
Property C54: simulated rows follow the distribution reported by logpdf
(src/crosscat/state.py:407-417, src/crosscat/sampling.py:52-67, 85-99, 110-116).

A simulation is a function of the uniform draws `us` that choose the clusters of the new rows, and
of the values `draw c k j` which the component of column `c` draws in cluster `k`.
-/
namespace Cgpm.Props
open Cgpm Cgpm.View Cgpm.Net MeasureTheory

variable {C : Cat} {close : C.V → C.V → Bool} {ord : PyOrder} {cfg : Cfg C} {s : State C}
  {rowid : Option Row} {T : List Col} {E : Dict Col C.Cell}

theorem validate_sim_new (h : NewRowId s rowid) (hq : StateSimOn s T E) :
    s.validateQuery close rowid true T E = .ok () := by
  have hh := state_hyp_new h
  have : (T.any fun t => E.has t) = false := by
    rw [List.any_eq_false]
    intro t ht
    simp only [Bool.not_eq_true]
    exact (Dict.has_false_iff _ _).mpr ((Dict.get?_eq_none_iff _ _).mpr (hq.disjoint t ht))
  unfold State.validateQuery State.validateConstraints
  cases rowid <;> simp [hh, this, hq.targets]

theorem validate_sim_old {r : Row} (hr : r < s.nRows) (hq : StateSimOn s T E)
    (ha : StateAgrees close s r E) : s.validateQuery close (some r) true T E = .ok () := by
  have hh := state_hyp_old hr
  have : (T.any fun t => E.has t) = false := by
    rw [List.any_eq_false]
    intro t ht
    simp only [Bool.not_eq_true]
    exact (Dict.has_false_iff _ _).mpr ((Dict.get?_eq_none_iff _ _).mpr (hq.disjoint t ht))
  have h2 := (stateGood_iff hq.evidence).mpr ha
  unfold State.validateQuery State.validateConstraints
  simp [hh, this, hq.targets, h2]

/-- The groups of the targets. -/
theorem partition_cols (h : State.Inv s) (hq : StateSimOn s T E) :
    ∃ oT, partitionList s.crp.data T = .ok oT ∧ oT.WF ∧ oT ≠ [] ∧
      (∀ v, v ∈ oT.keys ↔ AskedCols s T v) ∧
      ∀ p ∈ oT, ∃ view, s.views.get? p.1 = some view ∧ p.2.Nodup ∧ p.2 ≠ [] ∧
        (∀ c ∈ p.2, c ∈ view.dims.keys) ∧ ∀ c, c ∈ p.2 ↔ c ∈ T ∧ s.Zv c = some p.1 := by
  obtain ⟨oT, t1, t2, t3, t4⟩ := C37_partition_list s.crp.data T fun c hc =>
    (h.cols c).mpr (hq.columns c (List.mem_append_left _ hc)).1
  refine ⟨oT, t1, t2, ?_, t3, fun p hp => ?_⟩
  · rintro rfl
    obtain ⟨c, hc⟩ := List.exists_mem_of_ne_nil T hq.nonempty
    obtain ⟨v, hv⟩ := Option.ne_none_iff_exists'.mp ((h.cols c).mpr
      (hq.columns c (List.mem_append_left _ hc)).1)
    have := (t3 v).mpr ⟨c, hc, hv⟩
    cases this
  · have hg := t4 p.1 p.2 (Dict.get?_of_mem t2 hp)
    obtain ⟨c, hc, hz⟩ := (t3 p.1).mp (List.mem_map_of_mem hp)
    obtain ⟨view, hv⟩ := Dict.exists_of_mem_keys ((h.occ p.1).mpr ⟨c, hz⟩)
    have hm : ∀ c, c ∈ p.2 ↔ c ∈ T ∧ s.Zv c = some p.1 := by
      intro c; rw [hg, List.mem_filter]; simp [State.Zv]
    refine ⟨view, hv, hg ▸ hq.targets.filter _, List.ne_nil_of_mem ((hm c).mpr ⟨hc, hz⟩),
      fun c hc => ((h.views.view _ _ hv).dims c).mpr ((hm c).mp hc).2, hm⟩

/-- The merged samples of the views. -/
theorem merged_samples (h : State.Inv s) (hq : StateSimOn s T E) {us : Nat → List ℝ}
    {draw : Col → Tab → Nat → C.V} {N : Nat} {slots : Nat → List (Tab × Nat)}
    (hN : ∀ v, (slots v).length = N) {oT : Dict Nat (List Col)} {oE : Dict Nat (Dict Col C.Cell)}
    (t1 : partitionList s.crp.data T = .ok oT) (e1 : partitionDict s.crp.data E = .ok oE)
    (hs : ∀ p ∈ oT, ∃ view, s.views.get? p.1 = some view ∧
      view.fastSimulate ord rowid p.2 ((oE.get? p.1).getD []) (us p.1) draw =
        .ok ((slots p.1).map (sampleOf draw p.2))) :
    ∃ rows, s.stateSimulate ord rowid T E us draw = .ok rows ∧ rows.length = N ∧
      ∀ (i : Nat) row, rows[i]? = some row → row.keys.Nodup ∧ (∀ c, c ∈ row.keys ↔ c ∈ T) ∧
        ∀ c ∈ T, ∀ v, s.Zv c = some v →
          ∃ p, (slots v)[i]? = some p ∧ row.get? c = some (some (draw c p.1 p.2)) := by
  obtain ⟨oT', t1', t2, t3, t4, t5⟩ := partition_cols h hq
  rw [t1] at t1'
  cases t1'
  obtain ⟨Ls, l1, l2⟩ := drawViews_ok (P := fun p l => l = (slots p.1).map (sampleOf draw p.2))
    (l := oT) (s := s) (ord := ord) (rowid := rowid) (us := us) (draw := draw) (Ev := oE)
    fun p hp => by
      obtain ⟨view, hv, hv'⟩ := hs p hp
      exact ⟨view, _, hv, hv', rfl⟩
  have hLs : Ls = oT.map fun p => (slots p.1).map (sampleOf draw p.2) := by
    clear l1 hs t5 t4 t3 t2 t1
    induction l2 with
    | nil => rfl
    | cons hab _ ih => rw [List.map_cons, ← ih, hab]
  have hne : Ls ≠ [] := by rw [hLs]; simpa using t3
  have hlen : ∀ l ∈ Ls, l.length = N := by
    intro l hl
    rw [hLs] at hl
    obtain ⟨p, -, rfl⟩ := List.mem_map.mp hl
    rw [List.length_map, hN]
  refine ⟨State.zipMerged Ls, ?_, zipMerged_length hne hlen, fun i row hr => ?_⟩
  · simp only [State.stateSimulate, partitionQueryEvidence, e1, t1, l1, Except.map]
  have hi : i < N := by
    rw [← zipMerged_length hne hlen]
    exact (List.getElem?_eq_some_iff.mp hr).1
  have hrow : ∀ l ∈ Ls, ∀ row', l[i]? = some row' → ∃ p ∈ oT, ∃ q, (slots p.1)[i]? = some q ∧
      row' = sampleOf draw p.2 q := by
    intro l hl row' hr'
    rw [hLs] at hl
    obtain ⟨p, hp, rfl⟩ := List.mem_map.mp hl
    rw [List.getElem?_map, Option.map_eq_some_iff] at hr'
    obtain ⟨q, hq1, hq2⟩ := hr'
    exact ⟨p, hp, q, hq1, hq2.symm⟩
  obtain ⟨d, hd, hdw, hdc⟩ := zipMerged_get hi hne hlen fun l hl row' hr' => by
    obtain ⟨p, hp, q, -, rfl⟩ := hrow l hl row' hr'
    obtain ⟨-, -, hnd, -⟩ := t5 p hp
    show (List.map Prod.fst _).Nodup
    unfold sampleOf
    rw [List.map_map]
    exact hnd.map fun a b e => e
  rw [hr] at hd
  cases hd
  have hget : ∀ c ∈ T, ∀ v, s.Zv c = some v →
      ∃ p, (slots v)[i]? = some p ∧ row.get? c = some (some (draw c p.1 p.2)) := by
    intro c hc v hz
    obtain ⟨g, hg⟩ := Dict.exists_of_mem_keys ((t4 v).mpr ⟨c, hc, hz⟩)
    have hp := Dict.mem_of_get? hg
    obtain ⟨q, hq1⟩ : ∃ q, (slots v)[i]? = some q :=
      ⟨_, List.getElem?_eq_getElem (by rw [hN]; exact hi)⟩
    refine ⟨q, hq1, ?_⟩
    have hcg : c ∈ g := by
      obtain ⟨-, -, -, -, -, hm⟩ := t5 _ hp
      exact (hm c).mpr ⟨hc, hz⟩
    have hin : (slots v).map (sampleOf draw g) ∈ Ls := by
      rw [hLs]; exact List.mem_map.mpr ⟨(v, g), hp, rfl⟩
    have hat : ((slots v).map (sampleOf draw g))[i]? = some (sampleOf draw g q) := by
      rw [List.getElem?_map, hq1]; rfl
    cases hx : row.get? c with
    | none =>
      have := (hdc c).2 hx _ hin _ hat
      rw [sampleOf_get?, if_pos hcg] at this
      cases this
    | some x =>
      obtain ⟨l, hl, row', hr', hx'⟩ := (hdc c).1 x hx
      obtain ⟨p', hp', q', hq', rfl⟩ := hrow l hl row' hr'
      rw [sampleOf_get?] at hx'
      split at hx'
      · rename_i hcp
        obtain ⟨-, -, -, -, -, hm⟩ := t5 p' hp'
        have := ((hm c).mp hcp).2
        rw [hz] at this
        cases this
        rw [hq1] at hq'
        cases hq'
        exact hx'.symm
      · cases hx'
  refine ⟨hdw, fun c => ⟨fun hc => ?_, fun hc => ?_⟩, hget⟩
  · obtain ⟨x, hx⟩ := Dict.exists_of_mem_keys hc
    obtain ⟨l, hl, row', hr', hx'⟩ := (hdc c).1 x hx
    obtain ⟨p', hp', q', hq', rfl⟩ := hrow l hl row' hr'
    rw [sampleOf_get?] at hx'
    split at hx'
    · rename_i hcp
      obtain ⟨-, -, -, -, -, hm⟩ := t5 p' hp'
      exact ((hm c).mp hcp).1
    · cases hx'
  · obtain ⟨v, hv⟩ := Option.ne_none_iff_exists'.mp ((h.cols c).mpr
      (hq.columns c (List.mem_append_left _ hc)).1)
    obtain ⟨p, -, hx⟩ := hget c hc v hv
    exact Dict.mem_keys_of_get? hx

/-- Cluster and number of each sample of a batch, the samples of a cluster being adjacent. -/
def batchSlots (ord : PyOrder) (ks : List Tab) : List (Tab × Nat) :=
  slotsOf (ord.set (drawnTabs ks)) ks

theorem batchSlots_nodup (hset : ∀ l, (ord.set l).Perm l) (ks : List Tab) :
    (batchSlots ord ks).Nodup :=
  slotsOf_nodup ((hset _).nodup_iff.mpr (drawnTabs_nodup ks))

theorem batchSlots_perm (hset : ∀ l, (ord.set l).Perm l) (ks : List Tab) :
    ((batchSlots ord ks).map Prod.fst).Perm ks :=
  slotsOf_perm ((hset _).nodup_iff.mpr (drawnTabs_nodup ks)) fun k => by
    rw [(hset _).mem_iff, mem_drawnTabs]

theorem batchSlots_length (hset : ∀ l, (ord.set l).Perm l) (ks : List Tab) :
    (batchSlots ord ks).length = ks.length := by
  rw [← (batchSlots_perm hset ks).length_eq, List.length_map]

theorem batchSlots_single (hset : ∀ l, (ord.set l).Perm l) (k : Tab) :
    batchSlots ord [k] = [(k, 0)] := by
  have h1 := batchSlots_perm hset [k]
  have h2 : drawnTabs [k] = [k] := by simp [drawnTabs]
  have h3 : ord.set [k] = [k] := List.perm_singleton.mp (hset [k])
  unfold batchSlots slotsOf
  rw [h2, h3]
  simp

theorem simulate_new (hL : C.Lawful) (hR : StateReachable cfg s) (hr : NewRowId s rowid)
    (hset : ∀ l, (ord.set l).Perm l) (hq : StateSimOn s T E) :
    ((∀ v view, s.views.get? v = some view → AskedCols s T v → viewDensity view E.get? ≠ 0) →
      ∃ (fresh : Nat → Tab) (pick : Nat → ℝ → Tab), (∀ v view, s.views.get? v = some view →
        AskedCols s T v → ClusterDraw view E.get? (fresh v) (pick v)) ∧
      ∀ (N : Nat) (us : Nat → List ℝ) (draw : Col → Tab → Nat → C.V), (∀ v, (us v).length = N) →
        (∀ v, ∀ u ∈ us v, 0 ≤ u ∧ u < 1) →
        ∃ rows, s.simulate close ord rowid T E us draw = .ok rows ∧ rows.length = N ∧
          ∀ (i : Nat) row, rows[i]? = some row → row.keys.Nodup ∧ (∀ c, c ∈ row.keys ↔ c ∈ T) ∧
            ∀ c ∈ T, ∀ v, s.Zv c = some v →
              ∃ p, (batchSlots ord ((us v).map (pick v)))[i]? = some p ∧
                row.get? c = some (some (draw c p.1 p.2))) ∧
    ((∃ v view, s.views.get? v = some view ∧ AskedCols s T v ∧ viewDensity view E.get? = 0) →
      ∀ (us : Nat → List ℝ) (draw : Col → Tab → Nat → C.V), (∀ v, ∀ u ∈ us v, 0 ≤ u ∧ u < 1) →
        s.simulate close ord rowid T E us draw = .error .valueError) := by
  have h := hR.inv hL
  have hsim : ∀ us draw, s.simulate close ord rowid T E us draw =
      s.stateSimulate ord rowid T E us draw := by
    intro us draw
    unfold State.simulate
    rw [validate_sim_new hr hq]
  obtain ⟨oT, t1, t2, t3, t4, t5⟩ := partition_cols h hq
  obtain ⟨oE, e1, e2, e3, e4, e5⟩ := partition_groups h hq.evidence fun c hc =>
    (hq.columns c (List.mem_append_right _ hc)).1
  have hqE : ∀ c ∈ E.keys, c ∈ s.outputs ∧ ∀ d, s.dimFor c = .ok d → d.inputs = [] :=
    fun c hc => hq.columns c (List.mem_append_right _ hc)
  have hpick : ∀ v view, s.views.get? v = some view →
      (viewDensity view E.get? ≠ 0 → ∃ fresh pick, ClusterDraw view E.get? fresh pick ∧
        ∀ T' us draw, (∀ u ∈ us, 0 ≤ u ∧ u < 1) →
          view.fastSimulate ord rowid T' ((oE.get? v).getD []) us draw =
          view.simulateRows draw T' (us.map pick) (ord.set (drawnTabs (us.map pick)))) ∧
      (viewDensity view E.get? = 0 → ∀ T' us draw,
        view.fastSimulate ord rowid T' ((oE.get? v).getD []) us draw = .error .valueError) := by
    intro v view hv
    have := fast_pick (h.views.view v view hv).inv (stateInv_seat h hv)
      ((stateInv_hyp h hv rowid).trans (state_hyp_new hr)) (e4 v).wf
      (groupOf_plain h hqE hv (e4 v)) ord
    simp only [groupOf_density h hqE hv (e4 v)] at this
    refine ⟨fun h0 => ?_, this.2⟩
    obtain ⟨fresh, f1, pick, f2, f3, f4⟩ := this.1 h0
    exact ⟨fresh, pick, ⟨f1, f2, f3⟩, f4⟩
  constructor
  · intro hpos
    have hex : ∀ v, ∃ fresh pick, ∀ view, s.views.get? v = some view → AskedCols s T v →
        ClusterDraw view E.get? fresh pick ∧
        ∀ T' us draw, (∀ u ∈ us, 0 ≤ u ∧ u < 1) →
          view.fastSimulate ord rowid T' ((oE.get? v).getD []) us draw =
          view.simulateRows draw T' (us.map pick) (ord.set (drawnTabs (us.map pick))) := by
      intro v
      by_cases ha : ∃ view, s.views.get? v = some view ∧ AskedCols s T v
      · obtain ⟨view, hv, ha⟩ := ha
        obtain ⟨fresh, pick, hp⟩ := (hpick v view hv).1 (hpos v view hv ha)
        refine ⟨fresh, pick, fun w hw _ => ?_⟩
        rw [hv] at hw; cases hw
        exact hp
      · exact ⟨0, fun _ => 0, fun view hv hask => absurd ⟨view, hv, hask⟩ ha⟩
    choose fresh pick hfp using hex
    refine ⟨fresh, pick, fun v view hv ha => (hfp v view hv ha).1, fun N us draw hN hus => ?_⟩
    rw [hsim]
    refine merged_samples h hq
      (slots := fun v => batchSlots ord ((us v).map (pick v))) (fun v => ?_) t1 e1 fun p hp => ?_
    · rw [batchSlots_length hset, List.length_map, hN]
    · obtain ⟨view, hv, hnd, hne, hdim, hm⟩ := t5 p hp
      refine ⟨view, hv, ?_⟩
      rw [(hfp p.1 view hv ((t4 p.1).mp (List.mem_map_of_mem hp))).2 _ _ _ (hus p.1),
        simulateRows_ok hdim hne]
      rfl
  · rintro ⟨v, view, hv, ha, h0⟩ us draw hus
    rw [hsim]
    have : s.drawViews ord rowid us draw oE oT = .error .valueError := by
      refine drawViews_refused (fun p hp => ?_) ?_
      · obtain ⟨view, hv, hnd, hne, hdim, hm⟩ := t5 p hp
        refine ⟨view, hv, ?_⟩
        by_cases h0 : viewDensity view E.get? = 0
        · exact Or.inl ((hpick p.1 view hv).2 h0 _ _ _)
        · obtain ⟨fresh, pick, -, hp'⟩ := (hpick p.1 view hv).1 h0
          refine Or.inr ⟨_, (hp' _ _ _ (hus p.1)).trans (simulateRows_ok hdim hne)⟩
      · obtain ⟨g, hg⟩ := Dict.exists_of_mem_keys ((t4 v).mpr ha)
        exact ⟨(v, g), Dict.mem_of_get? hg, view, hv, (hpick v view hv).2 h0 _ _ _⟩
    simp only [State.stateSimulate, partitionQueryEvidence, e1, t1, this, Except.map]

/-- **C54.** One simulated row: the cluster of each view is drawn from its conditional distribution
given the constraints, with the draw `u v` of that view; each target gets the value drawn by its
component in that cluster, and nothing else is returned. -/
theorem C54_sample (hL : C.Lawful) (hR : StateReachable cfg s) (hr : NewRowId s rowid)
    (hset : ∀ l, (ord.set l).Perm l) (hq : StateSimOn s T E)
    (hpos : ∀ v view, s.views.get? v = some view → AskedCols s T v →
      viewDensity view E.get? ≠ 0) :
    ∃ (fresh : Nat → Tab) (pick : Nat → ℝ → Tab), (∀ v view, s.views.get? v = some view →
        AskedCols s T v → ClusterDraw view E.get? (fresh v) (pick v)) ∧
      ∀ (u : Nat → ℝ) (draw : Col → Tab → C.V), (∀ v, 0 ≤ u v ∧ u v < 1) →
        ∃ row, s.simulateOne close ord rowid T E u draw = .ok row ∧ row.keys.Nodup ∧
          (∀ c, c ∈ row.keys ↔ c ∈ T) ∧
          ∀ c ∈ T, ∀ v, s.Zv c = some v → row.get? c = some (some (draw c (pick v (u v)))) := by
  obtain ⟨fresh, pick, h1, h2⟩ := (simulate_new (close := close) hL hR hr hset hq).1 hpos
  refine ⟨fresh, pick, h1, fun u draw hu => ?_⟩
  obtain ⟨rows, r1, r2, r3⟩ := h2 1 (fun v => [u v]) (fun c k _ => draw c k) (fun _ => rfl)
    fun v x hx => by rw [List.mem_singleton] at hx; rw [hx]; exact hu v
  match rows, r2 with
  | [row], _ =>
    obtain ⟨w, k, g⟩ := r3 0 row rfl
    refine ⟨row, ?_, w, k, fun c hc v hz => ?_⟩
    · unfold State.simulateOne
      rw [r1]
    · obtain ⟨p, hp, hg⟩ := g c hc v hz
      rw [List.map_cons, List.map_nil, batchSlots_single hset] at hp
      cases hp
      exact hg

open Classical in
/-- **C54.** The distribution of a simulated row is the one reported by logpdf: if the cluster of
each view with targets is drawn from its conditional distribution, and the targets from the
components of that cluster, the density of the values `T` is exp(logpdf). -/
theorem C54_density (hL : C.Lawful) (hR : StateReachable cfg s) (hr : NewRowId s rowid)
    {T : Dict Col C.Cell} (hq : StateQueryOn s T E) (hd : ∀ c ∈ T.keys, c ∉ E.keys)
    (hpos : ∀ v view, s.views.get? v = some view → Asked s T v → viewDensity view E.get? ≠ 0)
    {fresh : Nat → Tab} {pick : Nat → ℝ → Tab}
    (hdraw : ∀ v view, s.views.get? v = some view → Asked s T v →
      ClusterDraw view E.get? (fresh v) (pick v))
    {Ω : Type} {beh : ViewBehaviour C Ω} {ωj ωm : Nat → Nat → Ω}
    {hooked : Dict Nat (NetCgpm (Option Row) (Val C) Ω)} {acc : Option Nat} :
    ∃ r, s.logpdf close ord beh ωj ωm false hooked rowid T E [] acc = .ok r ∧ r ≠ .nan ∧
      mass r = (s.views.map fun p => if Asked s T p.1 then
        ∑ k ∈ insert (fresh p.1) (occupied p.2),
          volume {u : ℝ | 0 ≤ u ∧ u < 1 ∧ pick p.1 u = k} * rowDensity p.2 k T.get?
        else 1).prod := by
  have h := hR.inv hL
  obtain ⟨r, r1, r2, r3⟩ := (C16_state (close := close) (ord := ord) (beh := beh) (ωj := ωj)
    (ωm := ωm) (hooked := hooked) (acc := acc) hL hR hr hq hd).1 hpos
  refine ⟨r, r1, r2, r3.trans ?_⟩
  congr 1
  refine List.map_congr_left fun p hp => ?_
  split
  swap
  · rfl
  rename_i ha
  have hv := Dict.get?_of_mem h.views.wf hp
  have hc := hdraw p.1 p.2 hv ha
  have hI := (h.views.view _ _ hv).inv
  rw [viewDensity_both h hq hd hv]
  have hsum : ∀ k ∈ insert (fresh p.1) (occupied p.2),
      volume {u : ℝ | 0 ≤ u ∧ u < 1 ∧ pick p.1 u = k} * rowDensity p.2 k T.get? =
      (prior p.2 k * (rowDensity p.2 k T.get? * rowDensity p.2 k E.get?)) *
        (viewDensity p.2 E.get?)⁻¹ := by
    intro k hk
    rw [hc.law k (by
      rcases Finset.mem_insert.mp hk with e | e
      · exact Or.inr e
      · exact Or.inl e), div_eq_mul_inv]
    ring
  rw [Finset.sum_congr rfl hsum, ← Finset.sum_mul, ← div_eq_mul_inv]
  congr 1
  rw [Finset.sum_insert hc.new]
  unfold mixture
  rw [add_comm, prior_fresh p.2 hc.new (freshTab_not_mem p.2),
    rowDensity_fresh hI T.get? hc.new (freshTab_not_mem p.2),
    rowDensity_fresh hI E.get? hc.new (freshTab_not_mem p.2)]

/-- **C54.** A batch of `N` simulated rows: `N` rows are returned, each with exactly the targets; in
every view the clusters of the rows of the batch are those drawn for this view, up to their order;
the values are those drawn by the components, none being used twice. -/
theorem C54_batch (hL : C.Lawful) (hR : StateReachable cfg s) (hr : NewRowId s rowid)
    (hset : ∀ l, (ord.set l).Perm l) (hq : StateSimOn s T E)
    (hpos : ∀ v view, s.views.get? v = some view → AskedCols s T v →
      viewDensity view E.get? ≠ 0) :
    ∃ (fresh : Nat → Tab) (pick : Nat → ℝ → Tab), (∀ v view, s.views.get? v = some view →
        AskedCols s T v → ClusterDraw view E.get? (fresh v) (pick v)) ∧
      ∀ (N : Nat) (us : Nat → List ℝ) (draw : Col → Tab → Nat → C.V), (∀ v, (us v).length = N) →
        (∀ v, ∀ u ∈ us v, 0 ≤ u ∧ u < 1) →
        ∃ rows, s.simulate close ord rowid T E us draw = .ok rows ∧ rows.length = N ∧
        ∃ slots : Nat → List (Tab × Nat), (∀ v, (slots v).Nodup ∧
            ((slots v).map Prod.fst).Perm ((us v).map (pick v))) ∧
          ∀ (i : Nat) row, rows[i]? = some row → row.keys.Nodup ∧ (∀ c, c ∈ row.keys ↔ c ∈ T) ∧
            ∀ c ∈ T, ∀ v, s.Zv c = some v →
              ∃ p, (slots v)[i]? = some p ∧ row.get? c = some (some (draw c p.1 p.2)) := by
  obtain ⟨fresh, pick, h1, h2⟩ := (simulate_new (close := close) hL hR hr hset hq).1 hpos
  refine ⟨fresh, pick, h1, fun N us draw hN hus => ?_⟩
  obtain ⟨rows, r1, r2, r3⟩ := h2 N us draw hN hus
  exact ⟨rows, r1, r2, _, fun v => ⟨batchSlots_nodup hset _, batchSlots_perm hset _⟩, r3⟩

/-- **C54.** A simulation is refused when the constraints have density zero in a view with
targets. -/
theorem C54_impossible (hL : C.Lawful) (hR : StateReachable cfg s) (hr : NewRowId s rowid)
    (hset : ∀ l, (ord.set l).Perm l) (hq : StateSimOn s T E) {v : Nat} {view : View C}
    (hv : s.views.get? v = some view) (ha : AskedCols s T v) (h0 : viewDensity view E.get? = 0)
    {us : Nat → List ℝ} {draw : Col → Tab → Nat → C.V} (hus : ∀ v, ∀ u ∈ us v, 0 ≤ u ∧ u < 1) :
    s.simulate close ord rowid T E us draw = .error .valueError :=
  (simulate_new hL hR hr hset hq).2 ⟨v, view, hv, ha, h0⟩ us draw hus

/-- **C54.** A simulation at a row of the State: every target is drawn from its component in the
cluster of the row. -/
theorem C54_row (hL : C.Lawful) (hR : StateReachable cfg s) {r : Row} (hr : r < s.nRows)
    (hq : StateSimOn s T E) (ha : StateAgrees close s r E) (N : Nat) (us : Nat → List ℝ)
    (draw : Col → Tab → Nat → C.V) (hN : ∀ v, (us v).length = N) :
    ∃ rows, s.simulate close ord (some r) T E us draw = .ok rows ∧ rows.length = N ∧
      ∀ (i : Nat) row, rows[i]? = some row → row.keys.Nodup ∧ (∀ c, c ∈ row.keys ↔ c ∈ T) ∧
        ∀ c ∈ T, ∀ v view k, s.Zv c = some v → s.views.get? v = some view → view.seat r = some k →
          row.get? c = some (some (draw c k i)) := by
  have h := hR.inv hL
  obtain ⟨oT, t1, t2, t3, t4, t5⟩ := partition_cols h hq
  obtain ⟨oE, e1, e2, e3, e4, e5⟩ := partition_groups h hq.evidence fun c hc =>
    (hq.columns c (List.mem_append_right _ hc)).1
  let ks : Nat → Tab := fun v => match s.views.get? v with
    | some view => (view.seat r).getD 0
    | none => 0
  have hks : ∀ v view, s.views.get? v = some view → view.seat r = some (ks v) := by
    intro v view hv
    obtain ⟨k, hk⟩ := Option.ne_none_iff_exists'.mp (((h.views.view v view hv).rows r).mpr hr)
    simp only [ks, hv, hk, Option.getD_some]
  obtain ⟨rows, r1, r2, r3⟩ := merged_samples (ord := ord) (rowid := some r) (us := us)
    (draw := draw) (N := N) h hq
    (slots := fun v => (List.range N).map fun j => (ks v, j)) (fun v => by simp) t1 e1
    fun p hp => by
      obtain ⟨view, hv, hnd, hne, hdim, hm⟩ := t5 p hp
      refine ⟨view, hv, ?_⟩
      unfold fastSimulate
      simp only [stateInv_hyp h hv, state_hyp_old hr, hks _ _ hv, simulateRow_ok hdim hne, hN,
        List.map_map]
      rfl
  refine ⟨rows, ?_, r2, fun i row hi => ?_⟩
  · unfold State.simulate
    rw [validate_sim_old hr hq ha]
    exact r1
  · obtain ⟨w, k, g⟩ := r3 i row hi
    refine ⟨w, k, fun c hc v view k hz hv hk => ?_⟩
    obtain ⟨p, hp, hg⟩ := g c hc v hz
    rw [hks v view hv] at hk
    cases hk
    rw [List.getElem?_map, Option.map_eq_some_iff] at hp
    obtain ⟨j, hj, rfl⟩ := hp
    rw [List.getElem?_range (by
      rw [← r2]; exact (List.getElem?_eq_some_iff.mp hi).1)] at hj
    cases hj
    exact hg

/-- **C54.** Repeated targets, targets that are constrained, and constraints that contradict an
observed cell of the row are refused. -/
theorem C54_refused (hE : E.keys.Nodup) (us : Nat → List ℝ) (draw : Col → Tab → Nat → C.V)
    (h : ¬ T.Nodup ∨ (∃ c ∈ T, c ∈ E.keys) ∨
      ∃ r, rowid = some r ∧ r < s.nRows ∧ ¬ StateAgrees close s r E) :
    s.simulate close ord rowid T E us draw = .error .valueError := by
  have : s.validateQuery close rowid true T E = .error .valueError := by
    unfold State.validateQuery
    by_cases hn : T.Nodup
    · rw [if_neg (by simp [hn])]
      show s.validateConstraints close rowid T E = .error .valueError
      unfold State.validateConstraints
      by_cases ho : ∃ c ∈ T, c ∈ E.keys
      · rw [if_pos]
        obtain ⟨c, h1, h2⟩ := ho
        exact List.any_eq_true.mpr ⟨c, h1, (Dict.has_iff _ _).mpr h2⟩
      · obtain ⟨r, rfl, hr, ha⟩ := (h.resolve_left (not_not.mpr hn)).resolve_left ho
        rw [if_neg]
        · have : (E.any fun p => !s.goodConstraint close r p.1 p.2) = true := by
            by_contra hh
            rw [Bool.not_eq_true] at hh
            exact ha ((stateGood_iff hE).mp hh)
          simp only [state_hyp_old hr, this, if_true]
        · intro hh
          obtain ⟨c, h1, h2⟩ := List.any_eq_true.mp hh
          exact ho ⟨c, h1, (Dict.has_iff _ _).mp h2⟩
    · rw [if_pos (by simp [hn])]
  unfold State.simulate
  rw [this]

/-- **C54 fails without targets.** No samples are returned, whatever their number; asking for one
raises IndexError. -/
theorem C54_no_targets_violated (hL : C.Lawful) (hR : StateReachable cfg s) :
    (∀ (us : Nat → List ℝ) (draw : Col → Tab → Nat → C.V),
      s.simulate close ord rowid [] [] us draw = .ok []) ∧
    ∀ (u : Nat → ℝ) (draw : Col → Tab → C.V),
      s.simulateOne close ord rowid [] [] u draw = .error .indexError := by
  have h1 : ∀ (us : Nat → List ℝ) (draw : Col → Tab → Nat → C.V),
      s.simulate close ord rowid [] [] us draw = .ok [] := by
    intro us draw
    have : s.validateQuery close rowid true [] [] = .ok () := by
      unfold State.validateQuery State.validateConstraints
      cases hh : s.hypothetical rowid <;> cases rowid <;> simp
    unfold State.simulate
    rw [this]
    rfl
  refine ⟨h1, fun u draw => ?_⟩
  unfold State.simulateOne
  rw [h1]

/-- In a batch the clusters of a view never decrease, when the clusters are iterated in increasing
order. -/
theorem batchSlots_sorted (hid : ∀ l, ord.set l = l) (ks : List Tab) :
    ((batchSlots ord ks).map Prod.fst).Pairwise (· ≤ ·) := by
  unfold batchSlots
  rw [hid]
  exact slotsOf_sorted

/-- **C54 fails for batches.** Columns 0 and 1 are in different views, hence independent.  If every
component draws a value that tells its cluster, the rows `(a, d)` and `(b, c)`, with `a < b` and
`c < d`, both have positive probability of being simulated; but no batch of two rows consists of
them, in any order.  (The samples of each view are sorted by cluster before those of the different
views are put together.) -/
theorem C54_batch_violated (close : libCat.V → libCat.V → Bool) :
    ∃ s : State libCat, StateReachable plainCfg s ∧ s.Zv 0 ≠ s.Zv 1 ∧
    ∃ a b c d : ℝ, a < b ∧ c < d ∧
      (∀ x y, (x = a ∧ y = d) ∨ (x = b ∧ y = c) →
        0 < volume {u : ℝ × ℝ | ∃ row, s.simulateOne close idOrder none [0, 1]
          [] (fun v => if v = 0 then u.1 else u.2) (fun _ k => ((k : ℕ) : ℝ)) = .ok row ∧
            row.get? 0 = some (some x) ∧ row.get? 1 = some (some y)}) ∧
      ∀ us : Nat → List ℝ, (∀ v, (us v).length = 2) → (∀ v, ∀ u ∈ us v, 0 ≤ u ∧ u < 1) →
        ∃ p q, s.simulate close idOrder none [0, 1] [] us
            (fun _ k _ => ((k : ℕ) : ℝ)) = .ok [p, q] ∧
          ¬ (p.get? 0 = some (some a) ∧ p.get? 1 = some (some d) ∧
            q.get? 0 = some (some b) ∧ q.get? 1 = some (some c)) ∧
          ¬ (q.get? 0 = some (some a) ∧ q.get? 1 = some (some d) ∧
            p.get? 0 = some (some b) ∧ p.get? 1 = some (some c)) := by
  obtain ⟨s, h1, h2, h3, h4, h5, h6, h7, h8, -, -, h11, h12⟩ :=
    stateDemo_init (normal_remembered 0) normal_hyp (a := 0) (b := 1) (by decide) [] []
  have hq : StateSimOn s [0, 1] [] := by
    refine ⟨by simp, by decide, by simp [Dict.keys], fun c hc => ?_, fun c _ => by simp [Dict.keys]⟩
    refine ⟨?_, fun d hd => (h12 c d hd).2.1⟩
    rw [h4]
    simpa [Dict.keys] using hc
  have hnew : NewRowId s none := fun r e => by cases e
  have hset : ∀ l, (idOrder.set l).Perm l := fun l => List.Perm.refl _
  have hone : ∀ view : View libCat, ∀ k,
      rowDensity view k (Dict.get? ([] : Dict Col libCat.Cell)) = 1 := by
    intro view k
    have : (Dict.get? ([] : Dict Col libCat.Cell)) = fun _ => none := by funext c; simp
    rw [this]; exact rowDensity_empty view k
  have hden : ∀ v view, s.views.get? v = some view →
      viewDensity view (Dict.get? ([] : Dict Col libCat.Cell)) ≠ 0 := by
    intro v view hv h0
    unfold viewDensity mixture at h0
    rw [add_eq_zero] at h0
    have := h0.2
    simp only [hone, mul_one] at this
    exact prior_pos (h2.views.view v view hv).inv _ this
  obtain ⟨fresh, pick, g1, g2⟩ := (simulate_new (close := close)
    (catOf_lawful _) h1 hnew hset hq).1 fun v view hv _ => hden v view hv
  obtain ⟨view0, hv0⟩ : ∃ w, s.views.get? 0 = some w := Dict.exists_of_mem_keys (by rw [h8]; simp)
  obtain ⟨view1, hv1⟩ : ∃ w, s.views.get? 1 = some w := Dict.exists_of_mem_keys (by rw [h8]; simp)
  have d0 := g1 0 view0 hv0 ⟨0, by simp, h6⟩
  have d1 := g1 1 view1 hv1 ⟨1, by simp, h7⟩
  have o0 : 0 ∈ occupied view0 := by
    rw [mem_occupied (h2.views.view _ _ hv0).inv, Crp.occupied_iff (h2.views.view _ _ hv0).inv.crp]
    exact ⟨0, by have := h11 0 view0 hv0 0; simpa [stateDemoRows, View.seat] using this⟩
  have o1 : ∀ k : Nat, k = 0 ∨ k = 1 → k ∈ occupied view1 := by
    intro k hk
    rw [mem_occupied (h2.views.view _ _ hv1).inv, Crp.occupied_iff (h2.views.view _ _ hv1).inv.crp]
    rcases hk with rfl | rfl
    · exact ⟨0, by have := h11 1 view1 hv1 0; simpa [stateDemoRows, View.seat] using this⟩
    · exact ⟨1, by have := h11 1 view1 hv1 1; simpa [stateDemoRows, View.seat] using this⟩
  have hf : 0 < fresh 0 := Nat.pos_of_ne_zero fun e => d0.new (by rw [e]; exact o0)
  have hvol : ∀ {v : Nat} {view : View libCat}, s.views.get? v = some view →
      ∀ {k}, (ClusterDraw view (Dict.get? ([] : Dict Col libCat.Cell)) (fresh v) (pick v)) →
      k ∈ occupied view ∨ k = fresh v → volume {u : ℝ | 0 ≤ u ∧ u < 1 ∧ pick v u = k} ≠ 0 := by
    intro v view hv k hc hk
    rw [hc.law k hk, hone, mul_one]
    exact (ENNReal.div_pos (prior_pos (h2.views.view v view hv).inv k) (viewDensity_top _ _)).ne'
  refine ⟨s, h1, by rw [h6, h7]; decide, 0, fresh 0, 0, 1, by exact_mod_cast hf, one_pos, ?_, ?_⟩
  · intro x y hxy
    obtain ⟨k, l, rfl, rfl, hk, hl⟩ : ∃ k l : Nat, x = k ∧ y = l ∧
        (k ∈ occupied view0 ∨ k = fresh 0) ∧ l ∈ occupied view1 := by
      rcases hxy with ⟨rfl, rfl⟩ | ⟨rfl, rfl⟩
      · exact ⟨0, 1, by simp, by simp, Or.inl o0, o1 1 (Or.inr rfl)⟩
      · exact ⟨fresh 0, 0, rfl, by simp, Or.inr rfl, o1 0 (Or.inl rfl)⟩
    have hsub : {u : ℝ | 0 ≤ u ∧ u < 1 ∧ pick 0 u = k} ×ˢ {u : ℝ | 0 ≤ u ∧ u < 1 ∧ pick 1 u = l} ⊆
        {u : ℝ × ℝ | ∃ row, s.simulateOne close idOrder none [0, 1]
          [] (fun v => if v = 0 then u.1 else u.2) (fun _ k => ((k : ℕ) : ℝ)) = .ok row ∧
            row.get? 0 = some (some (k : ℝ)) ∧ row.get? 1 = some (some (l : ℝ))} := by
      rintro ⟨u, w⟩ ⟨⟨a1, a2, a3⟩, b1, b2, b3⟩
      simp only [] at a1 a2 a3 b1 b2 b3
      obtain ⟨rows, r1, r2, r3⟩ := g2 1 (fun v => [if v = 0 then u else w])
        (fun _ k _ => ((k : ℕ) : ℝ)) (fun _ => rfl) fun v x hx => by
          rw [List.mem_singleton] at hx
          rw [hx]
          split
          · exact ⟨a1, a2⟩
          · exact ⟨b1, b2⟩
      match rows, r2 with
      | [row], _ =>
        obtain ⟨-, -, g⟩ := r3 0 row rfl
        refine ⟨row, ?_, ?_, ?_⟩
        · unfold State.simulateOne
          simp only []
          rw [r1]
        · obtain ⟨p, hp, hg⟩ := g 0 (by simp) 0 h6
          rw [List.map_cons, List.map_nil, batchSlots_single hset] at hp
          cases hp
          rw [hg]
          show some (some ((pick 0 u : ℕ) : ℝ)) = _
          rw [a3]
        · obtain ⟨p, hp, hg⟩ := g 1 (by simp) 1 h7
          rw [List.map_cons, List.map_nil, batchSlots_single hset] at hp
          cases hp
          rw [hg]
          show some (some ((pick 1 w : ℕ) : ℝ)) = _
          rw [b3]
    refine lt_of_lt_of_le ?_ (measure_mono hsub)
    rw [Measure.volume_eq_prod, Measure.prod_prod]
    exact pos_iff_ne_zero.mpr (mul_ne_zero (hvol hv0 d0 hk) (hvol hv1 d1 (Or.inl hl)))
  · intro us hN hus
    obtain ⟨rows, r1, r2, r3⟩ := g2 2 us (fun _ k _ => ((k : ℕ) : ℝ)) hN hus
    match rows, r2 with
    | [p, q], _ =>
      refine ⟨p, q, r1, ?_⟩
      have key : ∀ (c : Col) (v : Nat), c ∈ [0, 1] → s.Zv c = some v → ∃ k l : Nat, k ≤ l ∧
          p.get? c = some (some (k : ℝ)) ∧ q.get? c = some (some (l : ℝ)) := by
        intro c v hc hz
        obtain ⟨-, -, gp⟩ := r3 0 p rfl
        obtain ⟨-, -, gq⟩ := r3 1 q rfl
        obtain ⟨x, hx, ex⟩ := gp c hc v hz
        obtain ⟨y, hy, ey⟩ := gq c hc v hz
        refine ⟨x.1, y.1, ?_, ex, ey⟩
        have hs := batchSlots_sorted (ord := idOrder) (fun _ => rfl) ((us v).map (pick v))
        rw [List.pairwise_iff_getElem] at hs
        obtain ⟨hx1, hx2⟩ := List.getElem?_eq_some_iff.mp hx
        obtain ⟨hy1, hy2⟩ := List.getElem?_eq_some_iff.mp hy
        have := hs 0 1 (by simpa using hx1) (by simpa using hy1) (by decide)
        simpa [hx2, hy2] using this
      obtain ⟨k, l, hkl, p0, q0⟩ := key 0 0 (by simp) h6
      obtain ⟨k', l', hkl', p1, q1⟩ := key 1 1 (by simp) h7
      rw [p0, p1, q0, q1]
      constructor
      · rintro ⟨-, e1, -, e2⟩
        have e1 : (k' : ℝ) = 1 := Option.some.inj (Option.some.inj e1)
        have e2 : (l' : ℝ) = 0 := Option.some.inj (Option.some.inj e2)
        have : (k' : ℝ) ≤ l' := by exact_mod_cast hkl'
        rw [e1, e2] at this
        exact absurd this (by norm_num)
      · rintro ⟨e1, -, e2, -⟩
        have e1 : (l : ℝ) = 0 := Option.some.inj (Option.some.inj e1)
        have e2 : (k : ℝ) = fresh 0 := Option.some.inj (Option.some.inj e2)
        have h1 : (k : ℝ) ≤ l := by exact_mod_cast hkl
        rw [e1, e2] at h1
        have h2 : (0 : ℝ) < fresh 0 := by exact_mod_cast hf
        exact absurd h1 (not_le.mpr h2)

/-! The hypotheses can be met. -/

open Classical in
/-- Two bernoulli columns in different views: a simulation of one given the other, and of both. -/
example : ∃ s : State libCat, StateReachable plainCfg s ∧ NewRowId s none ∧ 0 < s.nRows ∧
    StateSimOn s [0] [(1, some (0 : ℝ))] ∧ StateSimOn s [0, 1] [] ∧
    (∀ v view, s.views.get? v = some view →
      viewDensity view (Dict.get? [(1, some (0 : ℝ))]) ≠ 0) ∧
    StateAgrees (fun x y : ℝ => decide (x = y)) s 0 [(1, some (0 : ℝ))] ∧
    ¬ StateAgrees (fun x y : ℝ => decide (x = y)) s 1 [(1, some (0 : ℝ))] := by
  obtain ⟨s, h1, h2, h3, h4, h5, h6, h7, h8, -, -, h11, h12⟩ :=
    stateDemo_init bernoulli_remembered_one bernoulli_hyp (a := 0) (b := 1) (by decide) [] []
  refine ⟨s, h1, (fun r e => by cases e), by rw [h5]; decide, ?_, ?_, ?_, ?_, ?_⟩
  · refine ⟨by simp, by decide, by simp [Dict.keys], fun c hc => ⟨?_, fun d hd => (h12 c d hd).2.1⟩,
      by simp [Dict.keys]⟩
    rw [h4]; simpa [Dict.keys] using hc
  · refine ⟨by simp, by decide, by simp [Dict.keys], fun c hc => ⟨?_, fun d hd => (h12 c d hd).2.1⟩,
      by simp [Dict.keys]⟩
    rw [h4]; simpa [Dict.keys] using hc
  · intro v view hv h0
    obtain ⟨c, d, x, g1, g2, -, g3⟩ := (inv_refusal (h2.views.view v view hv).inv _).mp h0
    rw [(h12 c d (h2.dimFor_of_view hv g1)).1] at g3
    simp only [Dict.get?_cons, Dict.get?_nil] at g2
    split at g2
    · have e : (0 : ℝ) = x := Option.some.inj (Option.some.inj g2)
      subst e
      exact g3 (Or.inl rfl)
    · cases g2
  · intro c x hx hc y hy
    have htbl : s.tbl 1 0 = none := by
      simp [State.tbl, State.tblOf, h3, stateDemoX, Dict.get?_cons]
    simp only [Dict.get?_cons, Dict.get?_nil] at hx
    split at hx
    · rename_i e
      subst e
      rw [htbl] at hy; cases hy
    · cases hx
  · intro ha
    have htbl : s.tbl 1 1 = some (1 : ℝ) := by
      unfold State.tbl State.tblOf
      rw [h3]
      rfl
    obtain ⟨w, e1, e2⟩ := ha 1 (some (0 : ℝ)) (by simp [Dict.get?_cons]) (by rw [h4]; simp) _ htbl
    have e1 : (0 : ℝ) = w := Option.some.inj e1
    subst e1
    have : (1 : ℝ) = 0 := of_decide_eq_true e2
    exact one_ne_zero this

end Cgpm.Props
