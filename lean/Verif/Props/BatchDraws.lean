import Verif.Lemmas.BatchState
import Verif.Props.StateDraws

/-!
Property C77: a batch of simulated rows
(src/crosscat/state.py:407-417, src/crosscat/sampling.py:52-67, 85-99, 110-116).
-/
namespace Cgpm.Props
open Cgpm Cgpm.View MeasureTheory Cgpm.Batch
open scoped ENNReal

variable {P : Prim → Prop} {Ω : Type} {close : ℝ → ℝ → Bool} {ord : PyOrder}
  {cfg : Cfg (catOf P)} {s : State (catOf P)}
  {rowid : Option Row} {T : List Col} {E : Dict Col (catOf P).Cell}

theorem colsIn_mem (v : Nat) (c : Col) : c ∈ colsIn s v T ↔ c ∈ T ∧ s.Zv c = some v := by
  unfold colsIn
  rw [List.mem_filter]
  simp

theorem simOn_colsIn (hq : StateSimOn s T E) {v : Nat} (ha : AskedCols s T v) :
    StateSimOn s (colsIn s v T) E where
  nonempty := by
    obtain ⟨c, hc, hz⟩ := ha
    exact List.ne_nil_of_mem ((colsIn_mem v c).mpr ⟨hc, hz⟩)
  targets := hq.targets.filter _
  evidence := hq.evidence
  columns c hc := by
    rcases List.mem_append.mp hc with hc | hc
    · exact hq.columns c (List.mem_append_left _ ((colsIn_mem v c).mp hc).1)
    · exact hq.columns c (List.mem_append_right _ hc)
  disjoint c hc := hq.disjoint c ((colsIn_mem v c).mp hc).1

/-- The columns that are asked, by view. -/
theorem partition_colsIn (h : State.Inv s) (hq : StateSimOn s T E) :
    ∃ oT, partitionList s.crp.data T = .ok oT ∧ oT.WF ∧ oT ≠ [] ∧
      (∀ v, v ∈ oT.keys ↔ AskedCols s T v) ∧ ∀ p ∈ oT, p.2 = colsIn s p.1 T := by
  obtain ⟨oT, t1, t2, t3, t4, -⟩ := partition_cols h hq
  obtain ⟨oT', u1, u2, u3, u4⟩ := C37_partition_list s.crp.data T fun c hc =>
    (h.cols c).mpr (hq.columns c (List.mem_append_left _ hc)).1
  rw [t1] at u1
  cases u1
  refine ⟨oT, t1, t2, t3, t4, fun p hp => ?_⟩
  rw [u4 p.1 p.2 (Dict.get?_of_mem t2 hp)]
  rfl

/-- One sample of the columns of a view. -/
theorem sample_colsIn (h : State.Inv s) (hq : StateSimOn s T E)
    {oE : Dict Nat (Dict Col (catOf P).Cell)} (he : partitionDict s.crp.data E = .ok oE) {v : Nat}
    (ha : AskedCols s T v)
    (hval : s.validateQuery close rowid true (colsIn s v T) E = .ok ()) {view : View (catOf P)}
    (hv : s.views.get? v = some view) :
    s.sample close rowid (colsIn s v T) E
      = view.sample rowid (colsIn s v T) ((oE.get? v).getD []) := by
  obtain ⟨oT, t1, t2, t3, t4, t5⟩ := partition_colsIn h (simOn_colsIn hq ha)
  have hk : ∀ u, u ∈ oT.keys ↔ u = v := by
    intro u
    rw [t4]
    constructor
    · rintro ⟨c, hc, hz⟩
      rw [((colsIn_mem v c).mp hc).2] at hz
      exact (Option.some.inj hz).symm
    · rintro rfl
      obtain ⟨c, hc, hz⟩ := ha
      exact ⟨c, (colsIn_mem u c).mpr ⟨hc, hz⟩, hz⟩
  have hfil : colsIn s v (colsIn s v T) = colsIn s v T := by
    unfold colsIn
    rw [List.filter_filter]
    simp
  obtain ⟨p, hp⟩ : ∃ p, oT = [p] := by
    cases hoT : oT with
    | nil => exact absurd hoT t3
    | cons p t =>
      cases t with
      | nil => exact ⟨p, rfl⟩
      | cons q t =>
        exfalso
        subst hoT
        have h1 := (hk p.1).mp (by simp [Dict.keys])
        have h2 := (hk q.1).mp (by simp [Dict.keys])
        have := List.nodup_cons.mp t2
        exact this.1 (by rw [h1, ← h2]; exact List.mem_cons_self)
  subst hp
  have hp1 : p.1 = v := (hk p.1).mp (by simp [Dict.keys])
  have hp2 := t5 p List.mem_cons_self
  rw [hp1, hfil] at hp2
  obtain ⟨a, b⟩ := p
  simp only at hp1 hp2
  subst hp1 hp2
  unfold State.sample
  rw [hval]
  simp only [partitionQueryEvidence, he, t1]
  rw [if_neg (by simp)]
  simp only [State.sampleViews, hv]
  show ((view.sample rowid (colsIn s _ T) ((oE.get? _).getD [])).bind fun row => .pure row) = _
  generalize view.sample rowid (colsIn s _ T) ((oE.get? _).getD []) = m
  induction m with
  | pure a => rfl
  | raise e => rfl
  | draw law k ih => exact congrArg _ (funext fun x => ih x)

theorem sampleMany_views (h : State.Inv s) (hq : StateSimOn s T E)
    {oE : Dict Nat (Dict Col (catOf P).Cell)} (he : partitionDict s.crp.data E = .ok oE)
    (hval : s.validateQuery close rowid true T E = .ok ()) {oT : Dict Nat (List Col)}
    (ht : partitionList s.crp.data T = .ok oT) (N : Nat) :
    s.sampleMany close ord rowid T E N = (s.batchViews ord rowid oE N oT).bind fun l =>
      .pure (State.zipMerged l) := by
  unfold State.sampleMany
  rw [hval]
  simp only [partitionQueryEvidence, he, ht]

/-- The batches of the views, for a new row. -/
theorem batch_new' (hR : StateReachable cfg s) (hr : NewRowId s rowid)
    (hset : ∀ l, (ord.set l).Perm l) (hq : StateSimOn s T E) (hp : ProperCols s T) (x₀ : Col → ℝ)
    {oE : Dict Nat (Dict Col (catOf P).Cell)} (he : partitionDict s.crp.data E = .ok oE)
    {v : Nat} (ha : AskedCols s T v) :
    ∃ view, s.views.get? v = some view ∧
      (viewDensity view E.get? ≠ 0 → ∃ ν, BatchLaw s ord rowid oE Symm x₀ ν (v, colsIn s v T)) ∧
      (viewDensity view E.get? = 0 → ∀ N, view.sampleMany ord rowid (colsIn s v T)
        ((oE.get? v).getD []) N = .raise .valueError) := by
  have h := hR.inv (catOf_lawful P)
  obtain ⟨oE', e1, e2, e3, e4, e5⟩ := partition_groups h hq.evidence fun c hc =>
    (hq.columns c (List.mem_append_right _ hc)).1
  rw [he] at e1
  cases e1
  have hqE : ∀ c ∈ E.keys, c ∈ s.outputs ∧ ∀ d, s.dimFor c = .ok d → d.inputs = [] :=
    fun c hc => hq.columns c (List.mem_append_right _ hc)
  obtain ⟨c, hc, hz⟩ := ha
  obtain ⟨view, hv⟩ := Dict.exists_of_mem_keys ((h.occ v).mpr ⟨c, hz⟩)
  have hd : viewDensity view E.get?
      = mixture view fun k => rowDensity view k ((oE.get? v).getD []).get? := by
    unfold viewDensity
    simp only [groupOf_density h hqE hv (e4 v)]
  have hI := (h.views.view v view hv).inv
  have hh := (stateInv_hyp h hv rowid).trans (state_hyp_new hr)
  refine ⟨view, hv, fun h0 => ?_, fun h0 N => ?_⟩
  · obtain ⟨ν, hν, h1, h2⟩ := view_batch hI (stateInv_seat h hv) hh (e4 v).wf
      (groupOf_plain h hqE hv (e4 v)) (hd ▸ h0) hset (simOn_colsIn hq ⟨c, hc, hz⟩).nonempty
      (drawable h hq hp hv (colsIn_mem v)) x₀
    exact ⟨ν, (simOn_colsIn hq ⟨c, hc, hz⟩).targets, fun c hc => ((colsIn_mem v c).mp hc).2, hν,
      view, hv, h1, h2⟩
  · exact view_batch_refused hI (stateInv_seat h hv) hh (e4 v).wf (groupOf_plain h hqE hv (e4 v))
      (hd ▸ h0) ord _ N

theorem batch_new (hR : StateReachable cfg s) (hr : NewRowId s rowid)
    (hset : ∀ l, (ord.set l).Perm l) (hq : StateSimOn s T E) (hp : ProperCols s T)
    (hpos : ∀ v view, s.views.get? v = some view → AskedCols s T v →
      viewDensity view E.get? ≠ 0) (x₀ : Col → ℝ)
    {oE : Dict Nat (Dict Col (catOf P).Cell)} (he : partitionDict s.crp.data E = .ok oE)
    {v : Nat} (ha : AskedCols s T v) :
    ∃ ν, BatchLaw s ord rowid oE Symm x₀ ν (v, colsIn s v T) := by
  obtain ⟨view, hv, h1, -⟩ := batch_new' hR hr hset hq hp x₀ he ha
  exact h1 (hpos v view hv ha)

/-- **C77.** For every reachable State, a new row, and all values given to some columns: there are laws
such that one simulation of the target columns of view `v` has the law `ν v`; and in a batch of `N`
rows the parts in the columns of the different views are independent, and the parts in the columns of
view `v` are, up to their order, `N` independent draws from `ν v`. -/
theorem C77_views (hR : StateReachable cfg s) (hr : NewRowId s rowid)
    (hset : ∀ l, (ord.set l).Perm l) (hq : StateSimOn s T E) (hp : ProperCols s T)
    (hpos : ∀ v view, s.views.get? v = some view → AskedCols s T v →
      viewDensity view E.get? ≠ 0) (x₀ : Col → ℝ) :
    ∃ ν : Nat → Measure (Col → ℝ),
      (∀ v, AskedCols s T v → IsProbabilityMeasure (ν v) ∧
        LawOf (ν v) (fillIn x₀) (s.sample close rowid (colsIn s v T) E)) ∧
      ∀ (N : Nat) (V : Finset Nat), (∀ v ∈ V, AskedCols s T v) →
        ∀ F : Nat → List (Col → ℝ) → ℝ≥0∞, (∀ v ∈ V, (∀ l l', l.Perm l' → F v l = F v l') ∧
          Measurable fun x : Fin N → (Col → ℝ) => F v (List.ofFn x)) →
        (s.sampleMany close ord rowid T E N).E
            (fun rows => ∏ v ∈ V, F v (rows.map fun row => fillIn x₀ (partIn s v row)))
          = ∏ v ∈ V, ∫⁻ x : Fin N → (Col → ℝ), F v (List.ofFn x) ∂Measure.pi fun _ => ν v := by
  classical
  have h := hR.inv (catOf_lawful P)
  obtain ⟨oT, t1, t2, t3, t4, t5⟩ := partition_colsIn h hq
  obtain ⟨oE, e1, -⟩ := partition_groups h hq.evidence fun c hc =>
    (hq.columns c (List.mem_append_right _ hc)).1
  have hb : ∀ v, ∃ ν, AskedCols s T v → BatchLaw s ord rowid oE Symm x₀ ν (v, colsIn s v T) := by
    intro v
    by_cases ha : AskedCols s T v
    · obtain ⟨ν, hν⟩ := batch_new hR hr hset hq hp hpos x₀ e1 ha
      exact ⟨ν, fun _ => hν⟩
    · exact ⟨0, fun h => absurd h ha⟩
  choose ν hν using hb
  refine ⟨ν, fun v ha => ⟨(hν v ha).prob, ?_⟩, fun N V hV F hF => ?_⟩
  · obtain ⟨view, hv, h1, -⟩ := (hν v ha).view
    rw [sample_colsIn (close := close) h hq e1 ha (validate_sim_new hr (simOn_colsIn hq ha)) hv]
    exact h1
  · rw [sampleMany_views (close := close) (ord := ord) h hq e1 (validate_sim_new hr hq) t1, Cgpm.Draws.E_bind]
    let F' : Nat → List (Col → ℝ) → ℝ≥0∞ := fun v => if v ∈ V then F v else fun _ => 1
    have hF' : ∀ v ∈ V, F' v = F v := fun v hv => if_pos hv
    have hV' : V ⊆ oT.keys.toFinset := fun v hv => List.mem_toFinset.mpr ((t4 v).mpr (hV v hv))
    have key := batchViews_law (s := s) (ord := ord) (rowid := rowid) (Ev := oE) (x := x₀) (R := Symm)
      (fun F c d hF l l' hp => by simp only [hF l l' hp]) (ν := ν) t2 (fun p hp => by
        have := hν p.1 ((t4 p.1).mp (List.mem_map_of_mem hp))
        rw [← t5 p hp] at this
        exact this) N (F := F') (fun p _ => by
        by_cases hv : p.1 ∈ V
        · rw [hF' _ hv]; exact hF _ hv
        · have : F' p.1 = fun _ => 1 := if_neg hv
          rw [this]
          exact ⟨fun _ _ _ => rfl, measurable_const⟩) 1
    simp only [one_mul] at key
    have hprod : ∀ g : Nat → ℝ≥0∞, (∀ v ∈ oT.keys, v ∉ V → g v = 1) →
        (oT.map fun p => g p.1).prod = ∏ v ∈ V, g v := by
      intro g hg
      have : (oT.map fun p => g p.1) = oT.keys.map g := by
        unfold Dict.keys; rw [List.map_map]; rfl
      rw [this, ← List.prod_toFinset g t2]
      refine (Finset.prod_subset hV' fun v hv hv' => hg v (List.mem_toFinset.mp hv) hv').symm
    rw [hprod (fun v => ∫⁻ y : Fin N → (Col → ℝ), F' v (List.ofFn y) ∂Measure.pi fun _ => ν v)] at key
    · rw [Finset.prod_congr rfl fun v hv => by rw [hF' v hv]] at key
      rw [← key]
      refine E_congr_always (always_true _) fun ls _ => ?_
      simp only [Cgpm.Draws.E]
      rw [hprod fun v => F' v ((State.zipMerged ls).map fun row => fillIn x₀ (partIn s v row))]
      · exact Finset.prod_congr rfl fun v hv => by rw [hF' v hv]
      · intro v _ hv'
        simp only [F', if_neg hv']
    · intro v hv hv'
      have := (hν v ((t4 v).mp hv)).prob
      simp only [F', if_neg hv', lintegral_one, measure_univ]

/-- The columns of the rows of a batch. -/
theorem batch_columns (h : State.Inv s) (hq : StateSimOn s T E)
    {oE : Dict Nat (Dict Col (catOf P).Cell)} (he : partitionDict s.crp.data E = .ok oE)
    (hval : s.validateQuery close rowid true T E = .ok ())
    {R : (List (Col → ℝ) → ℝ≥0∞) → Prop} {x : Col → ℝ}
    (hb : ∀ v, AskedCols s T v → ∃ ν, BatchLaw s ord rowid oE R x ν (v, colsIn s v T)) (N : Nat) :
    (s.sampleMany close ord rowid T E N).Always fun rows => rows.length = N ∧
      ∀ row ∈ rows, row.keys.Nodup ∧ (∀ c, c ∈ row.keys ↔ c ∈ T) ∧ ∀ p ∈ row, p.2 ≠ none := by
  obtain ⟨oT, t1, t2, t3, t4, t5⟩ := partition_colsIn h hq
  rw [sampleMany_views (close := close) (ord := ord) h hq he hval t1]
  refine always_bind (batchViews_always (R := R) (x := x) (fun p hp => ?_) N) fun ls hs => ?_
  · have := hb p.1 ((t4 p.1).mp (List.mem_map_of_mem hp))
    rw [← t5 p hp] at this
    exact this
  · obtain ⟨h1, h2⟩ := hs.2 t3
    refine ⟨h1, fun row hrow => ⟨(h2 row hrow).1, fun c => ?_, (h2 row hrow).2.1⟩⟩
    rw [(h2 row hrow).2.2]
    constructor
    · rintro ⟨p, hp, hc⟩
      rw [t5 p hp] at hc
      exact ((colsIn_mem _ c).mp hc).1
    · intro hc
      obtain ⟨v, hv⟩ := Option.ne_none_iff_exists'.mp ((h.cols c).mpr
        (hq.columns c (List.mem_append_left _ hc)).1)
      obtain ⟨G, hG⟩ := Dict.exists_of_mem_keys ((t4 v).mpr ⟨c, hc, hv⟩)
      have hp := Dict.mem_of_get? hG
      refine ⟨_, hp, ?_⟩
      rw [t5 _ hp]
      exact (colsIn_mem _ c).mpr ⟨hc, hv⟩

/-- **C77.** Whatever is drawn, a batch for a new row has `N` rows, each with exactly the target
columns, each once and with a value. -/
theorem C77_columns (hR : StateReachable cfg s) (hr : NewRowId s rowid)
    (hset : ∀ l, (ord.set l).Perm l) (hq : StateSimOn s T E) (hp : ProperCols s T)
    (hpos : ∀ v view, s.views.get? v = some view → AskedCols s T v →
      viewDensity view E.get? ≠ 0) (N : Nat) :
    (s.sampleMany close ord rowid T E N).Always fun rows => rows.length = N ∧
      ∀ row ∈ rows, row.keys.Nodup ∧ (∀ c, c ∈ row.keys ↔ c ∈ T) ∧ ∀ p ∈ row, p.2 ≠ none := by
  have h := hR.inv (catOf_lawful P)
  obtain ⟨oE, e1, -⟩ := partition_groups h hq.evidence fun c hc =>
    (hq.columns c (List.mem_append_right _ hc)).1
  exact batch_columns h hq e1 (validate_sim_new hr hq)
    (fun v ha => batch_new hR hr hset hq hp hpos 0 e1 ha) N

/-- **C77.** If the target columns are in one view, a batch for a new row is, up to its order, `N`
independent copies of one simulated row. -/
theorem C77_one_view (hR : StateReachable cfg s) (hr : NewRowId s rowid)
    (hset : ∀ l, (ord.set l).Perm l) (hq : StateSimOn s T E) (hp : ProperCols s T)
    {v : Nat} {view : View (catOf P)} (hv : s.views.get? v = some view)
    (hT : ∀ c ∈ T, s.Zv c = some v) (hpos : viewDensity view E.get? ≠ 0) (x₀ : Col → ℝ) :
    ∃ ν : Measure (Col → ℝ), IsProbabilityMeasure ν ∧
      LawOf ν (fillIn x₀) (s.sample close rowid T E) ∧
      ∀ N, IidUpToOrder N ν (fillIn x₀) (s.sampleMany close ord rowid T E N) := by
  have hTv : colsIn s v T = T := by
    unfold colsIn
    rw [List.filter_eq_self]
    intro c hc; simp [hT c hc]
  have hone : ∀ u, AskedCols s T u → u = v := by
    rintro u ⟨c, hc, hz⟩
    rw [hT c hc] at hz
    exact (Option.some.inj hz).symm
  obtain ⟨c, hc⟩ := List.exists_mem_of_ne_nil T hq.nonempty
  have ha : AskedCols s T v := ⟨c, hc, hT c hc⟩
  have hpos' : ∀ v view, s.views.get? v = some view → AskedCols s T v →
      viewDensity view E.get? ≠ 0 := fun u w hw hu => by
    rw [hone u hu, hv] at hw
    cases hw
    exact hpos
  obtain ⟨ν, hν, h1⟩ := C77_views (close := close) hR hr hset hq hp hpos' x₀
  refine ⟨ν v, (hν v ha).1, by have := (hν v ha).2; rwa [hTv] at this, fun N F hs hF => ?_⟩
  have := h1 N {v} (fun u hu => by rw [Finset.mem_singleton.mp hu]; exact ha) (fun _ => F)
    fun _ _ => ⟨hs, hF⟩
  simp only [Finset.prod_singleton] at this
  rw [← this]
  refine E_congr_always (C77_columns (close := close) hR hr hset hq hp hpos' N) fun rows hrows =>
    congrArg F (List.map_congr_left fun row hrow => congrArg _ ?_)
  unfold partIn
  refine (List.filter_eq_self.mpr fun p hp' => ?_).symm
  have hc := ((hrows.2 row hrow).2.1 p.1).mp (List.mem_map_of_mem hp')
  simp [hT p.1 hc]

/-- The batches of the views, for a row of the State. -/
theorem batch_old (h : State.Inv s) {r : Row} (hr : r < s.nRows) (hq : StateSimOn s T E)
    (hp : ProperCols s T) (x₀ : Col → ℝ) {oE : Dict Nat (Dict Col (catOf P).Cell)} {v : Nat}
    (ha : AskedCols s T v) :
    ∃ ν, BatchLaw s ord (some r) oE (fun _ => True) x₀ ν (v, colsIn s v T) := by
  obtain ⟨c, hc, hz⟩ := ha
  obtain ⟨view, hv⟩ := Dict.exists_of_mem_keys ((h.occ v).mpr ⟨c, hz⟩)
  have hi := h.views.view v view hv
  obtain ⟨k, hk⟩ := Option.ne_none_iff_exists'.mp ((hi.rows r).mpr hr)
  obtain ⟨ν, hν, h1, h2⟩ := view_batch_row hi.inv hk
    ((stateInv_hyp h hv (some r)).trans (state_hyp_old hr)) ((oE.get? v).getD []) ord
    (simOn_colsIn hq ⟨c, hc, hz⟩).nonempty (drawable h hq hp hv (colsIn_mem v)) x₀
  exact ⟨ν, (simOn_colsIn hq ⟨c, hc, hz⟩).targets, fun c hc => ((colsIn_mem v c).mp hc).2, hν,
    view, hv, h1, fun N => ⟨(h2 N).1, fun F _ hF => (h2 N).2 F hF⟩⟩

/-- **C77.** A batch for a row of the State is exactly `N` independent copies of one simulated row,
whatever the views of the columns. -/
theorem C77_row (hR : StateReachable cfg s) {r : Row} (hr : r < s.nRows) (hq : StateSimOn s T E)
    (hp : ProperCols s T) (ha : StateAgrees close s r E) (x₀ : Col → ℝ) :
    ∃ ν : Measure (Col → ℝ), IsProbabilityMeasure ν ∧
      LawOf ν (fillIn x₀) (s.sample close (some r) T E) ∧
      ∀ N, Iid N ν (fillIn x₀) (s.sampleMany close ord (some r) T E N) := by
  have h := hR.inv (catOf_lawful P)
  obtain ⟨oT, t1, t2, t3, t4, t5⟩ := partition_colsIn h hq
  obtain ⟨oE, e1, -⟩ := partition_groups h hq.evidence fun c hc =>
    (hq.columns c (List.mem_append_right _ hc)).1
  have hval : s.validateQuery close (some r) true T E = .ok () := validate_sim_old hr hq ha
  have hb : ∀ v, AskedCols s T v →
      ∃ ν, BatchLaw s ord (some r) oE (fun _ => True) x₀ ν (v, colsIn s v T) :=
    fun v hv => batch_old h hr hq hp x₀ hv
  obtain ⟨ν, hν, h1, h2⟩ := batchViews_exact (s := s) (ord := ord) (rowid := some r) (Ev := oE)
    (x := x₀) t3 fun p hp => by
      have := hb p.1 ((t4 p.1).mp (List.mem_map_of_mem hp))
      rw [← t5 p hp] at this
      exact this
  refine ⟨ν, hν, ?_, fun N F hF => ?_⟩
  · unfold State.sample
    rw [hval]
    simp only [partitionQueryEvidence, e1, t1]
    rw [if_neg (by simpa using t3)]
    exact h1
  · rw [sampleMany_views (close := close) (ord := ord) h hq e1 hval t1, ← seqE_pi ν N hF]
    exact (h2 N).law F (by rw [List.length_replicate]; exact hF)

/-- **C77.** Whatever is drawn, a batch for a row of the State has `N` rows, each with exactly the target
columns, each once and with a value. -/
theorem C77_row_columns (hR : StateReachable cfg s) {r : Row} (hr : r < s.nRows)
    (hq : StateSimOn s T E) (hp : ProperCols s T) (ha : StateAgrees close s r E) (N : Nat) :
    (s.sampleMany close ord (some r) T E N).Always fun rows => rows.length = N ∧
      ∀ row ∈ rows, row.keys.Nodup ∧ (∀ c, c ∈ row.keys ↔ c ∈ T) ∧ ∀ p ∈ row, p.2 ≠ none := by
  have h := hR.inv (catOf_lawful P)
  obtain ⟨oE, e1, -⟩ := partition_groups h hq.evidence fun c hc =>
    (hq.columns c (List.mem_append_right _ hc)).1
  exact batch_columns h hq e1 (validate_sim_old hr hq ha) (fun v hv => batch_old h hr hq hp 0 hv) N

/-- **C77.** If the given values have density zero in a view with targets, there is no batch, whatever
is drawn, and ValueError is raised with probability one. -/
theorem C77_impossible (hR : StateReachable cfg s) (hr : NewRowId s rowid)
    (hset : ∀ l, (ord.set l).Perm l) (hq : StateSimOn s T E) (hp : ProperCols s T) {v : Nat}
    {view : View (catOf P)} (hv : s.views.get? v = some view) (ha : AskedCols s T v)
    (h0 : viewDensity view E.get? = 0) (N : Nat) :
    (s.sampleMany close ord rowid T E N).Always (fun _ => False) ∧
      1 ≤ (s.sampleMany close ord rowid T E N).fails .valueError := by
  have h := hR.inv (catOf_lawful P)
  obtain ⟨oT, t1, t2, t3, t4, t5⟩ := partition_colsIn h hq
  obtain ⟨oE, e1, -⟩ := partition_groups h hq.evidence fun c hc =>
    (hq.columns c (List.mem_append_right _ hc)).1
  rw [sampleMany_views (close := close) (ord := ord) h hq e1 (validate_sim_new hr hq) t1]
  obtain ⟨G, hG⟩ := Dict.exists_of_mem_keys ((t4 v).mpr ha)
  have hm := Dict.mem_of_get? hG
  have := batchViews_refused (s := s) (ord := ord) (rowid := rowid) (Ev := oE) (N := N) (l := oT)
    (fun p hpm => ?_) ⟨_, hm, view, hv, ?_⟩
  · refine ⟨always_bind this.1 fun _ h => h.elim, ?_⟩
    rw [Draws.fails_bind_pure]
    exact this.2
  · rw [t5 p hpm]
    obtain ⟨w, hw, w1, w2⟩ := batch_new' hR hr hset hq hp 0 e1 ((t4 p.1).mp (List.mem_map_of_mem hpm))
    refine ⟨w, hw, ?_⟩
    by_cases hz : viewDensity w E.get? = 0
    · exact Or.inl (w2 hz N)
    · obtain ⟨ν, hν⟩ := w1 hz
      obtain ⟨w', hw', h1⟩ := batch_total (fun _ _ _ => rfl) hν N
      rw [hw] at hw'
      cases hw'
      exact Or.inr h1
  · obtain ⟨w, hw, -, w2⟩ := batch_new' hR hr hset hq hp 0 e1 ha
    rw [hv] at hw
    cases hw
    have := t5 _ hm
    simp only at this ⊢
    rw [this]
    exact w2 h0 N

/-! The hypotheses can be met; for those of `C77_views` and `C77_row` see also the examples in
StateDraws.lean. -/

/-- Two bernoulli columns in one view, in a State of one row. -/
example : ∃ (s : State libCat) (view : View libCat), StateReachable plainCfg s ∧ NewRowId s none ∧
    (∀ l, (idOrder.set l).Perm l) ∧ StateSimOn s [0, 1] [] ∧ ProperCols s [0, 1] ∧
    s.views.get? 0 = some view ∧ (∀ c ∈ [0, 1], s.Zv c = some 0) ∧
    viewDensity view (Dict.get? ([] : Dict Col libCat.Cell)) ≠ 0 ∧
    StateSimOn s [0] [(1, some (2 : ℝ))] ∧ AskedCols s [0] 0 ∧
    viewDensity view (Dict.get? [(1, some (2 : ℝ))]) = 0 := by
  obtain ⟨s, h1, h2, h3, h4, h5, h6, h7, h8, h11, h12⟩ :=
    stateDemoOne_init bernoulli_remembered_one bernoulli_hyp
  obtain ⟨view, hv⟩ := Dict.exists_of_mem_keys (by rw [h8]; simp : 0 ∈ s.views.keys)
  refine ⟨s, view, h1, (fun r e => by cases e), fun l => List.Perm.refl _, ?_, ?_, hv, ?_, ?_, ?_,
    ⟨0, by simp, h6⟩, ?_⟩
  · refine ⟨by simp, by decide, by simp [Dict.keys], fun c hc => ⟨?_, fun d hd => (h12 c d hd).2.1⟩,
      by simp [Dict.keys]⟩
    rw [h4]; simpa [Dict.keys] using hc
  · intro c _ d hd
    rw [(h12 c d hd).2.2]
    exact trivial
  · intro c hc
    simp only [List.mem_cons, List.not_mem_nil, or_false] at hc
    rcases hc with rfl | rfl
    exacts [h6, h7]
  · intro h0
    obtain ⟨c, d, x, g1, g2, -⟩ := (inv_refusal (h2.views.view 0 view hv).inv _).mp h0
    cases g2
  · refine ⟨by simp, by decide, by simp [Dict.keys], fun c hc => ⟨?_, fun d hd => (h12 c d hd).2.1⟩,
      by simp [Dict.keys]⟩
    rw [h4]; simpa [Dict.keys] using hc
  · obtain ⟨d, hd⟩ := Dict.exists_of_mem_keys (((h2.views.view 0 view hv).dims 1).mpr h7)
    have hk := h12 1 d (h2.dimFor_of_view hv hd)
    refine (inv_refusal (h2.views.view 0 view hv).inv _).mpr ⟨1, d, 2, hd, rfl, ?_, ?_⟩
    · rw [hk.2.1]; intro i hi; cases hi
    · rw [hk.1]
      show ¬ ((2 : ℝ) = 0 ∨ (2 : ℝ) = 1)
      norm_num

end Cgpm.Props
