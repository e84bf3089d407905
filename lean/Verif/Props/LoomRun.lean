import Verif.Props.Loom
import Verif.Props.LovecatRun
import Verif.Lemmas.ViewFast
import Verif.Props.State
import Verif.Props.ColGibbs
import Verif.Spec.LoomRun

/-!
C89: a transition by Loom.
-/
namespace Cgpm.Props
open Cgpm Cgpm.State Cgpm.Loom
variable {C : Cat} {cfg : Cfg C} {st : C.ι → Option LoomType} {store : Store C} {now : Nat}
  {alphas : Nat → ℝ}

/-! ### The files -/

theorem outputs_dimFor {s : State C} (h : State.Inv s) {c : Col} (hc : c ∈ s.outputs) :
    ∃ d, s.dimFor c = .ok d :=
  (dimFor_of_mem h).mpr hc

theorem stored_column {s : State C} (h : State.Inv s) {c : Col} (hc : c ∈ s.outputs) :
    ∃ l, s.X.get? c = some l ∧ l.length = s.nRows ∧ ∀ r < s.nRows, l[r]? = some (s.tbl c r) := by
  obtain ⟨l, hl⟩ := (h.data.mem c).mp hc
  have hn := h.data.len c l hl
  refine ⟨l, hl, hn, fun r hr => ?_⟩
  rw [← hn] at hr
  simp only [State.tbl, State.tblOf, hl, Option.bind_some, List.getElem?_eq_getElem hr, Option.getD_some]

theorem files_ok {s : State C} (h : State.Inv s) (ht : LoomTyped st s) :
    ∃ pr, files st s = .ok pr ∧ FilesDescribe st pr s := by
  obtain ⟨pr, h1, h2⟩ := collect_forall₂ (f := column st s) (l := s.outputs)
    (P := fun c q => q.name = columnName c ∧ q.cells.length = s.nRows ∧
      (∀ r < s.nRows, q.cells[r]? = some (s.tbl c r)) ∧
      ∀ d, s.dimFor c = .ok d → st d.kind = some q.type) (by
    intro c hc
    obtain ⟨l, g1, g2, g3⟩ := stored_column h hc
    obtain ⟨d, hd⟩ := outputs_dimFor h hc
    obtain ⟨t, ht⟩ := Option.ne_none_iff_exists'.mp (ht c hc d hd)
    refine ⟨⟨columnName c, l, t⟩, ?_, rfl, g2, g3, fun d' hd' => ?_⟩
    · simp only [column, g1, hd, ht]
    · rw [hd] at hd'; cases hd'; exact ht)
  have hget' : ∀ (i : Nat) c q, s.outputs[i]? = some c → pr[i]? = some q →
      q.name = columnName c ∧ q.cells.length = s.nRows ∧
      (∀ r < s.nRows, q.cells[r]? = some (s.tbl c r)) ∧
      ∀ d, s.dimFor c = .ok d → st d.kind = some q.type := by
    intro i c q hc hq
    have := (List.forall₂_iff_get.mp h2).2 i (List.getElem?_eq_some_iff.mp hc).1
      (List.getElem?_eq_some_iff.mp hq).1
    obtain ⟨_, rfl⟩ := List.getElem?_eq_some_iff.mp hc
    obtain ⟨_, rfl⟩ := List.getElem?_eq_some_iff.mp hq
    exact this
  have hlen := h2.length_eq
  refine ⟨pr, h1, ?_, ?_, fun i c q hc hq => (hget' i c q hc hq).2.2.1,
    fun i c q d hc hq hd => (hget' i c q hc hq).2.2.2 d hd⟩
  · apply List.ext_getElem (by simp [hlen])
    intro i hi hi'
    simp only [List.length_map] at hi hi'
    simp only [List.getElem_map]
    exact (hget' i _ _ (List.getElem?_eq_getElem hi') (List.getElem?_eq_getElem hi)).1
  · intro q hq
    obtain ⟨i, hi, rfl⟩ := List.mem_iff_getElem.mp hq
    exact (hget' i _ _ (List.getElem?_eq_getElem (by omega)) (List.getElem?_eq_getElem hi)).2.1

theorem nRows_same {s s' : State C} (h : SameTable s s') : s'.nRows = s.nRows := by
  simp only [State.nRows, h.data, h.outputs]

theorem describe_same {s s' : State C} (hI : State.Inv s) (h : SameTable s s') {pr : Project C}
    (hp : FilesDescribe st pr s) : FilesDescribe st pr s' := by
  have hn := nRows_same h
  have htbl : s'.tbl = s.tbl := by simp only [State.tbl, h.data]
  refine ⟨by rw [h.outputs]; exact hp.columns, by rw [hn]; exact hp.rows, ?_, ?_⟩
  · rw [h.outputs, hn, htbl]; exact hp.cells
  · intro i c q d' hc hq hd'
    rw [h.outputs] at hc
    obtain ⟨d, hd⟩ := outputs_dimFor hI (List.mem_of_getElem? hc)
    rw [h.kinds c d d' hd hd']
    exact hp.types i c q d hc hq hd

theorem Kept.sameTable {s s' : State C} (h : Kept s s') : SameTable s s' := by
  refine ⟨h.data, h.outputs, fun c d d' hd hd' => ?_⟩
  obtain ⟨e, h1, h2, -⟩ := h.columns c d hd
  rw [hd'] at h1; cases h1; exact h2

theorem validate_ok {a : Args} (h : LoomSupports a) : validate a = .ok () := by
  obtain ⟨h1, h2, h3, h4⟩ := h
  simp [validate, h1, h2, h3, h4]

theorem validate_err {a : Args} (h : ¬ LoomSupports a) : validate a = .error .valueError := by
  unfold validate
  split_ifs with h1 h2 h3 h4
  · rfl
  · rfl
  · rfl
  · rfl
  · exact absurd ⟨by simpa using h1, by simpa using h2, by simpa using h3, by simpa using h4⟩ h

theorem project_ok {m : Member C} (hI : State.Inv m.state) (ht : LoomTyped st m.state)
    (hc : ProjectCurrent st store m) :
    ∃ pr p store', project st now store m = .ok (store', p) ∧ store'.get? p = some pr ∧
      FilesDescribe st pr m.state ∧ (m.path = none → p = now) ∧
      (∀ q, m.path = some q → p = q ∧ store' = store) ∧
      ∀ q, q ≠ now → store'.get? q = store.get? q := by
  cases hp : m.path with
  | some p =>
    obtain ⟨pr, h1, h2⟩ := hc p hp
    exact ⟨pr, p, store, by simp only [project, hp], h1, h2, nofun, fun q hq => by cases hq; exact ⟨rfl, rfl⟩,
      fun _ _ => rfl⟩
  | none =>
    obtain ⟨pr, h1, h2⟩ := files_ok hI ht
    refine ⟨pr, now, store.set now pr, ?_, Dict.get?_set_self _ _ _, h2, fun _ => rfl, nofun,
      fun q hq => Dict.get?_set_ne _ _ hq⟩
    simp only [project, hp, createProject, h1, Except.map]

/-! ### The theorems -/

/-- C89. A transition of a State by Loom: Loom works on files that describe the State, with the seed
and the number of passes asked for; its sample is installed, and the data stays.  Projects of another
time are untouched.  When Loom raises, the State stays as it was. -/
theorem C89_transition (hL : C.Lawful) {m : Member C} (hs : StateReachable cfg m.state)
    (ht : LoomTyped st m.state) (hc : ProjectCurrent st store m) {a : Args} (ha : LoomSupports a)
    (hα : ∀ k, 0 < alphas k) :
    ∃ pr p store', FilesDescribe st pr m.state ∧ (m.path = none → p = now) ∧
      (∀ q, m.path = some q → p = q ∧ store' = store) ∧
      (∀ q, q ≠ now → store'.get? q = store.get? q) ∧
      ∀ run : Infer C,
        (∀ e, run pr (a.seed.getD 0) (some (a.N.getD 1)) = .error e →
          transition st run alphas now a (store, m) = .err e (store', ⟨m.state, some p⟩)) ∧
        ∀ x, run pr (a.seed.getD 0) (some (a.N.getD 1)) = .ok x → LoomFits x m.state →
          ∃ s', transition st run alphas now a (store, m) = .ok (store', ⟨s', some p⟩) ∧
            StateReachable cfg s' ∧ StateConsistent s' ∧ Kept m.state s' ∧ SampleInstalled x s' ∧
            ProjectCurrent st store' ⟨s', some p⟩ := by
  have hI := hs.inv hL
  obtain ⟨pr, p, store', h1, h2, h3, h4, h5, h6⟩ := project_ok (now := now) hI ht hc
  refine ⟨pr, p, store', h3, h4, h5, h6, fun run => ⟨fun e he => ?_, fun x hx hf => ?_⟩⟩
  · simp only [transition, validate_ok ha, h1, infer, h2, he]
  · obtain ⟨s', g1, g2, g3, g4, -, -, -, g5, g6⟩ := C41_import hL hs hf hα
    refine ⟨s', ?_, g2, g3, g4, ⟨g5, fun k f l c e1 e2 e3 => ?_⟩, fun q hq => ?_⟩
    · simp only [transition, validate_ok ha, h1, infer, h2, hx, g1]
    · obtain ⟨i, v, f1, -, f2⟩ := g6 k f l c e1 e2 e3
      exact ⟨i, v, f1, f2⟩
    · cases hq
      exact ⟨pr, h2, describe_same hI (Kept.sameTable g4) h3⟩

/-- C89. A project stays current while the table and the models of the columns stay, whatever happens
to partitions and parameters. -/
theorem C89_current (hL : C.Lawful) {s s' : State C} (hs : StateReachable cfg s) (h : SameTable s s')
    {path : Option Nat} (hc : ProjectCurrent st store ⟨s, path⟩) :
    ProjectCurrent st store ⟨s', path⟩ := by
  intro p hp
  obtain ⟨pr, h1, h2⟩ := hc p hp
  exact ⟨pr, h1, describe_same (hs.inv hL) h h2⟩

/-- C89. An argument that Loom does not support is refused with ValueError: nothing changes. -/
theorem C89_refused (run : Infer C) {a : Args} (ha : ¬ LoomSupports a) (w : Store C × Member C)
    (ws : Store C × List (Member C)) (alphas' : Nat → Nat → ℝ) :
    transition st run alphas now a w = .err .valueError w ∧
    transitionEngine st run alphas' now a ws = .err .valueError ws := by
  simp only [transition, transitionEngine, validate_err ha, and_self]

theorem collect_error {α β : Type} {f : α → Except Exn β} {l : List α} {e : Exn}
    (h : ∃ a ∈ l, f a = .error e) (hall : ∀ a ∈ l, ∀ e', f a = .error e' → e' = e) :
    Net.collect f l = .error e := by
  induction l with
  | nil => obtain ⟨a, ha, -⟩ := h; cases ha
  | cons b t ih =>
    simp only [Net.collect]
    cases hb : f b with
    | error e' => rw [hall b (by simp) e' hb]
    | ok y =>
      obtain ⟨a, ha, hae⟩ := h
      rcases List.mem_cons.mp ha with rfl | ha
      · rw [hb] at hae; cases hae
      · simp only [ih ⟨a, ha, hae⟩ fun a ha => hall a (by simp [ha]), Except.map]

theorem collect_raises {α β : Type} {f : α → Except Exn β} {l : List α}
    (h : ∃ a ∈ l, ∃ e, f a = .error e) : ∃ e, Net.collect f l = .error e := by
  induction l with
  | nil => obtain ⟨a, ha, -⟩ := h; cases ha
  | cons b t ih =>
    simp only [Net.collect]
    cases hb : f b with
    | error e' => exact ⟨e', rfl⟩
    | ok y =>
      obtain ⟨a, ha, e, hae⟩ := h
      rcases List.mem_cons.mp ha with rfl | ha
      · rw [hb] at hae; cases hae
      · obtain ⟨e', h'⟩ := ih ⟨a, ha, e, hae⟩
        exact ⟨e', by rw [h']; rfl⟩

/-- C89. A State that has no project and has a column without a type of Loom is refused with
ValueError: nothing changes. -/
theorem C89_untyped (hL : C.Lawful) (run : Infer C) {m : Member C} (hs : StateReachable cfg m.state)
    (hp : m.path = none) (ht : ¬ LoomTyped st m.state) {a : Args} (ha : LoomSupports a) :
    transition st run alphas now a (store, m) = .err .valueError (store, m) := by
  have hI := hs.inv hL
  have hf : files st m.state = .error .valueError := by
    have hcol : ∀ c ∈ m.state.outputs, ∀ d, m.state.dimFor c = .ok d →
        column st m.state c = match st d.kind with
          | none => .error .valueError
          | some t => .ok ⟨columnName c, (m.state.X.get? c).getD [], t⟩ := by
      intro c hc d hd
      obtain ⟨l, g1, -⟩ := stored_column hI hc
      simp only [column, g1, hd, Option.getD_some]
      rfl
    unfold LoomTyped at ht
    push Not at ht
    obtain ⟨c, hc, d, hd, hn⟩ := ht
    refine collect_error ⟨c, hc, ?_⟩ fun e he e' h' => ?_
    · rw [hcol c hc d hd, hn]
    · obtain ⟨d', hd'⟩ := outputs_dimFor hI he
      rw [hcol e he d' hd'] at h'
      cases hk : st d'.kind with
      | none => rw [hk] at h'; cases h'; rfl
      | some t => rw [hk] at h'; cases h'
  simp only [transition, validate_ok ha, project, hp, createProject, hf, Except.map]

/-- C89. A transition of an Engine by Loom: all States share one project, which describes each of
them; the sample of the chain `i` is installed in the State `i`, and the data stays.  When Loom
raises, each State stays as it was. -/
theorem C89_engine (hL : C.Lawful) {m₀ : Member C} {t : List (Member C)}
    (hs : ∀ m ∈ m₀ :: t, StateReachable cfg m.state)
    (hp : ∀ m ∈ t, m.path = m₀.path) (hd : ∀ m ∈ t, SameTable m₀.state m.state)
    (ht : LoomTyped st m₀.state) (hc : ProjectCurrent st store m₀) {a : Args} (ha : LoomSupports a)
    {alphas : Nat → Nat → ℝ} (hα : ∀ i k, 0 < alphas i k) :
    ∃ pr p store', (∀ m ∈ m₀ :: t, FilesDescribe st pr m.state) ∧ (m₀.path = none → p = now) ∧
      (∀ q, m₀.path = some q → p = q ∧ store' = store) ∧
      (∀ q, q ≠ now → store'.get? q = store.get? q) ∧
      ∀ run : Infer C,
        ((∃ i < (m₀ :: t).length, ∃ e, run pr i a.N = .error e) →
          ∃ e, transitionEngine st run alphas now a (store, m₀ :: t) =
            .err e (store', (m₀ :: t).map fun m => ⟨m.state, some p⟩)) ∧
        ((∀ i m, (m₀ :: t)[i]? = some m → ∃ x, run pr i a.N = .ok x ∧ LoomFits x m.state) →
          ∃ ms', transitionEngine st run alphas now a (store, m₀ :: t) = .ok (store', ms') ∧
            ms'.length = (m₀ :: t).length ∧
            ∀ i m m', (m₀ :: t)[i]? = some m → ms'[i]? = some m' →
              ∃ x, run pr i a.N = .ok x ∧ m'.path = some p ∧ StateReachable cfg m'.state ∧
                StateConsistent m'.state ∧ Kept m.state m'.state ∧ SampleInstalled x m'.state ∧
                ProjectCurrent st store' m') := by
  have hI := (hs m₀ (by simp)).inv hL
  obtain ⟨pr, p, store', h1, h2, h3, h4, h5, h6⟩ := project_ok (now := now) hI ht hc
  have hall : ∀ m ∈ m₀ :: t, FilesDescribe st pr m.state := by
    intro m hm
    rcases List.mem_cons.mp hm with rfl | hm
    · exact h3
    · exact describe_same hI (hd m hm) h3
  have hpath : (m₀ :: t).all (fun q => q.path == m₀.path) = true := by
    rw [List.all_eq_true]
    intro m hm
    rcases List.mem_cons.mp hm with rfl | hm
    · simp
    · simp [hp m hm]
  set ms := m₀ :: t with hms
  have hrun : ∀ run : Infer C, transitionEngine st run alphas now a (store, ms) =
      match Net.collect (updateAt run alphas a pr p) (ms.map fun q => { q with path := some p }).zipIdx with
      | .error e => .err e (store', ms.map fun m => ⟨m.state, some p⟩)
      | .ok ms' => .ok (store', ms') := by
    intro run
    rw [hms] at hpath ⊢
    simp only [transitionEngine, validate_ok ha, hpath, not_true_eq_false, if_false, h1, h2]
    rfl
  refine ⟨pr, p, store', hall, h4, h5, h6, fun run => ⟨?_, fun hx => ?_⟩⟩
  · rintro ⟨i, hi, e, he⟩
    obtain ⟨e', h'⟩ := collect_raises (f := updateAt run alphas a pr p)
      (l := (ms.map fun q => { q with path := some p }).zipIdx)
      ⟨(⟨ms[i].state, some p⟩, i), by
        rw [List.mem_zipIdx_iff_getElem?, List.getElem?_map, List.getElem?_eq_getElem hi]; rfl,
        e, by simp only [updateAt, he]⟩
    exact ⟨e', by rw [hrun, h']⟩
  · obtain ⟨r, g1, g2⟩ := collect_forall₂ (f := updateAt run alphas a pr p)
      (l := (ms.map fun q => { q with path := some p }).zipIdx)
      (P := fun q m' => ∃ x, run pr q.2 a.N = .ok x ∧ m'.path = some p ∧ StateReachable cfg m'.state ∧
        StateConsistent m'.state ∧ Kept q.1.state m'.state ∧ SampleInstalled x m'.state) (by
      rintro ⟨q, i⟩ hq
      rw [List.mem_zipIdx_iff_getElem?, List.getElem?_map] at hq
      obtain ⟨m, hm, rfl⟩ := Option.map_eq_some_iff.mp hq
      obtain ⟨x, hx1, hx2⟩ := hx i m hm
      obtain ⟨s', k1, k2, k3, k4, -, -, -, k5, k6⟩ := C41_import hL
        (hs m (List.mem_of_getElem? hm)) hx2 (hα i)
      refine ⟨⟨s', some p⟩, by simp only [updateAt, hx1, k1], x, hx1, rfl, k2, k3, k4, k5,
        fun k f l c e1 e2 e3 => ?_⟩
      obtain ⟨i, v, f1, -, f2⟩ := k6 k f l c e1 e2 e3
      exact ⟨i, v, f1, f2⟩)
    have hlen := g2.length_eq
    simp only [List.length_zipIdx, List.length_map] at hlen
    refine ⟨r, by rw [hrun, g1], hlen.symm, fun i m m' hm hm' => ?_⟩
    obtain ⟨i1, e1⟩ := List.getElem?_eq_some_iff.mp hm
    obtain ⟨i2, e2⟩ := List.getElem?_eq_some_iff.mp hm'
    have := (List.forall₂_iff_get.mp g2).2 i (by simpa using i1) i2
    simp only [List.get_eq_getElem, List.getElem_zipIdx, List.getElem_map, Nat.zero_add, e1, e2] at this
    obtain ⟨x, k1, k2, k3, k4, k5, k6⟩ := this
    refine ⟨x, k1, k2, k3, k4, k5, k6, fun q hq => ?_⟩
    rw [k2] at hq; cases hq
    exact ⟨pr, h2, describe_same ((hs m (List.mem_of_getElem? hm)).inv hL) (Kept.sameTable k5)
      (hall m (List.mem_of_getElem? hm))⟩

/-- C89. An Engine whose States have different projects is refused with AssertionError, and an Engine
without States with IndexError: nothing changes. -/
theorem C89_mixed (run : Infer C) {alphas : Nat → Nat → ℝ} {a : Args} (ha : LoomSupports a)
    (ms : List (Member C)) :
    ((∃ m ∈ ms, ∃ m' ∈ ms, m.path ≠ m'.path) →
      transitionEngine st run alphas now a (store, ms) = .err .assertion (store, ms)) ∧
    (ms = [] → transitionEngine st run alphas now a (store, ms) = .err .indexError (store, ms)) := by
  refine ⟨?_, ?_⟩
  · rintro ⟨m, hm, m', hm', hne⟩
    cases ms with
    | nil => cases hm
    | cons m₀ t =>
      have hall : ¬ (m₀ :: t).all (fun q => q.path == m₀.path) = true := by
        rw [List.all_eq_true]
        intro h
        exact hne ((beq_iff_eq.mp (h m hm)).trans (beq_iff_eq.mp (h m' hm')).symm)
      simp only [transitionEngine, validate_ok ha]
      exact if_pos hall
  · rintro rfl
    simp only [transitionEngine, validate_ok ha]

/-- C89. The type of Loom for a primitive can hold each value the primitive supports: also for a
categorical of more than 256 categories.  Booleans, categories and counts are not handed over as real
numbers. -/
theorem C89_types (p : Prim) :
    (∀ x, support p x → LoomHolds (stattype p) x) ∧
    (stattype p = .real → p ≠ .bernoulli ∧ (∀ k, p ≠ .categorical k) ∧ p ≠ .poisson) ∧
    (stattype p = .count ↔ p = .poisson) := by
  refine ⟨fun x hx => ?_, fun h => ⟨?_, ?_, ?_⟩, ?_⟩
  · cases p with
    | categorical k =>
      obtain ⟨n, hn, rfl⟩ := hx
      simp only [stattype]
      split_ifs with hk
      · exact ⟨n, rfl⟩
      · exact ⟨n, by omega, rfl⟩
    | _ => first | exact hx | trivial
  · rintro rfl; cases h
  · rintro k rfl; simp only [stattype] at h; split_ifs at h
  · rintro rfl; cases h
  · constructor
    · intro h
      cases p with
      | poisson => rfl
      | categorical k => simp only [stattype] at h; split_ifs at h
      | _ => cases h
    · rintro rfl; rfl

/-! ### Files that no longer describe the State -/

theorem describe_cell {s s' : State C} {pr : Project C} (h : FilesDescribe st pr s)
    (h' : FilesDescribe st pr s') (ho : s'.outputs = s.outputs) {c : Col} (hc : c ∈ s.outputs) {r : Nat}
    (hr : r < s.nRows) : s'.tbl c r = s.tbl c r := by
  obtain ⟨i, hi, rfl⟩ := List.mem_iff_getElem.mp hc
  have hl : pr.length = s.outputs.length := by simpa using congrArg List.length h.columns
  have hi' : i < pr.length := hl ▸ hi
  have e1 := h.cells i _ _ (List.getElem?_eq_getElem hi) (List.getElem?_eq_getElem hi') r hr
  have hr' : r < s'.nRows := by
    rw [← h'.rows pr[i] (List.getElem_mem hi'), h.rows pr[i] (List.getElem_mem hi')]; exact hr
  have e2 := h'.cells i s.outputs[i] _ (by rw [ho]; exact List.getElem?_eq_getElem hi)
    (List.getElem?_eq_getElem hi') r hr'
  rw [e1] at e2
  exact (Option.some.inj e2).symm

/-- C89. FALSE once the data has changed: the files are not written again.  When a cell of the State
has changed since its project was created, the files do not describe the State, and Loom runs on them
all the same; the sample is installed without complaint. -/
theorem C89_stale_violated (hL : C.Lawful) {s s' : State C} {p : Nat} {pr : Project C}
    (hp : store.get? p = some pr) (hpr : FilesDescribe st pr s) (hs : StateReachable cfg s')
    (ho : s'.outputs = s.outputs) {c : Col} (hc : c ∈ s.outputs) {r : Nat} (hr : r < s.nRows)
    (hne : s'.tbl c r ≠ s.tbl c r) {a : Args} (ha : LoomSupports a) (hα : ∀ k, 0 < alphas k) :
    ¬ FilesDescribe st pr s' ∧
    ∀ (run : Infer C) x, run pr (a.seed.getD 0) (some (a.N.getD 1)) = .ok x → LoomFits x s' →
      ∃ s'', transition st run alphas now a (store, ⟨s', some p⟩) = .ok (store, ⟨s'', some p⟩) ∧
        Kept s' s'' ∧ SampleInstalled x s'' := by
  refine ⟨fun h' => hne (describe_cell hpr h' ho hc hr), fun run x hx hf => ?_⟩
  obtain ⟨s'', g1, -, -, g4, -, -, -, g5, g6⟩ := C41_import hL hs hf hα
  refine ⟨s'', ?_, g4, g5, fun k f l c e1 e2 e3 => ?_⟩
  · simp only [transition, validate_ok ha, project, infer, hp, hx, g1]
  · obtain ⟨i, v, f1, -, f2⟩ := g6 k f l c e1 e2 e3
    exact ⟨i, v, f1, f2⟩

/-- C89. FALSE for two States whose projects are created within the same second: they share one
directory, and the files of the first State are those of the second. -/
theorem C89_clash_violated (hL : C.Lawful) {s₁ s₂ : State C} (h₁ : StateReachable cfg s₁)
    (h₂ : StateReachable cfg s₂) (t₁ : LoomTyped st s₁) (t₂ : LoomTyped st s₂)
    (ho : s₂.outputs = s₁.outputs) {c : Col} (hc : c ∈ s₁.outputs) {r : Nat} (hr : r < s₁.nRows)
    (hne : s₂.tbl c r ≠ s₁.tbl c r) {a : Args} (ha : LoomSupports a) (hα : ∀ k, 0 < alphas k)
    {run : Infer C} {x : LoomSample} (hx : ∀ pr k n, run pr k n = .ok x) (f₁ : LoomFits x s₁)
    (f₂ : LoomFits x s₂) :
    ∃ store₁ store₂ s₁' s₂',
      transition st run alphas now a (store, ⟨s₁, none⟩) = .ok (store₁, ⟨s₁', some now⟩) ∧
      transition st run alphas now a (store₁, ⟨s₂, none⟩) = .ok (store₂, ⟨s₂', some now⟩) ∧
      ProjectCurrent st store₁ ⟨s₁', some now⟩ ∧ ¬ ProjectCurrent st store₂ ⟨s₁', some now⟩ := by
  obtain ⟨pr₁, p₁, store₁, -, a2, -, -, a5⟩ := C89_transition (store := store) (now := now) (m := ⟨s₁, none⟩)
    hL h₁ t₁ nofun ha hα
  cases a2 rfl
  obtain ⟨s₁', b1, -, -, b4, -, b6⟩ := (a5 run).2 x (hx _ _ _) f₁
  obtain ⟨pr₂, p₂, store₂, c1, c2, -, -, c5⟩ := C89_transition (store := store₁) (now := now) (m := ⟨s₂, none⟩)
    hL h₂ t₂ nofun ha hα
  cases c2 rfl
  obtain ⟨s₂', d1, -, -, d4, -, d6⟩ := (c5 run).2 x (hx _ _ _) f₂
  refine ⟨store₁, store₂, s₁', s₂', b1, d1, b6, fun h => ?_⟩
  obtain ⟨pr, e1, e2⟩ := h now rfl
  obtain ⟨pr', e3, e4⟩ := d6 now rfl
  rw [e1] at e3; cases e3
  have hk₁ := Kept.sameTable b4
  have hk₂ := Kept.sameTable d4
  have key := describe_cell e2 e4 ((hk₂.outputs.trans ho).trans hk₁.outputs.symm)
    (c := c) (by rw [hk₁.outputs]; exact hc) (r := r) (by rw [nRows_same hk₁]; exact hr)
  apply hne
  simpa only [State.tbl, hk₁.data, hk₂.data] using key

/-! ### The hypotheses can be met -/

/-- The types of Loom for the primitives. -/
def libTypes : libCat.ι → Option LoomType := fun k => some (stattype k.1)

theorem libTypes_typed (s : State libCat) : LoomTyped libTypes s := fun _ _ _ _ => nofun

example : ∃ (s : State libCat) (x : LoomSample), StateReachable plainCfg s ∧ LoomFits x s ∧
    LoomTyped libTypes s ∧ ProjectCurrent libTypes [] ⟨s, none⟩ ∧
    LoomSupports ⟨none, none, false, false, false, false⟩ ∧
    ¬ LoomSupports ⟨none, none, true, false, false, false⟩ := by
  obtain ⟨s, h1, -, -, h4, h5, -⟩ := stateDemo_init (normal_remembered 0) normal_hyp
    (a := 0) (b := 1) (by decide) [] []
  exact ⟨s, loomDemo, h1, loomDemo_fits h4 h5, libTypes_typed s, nofun, by simp [LoomSupports],
    by simp [LoomSupports]⟩

/-- An Engine of two States with the same data and different partitions. -/
example : ∃ (m₀ m : Member libCat) (x : LoomSample), m₀ ≠ m ∧
    StateReachable plainCfg m₀.state ∧ StateReachable plainCfg m.state ∧ m.path = m₀.path ∧
    SameTable m₀.state m.state ∧ LoomTyped libTypes m₀.state ∧ ProjectCurrent libTypes [] m₀ ∧
    LoomFits x m₀.state ∧ LoomFits x m.state := by
  obtain ⟨s, h1, -, h3, h4, h5, h6, -, -, -, -, -, h12⟩ := stateDemo_init (normal_remembered 0) normal_hyp
    (a := 0) (b := 1) (by decide) [] []
  obtain ⟨s', g1, -, g3, g4, g5, g6, -, -, -, -, -, g12⟩ := stateDemo_init (normal_remembered 0) normal_hyp
    (a := 1) (b := 0) (by decide) [] []
  refine ⟨⟨s, none⟩, ⟨s', none⟩, loomDemo, fun h => ?_, h1, g1, rfl,
    ⟨g3.trans h3.symm, g4.trans h4.symm, fun c d d' hd hd' => (g12 c d' hd').1.trans (h12 c d hd).1.symm⟩,
    libTypes_typed s, nofun, loomDemo_fits h4 h5, loomDemo_fits g4 g5⟩
  have : s = s' := congrArg Member.state h
  subst this
  rw [h6] at g6
  cases g6

/-- Two States that differ in their data: for both violations. -/
example : ∃ (s s' : State libCat) (x : LoomSample), StateReachable plainCfg s ∧
    StateReachable plainCfg s' ∧ s'.outputs = s.outputs ∧ 0 ∈ s.outputs ∧ 0 < s.nRows ∧
    s'.tbl 0 0 ≠ s.tbl 0 0 ∧ LoomFits x s ∧ LoomFits x s' := by
  obtain ⟨s, h1, -, h3, h4, h5, -⟩ := stateDemo_init (normal_remembered 0) normal_hyp
    (a := 0) (b := 1) (by decide) [] []
  obtain ⟨s', g1, -, g3, g4, g5, -⟩ := stateDemo_init (normal_remembered 1) normal_hyp
    (a := 0) (b := 1) (by decide) [] []
  refine ⟨s, s', loomDemo, h1, g1, g4.trans h4.symm, by simp [h4], by omega, ?_,
    loomDemo_fits h4 h5, loomDemo_fits g4 g5⟩
  simp only [State.tbl, State.tblOf, h3, g3, stateDemoX, Dict.get?_cons]
  intro h
  exact one_ne_zero (Option.some.inj (show (some 1 : Option ℝ) = some 0 from h))

/-- A cell that was missing is given a value after the project was created: Loom runs on files in
which it is missing. -/
example : ∃ (s s' : State libCat) (store : Store libCat) (pr : Project libCat) (p : Nat),
    StateReachable plainCfg s ∧ s.forceCell 0 [(1, some (3 : ℝ))] = .ok s' ∧ StateReachable plainCfg s' ∧
    store.get? p = some pr ∧ FilesDescribe libTypes pr s ∧ s'.outputs = s.outputs ∧ 1 ∈ s.outputs ∧
    0 < s.nRows ∧ s'.tbl 1 0 ≠ s.tbl 1 0 := by
  obtain ⟨s, h1, hI, h3, h4, h5, -, -, -, h9, h10, -, h12⟩ := stateDemo_init (normal_remembered 0) normal_hyp
    (a := 0) (b := 1) (by decide) [] []
  obtain ⟨pr, k1, k2⟩ := files_ok hI (libTypes_typed s)
  have hl : stateLegalRun plainCfg s [.force 0 [(1, some (3 : ℝ))]] :=
    plain_legalRun hI ⟨fun c d hd => ⟨(h12 c d hd).1, (h12 c d hd).2.1⟩, h9, h10⟩ fun op hop => by
      simp only [List.mem_singleton] at hop
      subst hop
      show (Dict.keys _).Nodup
      simp [Dict.keys]
  have hmiss : s.tbl 1 0 = none := by
    simp [State.tbl, State.tblOf, h3, stateDemoX, Dict.get?_cons]
  obtain ⟨s', g1, -, g3, -, g5⟩ := (C18_effect (catOf_lawful _) h1).2.2.1 0 _ hl.1 (h5 ▸ (by norm_num : (0 : Nat) < 2)) (by
    intro c hc
    have : c = 1 := by simpa [Dict.keys] using hc
    subst this
    exact ⟨by simp [h4], hmiss⟩)
  have hr := h1.step hl.1
  simp only [State.apply, g1] at hr
  refine ⟨s, s', Dict.set [] 0 pr, pr, 0, h1, g1, hr, Dict.get?_set_self _ _ _, k2, g3, by simp [h4],
    by omega, ?_⟩
  rw [g5, hmiss]
  simp [cellsForced, Dict.get?_cons]

end Cgpm.Props
