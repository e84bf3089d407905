import Verif.Lemmas.StateInit
import Verif.Lemmas.ViewSpec
import Verif.Lemmas.StateForce
import Verif.Spec.State

/-! The invariant of a State over histories, in terms of the specification. -/
namespace Cgpm.Props
open Cgpm Cgpm.View Cgpm.State

variable {C : Cat}

theorem initOk_of {X : Dict Col (List C.Cell)} {n : Nat} {schema : Col → ColSpec C} {alpha : ℝ}
    {Zv : Dict Col Nat} {order : List Nat} {rows : Nat → ℝ × List Tab}
    (h : LegalInit X n schema alpha Zv order rows) : InitOk X n schema alpha Zv order rows where
  data := ⟨rfl, h.columns.1, by
    intro e
    exact h.columns.2 (by simpa [Dict.keys] using e), h.length⟩
  pos := h.pos
  alpha := h.alpha
  wf := h.part.1
  part := h.part.2
  nodup := h.ids.1
  ids := h.ids.2
  rows := h.rows
  cols := fun c hc => ⟨h.hypers c hc, h.inputs c hc, fun r hr =>
    (admissible_iff _ _ _).mp (h.values c hc r hr)⟩

theorem rowAdded_eq (s : State C) (obs : Dict Col C.Cell) : rowAdded s obs = s.rowTbl obs := rfl

theorem cellsForced_eq (s : State C) (r : Row) (obs : Dict Col C.Cell) :
    cellsForced s r obs = s.forceTbl r obs := by
  funext c r'
  unfold cellsForced forceTbl
  split
  · cases obs.get? c <;> rfl
  · rfl

theorem columnAdded_eq (s : State C) (col : Col) (T : List C.Cell) :
    columnAdded s col T = s.colTbl col T := by
  funext c r
  unfold columnAdded
  split
  · rename_i e; subst e; rw [colTbl_self]
  · rename_i e; rw [colTbl_ne e]

theorem incorporate_err {s : State C} {r : Row} {obs : Dict Col C.Cell}
    {ks : Dict Nat Tab} {z : Nat → Tab}
    (h : ¬ (r = s.nRows ∧ (∀ v ∈ ks.keys, v ∈ s.views.keys) ∧ (∀ c ∈ obs.keys, c ∈ s.outputs) ∧
      ∀ p ∈ obs, p.2 ≠ none)) :
    s.incorporate r obs ks z = .err .valueError s := by
  unfold State.incorporate
  split
  · rfl
  · rename_i hr
    split
    · rfl
    · rename_i h1
      split
      · rfl
      · rename_i h2
        exfalso
        apply h
        simp only [Bool.or_eq_true, Bool.not_eq_true', not_or, Bool.not_eq_false, List.all_eq_true,
          Dict.has_iff, List.contains_iff_mem] at h1
        refine ⟨not_not.mp hr, h1.1, h1.2, fun p hp hn => h2 ?_⟩
        rw [List.any_eq_true]
        exact ⟨p, hp, by rw [hn]; rfl⟩

theorem unincorporate_err {s : State C} {r : Row} (h : ¬ (r + 1 = s.nRows ∧ s.nRows ≠ 1)) :
    s.unincorporate r = .err .valueError s := by
  unfold State.unincorporate
  split
  · rfl
  · rename_i h1
    rw [if_pos]
    by_contra h2
    exact h ⟨not_not.mp h1, h2⟩

theorem forceCell_err {s : State C} {r : Row} {obs : Dict Col C.Cell}
    (h : ¬ (r < s.nRows ∧ allMissing s.X r obs.keys = .ok true)) :
    ∃ e, s.forceCell r obs = .err e s := by
  unfold State.forceCell
  split
  · exact ⟨_, rfl⟩
  · rename_i hr
    cases hm : allMissing s.X r obs.keys with
    | error e => exact ⟨e, rfl⟩
    | ok b =>
      cases b with
      | false => exact ⟨_, rfl⟩
      | true => exact absurd ⟨not_not.mp hr, hm⟩ h

theorem incorporateDim_err {cfg : Cfg C} {s : State C} {T : List C.Cell} {outs ins : List Col}
    {kind : C.ι} {v : Option Nat} {ω : DimDraws C}
    (h : ¬ (T.length = s.nRows ∧ ins = [] ∧ ∃ col, outs = [col] ∧ col ∉ s.outputs)) :
    s.incorporateDim cfg T outs ins kind v ω = .err .valueError s := by
  unfold State.incorporateDim
  split
  · rfl
  · rename_i hT
    match outs with
    | [] => rfl
    | [col] =>
      simp only
      split
      · rfl
      · rename_i hc
        split
        · rfl
        · rename_i hi
          exact absurd ⟨not_not.mp hT, not_not.mp hi, col, rfl, by simpa using hc⟩ h
    | _ :: _ :: _ => rfl

theorem unincorporateDim_err {s : State C} {col : Col}
    (h : ¬ (s.outputs.length ≠ 1 ∧ col ∈ s.outputs)) :
    s.unincorporateDim col = .err .valueError s := by
  unfold State.unincorporateDim
  split
  · rfl
  · rename_i h1
    rw [if_pos]
    have : col ∉ s.outputs := fun hc => h ⟨h1, hc⟩
    simpa using this

theorem updateCctype_err {cfg : Cfg C} {s : State C} (h : State.Inv s) {col : Col} {kind : C.ι}
    {ins : Option (List Col)} {hyp hyp' : C.H}
    (hn : ¬ ∃ v view inputs, s.Zv col = some v ∧ s.views.get? v = some view ∧
      cctypeInputs cfg view col kind ins = .ok inputs) :
    ∃ e, s.updateCctype cfg col kind ins hyp hyp' = .err e s := by
  unfold State.updateCctype
  split
  · exact ⟨_, rfl⟩
  · cases hz : s.Zv col with
    | none => exact ⟨_, rfl⟩
    | some v =>
      cases hv : s.views.get? v with
      | none => simp only [hv]; exact ⟨_, rfl⟩
      | some view =>
        cases hc : cctypeInputs cfg view col kind ins with
        | error e => simp only [hv, hc]; exact ⟨_, rfl⟩
        | ok inputs => exact absurd ⟨v, view, inputs, hz, hv, hc⟩ hn

theorem dimFor_of_mem {s : State C} (h : State.Inv s) {c : Col} :
    (∃ d, s.dimFor c = .ok d) ↔ c ∈ s.outputs := by
  constructor
  · rintro ⟨d, hd⟩
    obtain ⟨i, v, hz, -, -⟩ := dimFor_ok hd
    exact h.hZ c hz
  · intro hc
    obtain ⟨-, -, d, -, -, -, hd, -⟩ := h.dim hc
    exact ⟨d, hd⟩

theorem gibbsTransitionDim_err {cfg : Cfg C} {s : State C} {col : Col} {m : Nat}
    {aux : Nat → ℝ × (Row → Tab)} {u : ℝ}
    (h : ¬ (s.anyConditional cfg = false ∧ s.Cd = [] ∧ ∃ d, s.dimFor col = .ok d)) :
    ∃ e, s.gibbsTransitionDim cfg col m aux u = .err e s := by
  unfold gibbsTransitionDim
  split
  · exact ⟨_, rfl⟩
  · rename_i h1
    split
    · exact ⟨_, rfl⟩
    · rename_i h2
      cases hd : s.dimFor col with
      | ok d => exact absurd ⟨by simpa using h1, not_not.mp h2, d, hd⟩ h
      | error e =>
        refine ⟨e, ?_⟩
        have : s.gibbsDimScore cfg col m aux = .err e s := by
          unfold gibbsDimScore; rw [hd]
        rw [this]

theorem partners_of {s : State C} {col : Col} (h : partnersExist s col) :
    ∀ a ∈ avoid s.Ci col, a ∈ s.outputs := fun a ha => by
  obtain ⟨h1, h2⟩ := mem_avoid.mp ha
  exact h a h1 h2

/-- A legal call keeps the invariant, whether it returns or raises. -/
theorem inv_apply (hL : C.Lawful) {cfg : Cfg C} {s : State C} (h : State.Inv s) (op : State.Op C)
    (hl : stateLegal cfg s op) : State.Inv (s.apply cfg op).state := by
  cases op with
  | inc r obs ks z =>
    by_cases hg : r = s.nRows ∧ (∀ v ∈ ks.keys, v ∈ s.views.keys) ∧
        (∀ c ∈ obs.keys, c ∈ s.outputs) ∧ ∀ p ∈ obs, p.2 ≠ none
    · obtain ⟨rfl, h1, h2, h3⟩ := hg
      obtain ⟨s', g1, g2, -⟩ := h.incorporate_ok hL z h1 h2 h3
        (fun c d hd => (admissible_iff _ _ _).mp (hl rfl c d hd))
      simp only [State.apply, g1]; exact g2
    · simp only [State.apply, incorporate_err hg]; exact h
  | unc r =>
    by_cases hg : r + 1 = s.nRows ∧ s.nRows ≠ 1
    · obtain ⟨s', g1, g2, -⟩ := h.unincorporate_ok hL hg.1.symm
        (Nat.pos_of_ne_zero fun e => hg.2 (by rw [← hg.1, e]))
      simp only [State.apply, g1]; exact g2
    · simp only [State.apply, unincorporate_err hg]; exact h
  | force r obs =>
    by_cases hg : r < s.nRows ∧ allMissing s.X r obs.keys = .ok true
    · obtain ⟨h1, h2⟩ := hl.2 hg.1
      obtain ⟨s', g1, g2, -⟩ := h.forceCell_ok hL hl.1 hg.1 hg.2
        (fun c hc d hd => (admissible_iff _ _ _).mp (by
          rw [← cellsForced_eq]; exact h1 c hc d hd)) h2
      simp only [State.apply, g1]; exact g2
    · obtain ⟨e, he⟩ := forceCell_err hg
      simp only [State.apply, he]; exact h
  | incDim T outs ins kind v ω =>
    by_cases hg : T.length = s.nRows ∧ ins = [] ∧ ∃ col, outs = [col] ∧ col ∉ s.outputs
    · obtain ⟨hT, rfl, col, rfl, hc⟩ := hg
      obtain ⟨h1, h2, h3, h4, h5, h6, h7⟩ := hl col rfl rfl hT hc
      exact (h.incorporateDim_inv hT hc ⟨h1, h2, h3, fun r hr => (admissible_iff _ _ _).mp (by
        rw [← columnAdded_eq]; exact h4 r hr), h5, h6.1, h6.2.1, h6.2.2,
        fun hv => partners_of (h7 hv).1, fun hv => (h7 hv).2⟩).1
    · simp only [State.apply, incorporateDim_err hg]; exact h
  | uncDim col =>
    by_cases hg : s.outputs.length ≠ 1 ∧ col ∈ s.outputs
    · obtain ⟨s', g1, g2, -⟩ := h.unincorporateDim_ok hg.2 hg.1 hl
      simp only [State.apply, g1]; exact g2
    · simp only [State.apply, unincorporateDim_err hg]; exact h
  | cctype col kind ins hyp hyp' =>
    by_cases hg : ∃ v view inputs, s.Zv col = some v ∧ s.views.get? v = some view ∧
      cctypeInputs cfg view col kind ins = .ok inputs
    · obtain ⟨v, view, inputs, h1, h2, h3⟩ := hg
      obtain ⟨h4, h5, h6⟩ := hl v view inputs h1 h2 h3
      obtain ⟨d, g1, g2, -⟩ := h.updateCctype_ok h1 h2 h3 h4 h5
        (fun r hr => (admissible_iff _ _ _).mp (h6 r hr))
      simp only [State.apply, g1]; exact g2
    · obtain ⟨e, he⟩ := updateCctype_err h (hyp := hyp) (hyp' := hyp') hg
      simp only [State.apply, he]; exact h
  | alpha a => exact h.setAlpha a
  | viewAlpha v a => exact h.viewAlpha v a
  | hypers c hy => exact h.transitionDimHypers c hl
  | row v r z => exact h.viewRow hL v r z
  | column c m aux u =>
    obtain ⟨h1, h2, h3, h4⟩ := hl
    by_cases hg : s.anyConditional cfg = false ∧ s.Cd = [] ∧ ∃ d, s.dimFor c = .ok d
    · obtain ⟨g1, g2, d, g3⟩ := hg
      obtain ⟨s', cur, new, va, f1, f2, -⟩ := h.gibbsTransitionDim_ok (cfg := cfg) g3 g1 g2 h1 h2.1
        (partners_of h3) h2.2.1 h2.2.2 (h4 d g3)
      simp only [State.apply, f1]; exact f2
    · obtain ⟨e, he⟩ := gibbsTransitionDim_err (m := m) (aux := aux) (u := u) hg
      simp only [State.apply, he]; exact h

theorem inv_run (hL : C.Lawful) {cfg : Cfg C} {s : State C} (h : State.Inv s)
    (ops : List (State.Op C)) (hl : stateLegalRun cfg s ops) : State.Inv (s.run cfg ops) := by
  induction ops generalizing s with
  | nil => exact h
  | cons op ops ih => exact ih (inv_apply hL h op hl.1) hl.2

theorem StateReachable.inv (hL : C.Lawful) {cfg : Cfg C} {s : State C}
    (h : StateReachable cfg s) : State.Inv s := by
  obtain ⟨X, n, schema, alpha, Zv, order, rows, Cd, Ci, hi, s, hs, ops, hl⟩ := h
  obtain ⟨s', h1, h2, -⟩ := init_ok Cd Ci (initOk_of hi)
  rw [hs] at h1
  cases h1
  exact inv_run hL h2 ops hl

theorem stateConsistent_of {s : State C} (h : State.Inv s) : StateConsistent s where
  outputs := h.data.keys
  distinct := h.data.nodup
  rect := fun c hc => by
    obtain ⟨l, hl⟩ := (h.data.mem c).mp hc
    exact ⟨l, hl, h.data.len c l hl⟩
  rows := h.pos
  part := fun c => by rw [← h.cols c, Option.ne_none_iff_exists']
  used := fun v => by
    rw [← h.occ v, ← Dict.get?_isSome_iff, Option.isSome_iff_exists]
  counts := by
    intro t n
    have e : {c | s.Zv c = some t}.ncard = nSeated s.crp.data t := ncard_get? h.crp.wfData t
    rw [e, h.crp.hCounts, countOf]
    split
    · rename_i h0; rw [h0]; simp
    · rename_i h0
      simp only [Option.some.injEq]
      constructor
      · rintro rfl; exact ⟨rfl, by exact_mod_cast h0⟩
      · rintro ⟨rfl, _⟩; rfl
  columns := fun v view hv c => by
    rw [← (h.views.view v view hv).dims c, ← Dict.get?_isSome_iff, Option.isSome_iff_exists]
  cover := fun v view hv r => by
    rw [← (h.views.view v view hv).rows r, Option.ne_none_iff_exists']
  view := fun v view hv => consistent_of (h.views.view v view hv).inv

end Cgpm.Props
