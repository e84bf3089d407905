import Verif.Lemmas.TransitionViews
import Verif.Props.ColGibbs

/-! The kernels of `State.transition` take reachable States to reachable States. -/
namespace Cgpm.Props
open Cgpm Cgpm.View Cgpm.State Cgpm.Spec Cgpm.Spec.Hyper
variable {C : Cat} {cfg : Cfg C} {s : State C}

theorem sameState_of {t : State C} (h : OnModel s t) (hr : StateReachable cfg t) :
    SameState cfg s t := by
  refine ⟨hr, h.sorted, h.kin.X, h.kin.outputs, h.kin.Cd, h.kin.Ci, fun c d d' h1 h2 => ?_⟩
  have := h.kin.columns c d d' h1 h2
  exact ⟨this.index, this.inputs, this.kind, this.hyp⟩

theorem reach_alpha {t : State C} (h : StateReachable cfg t) {a : ℝ} (ha : 0 < a) :
    StateReachable cfg { t with crp := { t.crp with alpha := a } } := by
  have := h.step (op := .alpha a) trivial
  simpa only [State.apply, State.setAlpha, Crp.setHypers, if_pos ha, Out.map_ok, Out.state_ok] using this

theorem reach_viewAlpha {t : State C} (h : StateReachable cfg t) {i : Nat} {v : View C}
    (hv : t.views.get? i = some v) {a : ℝ} (ha : 0 < a) :
    StateReachable cfg { t with views := t.views.set i { v with crp := { v.crp with alpha := a } } } := by
  have := h.step (op := .viewAlpha i a) trivial
  simpa only [State.apply, State.viewAlpha, onView, hv, View.setAlpha, Crp.setHypers, if_pos ha,
    Out.map_ok, Out.state_ok] using this

theorem reach_row {t : State C} (h : StateReachable cfg t) {i : Nat} {v v' : View C}
    (hv : t.views.get? i = some v) (h1 : t.nRows ≠ 1) {r : Row} {z : Tab}
    (he : v.gibbsTransitionRow t.tbl r z = .ok v') :
    StateReachable cfg { t with views := t.views.set i v' } := by
  have := h.step (op := .row i r z) trivial
  simpa only [State.apply, State.viewRow, if_neg h1, onView, hv, he, Out.state_ok] using this

/-- A method of a view that keeps States reachable. -/
def KeepsReach (cfg : Cfg C) (s : State C) (k : ℕ) (K : View C → List ℝ → Out (View C)) : Prop :=
  ∀ t, OnModel s t → StateReachable cfg t → ∀ i v v', t.views.get? i = some v → ∀ us : List ℝ,
    us.length = k → (∀ u ∈ us, 0 ≤ u ∧ u < 1) → K v us = .ok v' →
    StateReachable cfg { t with views := t.views.set i v' }

theorem visitViews_reach {w : Setoid {c // c ∈ colsOf s} → {c // c ∈ colsOf s} →
    ℝ × RowPartition (rowsOf s) → ℝ} {k : ℕ} {K : View C → List ℝ → Out (View C)}
    {κ : Local (colsOf s) (rowsOf s)} (h : IsViewKernel s w k K κ) (hK : KeepsReach cfg s k K)
    {vs : List Nat} {t t' : State C} (ht : OnModel s t) (hr : StateReachable cfg t)
    {us : List ℝ} (hl : vs.length * k ≤ us.length) (hu : ∀ u ∈ us, 0 ≤ u ∧ u < 1)
    (he : visitViews K k vs t us = .ok t') : StateReachable cfg t' := by
  induction vs generalizing t us with
  | nil => cases he; exact hr
  | cons i vs ih =>
    rw [List.length_cons, Nat.succ_mul] at hl
    unfold visitViews at he
    cases hv : t.views.get? i with
    | none => simp only [onView, hv] at he; cases he
    | some v =>
      obtain ⟨v1, e1, i1, r1, s1, a1⟩ := h.ok t ht i v hv (us.take k)
        (by rw [List.length_take]; omega) (fun u hm => hu u (List.mem_of_mem_take hm))
      simp only [onView, hv, e1, Out.bind_ok] at he
      exact ih (ht.setView hv i1 r1 s1 a1)
        (hK t ht hr i v v1 hv (us.take k) (by rw [List.length_take]; omega)
          (fun u hm => hu u (List.mem_of_mem_take hm)) e1)
        (by rw [List.length_drop]; omega) (fun u hm => hu u (List.mem_of_mem_drop hm)) he

theorem keepsReach_alpha (hs : Inv s) (cfg : Cfg C) :
    KeepsReach cfg s 2 (fun v => v.transitionCrpAlpha s.nRows) := by
  intro t ht hr i v v' hv us hl hu he
  obtain ⟨u, u', rfl⟩ := List.length_eq_two.mp hl
  have ho := ht.kin.inv.views.view i v hv
  obtain ⟨a, ha, e⟩ := Crp.transitionAlpha_ok hs.pos v.crp ho.inv.alpha (hu u (by simp))
  have hpos : ∀ b ∈ concentrations s.nRows, 0 < b := (concentrations_ok hs.pos).2.2
  obtain ⟨a', ha', e'⟩ := Crp.transitionAlpha_ok hs.pos { v.crp with alpha := a } (hpos a ha)
    (hu u' (by simp))
  simp only [View.transitionCrpAlpha, e, Out.bind_ok, e', Out.map_ok] at he
  cases he
  exact reach_viewAlpha hr hv (hpos a' ha')

theorem keepsReach_rows (hL : C.Lawful) (hCh : C.Chain) (cfg : Cfg C) (h1 : s.nRows ≠ 1)
    {orders : Finset Col → List Row} {R : ℕ}
    (hR : ∀ B, (orders B).length = R ∧ ∀ r ∈ orders B, r < s.nRows) :
    KeepsReach cfg s R (fun v => v.transitionRowsIn s.tbl orders) := by
  intro t ht hr i v v' hv us hl hu he
  have ho := ht.kin.inv.views.view i v hv
  have hk : Kin s.tbl v v := ⟨ht.kin.tbl ▸ ho.inv, fun _ => Iff.rfl, rfl, Same.refl v⟩
  have hrows : IsRows (rowsOf s) v := fun r => by
    rw [ho.rows r, ht.kin.nRows]; simp [rowsOf]
  have hM : RowClosed s.tbl v (fun u => Kin s.tbl v u ∧
      StateReachable cfg { t with views := t.views.set i u }) := by
    refine ⟨fun u hu => hu.1, fun u hu r hr' z => ?_⟩
    obtain ⟨u', g1, g2, g3⟩ := (rowClosed_kin hL s.tbl v).step u hu.1 r hr' z
    refine ⟨u', g1, ⟨g2, ?_⟩, g3⟩
    have := reach_row (t := { t with views := t.views.set i u }) hu.2
      (Dict.get?_set_self t.views i u) (v' := u') (r := r) (z := z)
      (by show t.nRows ≠ 1; rw [ht.kin.nRows]; exact h1)
      (by show u.gibbsTransitionRow t.tbl r z = _; rw [ht.kin.tbl]; exact g1)
    simpa only [Dict.set_set] using this
  obtain ⟨v'', e, hk', -⟩ := transitionRows_okM hL hCh hM hrows (v := v)
    ⟨hk, by rw [Dict.set_get? hv]; exact hr⟩ ((orders v.dims.keys.toFinset).zip us)
    (fun d hd => ⟨by
      have := (hR v.dims.keys.toFinset).2 d.1 (List.of_mem_zip hd).1
      simpa [rowsOf] using this, hu d.2 (List.of_mem_zip hd).2⟩)
  change v.transitionRows s.tbl ((orders v.dims.keys.toFinset).zip us) = .ok v' at he
  rw [e] at he
  cases he
  exact hk'.2

end Cgpm.Props
