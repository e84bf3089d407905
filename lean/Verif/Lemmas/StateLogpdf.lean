import Verif.Spec.StateLogpdf
import Verif.Lemmas.ViewFast
import Verif.Lemmas.State
import Verif.Props.Partition
import Verif.Props.LogSpace

/-! The direct computation of the density of a query on a State. -/
namespace Cgpm.Props
open Cgpm Cgpm.View Cgpm.Net

variable {C : Cat}

theorem stateInv_rows {s : State C} (h : State.Inv s) {v : Nat} {view : View C}
    (hv : s.views.get? v = some view) : {r | view.seat r ≠ none}.ncard = s.nRows := by
  have : {r | view.seat r ≠ none} = Set.Iio s.nRows := by
    ext r; exact (h.views.view v view hv).rows r
  rw [this, ← Finset.coe_Iio, Set.ncard_coe_finset, Nat.card_Iio]

theorem stateInv_hyp {s : State C} (h : State.Inv s) {v : Nat} {view : View C}
    (hv : s.views.get? v = some view) (rowid : Option Row) :
    view.hypothetical rowid = s.hypothetical rowid := by
  have h1 := rows_ncard (h.views.view v view hv).inv
  rw [stateInv_rows h hv] at h1
  cases rowid with
  | none => rfl
  | some r => simp only [View.hypothetical, State.hypothetical, h1]

theorem stateInv_seat {s : State C} (h : State.Inv s) {v : Nat} {view : View C}
    (hv : s.views.get? v = some view) : ∃ r, view.seat r ≠ none :=
  ⟨0, ((h.views.view v view hv).rows 0).mpr h.pos⟩

theorem state_hyp_new {s : State C} {rowid : Option Row} (h : NewRowId s rowid) :
    s.hypothetical rowid = true := by
  cases rowid with
  | none => rfl
  | some r => have := h r rfl; simp [State.hypothetical, this]

theorem state_hyp_old {s : State C} {r : Row} (h : r < s.nRows) :
    s.hypothetical (some r) = false := by simp [State.hypothetical, h]

/-- Only the columns of the view matter. -/
theorem rowDensity_local {v : View C} (k : Tab) {D D' : Col → Option C.Cell}
    (h : ∀ p ∈ v.dims, D p.1 = D' p.1) (hi : ∀ p ∈ v.dims, D p.1 ≠ none → p.2.inputs = []) :
    rowDensity v k D = rowDensity v k D' := by
  unfold rowDensity
  congr 1
  refine List.map_congr_left fun p hp => ?_
  rw [← h p hp]
  cases hD : D p.1 with
  | none => rfl
  | some x => rw [hi p hp (by rw [hD]; simp)]; rfl

/-- What the direct computation does to a view that has targets. -/
structure GroupOf (s : State C) (D : Dict Col C.Cell) (v : Nat) (g : Dict Col C.Cell) : Prop where
  wf : g.WF
  get : ∀ c, g.get? c = if s.Zv c = some v then D.get? c else none

theorem groupOf_plain {s : State C} (h : State.Inv s) {D : Dict Col C.Cell}
    (hD : ∀ c ∈ D.keys, c ∈ s.outputs ∧ ∀ d, s.dimFor c = .ok d → d.inputs = []) {v : Nat}
    {view : View C} (hv : s.views.get? v = some view) {g : Dict Col C.Cell}
    (hg : GroupOf s D v g) : Plain view g := by
  intro c hc
  obtain ⟨x, hx⟩ := Dict.exists_of_mem_keys hc
  rw [hg.get] at hx
  split at hx
  · rename_i hz
    obtain ⟨d, hd⟩ := Dict.exists_of_mem_keys (((h.views.view v view hv).dims c).mpr hz)
    exact ⟨d, hd, (hD c (Dict.mem_keys_of_get? hx)).2 d (h.dimFor_of_view hv hd)⟩
  · cases hx

theorem groupOf_density {s : State C} (h : State.Inv s) {D : Dict Col C.Cell}
    (hD : ∀ c ∈ D.keys, c ∈ s.outputs ∧ ∀ d, s.dimFor c = .ok d → d.inputs = []) {v : Nat}
    {view : View C} (hv : s.views.get? v = some view) {g : Dict Col C.Cell}
    (hg : GroupOf s D v g) (k : Tab) : rowDensity view k g.get? = rowDensity view k D.get? := by
  have hz : ∀ p ∈ view.dims, s.Zv p.1 = some v := fun p hp =>
    ((h.views.view v view hv).dims p.1).mp (List.mem_map_of_mem hp)
  refine rowDensity_local k (fun p hp => by rw [hg.get, if_pos (hz p hp)]) fun p hp hn => ?_
  rw [hg.get, if_pos (hz p hp)] at hn
  obtain ⟨x, hx⟩ := Option.ne_none_iff_exists'.mp hn
  exact (hD p.1 (Dict.mem_keys_of_get? hx)).2 p.2
    (h.dimFor_of_view hv (Dict.get?_of_mem (h.views.view v view hv).inv.wf hp))

/-- Constraints on other columns of the view multiply. -/
theorem viewDensity_both {s : State C} (h : State.Inv s) {T E : Dict Col C.Cell}
    (hq : StateQueryOn s T E) (hd : ∀ c ∈ T.keys, c ∉ E.keys) {v : Nat} {view : View C}
    (hv : s.views.get? v = some view) :
    viewDensity view (both T E) =
      mixture view fun k => rowDensity view k T.get? * rowDensity view k E.get? := by
  unfold viewDensity
  congr 1
  funext k
  have hin : ∀ D : Dict Col C.Cell, (∀ c ∈ D.keys, c ∈ T.keys ++ E.keys) → ∀ c d,
      view.dims.get? c = some d → D.get? c ≠ none → ∀ i ∈ d.inputs, D.get? i ≠ none := by
    intro D hD c d hdm hc i hi
    obtain ⟨x, hx⟩ := Option.ne_none_iff_exists'.mp hc
    rw [(hq.columns c (hD c (Dict.mem_keys_of_get? hx))).2 d (h.dimFor_of_view hv hdm)] at hi
    cases hi
  refine rowDensity_both (h.views.view v view hv).inv k ?_
    (hin T fun c hc => List.mem_append_left _ hc) (hin E fun c hc => List.mem_append_right _ hc)
  intro c hc
  obtain ⟨x, hx⟩ := Option.ne_none_iff_exists'.mp hc
  exact (Dict.get?_eq_none_iff _ _).mpr fun h' => hd c h' (Dict.mem_keys_of_get? hx)

/-- The groups of a dict. -/
theorem partition_groups {s : State C} (h : State.Inv s) {D : Dict Col C.Cell}
    (hw : D.keys.Nodup) (hD : ∀ c ∈ D.keys, c ∈ s.outputs) :
    ∃ out, partitionDict s.crp.data D = .ok out ∧ out.WF ∧ (∀ v, v ∈ out.keys ↔ Asked s D v) ∧
      (∀ v, GroupOf s D v ((out.get? v).getD [])) ∧
      ∀ v, (out.get? v).getD [] = D.filter fun p => s.Zv p.1 = some v := by
  obtain ⟨out, h1, h2, h3⟩ := C37_partition_dict s.crp.data D hw fun c hc => (h.cols c).mpr (hD c hc)
  have hk : ∀ v, v ∈ out.keys ↔ Asked s D v := by
    intro v
    rw [h2.2.1]
    constructor
    · rintro ⟨p, hp, e⟩; exact ⟨p.1, List.mem_map_of_mem hp, e⟩
    · rintro ⟨c, hc, e⟩
      obtain ⟨p, hp, rfl⟩ := List.mem_map.mp hc
      exact ⟨p, hp, e⟩
  refine ⟨out, h1, h2.1, hk, fun v => ?_, fun v => ?_⟩
  rotate_left
  · cases hg : out.get? v with
    | some g => exact h2.2.2 v g hg
    | none =>
      rw [Option.getD_none, eq_comm, List.filter_eq_nil_iff]
      intro p hp hz
      exact (Dict.get?_eq_none_iff _ _).mp hg ((hk v).mpr ⟨p.1, List.mem_map_of_mem hp,
        by simpa using hz⟩)
  cases hg : out.get? v with
  | some g => exact ⟨(h3 v g hg).1, (h3 v g hg).2⟩
  | none =>
    refine ⟨Dict.wf_nil, fun c => ?_⟩
    simp only [Option.getD_none, Dict.get?_nil]
    split
    · rename_i hz
      by_contra hc
      obtain ⟨x, hx⟩ := Option.ne_none_iff_exists'.mp (Ne.symm hc)
      exact (Dict.get?_eq_none_iff _ _).mp hg ((hk v).mpr ⟨c, Dict.mem_keys_of_get? hx, hz⟩)
    · rfl

/-- The loop over the views with targets, when every view answers. -/
theorem sumViews_ok {s : State C} {rowid : Option Row} {Ev : Dict Nat (Dict Col C.Cell)}
    {m : Nat → ENNReal} {l : Dict Nat (Dict Col C.Cell)} {acc : Fl} (ha : acc ≠ .nan)
    (hat : mass acc ≠ ⊤)
    (h : ∀ p ∈ l, ∃ view r, s.views.get? p.1 = some view ∧
      view.fastLogpdf rowid p.2 ((Ev.get? p.1).getD []) = .ok r ∧ r ≠ .nan ∧ mass r = m p.1 ∧
        m p.1 ≠ ⊤) :
    ∃ r, s.sumViews rowid Ev l acc = .ok r ∧ r ≠ .nan ∧
      mass r = mass acc * (l.keys.map m).prod := by
  induction l generalizing acc with
  | nil => exact ⟨acc, rfl, ha, by simp [Dict.keys]⟩
  | cons p t ih =>
    obtain ⟨view, r, h1, h2, h3, h4, h5⟩ := h p (by simp)
    obtain ⟨m1, m2, m3⟩ := mass_add ha h3 (ne_pinf_of_mass hat) (ne_pinf_of_mass (h4 ▸ h5))
    have hfin : mass (acc.add r) ≠ ⊤ := by rw [m1, h4]; exact ENNReal.mul_ne_top hat h5
    obtain ⟨q, q1, q2, q3⟩ := ih m2 hfin fun p hp => h p (by simp [hp])
    refine ⟨q, ?_, q2, ?_⟩
    · simp only [State.sumViews, h1, h2, q1]
    · rw [q3, m1, h4]
      simp only [Dict.keys, List.map_cons, List.prod_cons, mul_assoc]

/-- The loop over the views with targets, when a view refuses. -/
theorem sumViews_refused {s : State C} {rowid : Option Row} {Ev : Dict Nat (Dict Col C.Cell)}
    {l : Dict Nat (Dict Col C.Cell)} {acc : Fl} {e : Exn}
    (h : ∀ p ∈ l, ∃ view, s.views.get? p.1 = some view ∧
      (view.fastLogpdf rowid p.2 ((Ev.get? p.1).getD []) = .error e ∨
        ∃ r, view.fastLogpdf rowid p.2 ((Ev.get? p.1).getD []) = .ok r))
    (hx : ∃ p ∈ l, ∃ view, s.views.get? p.1 = some view ∧
      view.fastLogpdf rowid p.2 ((Ev.get? p.1).getD []) = .error e) :
    s.sumViews rowid Ev l acc = .error e := by
  induction l generalizing acc with
  | nil => obtain ⟨p, hp, -⟩ := hx; cases hp
  | cons p t ih =>
    obtain ⟨view, h1, h2⟩ := h p (by simp)
    rcases h2 with h2 | ⟨r, h2⟩
    · simp only [State.sumViews, h1, h2]
    · simp only [State.sumViews, h1, h2]
      refine ih (fun p hp => h p (by simp [hp])) ?_
      obtain ⟨q, hq, w, hw, he⟩ := hx
      rcases List.mem_cons.mp hq with rfl | hq
      · rw [h1] at hw; cases hw; rw [h2] at he; cases he
      · exact ⟨q, hq, w, hw, he⟩

theorem list_prod_ne_top (l : List ENNReal) (h : ∀ x ∈ l, x ≠ ⊤) : l.prod ≠ ⊤ := by
  induction l with
  | nil => simp
  | cons a t ih =>
    rw [List.prod_cons]
    exact ENNReal.mul_ne_top (h a (by simp)) (ih fun x hx => h x (by simp [hx]))

theorem prod_filter_ite {α : Type} (l : List α) (P : α → Prop) [DecidablePred P]
    (f : α → ENNReal) :
    ((l.filter fun a => P a).map f).prod = (l.map fun a => if P a then f a else 1).prod := by
  induction l with
  | nil => rfl
  | cons a t ih =>
    by_cases h : P a
    · simp [List.filter_cons, h, ih]
    · simp [List.filter_cons, h, ih]

open Classical in
/-- The product over the groups is a product over the views. -/
theorem prod_asked {s : State C} (h : State.Inv s) {T : Dict Col C.Cell} {keys : List Nat}
    (hnd : keys.Nodup) (hk : ∀ v, v ∈ keys ↔ Asked s T v)
    (F : Nat → View C → ENNReal) (m : Nat → ENNReal)
    (hm : ∀ v view, s.views.get? v = some view → m v = F v view) :
    (keys.map m).prod =
      (s.views.map fun p => if Asked s T p.1 then F p.1 p.2 else 1).prod := by
  have hperm : keys.Perm (s.views.keys.filter fun v => Asked s T v) := by
    refine (List.perm_ext_iff_of_nodup hnd (h.views.wf.filter _)).mpr fun v => ?_
    rw [hk, List.mem_filter]
    simp only [decide_eq_true_eq]
    refine ⟨fun ha => ⟨?_, ha⟩, fun ha => ha.2⟩
    obtain ⟨c, -, hz⟩ := ha
    exact (h.occ v).mpr ⟨c, hz⟩
  rw [(hperm.map m).prod_eq, prod_filter_ite, Dict.keys, List.map_map]
  congr 1
  refine List.map_congr_left fun p hp => ?_
  simp only [Function.comp]
  split
  · exact hm p.1 p.2 (Dict.get?_of_mem h.views.wf hp)
  · rfl

end Cgpm.Props
