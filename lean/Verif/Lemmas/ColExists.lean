import Verif.Lemmas.ColKin
import Verif.Lemmas.Metadata

/-! Every latent structure with concentrations of the grids is that of some State. -/
namespace Cgpm.State
open Cgpm.View Cgpm.Spec Cgpm.Props
variable {C : Cat}

/-- The representative of the class of `x`. -/
noncomputable def repOf {F : Finset ℕ} (q : Setoid {c // c ∈ F}) (x : {c // c ∈ F}) : {c // c ∈ F} :=
  (Quotient.mk q x).out

theorem repOf_eq {F : Finset ℕ} (q : Setoid {c // c ∈ F}) (x y : {c // c ∈ F}) :
    repOf q x = repOf q y ↔ q.r x y := by
  unfold repOf
  rw [Quotient.out_inj, Quotient.eq]

theorem repOf_rel {F : Finset ℕ} (q : Setoid {c // c ∈ F}) (x : {c // c ∈ F}) :
    q.r (repOf q x) x := Quotient.mk_out x

theorem get?_map_keys (l : List Col) (f : Col → Nat) (c : Col) :
    Dict.get? (l.map fun c => (c, f c)) c = if c ∈ l then some (f c) else none := by
  induction l with
  | nil => simp
  | cons a l ih =>
    by_cases h : a = c
    · subst h; simp [Dict.get?]
    · rw [List.map_cons, Dict.get?_cons, if_neg h, ih]
      simp [Ne.symm h]

theorem Inv.exists_latent (cfg : Cfg C) {s : State C} (h : Inv s)
    (L : Latent (colsOf s) (rowsOf s)) (hα : 0 < L.alpha) (hv : ∀ c, 0 < (L.view c).1) :
    ∃ t, SameState cfg s t ∧ latentOf (colsOf s) (rowsOf s) t = L := by
  classical
  have hcol : ∀ {c}, c ∈ s.outputs ↔ c ∈ colsOf s := fun {c} => by simp [colsOf]
  obtain ⟨c0, hc0⟩ := List.exists_mem_of_ne_nil _ h.data.ne
  obtain ⟨v0, w0, d0, -, -, -, -, -⟩ := h.dim hc0
  set schema : Col → ColSpec C := fun c => match s.dimFor c with
    | .ok d => View.specOf d
    | .error _ => View.specOf d0 with hsch
  set z : Col → Nat := fun c => if hc : c ∈ colsOf s then (repOf L.part ⟨c, hc⟩).1 else 0 with hz
  set Zv : Dict Col Nat := s.outputs.map fun c => (c, z c) with hZv
  set order : List Nat := (s.outputs.toFinset.image z).sort (· ≤ ·) with hord
  set rows : Nat → ℝ × List Tab := fun i => if hc : i ∈ colsOf s then
    ((L.view ⟨i, hc⟩).1, (List.range s.nRows).map fun r =>
      if hr : r ∈ rowsOf s then (repOf (L.view ⟨i, hc⟩).2 ⟨r, hr⟩).1 else 0) else (1, []) with hrw
  have hget : ∀ c, Zv.get? c = if c ∈ s.outputs then some (z c) else none := fun c =>
    get?_map_keys _ _ _
  have hzmem : ∀ c (hc : c ∈ colsOf s), z c ∈ colsOf s := fun c hc => by
    simp only [hz, dif_pos hc]; exact (repOf L.part ⟨c, hc⟩).2
  have hmo : ∀ i, i ∈ order ↔ ∃ c ∈ s.outputs, z c = i := fun i => by simp [hord]
  have hkeys : Zv.keys = s.outputs := by simp [hZv, Dict.keys, Function.comp_def]
  have hocc : ∀ i, i ∈ order ↔ ∃ c, Zv.get? c = some i := fun i => by
    rw [hmo]
    simp only [hget]
    constructor
    · rintro ⟨c, hc, e⟩; exact ⟨c, by rw [if_pos hc, e]⟩
    · rintro ⟨c, hc⟩
      split at hc
      · rename_i hm; exact ⟨c, hm, by simpa using hc⟩
      · cases hc
  have hrange : ∀ {r}, r ∈ rowsOf s ↔ r < s.nRows := fun {r} => by simp [rowsOf]
  have hschema : ∀ c ∈ s.outputs, ∃ v view d, s.Zv c = some v ∧ s.views.get? v = some view ∧
      view.dims.get? c = some d ∧ s.dimFor c = .ok d ∧ schema c = View.specOf d ∧
      DimOk s.tbl view.seat c d ∧
      VOk s.tbl s.nRows s.Zv (· ∈ s.outputs) v view := by
    intro c hc
    obtain ⟨v, view, d, g1, g2, g3, g4, g5, g6⟩ := h.dim hc
    exact ⟨v, view, d, g1, g2, g3, g4, by simp [hsch, g4], g6, g5⟩
  have hlegal : LegalInit s.X s.nRows schema L.alpha Zv order rows := by
    refine ⟨⟨h.data.wf, ?_⟩, h.data.len, h.pos, hα, ⟨?_, fun c => ?_⟩,
      ⟨Finset.sort_nodup _ _, hocc⟩, fun v hv' => ?_, fun c hc => ?_, fun c hc i hi => ?_,
      fun c hc r hr => ?_⟩
    · intro e
      exact h.data.ne (by rw [← h.data.keys, e]; rfl)
    · rw [hkeys, ← h.data.keys]; exact h.data.wf
    · rw [hkeys, h.data.keys]
    · obtain ⟨c, hc, rfl⟩ := (hmo v).mp hv'
      have := hzmem c (hcol.mp hc)
      simp only [hrw, dif_pos this]
      exact ⟨hv _, by simp⟩
    · rw [h.data.keys] at hc
      obtain ⟨v, view, d, -, -, -, -, g4, g5, -⟩ := hschema c hc
      rw [g4]; exact g5.hyp
    · rw [h.data.keys] at hc ⊢
      obtain ⟨v, view, d, -, -, g3, -, g4, g5, g6⟩ := hschema c hc
      rw [g4] at hi
      exact g6.ins (c, d) (Dict.mem_of_get? g3) i hi
    · rw [h.data.keys] at hc
      obtain ⟨v, view, d, -, -, g3, -, g4, g5, g6⟩ := hschema c hc
      rw [admissible_iff, g4]
      obtain ⟨k, hk⟩ := Option.ne_none_iff_exists'.mp ((g6.rows r).mpr hr)
      have ha := g5.acc r k hk
      have hf : Dim.Frame (Dim.new c d.inputs d.kind d.hyp) d := ⟨g5.index, rfl, rfl, rfl⟩
      exact (View.accepts_frame hf r).mp ha
  obtain ⟨t, i1, i2, i3, i4, i5, i6, i7, i8, i9, i10, i11⟩ := init_ok s.Cd s.Ci (initOk_of hlegal)
  have hZ : ∀ c (hc : c ∈ colsOf s), t.Zv c = some (repOf L.part ⟨c, hc⟩).1 := fun c hc => by
    rw [i7, hget, if_pos (hcol.mpr hc)]
    simp only [hz, dif_pos hc]
  refine ⟨t, ⟨?_, ?_, i3, by rw [i4, h.data.keys], i9, i10, ?_⟩, ?_⟩
  · exact StateReachable.of _ _ _ _ _ _ _ _ _ hlegal t i1 [] trivial
  · unfold viewsSorted
    rw [i8, hord]
    exact Finset.sortedLT_sort _ |>.pairwise
  · intro c d d' h1 h2
    obtain ⟨i, v, hzc, hvc, hdc⟩ := dimFor_ok h2
    obtain ⟨-, -, hfr⟩ := i11 i v hvc
    have hc : c ∈ s.outputs := (dimFor_of_mem h).mp ⟨d, h1⟩
    obtain ⟨v1, w1, d1, g1, g2, g3, g4, g5, g6, -⟩ := hschema c hc
    rw [h1] at g4; cases g4
    have := hfr c d' hdc
    rw [g5] at this
    exact ⟨this.index.trans g6.index.symm, this.inputs, this.kind, this.hyp⟩
  · refine Latent.ext i6 ?_ ?_
    · refine Setoid.ext fun a b => ?_
      show t.Zv a.1 = t.Zv b.1 ↔ _
      rw [hZ a.1 a.2, hZ b.1 b.2, Option.some_inj, Subtype.val_inj, repOf_eq]
    · funext c
      have hrep := L.same _ _ (repOf_rel L.part c)
      obtain ⟨i, hi⟩ : ∃ i, i = repOf L.part c := ⟨_, rfl⟩
      have hzc := hZ c.1 c.2
      have hik : i.1 ∈ t.views.keys := by
        rw [i8, hocc]
        exact ⟨c.1, by rw [← i7, hzc, hi]⟩
      obtain ⟨v, hvv⟩ := Dict.exists_of_mem_keys hik
      obtain ⟨j1, j2, -⟩ := i11 i.1 v hvv
      have hvo : viewOf t c.1 = some v := by
        unfold viewOf; rw [hzc]; rw [hi] at hvv; exact hvv
      show (match viewOf t c.1 with
        | some v => (v.crp.alpha, partitionOf (rowsOf s) v)
        | none => (0, Setoid.ker fun r => r)) = _
      rw [hvo, ← hrep, ← hi]
      have hri : rows i.1 = ((L.view i).1, (List.range s.nRows).map fun r =>
          if hr : r ∈ rowsOf s then (repOf (L.view i).2 ⟨r, hr⟩).1 else 0) := by
        simp only [hrw, dif_pos i.2]
      refine Prod.ext ?_ ?_
      · simp only [j1, hri]
      · refine Setoid.ext fun a b => ?_
        have hseat : ∀ a : {r // r ∈ rowsOf s}, v.seat a.1 = some (repOf (L.view i).2 a).1 := by
          intro a
          rw [j2, hri]
          simp only [List.getElem?_map, List.getElem?_range (hrange.mp a.2), Option.map_some,
            dif_pos a.2]
        show v.seat a.1 = v.seat b.1 ↔ _
        rw [hseat, hseat, Option.some_inj, Subtype.val_inj, repOf_eq]

end Cgpm.State
