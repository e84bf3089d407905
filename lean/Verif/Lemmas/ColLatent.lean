import Verif.Lemmas.Latent
import Verif.Lemmas.StateWeight
import Verif.Lemmas.StateConstraints

/-! What moving a column does to the latent structure of a State. -/
namespace Cgpm.State
open Cgpm.View Cgpm.Spec Cgpm.Props
variable {C : Cat}

theorem base_get {s : State C} {col : Col} {new : Nat} {va : View C} {i : Nat}
    (hi : i ≠ new) : (s.baseViews col new va).get? i = (s.views.get? i).map (drop col) := by
  unfold baseViews
  split
  · rw [Dict.get?_set, if_neg hi, get?_dropCol]
  · rw [get?_dropCol]

/-- The row partitions of the views once a column has moved. -/
theorem Moved.views_crp {s s' : State C} {col : Col} {d : Dim C} {cur new : Nat}
    {va : View C} (hm : Moved s col d cur new va s') :
    (∀ i v, i ≠ new → ¬ (i = cur ∧ s.crp.counts.get? cur = some 1) → s.views.get? i = some v →
      ∃ v', s'.views.get? i = some v' ∧ v'.crp = v.crp) ∧
    ∃ v', s'.views.get? new = some v' ∧ (pyMax s.views.keys < new → v'.crp = va.crp) ∧
      ∀ w, s.views.get? new = some w → v'.crp = w.crp := by
  obtain ⟨vb, d', j1, -, -, j4⟩ := hm.views
  have hvb : (pyMax s.views.keys < new → vb.crp = va.crp) ∧
      ∀ w, s.views.get? new = some w → vb.crp = w.crp := by
    unfold baseViews at j1
    split at j1
    · rename_i hlt
      rw [Dict.get?_set_self] at j1
      refine ⟨fun _ => by rw [Option.some.inj j1], fun w hw => ?_⟩
      exact absurd hlt (mem_le_pyMax (Dict.mem_keys_of_get? hw))
    · rename_i hlt
      refine ⟨fun h => absurd h hlt, fun w hw => ?_⟩
      rw [get?_dropCol, hw] at j1
      rw [← Option.some.inj j1]; rfl
  rw [j4]
  constructor
  · intro i v hi hne hv
    refine ⟨drop col v, ?_, rfl⟩
    split
    · rename_i hcon
      rw [Dict.get?_erase, if_neg (fun e => hne ⟨e, hcon.2⟩), Dict.get?_set, if_neg hi, base_get hi,
        hv]; rfl
    · rw [Dict.get?_set, if_neg hi, base_get hi, hv]; rfl
  · refine ⟨{ vb with dims := vb.dims.set col d' }, ?_, hvb⟩
    split
    · rename_i hcon
      rw [Dict.get?_erase, if_neg (Ne.symm hcon.1), Dict.get?_set_self]
    · rw [Dict.get?_set_self]

theorem fsum_dropCol (g : Crp → ℝ) (col : Col) (vs : Dict Nat (View C)) :
    fsum (fun v => g v.crp) (dropCol col vs) = fsum (fun v => g v.crp) vs := by
  unfold fsum dropCol Dict.vals
  simp only [List.map_map]
  rfl

open Classical in
/-- A sum over the row partitions of the views once a column has moved. -/
theorem Moved.fsum_crp {s s' : State C} (h : Inv s) {col : Col} {d : Dim C} {cur new : Nat}
    {va : View C} (hm : Moved s col d cur new va s') (g : Crp → ℝ) {vcur : View C}
    (hvc : s.views.get? cur = some vcur) :
    fsum (fun v => g v.crp) s'.views = fsum (fun v => g v.crp) s.views
      - (if cur ≠ new ∧ s.crp.counts.get? cur = some 1 then g vcur.crp else 0)
      + (if pyMax s.views.keys < new then g va.crp else 0) := by
  obtain ⟨vb, d', j1, -, -, j4⟩ := hm.views
  have hwf : (dropCol col s.views).WF := (h.views.dropCol col).wf
  have hbwf : (s.baseViews col new va).WF := by
    unfold baseViews; split
    · exact Dict.wf_set hwf _ _
    · exact hwf
  have hbase : fsum (fun v => g v.crp) (s.baseViews col new va) =
      fsum (fun v => g v.crp) s.views + (if pyMax s.views.keys < new then g va.crp else 0) := by
    unfold baseViews; split
    · rename_i hlt
      have hn : s.views.get? new = none := by
        rw [Dict.get?_eq_none_iff]; exact fun hm => mem_le_pyMax hm hlt
      rw [fsum_set _ hwf, get?_dropCol, hn, fsum_dropCol]
      simp
    · rw [fsum_dropCol]; simp
  have hset : fsum (fun v => g v.crp) ((s.baseViews col new va).set new
      { vb with dims := vb.dims.set col d' }) =
      fsum (fun v => g v.crp) s.views + (if pyMax s.views.keys < new then g va.crp else 0) := by
    rw [fsum_set _ hbwf, j1, hbase]; simp
  rw [j4]
  by_cases hcon : cur ≠ new ∧ s.crp.counts.get? cur = some 1
  · rw [if_pos hcon, if_pos hcon, fsum_erase _ (Dict.wf_set hbwf _ _), hset,
      Dict.get?_set_ne _ _ hcon.1, base_get hcon.1, hvc]
    simp [drop]
    ring
  · rw [if_neg hcon, if_neg hcon, hset]; ring

/-! ### The latent structure -/

/-- The concentration and the row partition of a view. -/
def crpLabel (n : ℕ) (c : Crp) : ℝ × RowPartition (Finset.range n) := (c.alpha, crpPart n c)

theorem latent_view {s : State C} (cols : Finset Col) (n : ℕ) {c : {c // c ∈ cols}} {i : Nat}
    {v : View C} (hz : s.Zv c.1 = some i) (hv : s.views.get? i = some v) :
    (latentOf cols (Finset.range n) s).view c = crpLabel n v.crp := by
  have : viewOf s c.1 = some v := by simp [viewOf, hz, hv]
  show (match viewOf s c.1 with
    | some v => (v.crp.alpha, partitionOf (Finset.range n) v)
    | none => (0, Setoid.ker fun r => r)) = _
  rw [this]
  rfl

/-- Moving a column to view `new` leaves the other columns where they are. -/
theorem Moved.latent {s s' : State C} (h : Inv s) {col : Col} {d : Dim C} {cur new : Nat}
    {va : View C} (hcur : s.Zv col = some cur) (hm : Moved s col d cur new va s')
    {cols : Finset Col} (hcols : ∀ c, c ∈ cols ↔ c ∈ s.outputs) (hc : col ∈ cols) (n : ℕ) :
    (latentOf cols (Finset.range n) s).Off ⟨col, hc⟩ (latentOf cols (Finset.range n) s') ∧
    (∀ a : {c // c ∈ cols}, a ≠ ⟨col, hc⟩ →
      ((latentOf cols (Finset.range n) s').part.r a ⟨col, hc⟩ ↔ s.Zv a.1 = some new)) ∧
    (pyMax s.views.keys < new →
      (latentOf cols (Finset.range n) s').view ⟨col, hc⟩ = crpLabel n va.crp) ∧
    ∀ w, s.views.get? new = some w →
      (latentOf cols (Finset.range n) s').view ⟨col, hc⟩ = crpLabel n w.crp := by
  obtain ⟨hv1, vn, hv2, hv3, hv4⟩ := hm.views_crp
  have hne : ∀ a : {c // c ∈ cols}, a ≠ ⟨col, hc⟩ → a.1 ≠ col := fun a ha e => ha (Subtype.ext e)
  have hcol : s'.Zv col = some new := by rw [hm.Zv]; simp
  have hcv := latent_view (c := ⟨col, hc⟩) cols n hcol hv2
  refine ⟨⟨hm.alpha.symm, fun a b ha hb => ?_, fun a ha => ?_⟩, fun a ha => ?_, fun hlt => ?_,
    fun w hw => ?_⟩
  · show s.Zv a.1 = s.Zv b.1 ↔ s'.Zv a.1 = s'.Zv b.1
    rw [hm.Zv, upd_ne _ _ (hne a ha), upd_ne _ _ (hne b hb)]
  · obtain ⟨i, v, -, hz, hv, -⟩ := h.dim ((hcols a.1).mp a.2)
    have hz' : s'.Zv a.1 = some i := by rw [hm.Zv, upd_ne _ _ (hne a ha)]; exact hz
    rw [latent_view cols n hz hv]
    by_cases e : i = new
    · subst e
      rw [latent_view cols n hz' hv2, hv4 v hv]
    · obtain ⟨v', g1, g2⟩ := hv1 i v e (by
        rintro ⟨rfl, h1⟩
        exact hne a ha ((count_one_iff h.crp hcur h1).mp rfl a.1 hz)) hv
      rw [latent_view cols n hz' g1, g2]
  · show s'.Zv a.1 = s'.Zv col ↔ _
    rw [hcol, hm.Zv, upd_ne _ _ (hne a ha)]
  · rw [hcv, hv3 hlt]
  · rw [hcv, hv4 w hw]

end Cgpm.State
