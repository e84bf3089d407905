import Verif.Lemmas.ColLaw
import Verif.Lemmas.StateFrame

/-! The weight of a State depends on its latent structure only. -/
namespace Cgpm.State
open Cgpm.View Cgpm.Spec Cgpm.Props
variable {C : Cat}

/-- The consistent States with the data, columns and constraints of `s`. -/
structure KinS (s t : State C) : Prop where
  inv : Inv t
  X : t.X = s.X
  outputs : t.outputs = s.outputs
  Cd : t.Cd = s.Cd
  Ci : t.Ci = s.Ci
  columns : ∀ c d d', s.dimFor c = .ok d → t.dimFor c = .ok d' → Dim.Frame d d'

theorem KinS.nRows {s t : State C} (h : KinS s t) : t.nRows = s.nRows := by
  unfold State.nRows; rw [h.X, h.outputs]

theorem KinS.tbl {s t : State C} (h : KinS s t) : t.tbl = s.tbl := by
  unfold State.tbl; rw [h.X]

theorem KinS.refl {s : State C} (h : Inv s) : KinS s s :=
  ⟨h, rfl, rfl, rfl, rfl, fun c d d' h1 h2 => by
    rw [h1] at h2; cases h2; exact Dim.Frame.refl d⟩

theorem KinS.moved {s t t' : State C} (hs : Inv s) (h : KinS s t) {col : Col} {d : Dim C}
    {cur new : Nat} {va : View C} (hd : t.dimFor col = .ok d) (hm : Moved t col d cur new va t')
    (hi : Inv t') : KinS s t' where
  inv := hi
  X := hm.X.trans h.X
  outputs := hm.outputs.trans h.outputs
  Cd := hm.Cd.trans h.Cd
  Ci := hm.Ci.trans h.Ci
  columns := fun c d1 d2 h1 h2 => by
    obtain ⟨d0, g1, g2⟩ := hm.frames h.inv hd h2
    exact (h.columns c d1 d0 h1 g1).trans g2

/-- Two views of States of one model that hold the same columns have the same columns. -/
theorem KinS.same {s t t' : State C} (hs : Inv s) (h : KinS s t) (h' : KinS s t') {i i' : Nat}
    {v v' : View C} (hv : t.views.get? i = some v) (hv' : t'.views.get? i' = some v')
    (hz : ∀ c, t.Zv c = some i ↔ t'.Zv c = some i') : Same v v' := by
  intro c
  have ho := h.inv.views.view i v hv
  have ho' := h'.inv.views.view i' v' hv'
  have hk : c ∈ v.dims.keys ↔ c ∈ v'.dims.keys := by rw [ho.dims, ho'.dims, hz]
  cases hd : v.dims.get? c with
  | none =>
    have : v'.dims.get? c = none := by
      rw [Dict.get?_eq_none_iff, ← hk, ← Dict.get?_eq_none_iff]; exact hd
    rw [this]; exact Option.Rel.none
  | some d =>
    obtain ⟨d', hd'⟩ := Dict.exists_of_mem_keys (hk.mp (Dict.mem_keys_of_get? hd))
    rw [hd']
    have h1 := h.inv.dimFor_of_view hv hd
    have h2 := h'.inv.dimFor_of_view hv' hd'
    have hc : c ∈ s.outputs := by
      rw [← h.outputs, ← h.inv.cols, (ho.dims c).mp (Dict.mem_keys_of_get? hd)]; simp
    obtain ⟨-, -, d0, -, -, -, h0, -⟩ := hs.dim hc
    have f1 := h.columns c d0 d h0 h1
    have f2 := h'.columns c d0 d' h0 h2
    exact Option.Rel.some ⟨f2.index.trans f1.index.symm, f2.inputs.trans f1.inputs.symm,
      f2.kind.trans f1.kind.symm, f2.hyp.trans f1.hyp.symm⟩

/-- The views of two States of one model with the same latent structure correspond. -/
theorem KinS.relabel {s t t' : State C} (h : KinS s t) (h' : KinS s t')
    {cols : Finset Col} (hcols : ∀ c, c ∈ cols ↔ c ∈ s.outputs) {n : ℕ}
    (he : latentOf cols (Finset.range n) t = latentOf cols (Finset.range n) t') :
    ∃ ρ, Relabel ρ t.Zv t'.Zv := by
  refine exists_relabel (fun c => ?_) (fun c c' hc hc' => ?_)
  · rw [h.inv.cols, h'.inv.cols, h.outputs, h'.outputs]
  · rw [h.inv.cols, h.outputs, ← hcols] at hc hc'
    have := congrArg (fun L => L.part.r ⟨c, hc⟩ ⟨c', hc'⟩) he
    exact iff_of_eq this

theorem KinS.weight (hL : C.Lawful) {s t t' : State C} (hs : Inv s) (h : KinS s t) (h' : KinS s t')
    {cols : Finset Col} (hcols : ∀ c, c ∈ cols ↔ c ∈ s.outputs) {n : ℕ} (hn : s.nRows = n)
    (he : latentOf cols (Finset.range n) t = latentOf cols (Finset.range n) t') :
    freeWeight t = freeWeight t' ∧ t.score = t'.score := by
  obtain ⟨ρ, hρ⟩ := h.relabel h' hcols he
  have hα : t.crp.alpha = t'.crp.alpha := congrArg Latent.alpha he
  -- the views
  obtain ⟨q, hq⟩ : ∃ q : View C → ℝ × ℝ, ∀ v, q v =
      (concentrationPrior n v.crp.alpha, v.score) := ⟨_, fun _ => rfl⟩
  have hocc : ∀ i, i ∈ t.views.keys ↔ Occ t.Zv i := fun i => h.inv.occ i
  have hocc' : ∀ i, i ∈ t'.views.keys ↔ Occ t'.Zv i := fun i => h'.inv.occ i
  have hwf : ∀ u : State C, Inv u → Dict.WF (u.views.map fun p => (p.1, q p.2)) := fun u hu => by
    unfold Dict.WF; rw [Dict.keys_map_val]; exact hu.views.wf
  have hperm : (Dict.vals (t.views.map fun p => (p.1, q p.2))).Perm
      (Dict.vals (t'.views.map fun p => (p.1, q p.2))) := by
    refine Dict.vals_perm_of_relabel (hwf t h.inv) (hwf t' h'.inv) ρ
      ?_ ?_ ?_
    · intro k hk k' hk' e
      rw [Dict.keys_map_val, hocc] at hk hk'
      exact hρ.inj k k' hk hk' e
    · intro k hk
      rw [Dict.keys_map_val] at hk
      obtain ⟨v, hv⟩ := Dict.exists_of_mem_keys hk
      obtain ⟨c, hc⟩ := (hocc k).mp hk
      have hc' := hρ.fwd hc
      obtain ⟨v', hv'⟩ := Dict.exists_of_mem_keys ((hocc' (ρ k)).mpr ⟨c, hc'⟩)
      rw [Dict.get?_map_val, Dict.get?_map_val, hv, hv']
      have hS := h.same hs h' hv hv' (fun c => (hρ.iff ((hocc k).mp hk) c).symm)
      have hcc : c ∈ cols := by
        rw [hcols, ← h.outputs, ← h.inv.cols, hc]; simp
      have hlab := congrArg (fun L => L.view ⟨c, hcc⟩) he
      rw [latent_view cols n hc hv, latent_view cols n hc' hv'] at hlab
      have ho := h.inv.views.view k v hv
      have ho' := h'.inv.views.view (ρ k) v' hv'
      have ha : v.crp.alpha = v'.crp.alpha := congrArg Prod.fst hlab
      have hp : crpPart n v.crp = crpPart n v'.crp := congrArg Prod.snd hlab
      have hr : ∀ r, v.seat r ≠ none ↔ r < n := by rw [← hn, ← h.nRows]; exact ho.rows
      have hr' : ∀ r, v'.seat r ≠ none ↔ r < n := by rw [← hn, ← h'.nRows]; exact ho'.rows
      obtain ⟨σ, hσ⟩ := exists_relabel (s := v.seat) (t := v'.seat)
        (fun r => (hr' r).trans (hr r).symm) (by
          intro r r' h1 h2
          have := Setoid.ext_iff.mp hp ⟨r, by simpa using (hr r).mp h1⟩
            ⟨r', by simpa using (hr r').mp h2⟩
          exact this)
      have hinv : View.Inv s.tbl v := h.tbl ▸ ho.inv
      have hinv' : View.Inv s.tbl v' := h'.tbl ▸ ho'.inv
      simp only [Option.map_some, hq]
      rw [ha, score_relabel hL hinv hinv' ha hS hσ]
    · intro k' hk'
      rw [Dict.keys_map_val, hocc'] at hk'
      obtain ⟨k, h1, h2⟩ := hρ.occ hk'
      exact ⟨k, by rw [Dict.keys_map_val, hocc]; exact h1, h2⟩
  have hv1 : ∀ u : State C, Dict.vals (u.views.map fun p => (p.1, q p.2)) = u.views.vals.map q := by
    intro u; simp [Dict.vals, Function.comp_def]
  rw [hv1, hv1] at hperm
  have hsum : (t.views.vals.map View.score).sum = (t'.views.vals.map View.score).sum := by
    have := (hperm.map Prod.snd).sum_eq
    simpa [List.map_map, Function.comp_def, hq] using this
  have hprod : (t.views.vals.map fun v => concentrationPrior n v.crp.alpha).prod =
      (t'.views.vals.map fun v => concentrationPrior n v.crp.alpha).prod := by
    have := (hperm.map Prod.fst).prod_eq
    simpa [List.map_map, Function.comp_def, hq] using this
  have hcrp : t.crp.logpdfScore = t'.crp.logpdfScore :=
    crp_score_relabel h.inv.crp h'.inv.crp hα hρ
  have hscore : t.score = t'.score := by
    unfold State.score; rw [hcrp, hsum]
  refine ⟨?_, hscore⟩
  have hr : ∀ u, KinS s u → (rowsOf u).card = n := fun u hu => by
    unfold rowsOf; rw [Finset.card_range, hu.nRows, hn]
  unfold freeWeight
  rw [hr t h, hr t' h', hα, hprod, hscore]
  unfold colsOf
  rw [h.outputs, h'.outputs]

end Cgpm.State
