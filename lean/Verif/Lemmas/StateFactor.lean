import Verif.Lemmas.LatentLocal
import Verif.Lemmas.ColStep

/-! The weight of a State has one factor for each view. -/
namespace Cgpm.State
open Cgpm.View Cgpm.Spec Cgpm.Props
open Cgpm.Spec.Hyper
variable {C : Cat}

/-- The factor of a view in the weight of a State with `n` rows. -/
noncomputable def viewFactor (n : ℕ) (v : View C) : ℝ :=
  concentrationPrior n v.crp.alpha * Real.exp v.score

theorem KinS.setView {s t : State C} (h : KinS s t) {i : Nat} {v v' : View C}
    (hv : t.views.get? i = some v) (hI : View.Inv s.tbl v')
    (hr : ∀ r, v'.seat r ≠ none ↔ r < s.nRows) (hS : Same v v') :
    KinS s { t with views := t.views.set i v' } := by
  have ho := h.inv.views.view i v hv
  have hok : VOk t.tbl t.nRows t.Zv (· ∈ t.outputs) i v' :=
    ho.same hS (h.tbl ▸ hI) (by rw [h.nRows]; exact hr)
  refine ⟨h.inv.setView hv hok, h.X, h.outputs, h.Cd, h.Ci, fun c d d' h1 h2 => ?_⟩
  obtain ⟨j, w, g1, g2, g3⟩ := dimFor_ok h2
  by_cases e : j = i
  · subst e
    rw [show ({ t with views := t.views.set j v' } : State C).views = t.views.set j v' from rfl,
      Dict.get?_set_self] at g2
    obtain rfl := Option.some.inj g2
    have := hS c
    rw [g3] at this
    cases hd : v.dims.get? c with
    | none => rw [hd] at this; cases this
    | some d0 =>
      rw [hd] at this
      cases this with
      | some hf => exact (h.columns c d d0 h1 (h.inv.dimFor_of_view hv hd)).trans hf
  · rw [show ({ t with views := t.views.set i v' } : State C).views = t.views.set i v' from rfl,
      Dict.get?_set, if_neg e] at g2
    exact h.columns c d d' h1 (h.inv.dimFor_of_view g2 g3)

theorem latentOf_setView {s t : State C} (h : KinS s t) {i : Nat} {v v' : View C}
    (hv : t.views.get? i = some v) {c : {c // c ∈ colsOf s}} (hz : t.Zv c.1 = some i) :
    latentOf (colsOf s) (rowsOf s) { t with views := t.views.set i v' }
      = (latentOf (colsOf s) (rowsOf s) t).setView c (v'.crp.alpha, partitionOf (rowsOf s) v') := by
  have hz0 : ∀ b, State.Zv { t with views := t.views.set i v' } b = t.Zv b := fun _ => rfl
  refine Latent.ext rfl rfl (funext fun b => ?_)
  obtain ⟨j, w, -, g1, g2, -⟩ := h.inv.dim (c := b.1) (by rw [h.outputs]; exact mem_colsOf.mp b.2)
  by_cases e : j = i
  · subst e
    have hr : (latentOf (colsOf s) (rowsOf s) t).part.r b c := by
      show t.Zv b.1 = t.Zv c.1
      rw [g1, hz]
    rw [Latent.setView_rel hr]
    exact latent_view (s := { t with views := t.views.set j v' }) (colsOf s) s.nRows (c := b) g1
      (Dict.get?_set_self _ _ _)
  · have hr : ¬ (latentOf (colsOf s) (rowsOf s) t).part.r b c := by
      intro hh
      have hh' : t.Zv b.1 = t.Zv c.1 := hh
      rw [g1, hz] at hh'
      exact e (Option.some.inj hh')
    rw [Latent.setView_off hr]
    have h1 := latent_view (colsOf s) s.nRows (c := b) g1 g2
    have h2 := latent_view (s := { t with views := t.views.set i v' }) (colsOf s) s.nRows (c := b) g1
      (v := w) (by
        show Dict.get? (t.views.set i v') j = some w
        rw [Dict.get?_set, if_neg e]; exact g2)
    exact h2.trans h1.symm

theorem freeWeight_setView {t : State C} (h : Inv t) {i : Nat} {v v' : View C}
    (hv : t.views.get? i = some v) :
    freeWeight { t with views := t.views.set i v' } * viewFactor t.nRows v
      = freeWeight t * viewFactor t.nRows v' := by
  have hwf := h.views.wf
  have hp := Dict.perm_cons_erase hwf hv
  have hp' : (t.views.set i v').Perm ((i, v') :: (t.views.erase i)) := by
    have := Dict.perm_cons_erase (Dict.wf_set hwf i v') (Dict.get?_set_self t.views i v')
    rwa [Dict.erase_set] at this
  have hcard : ∀ n : ℕ, (Finset.range n).card = n := Finset.card_range
  unfold freeWeight viewFactor State.score
  simp only [colsOf, rowsOf, hcard]
  have e1 : ∀ g : View C → ℝ, (t.views.vals.map g).prod = g v * ((t.views.erase i).vals.map g).prod :=
    fun g => by
      have := ((hp.map Prod.snd).map g).prod_eq
      simpa [Dict.vals] using this
  have e2 : ∀ g : View C → ℝ, ((t.views.set i v').vals.map g).prod
      = g v' * ((t.views.erase i).vals.map g).prod := fun g => by
    have := ((hp'.map Prod.snd).map g).prod_eq
    simpa [Dict.vals] using this
  have e3 : (t.views.vals.map View.score).sum = v.score + ((t.views.erase i).vals.map View.score).sum := by
    have := ((hp.map Prod.snd).map View.score).sum_eq
    simpa [Dict.vals] using this
  have e4 : ((t.views.set i v').vals.map View.score).sum
      = v'.score + ((t.views.erase i).vals.map View.score).sum := by
    have := ((hp'.map Prod.snd).map View.score).sum_eq
    simpa [Dict.vals] using this
  have e5 : ({ t with views := t.views.set i v' } : State C).nRows = t.nRows := rfl
  rw [e1, e2, e3, e4, e5]
  simp only [Real.exp_add]
  ring

theorem OnModel.setView {s t : State C} (h : OnModel s t) {i : Nat} {v v' : View C}
    (hv : t.views.get? i = some v) (hI : View.Inv s.tbl v')
    (hr : ∀ r, v'.seat r ≠ none ↔ r < s.nRows) (hS : Same v v')
    (ha : v'.crp.alpha ∈ concentrations s.nRows) :
    OnModel s { t with views := t.views.set i v' } := by
  refine ⟨h.kin.setView hv hI hr hS, ?_, ?_⟩
  · unfold Sorted
    rw [show ({ t with views := t.views.set i v' } : State C).views = t.views.set i v' from rfl,
      Dict.keys_set, if_pos (Dict.mem_keys_of_get? hv)]
    exact h.sorted
  · obtain ⟨c, hz⟩ := (h.kin.inv.occ i).mp (Dict.mem_keys_of_get? hv)
    have hc : c ∈ colsOf s := by
      rw [mem_colsOf, ← h.kin.outputs, ← h.kin.inv.cols, hz]; simp
    rw [latentOf_setView h.kin hv (c := ⟨c, hc⟩) hz]
    refine Latent.mem_latents.mp (Latent.mem_latents_setView (Latent.mem_latents.mpr h.grid) ?_)
    refine mem_blockLabels.mpr ?_
    unfold rowsOf
    rw [Finset.card_range]
    exact ha

/-- Views of States of one model with the same columns, concentration and row partition have the
same score. -/
theorem KinS.view_score (hL : C.Lawful) {s t t' : State C} (hs : Inv s) (h : KinS s t)
    (h' : KinS s t') {c : {c // c ∈ colsOf s}} {i i' : Nat} {v v' : View C}
    (hz : t.Zv c.1 = some i) (hz' : t'.Zv c.1 = some i') (hv : t.views.get? i = some v)
    (hv' : t'.views.get? i' = some v')
    (hp : (latentOf (colsOf s) (rowsOf s) t).part = (latentOf (colsOf s) (rowsOf s) t').part)
    (hl : (latentOf (colsOf s) (rowsOf s) t).view c = (latentOf (colsOf s) (rowsOf s) t').view c) :
    v.score = v'.score ∧ v.crp.alpha = v'.crp.alpha ∧ Same v v' := by
  have hlab : crpLabel s.nRows v.crp = crpLabel s.nRows v'.crp :=
    (latent_view (colsOf s) s.nRows hz hv).symm.trans
      (Eq.trans hl (latent_view (colsOf s) s.nRows hz' hv'))
  have ha : v.crp.alpha = v'.crp.alpha := congrArg Prod.fst hlab
  have hq : crpPart s.nRows v.crp = crpPart s.nRows v'.crp := congrArg Prod.snd hlab
  have ho := h.inv.views.view i v hv
  have ho' := h'.inv.views.view i' v' hv'
  have hS := h.same hs h' hv hv' fun b => by
    constructor
    · intro hb
      have hbc : b ∈ colsOf s := by rw [mem_colsOf, ← h.outputs, ← h.inv.cols, hb]; simp
      have hr : (latentOf (colsOf s) (rowsOf s) t).part.r ⟨b, hbc⟩ c := hb.trans hz.symm
      rw [hp] at hr
      exact (show t'.Zv b = t'.Zv c.1 from hr).trans hz'
    · intro hb
      have hbc : b ∈ colsOf s := by rw [mem_colsOf, ← h'.outputs, ← h'.inv.cols, hb]; simp
      have hr : (latentOf (colsOf s) (rowsOf s) t').part.r ⟨b, hbc⟩ c := hb.trans hz'.symm
      rw [← hp] at hr
      exact (show t.Zv b = t.Zv c.1 from hr).trans hz
  have hr : ∀ r, v.seat r ≠ none ↔ r < s.nRows := by rw [← h.nRows]; exact ho.rows
  have hr' : ∀ r, v'.seat r ≠ none ↔ r < s.nRows := by rw [← h'.nRows]; exact ho'.rows
  obtain ⟨σ, hσ⟩ := exists_relabel (s := v.seat) (t := v'.seat)
    (fun r => (hr' r).trans (hr r).symm) (by
      intro r r' h1 h2
      exact Setoid.ext_iff.mp hq ⟨r, by simpa using (hr r).mp h1⟩
        ⟨r', by simpa using (hr r').mp h2⟩)
  have hinv : View.Inv s.tbl v := h.tbl ▸ ho.inv
  have hinv' : View.Inv s.tbl v' := h'.tbl ▸ ho'.inv
  exact ⟨score_relabel hL hinv hinv' ha hS hσ, ha, hS⟩

/-- The weights of the concentrations and row partitions of the blocks. -/
theorem Inv.exists_factor (hL : C.Lawful) (cfg : Cfg C) {s : State C} (hs : Inv s)
    {U : Latent (colsOf s) (rowsOf s) → ℝ} (hU : ∀ t, KinS s t →
      (latentOf (colsOf s) (rowsOf s) t).OnGrid →
      U (latentOf (colsOf s) (rowsOf s) t) = freeWeight t) :
    ∃ w, IsFactor U w ∧
      (∀ t, KinS s t → ∀ (c : {c // c ∈ colsOf s}) i v, t.Zv c.1 = some i →
        t.views.get? i = some v → w (latentOf (colsOf s) (rowsOf s) t).part c
          ((latentOf (colsOf s) (rowsOf s) t).view c) = viewFactor s.nRows v) ∧
      ∀ p c c', p.r c c' → w p c = w p c' := by
  classical
  set Q : Setoid {c // c ∈ colsOf s} → {c // c ∈ colsOf s} → ℝ × RowPartition (rowsOf s) →
      View C → Prop := fun p c l v => ∃ t i, KinS s t ∧ t.Zv c.1 = some i ∧
        t.views.get? i = some v ∧ (latentOf (colsOf s) (rowsOf s) t).part = p ∧
        (latentOf (colsOf s) (rowsOf s) t).view c = l with hQ
  set w : Setoid {c // c ∈ colsOf s} → {c // c ∈ colsOf s} → ℝ × RowPartition (rowsOf s) → ℝ :=
    fun p c l => if h : ∃ v, Q p c l v then viewFactor s.nRows h.choose else 1 with hw
  have hwd : ∀ p c l v, Q p c l v → w p c l = viewFactor s.nRows v := by
    intro p c l v hq
    have hex : ∃ v, Q p c l v := ⟨v, hq⟩
    simp only [hw, dif_pos hex]
    obtain ⟨t, i, a1, a2, a3, a4, a5⟩ := hex.choose_spec
    obtain ⟨t', i', b1, b2, b3, b4, b5⟩ := hq
    obtain ⟨k1, k2, -⟩ := a1.view_score hL hs b1 a2 b2 a3 b3 (a4.trans b4.symm) (a5.trans b5.symm)
    unfold viewFactor
    rw [k1, k2]
  have hst : ∀ t, KinS s t → ∀ c : {c // c ∈ colsOf s}, ∃ i v, t.Zv c.1 = some i ∧
      t.views.get? i = some v := fun t ht c => by
    obtain ⟨i, v, -, g1, g2, -⟩ := ht.inv.dim (c := c.1) (by rw [ht.outputs]; exact mem_colsOf.mp c.2)
    exact ⟨i, v, g1, g2⟩
  have hcard : (rowsOf s).card = s.nRows := Finset.card_range _
  refine ⟨w, ⟨fun p c l hl => ?_, fun L hLg c l hl => ?_⟩, fun t ht c i v hz hv => ?_,
    fun p c c' hr => ?_⟩
  · -- positivity
    simp only [hw]
    split
    · rename_i hex
      obtain ⟨t, i, a1, a2, a3, a4, a5⟩ := hex.choose_spec
      have hlab : l = crpLabel s.nRows hex.choose.crp :=
        a5.symm.trans (latent_view (colsOf s) s.nRows a2 a3)
      have := mem_blockLabels.mp hl
      rw [hcard, hlab] at this
      exact mul_pos (concentrationPrior_pos this) (Real.exp_pos _)
    · exact one_pos
  · -- the factor
    obtain ⟨t, ht, rfl⟩ := hs.realise cfg hLg
    have hk := SameState.kin hL ht
    obtain ⟨i, v, hz, hv⟩ := hst t hk c
    obtain ⟨t', ht', he⟩ := hs.realise cfg (Latent.mem_latents_setView hLg (c := c) hl)
    have hk' := SameState.kin hL ht'
    obtain ⟨i', v', hz', hv'⟩ := hst t' hk' c
    have hpart : (latentOf (colsOf s) (rowsOf s) t').part = (latentOf (colsOf s) (rowsOf s) t).part := by
      rw [he]; rfl
    have hview : (latentOf (colsOf s) (rowsOf s) t').view c = l := by
      rw [he]; exact Latent.setView_view
    rw [hwd _ c _ v ⟨t, i, hk, hz, hv, rfl, rfl⟩,
      hwd _ c l v' ⟨t', i', hk', hz', hv', hpart, hview⟩]
    have ho' := hk'.inv.views.view i' v' hv'
    have hS : Same v v' := hk.same hs hk' hv hv' fun b => by
      constructor
      · intro hb
        have hbc : b ∈ colsOf s := by rw [mem_colsOf, ← hk.outputs, ← hk.inv.cols, hb]; simp
        have hr : (latentOf (colsOf s) (rowsOf s) t).part.r ⟨b, hbc⟩ c := hb.trans hz.symm
        rw [← hpart] at hr
        exact (show t'.Zv b = t'.Zv c.1 from hr).trans hz'
      · intro hb
        have hbc : b ∈ colsOf s := by rw [mem_colsOf, ← hk'.outputs, ← hk'.inv.cols, hb]; simp
        have hr : (latentOf (colsOf s) (rowsOf s) t').part.r ⟨b, hbc⟩ c := hb.trans hz'.symm
        rw [hpart] at hr
        exact (show t.Zv b = t.Zv c.1 from hr).trans hz
    have hk'' := hk.setView hv (v' := v') (hk'.tbl ▸ ho'.inv)
      (by rw [← hk'.nRows]; exact ho'.rows) hS
    have hlat : latentOf (colsOf s) (rowsOf s) { t with views := t.views.set i v' }
        = (latentOf (colsOf s) (rowsOf s) t).setView c l := by
      rw [latentOf_setView hk hv hz]
      congr 1
      rw [← hview]
      exact (latent_view (colsOf s) s.nRows hz' hv').symm
    have hg' := Latent.mem_latents.mp (Latent.mem_latents_setView hLg (c := c) hl)
    rw [← hlat] at hg' ⊢
    rw [hU _ hk'' hg', hU t hk (Latent.mem_latents.mp hLg), ← hk.nRows]
    exact freeWeight_setView hk.inv hv
  · exact hwd _ c _ v ⟨t, i, ht, hz, hv, rfl, rfl⟩
  · funext l
    have hiff : ∀ v, Q p c l v ↔ Q p c' l v := by
      intro v
      constructor
      · rintro ⟨t, i, a1, a2, a3, rfl, a5⟩
        have hr' : t.Zv c.1 = t.Zv c'.1 := hr
        exact ⟨t, i, a1, hr' ▸ a2, a3, rfl, ((latentOf (colsOf s) (rowsOf s) t).same _ _ hr) ▸ a5⟩
      · rintro ⟨t, i, a1, a2, a3, rfl, a5⟩
        have hr' : t.Zv c.1 = t.Zv c'.1 := hr
        exact ⟨t, i, a1, hr' ▸ a2, a3, rfl, ((latentOf (colsOf s) (rowsOf s) t).same _ _ hr) ▸ a5⟩
    have : Q p c l = Q p c' l := funext fun v => propext (hiff v)
    simp only [hw, this]

end Cgpm.State
