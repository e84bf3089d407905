import Verif.Lemmas.AlphaGibbs
import Verif.Lemmas.RowGibbs

/-! The kernels of `State.transition` as chains on the latent structures. -/
namespace Cgpm.State
open Cgpm.View Cgpm.Spec Cgpm.Props
open Cgpm.Spec.Hyper
variable {C : Cat}

/-! ### The concentration of the column partition -/

/-- `L` with another concentration. -/
def withAlpha {cols : Finset Col} {rows : Finset Row} (L : Latent cols rows) (a : ℝ) :
    Latent cols rows := ⟨a, L.part, L.view, L.same⟩

open Classical in
/-- Redraw the concentration with probability proportional to `U`. -/
noncomputable def alphaRedraw {cols : Finset Col} {rows : Finset Row} (U f : Latent cols rows → ℝ)
    (L : Latent cols rows) : ℝ :=
  ∑ a ∈ (concentrations cols.card).toFinset, (U (withAlpha L a) /
    ∑ b ∈ (concentrations cols.card).toFinset, U (withAlpha L b)) * f (withAlpha L a)

open Classical in
theorem sum_withAlpha {cols : Finset Col} {rows : Finset Row} (F : Latent cols rows → ℝ) :
    ∑ L ∈ latents cols rows, ∑ a ∈ (concentrations cols.card).toFinset, F (withAlpha L a)
      = (concentrations cols.card).toFinset.card * ∑ L ∈ latents cols rows, F L := by
  rw [Finset.mul_sum]
  have : ∀ L : Latent cols rows, ((concentrations cols.card).toFinset.card : ℝ) * F L
      = ∑ _a ∈ (concentrations cols.card).toFinset, F L := by
    intro L; rw [Finset.sum_const, nsmul_eq_mul]
  rw [Finset.sum_congr rfl fun L _ => this L, ← Finset.sum_product', ← Finset.sum_product']
  have hmap : ∀ x ∈ latents cols rows ×ˢ (concentrations cols.card).toFinset,
      (withAlpha x.1 x.2, x.1.alpha) ∈ latents cols rows ×ˢ (concentrations cols.card).toFinset := by
    rintro ⟨L, a⟩ hx
    simp only [Finset.mem_product, Latent.mem_latents, List.mem_toFinset] at hx ⊢
    exact ⟨⟨hx.2, hx.1.2⟩, hx.1.1⟩
  refine Finset.sum_bij' (i := fun x _ => (withAlpha x.1 x.2, x.1.alpha))
    (j := fun x _ => (withAlpha x.1 x.2, x.1.alpha)) hmap hmap ?_ ?_ ?_
  · rintro ⟨L, a⟩ _; rfl
  · rintro ⟨L, a⟩ _; rfl
  · rintro ⟨L, a⟩ _; rfl

theorem alphaRedraw_invariant {cols : Finset Col} {rows : Finset Row} {U W : Latent cols rows → ℝ}
    {χ : Setoid {c // c ∈ cols} → ℝ} (hU : ∀ L ∈ latents cols rows, 0 < U L)
    (hW : ∀ L ∈ latents cols rows, W L = χ L.part * U L) (f : Latent cols rows → ℝ) :
    ∑ L ∈ latents cols rows, W L * alphaRedraw U f L = ∑ L ∈ latents cols rows, W L * f L := by
  classical
  by_cases hne : latents cols rows = ∅
  · rw [hne]; rfl
  obtain ⟨L0, hL0⟩ := Finset.nonempty_iff_ne_empty.mpr hne
  have hcard : ((concentrations cols.card).toFinset.card : ℝ) ≠ 0 :=
    Nat.cast_ne_zero.mpr (Finset.card_ne_zero_of_mem
      (List.mem_toFinset.mpr (Latent.mem_latents.mp hL0).1))
  refine mul_left_cancel₀ hcard ?_
  rw [← sum_withAlpha, ← sum_withAlpha]
  refine Finset.sum_congr rfl fun L hL => ?_
  have hmem : ∀ a ∈ (concentrations cols.card).toFinset, withAlpha L a ∈ latents cols rows :=
    fun a ha => Latent.mem_latents.mpr ⟨List.mem_toFinset.mp ha, (Latent.mem_latents.mp hL).2⟩
  set Z := ∑ b ∈ (concentrations cols.card).toFinset, U (withAlpha L b) with hZ
  have hZp : 0 < Z := Finset.sum_pos (fun b hb => hU _ (hmem b hb))
    ⟨L.alpha, List.mem_toFinset.mpr (Latent.mem_latents.mp hL).1⟩
  have h1 : ∀ a ∈ (concentrations cols.card).toFinset,
      W (withAlpha L a) * alphaRedraw U f (withAlpha L a)
        = χ L.part * alphaRedraw U f L * U (withAlpha L a) := fun a ha => by
    rw [hW _ (hmem a ha)]
    show χ L.part * U (withAlpha L a) * alphaRedraw U f L = _
    ring
  rw [Finset.sum_congr rfl h1, ← Finset.mul_sum, ← hZ, mul_assoc]
  unfold alphaRedraw
  rw [Finset.sum_mul, Finset.mul_sum]
  refine Finset.sum_congr rfl fun a ha => ?_
  rw [← hZ, hW _ (hmem a ha)]
  show _ = χ L.part * U (withAlpha L a) * f (withAlpha L a)
  field_simp

theorem latentOf_withAlpha {s t : State C} (a : ℝ) :
    latentOf (colsOf s) (rowsOf s) { t with crp := { t.crp with alpha := a } }
      = withAlpha (latentOf (colsOf s) (rowsOf s) t) a := rfl

theorem KinS.withAlpha {s t : State C} (h : KinS s t) {a : ℝ} (ha : 0 < a) :
    KinS s { t with crp := { t.crp with alpha := a } } := by
  have := h.inv.setAlpha a
  unfold State.setAlpha Crp.setHypers at this
  rw [if_pos ha] at this
  exact ⟨this, h.X, h.outputs, h.Cd, h.Ci, h.columns⟩

theorem colsOf_card {s t : State C} (h : KinS s t) : t.outputs.length = (colsOf s).card := by
  unfold colsOf
  rw [← h.outputs, List.toFinset_card_of_nodup h.inv.data.nodup]

theorem colsOf_pos {s : State C} (h : Inv s) : 0 < (colsOf s).card := by
  obtain ⟨c0, hc0⟩ := List.exists_mem_of_ne_nil _ h.data.ne
  exact Finset.card_pos.mpr ⟨c0, mem_colsOf.mpr hc0⟩

theorem alphaRedraw_lin {cols : Finset Col} {rows : Finset Row} (U f g : Latent cols rows → ℝ)
    (a b : ℝ) (L : Latent cols rows) : alphaRedraw U (fun x => a * f x + b * g x) L
      = a * alphaRedraw U f L + b * alphaRedraw U g L := by
  unfold alphaRedraw
  rw [Finset.mul_sum, Finset.mul_sum, ← Finset.sum_add_distrib]
  exact Finset.sum_congr rfl fun y _ => by ring

theorem transitionCrpAlpha_chain {s : State C} (hs : Inv s)
    {U : Latent (colsOf s) (rowsOf s) → ℝ} (hU : ∀ t, KinS s t →
      (latentOf (colsOf s) (rowsOf s) t).OnGrid →
      U (latentOf (colsOf s) (rowsOf s) t) = freeWeight t)
    (hpos : ∀ L ∈ latents (colsOf s) (rowsOf s), 0 < U L)
    {W : Latent (colsOf s) (rowsOf s) → ℝ} {χ : Setoid {c // c ∈ colsOf s} → ℝ}
    (hW : ∀ L ∈ latents (colsOf s) (rowsOf s), W L = χ L.part * U L) :
    IsChain s W 1 (fun t us => t.transitionCrpAlpha us) (alphaRedraw U) := by
  classical
  have hn := colsOf_pos hs
  have hok : ∀ t, OnModel s t → ∀ u : ℝ, 0 ≤ u ∧ u < 1 → ∃ a ∈ concentrations (colsOf s).card,
      t.transitionCrpAlpha [u] = .ok { t with crp := { t.crp with alpha := a } } ∧
      (t.crp.transitionAlpha t.outputs.length u).state.alpha = a := by
    intro t ht u hu
    obtain ⟨a, ha, e⟩ := Crp.transitionAlpha_ok (n := t.outputs.length)
      (by rw [colsOf_card ht.kin]; exact hn) t.crp ht.kin.inv.alpha hu
    rw [colsOf_card ht.kin] at ha
    exact ⟨a, ha, by simp only [transitionCrpAlpha, e, Out.map_ok], by rw [e]; rfl⟩
  have hkeep : ∀ t, OnModel s t → ∀ a ∈ concentrations (colsOf s).card,
      OnModel s { t with crp := { t.crp with alpha := a } } := fun t ht a ha =>
    ⟨ht.kin.withAlpha ((concentrations_ok hn).2.2 a ha), ht.sorted, ha, ht.grid.2⟩
  refine ⟨fun t ht us hl hu => ?_, fun t ht f => ?_, fun f => ?_, alphaRedraw_lin U⟩
  · obtain ⟨u, rfl⟩ := List.length_eq_one_iff.mp hl
    obtain ⟨a, ha, e, -⟩ := hok t ht u (hu u (by simp))
    exact ⟨_, e, hkeep t ht a ha⟩
  · have hn' : 0 < t.outputs.length := by rw [colsOf_card ht.kin]; exact hn
    have hav := Crp.transitionAlpha_average hn' t.crp ht.kin.inv.alpha
      (fun a => f (withAlpha (latentOf (colsOf s) (rowsOf s) t) a))
    have h1 : average 1 (fun us => f (latentOf (colsOf s) (rowsOf s) (t.transitionCrpAlpha us).state))
        = ∫ u in (0 : ℝ)..1, f (withAlpha (latentOf (colsOf s) (rowsOf s) t)
            (t.crp.transitionAlpha t.outputs.length u).state.alpha) := by
      have := average_congr (m := 1)
        (F := fun us => f (latentOf (colsOf s) (rowsOf s) (t.transitionCrpAlpha us).state))
        (F' := fun us => f (withAlpha (latentOf (colsOf s) (rowsOf s) t)
            (t.crp.transitionAlpha t.outputs.length (us.headD 0)).state.alpha)) (by
          intro us hl hu
          obtain ⟨u, rfl⟩ := List.length_eq_one_iff.mp hl
          obtain ⟨a, ha, e, e'⟩ := hok t ht u (hu u (by simp))
          rw [e]
          simp only [List.headD_cons, e', Out.state_ok, latentOf_withAlpha])
      rw [this]
      simp only [average, List.headD_cons]
    rw [h1, hav, colsOf_card ht.kin]
    unfold alphaRedraw
    -- the weights
    obtain ⟨B, hB, hBw⟩ : ∃ B : ℝ, 0 < B ∧ ∀ a ∈ (concentrations (colsOf s).card).toFinset,
        U (withAlpha (latentOf (colsOf s) (rowsOf s) t) a) = B *
          (concentrationPrior (colsOf s).card a *
            Real.exp (Crp.logpdfScore { t.crp with alpha := a })) := by
      refine ⟨(t.views.vals.map fun v => concentrationPrior (rowsOf t).card v.crp.alpha).prod *
        Real.exp (t.views.vals.map View.score).sum, ?_, fun a ha => ?_⟩
      · have h0 := freeWeight_pos ht
        unfold freeWeight at h0
        have hc : 0 < concentrationPrior (colsOf t).card t.crp.alpha := by
          have : colsOf t = colsOf s := by unfold colsOf; rw [ht.kin.outputs]
          rw [this]; exact concentrationPrior_pos ht.grid.1
        refine mul_pos ?_ (Real.exp_pos _)
        have h2 := (pos_iff_pos_of_mul_pos h0).mpr (Real.exp_pos _)
        exact (pos_iff_pos_of_mul_pos h2).mp hc
      · have ha' := List.mem_toFinset.mp ha
        have hm := hkeep t ht a ha'
        have := hU _ hm.kin hm.grid
        rw [latentOf_withAlpha] at this
        rw [this]
        have hcc : (colsOf t).card = (colsOf s).card := by unfold colsOf; rw [ht.kin.outputs]
        unfold freeWeight State.score
        show concentrationPrior (colsOf t).card a * (t.views.vals.map fun v =>
          concentrationPrior (rowsOf t).card v.crp.alpha).prod * Real.exp (Crp.logpdfScore
            { t.crp with alpha := a } + (t.views.vals.map View.score).sum) = _
        rw [hcc, Real.exp_add]
        ring
    refine Finset.sum_congr rfl fun a ha => ?_
    rw [hBw a ha, Finset.sum_congr rfl hBw, ← Finset.mul_sum, mul_div_mul_left _ _ hB.ne']
  · exact alphaRedraw_invariant hpos hW f

/-! ### Kernels of a view -/

/-- The concentration and the row partition of a view. -/
def viewLabel (s : State C) (v : View C) : ℝ × RowPartition (rowsOf s) :=
  (v.crp.alpha, partitionOf (rowsOf s) v)

theorem latent_viewLabel {s t : State C} {c : {c // c ∈ colsOf s}} {i : Nat} {v : View C}
    (hz : t.Zv c.1 = some i) (hv : t.views.get? i = some v) :
    (latentOf (colsOf s) (rowsOf s) t).view c = viewLabel s v :=
  latent_view (colsOf s) s.nRows hz hv

/-- With `k` draws, `K` takes a view of a State of the model to another, and draws its concentration
and row partition from `κ`. -/
structure IsViewKernel (s : State C) (w : Setoid {c // c ∈ colsOf s} → {c // c ∈ colsOf s} →
    ℝ × RowPartition (rowsOf s) → ℝ) (k : ℕ) (K : View C → List ℝ → Out (View C))
    (κ : Local (colsOf s) (rowsOf s)) : Prop where
  ok : ∀ t, OnModel s t → ∀ i v, t.views.get? i = some v → ∀ us : List ℝ, us.length = k →
    (∀ u ∈ us, 0 ≤ u ∧ u < 1) → ∃ v', K v us = .ok v' ∧ View.Inv s.tbl v' ∧
      (∀ r, v'.seat r ≠ none ↔ r < s.nRows) ∧ Same v v' ∧ v'.crp.alpha ∈ concentrations s.nRows
  law : ∀ t, OnModel s t → ∀ (c : {c // c ∈ colsOf s}) i v, t.Zv c.1 = some i →
    t.views.get? i = some v → ∀ F : ℝ × RowPartition (rowsOf s) → ℝ,
    average k (fun us => F (viewLabel s (K v us).state))
      = ∑ l ∈ blockLabels (rowsOf s), κ (latentOf (colsOf s) (rowsOf s) t).part c (viewLabel s v) l * F l
  congr : κ.Ok
  inv : κ.Balanced w

theorem IsViewKernel.comp {s : State C} {w : Setoid {c // c ∈ colsOf s} → {c // c ∈ colsOf s} →
    ℝ × RowPartition (rowsOf s) → ℝ} {a b : ℕ} {K K' : View C → List ℝ → Out (View C)}
    {κ κ' : Local (colsOf s) (rowsOf s)} (h : IsViewKernel s w a K κ)
    (h' : IsViewKernel s w b K' κ') :
    IsViewKernel s w (a + b) (fun v us => (K v (us.take a)).bind fun v' => K' v' (us.drop a))
      (κ.mul κ') := by
  refine ⟨fun t ht i v hv us hl hu => ?_, fun t ht c i v hz hv F => ?_, h.congr.mul h'.congr,
    h.inv.mul h'.inv⟩
  · obtain ⟨v1, e1, i1, r1, s1, a1⟩ := h.ok t ht i v hv (us.take a) (by rw [List.length_take]; omega)
      (fun u hm => hu u (List.mem_of_mem_take hm))
    have ht1 := ht.setView hv i1 r1 s1 a1
    obtain ⟨v2, e2, i2, r2, s2, a2⟩ := h'.ok _ ht1 i v1 (Dict.get?_set_self _ _ _) (us.drop a)
      (by rw [List.length_drop]; omega) (fun u hm => hu u (List.mem_of_mem_drop hm))
    exact ⟨v2, by simp only [e1, Out.bind_ok, e2], i2, r2, s1.trans s2, a2⟩
  · rw [average_append]
    have step : ∀ us : List ℝ, us.length = a → (∀ u ∈ us, 0 ≤ u ∧ u < 1) →
        average b (fun vs => F (viewLabel s ((K v ((us ++ vs).take a)).bind fun v' =>
          K' v' ((us ++ vs).drop a)).state))
        = (fun l => ∑ l'' ∈ blockLabels (rowsOf s),
            κ' (latentOf (colsOf s) (rowsOf s) t).part c l l'' * F l'')
          (viewLabel s (K v us).state) := by
      intro us hl hu
      obtain ⟨v1, e1, i1, r1, s1, a1⟩ := h.ok t ht i v hv us hl hu
      have ht1 := ht.setView hv i1 r1 s1 a1
      have := h'.law _ ht1 c i v1 hz (Dict.get?_set_self _ _ _) F
      rw [latentOf_setView ht.kin hv hz, Latent.setView_part] at this
      simp only [e1, Out.state_ok]
      rw [← this]
      refine average_congr fun vs _ _ => ?_
      simp only [List.take_left' hl, List.drop_left' hl, e1, Out.bind_ok]
    rw [average_congr step, h.law t ht c i v hz hv (fun l => ∑ l'' ∈ blockLabels (rowsOf s),
            κ' (latentOf (colsOf s) (rowsOf s) t).part c l l'' * F l'')]
    simp only [Local.mul, Finset.sum_mul, Finset.mul_sum]
    rw [Finset.sum_comm]
    simp only [mul_assoc]

theorem IsViewKernel.of_eq {s : State C} {w : Setoid {c // c ∈ colsOf s} → {c // c ∈ colsOf s} →
    ℝ × RowPartition (rowsOf s) → ℝ} {a : ℕ} {K K' : View C → List ℝ → Out (View C)}
    {κ : Local (colsOf s) (rowsOf s)} (h : IsViewKernel s w a K κ)
    (he : ∀ v us, us.length = a → K' v us = K v us) : IsViewKernel s w a K' κ := by
  refine ⟨fun t ht i v hv us hl hu => ?_, fun t ht c i v hz hv F => ?_, h.congr, h.inv⟩
  · rw [he v us hl]; exact h.ok t ht i v hv us hl hu
  · rw [← h.law t ht c i v hz hv F]
    exact average_congr fun us hl _ => by rw [he v us hl]

/-! ### A pass over views -/

theorem visitViews_take (K : View C → List ℝ → Out (View C)) (k : ℕ) (vs : List Nat) (t : State C)
    (us : List ℝ) : visitViews K k vs t us = visitViews K k vs t (us.take (vs.length * k)) := by
  induction vs generalizing t us with
  | nil => rfl
  | cons v vs ih =>
    have e : (v :: vs).length * k = k + vs.length * k := by
      rw [List.length_cons, Nat.succ_mul, Nat.add_comm]
    have h1 : (us.take ((v :: vs).length * k)).take k = us.take k := by
      rw [List.take_take, e, min_eq_left (Nat.le_add_right _ _)]
    have h2 : (us.take ((v :: vs).length * k)).drop k = (us.drop k).take (vs.length * k) := by
      rw [List.drop_take, e, Nat.add_sub_cancel_left]
    simp only [visitViews, h1, h2]
    congr 1
    funext t'
    exact ih t' _

theorem visitViews_law {s : State C} {w : Setoid {c // c ∈ colsOf s} → {c // c ∈ colsOf s} →
    ℝ × RowPartition (rowsOf s) → ℝ} {k : ℕ} {K : View C → List ℝ → Out (View C)}
    {κ : Local (colsOf s) (rowsOf s)} (h : IsViewKernel s w k K κ) {vs : List Nat}
    {cs : List {c // c ∈ colsOf s}} {t : State C} (ht : OnModel s t)
    (hcs : List.Forall₂ (fun v c => t.Zv c.1 = some v) vs cs) :
    (∀ us : List ℝ, us.length = vs.length * k → (∀ u ∈ us, 0 ≤ u ∧ u < 1) →
      ∃ t', visitViews K k vs t us = .ok t' ∧ OnModel s t') ∧
    ∀ f, average (vs.length * k) (fun us =>
      f (latentOf (colsOf s) (rowsOf s) (visitViews K k vs t us).state))
        = atBlocks κ cs f (latentOf (colsOf s) (rowsOf s) t) := by
  induction vs generalizing cs t with
  | nil =>
    cases hcs
    refine ⟨fun us _ _ => ⟨t, rfl, ht⟩, fun f => ?_⟩
    rw [List.length_nil, zero_mul]
    rfl
  | cons i vs ih =>
    cases hcs with
    | cons hz hcs =>
    rename_i c cs
    obtain ⟨v, hv⟩ := Dict.exists_of_mem_keys ((ht.kin.inv.occ i).mpr ⟨c.1, hz⟩)
    have e : (i :: vs).length * k = k + vs.length * k := by
      rw [List.length_cons, Nat.succ_mul, Nat.add_comm]
    have hone : ∀ us : List ℝ, us.length = k → (∀ u ∈ us, 0 ≤ u ∧ u < 1) → ∃ v',
        t.onView i (fun view => K view us) = .ok { t with views := t.views.set i v' } ∧
        K v us = .ok v' ∧ OnModel s { t with views := t.views.set i v' } := by
      intro us hl hu
      obtain ⟨v1, e1, i1, r1, s1, a1⟩ := h.ok t ht i v hv us hl hu
      exact ⟨v1, by simp only [onView, hv, e1], e1, ht.setView hv i1 r1 s1 a1⟩
    rw [e]
    refine ⟨fun us hl hu => ?_, fun f => ?_⟩
    · obtain ⟨v', e1, -, e3⟩ := hone (us.take k) (by rw [List.length_take]; omega)
        (fun u hm => hu u (List.mem_of_mem_take hm))
      obtain ⟨t', g1, g2⟩ := (ih e3 (cs := cs) hcs).1 (us.drop k) (by rw [List.length_drop]; omega)
        (fun u hm => hu u (List.mem_of_mem_drop hm))
      exact ⟨t', by simp only [visitViews, e1, Out.bind_ok, g1], g2⟩
    · rw [average_append]
      have step : ∀ us : List ℝ, us.length = k → (∀ u ∈ us, 0 ≤ u ∧ u < 1) →
          average (vs.length * k) (fun ws =>
            f (latentOf (colsOf s) (rowsOf s) (visitViews K k (i :: vs) t (us ++ ws)).state))
          = (fun l => atBlocks κ cs f ((latentOf (colsOf s) (rowsOf s) t).setView c l))
            (viewLabel s (K v us).state) := by
        intro us hl hu
        obtain ⟨v', e1, e2, e3⟩ := hone us hl hu
        have := (ih e3 (cs := cs) hcs).2 f
        rw [latentOf_setView ht.kin hv hz] at this
        simp only [e2, Out.state_ok]
        refine Eq.trans ?_ this
        refine average_congr fun ws _ _ => ?_
        simp only [visitViews, List.take_left' hl, List.drop_left' hl, e1, Out.bind_ok]
      rw [average_congr step, h.law t ht c i v hz hv
        (fun l => atBlocks κ cs f ((latentOf (colsOf s) (rowsOf s) t).setView c l))]
      show _ = atBlock κ c (atBlocks κ cs f) (latentOf (colsOf s) (rowsOf s) t)
      unfold atBlock
      rw [latent_viewLabel hz hv]

/-- The columns whose views are visited. -/
def selects (s : State C) (cols : Option (List Col)) (c : {c // c ∈ colsOf s}) : Prop :=
  cols.getD [] = [] ∨ c.1 ∈ cols.getD []

theorem viewsFor_spec {s t : State C} (h : KinS s t) (cols : Option (List Col)) :
    (t.viewsFor cols).Nodup ∧ (∀ v ∈ t.viewsFor cols, ∃ c : {c // c ∈ colsOf s}, t.Zv c.1 = some v) ∧
    ((∀ c ∈ cols.getD [], c ∈ s.outputs) → ∀ c : {c // c ∈ colsOf s}, ∀ i, t.Zv c.1 = some i →
      (i ∈ t.viewsFor cols ↔ ∃ a, selects s cols a ∧ t.Zv a.1 = some i)) := by
  have hmem : ∀ {c v}, t.Zv c = some v → c ∈ colsOf s := fun {c v} hz => by
    rw [mem_colsOf, ← h.outputs, ← h.inv.cols, hz]; simp
  have hall : t.views.keys.Nodup ∧ (∀ v ∈ t.views.keys, ∃ c : {c // c ∈ colsOf s},
      t.Zv c.1 = some v) := by
    refine ⟨h.inv.views.wf, fun v hv => ?_⟩
    obtain ⟨c, hc⟩ := (h.inv.occ v).mp hv
    exact ⟨⟨c, hmem hc⟩, hc⟩
  have hk : ∀ (c : {c // c ∈ colsOf s}) i, t.Zv c.1 = some i → i ∈ t.views.keys := fun c i hz =>
    (h.inv.occ i).mpr ⟨c.1, hz⟩
  match cols with
  | none => exact ⟨hall.1, hall.2, fun _ c i hz => ⟨fun _ => ⟨c, Or.inl rfl, hz⟩, fun _ => hk c i hz⟩⟩
  | some [] =>
    exact ⟨hall.1, hall.2, fun _ c i hz => ⟨fun _ => ⟨c, Or.inl rfl, hz⟩, fun _ => hk c i hz⟩⟩
  | some (c0 :: cs) =>
    refine ⟨List.nodup_dedup _, fun v hv => ?_, fun hsub c i hz => ?_⟩
    · obtain ⟨c, -, hc⟩ := List.mem_filterMap.mp (List.mem_dedup.mp hv)
      exact ⟨⟨c, hmem hc⟩, hc⟩
    · constructor
      · intro hi
        obtain ⟨a, ha, hza⟩ := List.mem_filterMap.mp (List.mem_dedup.mp hi)
        exact ⟨⟨a, hmem hza⟩, Or.inr ha, hza⟩
      · rintro ⟨a, ha, hza⟩
        rcases ha with ha | ha
        · cases ha
        · exact List.mem_dedup.mpr (List.mem_filterMap.mpr ⟨a.1, ha, hza⟩)

theorem viewsFor_cols {s t : State C} (ht : OnModel s t) (cols : Option (List Col))
    {σ : List Nat → List Nat} (hσ : ∀ l, (σ l).Perm l) : ∃ cs : List {c // c ∈ colsOf s},
      List.Forall₂ (fun v c => t.Zv c.1 = some v) (σ (t.viewsFor cols)) cs := by
  have hv : ∀ v ∈ σ (t.viewsFor cols), ∃ c : {c // c ∈ colsOf s}, t.Zv c.1 = some v :=
    fun v hv => (viewsFor_spec ht.kin cols).2.1 v ((hσ _).mem_iff.mp hv)
  generalize σ (t.viewsFor cols) = vs at hv
  induction vs with
  | nil => exact ⟨[], List.Forall₂.nil⟩
  | cons v vs ih =>
    obtain ⟨cs, hcs⟩ := ih fun x hx => hv x (by simp [hx])
    obtain ⟨c, hc⟩ := hv v (by simp)
    exact ⟨c :: cs, List.Forall₂.cons hc hcs⟩

theorem viewsFor_length {s t : State C} (hs : Inv s) (ht : OnModel s t) {cols : Option (List Col)}
    {σ : List Nat → List Nat} (hσ : ∀ l, (σ l).Perm l) :
    (σ (t.viewsFor cols)).length ≤ s.outputs.length := by
  obtain ⟨cs, hcs⟩ := viewsFor_cols ht cols hσ
  have hnd : (σ (t.viewsFor cols)).Nodup := (hσ _).nodup_iff.mpr (viewsFor_spec ht.kin cols).1
  have hnd' : cs.Nodup := by
    generalize σ (t.viewsFor cols) = vs at hcs hnd
    induction hcs with
    | nil => exact List.nodup_nil
    | cons hz _ ih =>
      rename_i v c vs cs hrest
      rw [List.nodup_cons] at hnd ⊢
      refine ⟨fun hc => hnd.1 ?_, ih hnd.2⟩
      obtain ⟨v', hv', hz'⟩ : ∃ v' ∈ vs, t.Zv c.1 = some v' := by
        clear ih hnd
        induction hrest with
        | nil => cases hc
        | cons hh _ ih2 =>
          rcases List.mem_cons.mp hc with e | e
          · subst e; exact ⟨_, by simp, hh⟩
          · obtain ⟨v', h1, h2⟩ := ih2 e; exact ⟨v', by simp [h1], h2⟩
      rw [hz] at hz'
      rwa [Option.some.inj hz']
  rw [hcs.length_eq, ← List.toFinset_card_of_nodup hnd', colsOf_card (KinS.refl hs)]
  have := Finset.card_le_univ cs.toFinset
  rwa [Fintype.card_coe] at this

theorem visitViews_law_all {s : State C} (hs : Inv s) {w : Setoid {c // c ∈ colsOf s} → {c // c ∈ colsOf s} →
    ℝ × RowPartition (rowsOf s) → ℝ} {k : ℕ} {K : View C → List ℝ → Out (View C)}
    {κ : Local (colsOf s) (rowsOf s)} (h : IsViewKernel s w k K κ) {cols : Option (List Col)}
    (hcols : ∀ c ∈ cols.getD [], c ∈ s.outputs) {σ : List Nat → List Nat} (hσ : ∀ l, (σ l).Perm l)
    {t : State C} (ht : OnModel s t) (f : Latent (colsOf s) (rowsOf s) → ℝ) :
    average (s.outputs.length * k) (fun us => f (latentOf (colsOf s) (rowsOf s)
        (visitViews K k (σ (t.viewsFor cols)) t us).state))
      = atAll κ (selects s cols) f (latentOf (colsOf s) (rowsOf s) t) := by
  obtain ⟨cs, hcs⟩ := viewsFor_cols ht cols hσ
  obtain ⟨b, hb⟩ := Nat.exists_eq_add_of_le (Nat.mul_le_mul_right k (viewsFor_length hs ht hσ))
  have h1 : average (s.outputs.length * k) (fun us => f (latentOf (colsOf s) (rowsOf s)
      (visitViews K k (σ (t.viewsFor cols)) t us).state))
      = average ((σ (t.viewsFor cols)).length * k) (fun us => f (latentOf (colsOf s) (rowsOf s)
        (visitViews K k (σ (t.viewsFor cols)) t us).state)) := by
    rw [hb]
    refine Eq.trans ?_ (average_take _ b _)
    refine average_congr fun us _ _ => ?_
    rw [visitViews_take]
  rw [h1, (visitViews_law h ht hcs).2 f]
  have hnd : (σ (t.viewsFor cols)).Nodup := (hσ _).nodup_iff.mpr (viewsFor_spec ht.kin cols).1
  have hmv : ∀ i, i ∈ σ (t.viewsFor cols) ↔ i ∈ t.viewsFor cols := fun i => (hσ _).mem_iff
  have hsp := (viewsFor_spec ht.kin cols).2.2 hcols
  refine atBlocks_eq h.congr ?_ (fun b => ?_) f
  · generalize σ (t.viewsFor cols) = vs at hcs hnd
    clear hmv h1 hb
    induction hcs with
    | nil => exact List.Pairwise.nil
    | cons hz hrest ih =>
      rename_i v c vs cs
      rw [List.nodup_cons] at hnd
      refine List.Pairwise.cons (fun c' hc' hr => hnd.1 ?_) (ih hnd.2)
      have hr' : t.Zv c.1 = t.Zv c'.1 := hr
      rw [hz] at hr'
      clear ih hnd
      induction hrest with
      | nil => cases hc'
      | cons hh _ ih2 =>
        rcases List.mem_cons.mp hc' with e | e
        · subst e
          rw [hh] at hr'
          rw [Option.some.inj hr']; simp
        · exact List.mem_cons_of_mem _ (ih2 e)
  · obtain ⟨i, -, -, hzb, -⟩ := ht.kin.inv.dim (c := b.1)
      (by rw [ht.kin.outputs]; exact mem_colsOf.mp b.2)
    have h2 : (∃ c ∈ cs, (latentOf (colsOf s) (rowsOf s) t).part.r c b) ↔
        i ∈ σ (t.viewsFor cols) := by
      show (∃ c ∈ cs, t.Zv c.1 = t.Zv b.1) ↔ _
      rw [hzb]
      generalize σ (t.viewsFor cols) = vs at hcs
      clear hnd hmv h1 hb
      induction hcs with
      | nil => simp
      | cons hz _ ih =>
        rename_i v c vs cs hrest
        simp only [List.mem_cons, exists_eq_or_imp, hz, Option.some.injEq]
        exact or_congr ⟨fun e => e.symm, fun e => e.symm⟩ ih
    rw [h2, hmv, hsp b i hzb]
    refine exists_congr fun a => and_congr_right fun _ => ?_
    show t.Zv a.1 = some i ↔ t.Zv a.1 = t.Zv b.1
    rw [hzb]

theorem visitViews_chain {s : State C} (hs : Inv s) {w : Setoid {c // c ∈ colsOf s} → {c // c ∈ colsOf s} →
    ℝ × RowPartition (rowsOf s) → ℝ} {W : Latent (colsOf s) (rowsOf s) → ℝ} (hF : IsFactor W w)
    {k : ℕ} {K : View C → List ℝ → Out (View C)}
    {κ : Local (colsOf s) (rowsOf s)} (h : IsViewKernel s w k K κ) {cols : Option (List Col)}
    (hcols : ∀ c ∈ cols.getD [], c ∈ s.outputs) {σ : List Nat → List Nat} (hσ : ∀ l, (σ l).Perm l) :
    IsChain s W (s.outputs.length * k)
      (fun t us => visitViews K k (σ (t.viewsFor cols)) t us) (atAll κ (selects s cols)) := by
  refine ⟨fun t ht us hl hu => ?_, fun t ht f => ?_, fun f => ?_, atAll_lin κ _⟩
  · obtain ⟨cs, hcs⟩ := viewsFor_cols ht cols hσ
    obtain ⟨t', e, h'⟩ := (visitViews_law h ht hcs).1 (us.take ((σ (t.viewsFor cols)).length * k))
      (by rw [List.length_take, hl]; exact min_eq_left (Nat.mul_le_mul_right k (viewsFor_length hs ht hσ)))
      (fun u hm => hu u (List.mem_of_mem_take hm))
    exact ⟨t', (visitViews_take K k _ t us).trans e, h'⟩
  · exact visitViews_law_all hs h hcols hσ ht f
  · exact atAll_invariant hF h.inv (selects s cols) f

end Cgpm.State
