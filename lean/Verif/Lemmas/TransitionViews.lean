import Verif.Lemmas.Transition

/-! The kernels of a view: its concentration, and its rows. -/
namespace Cgpm.State
open Cgpm.View Cgpm.Spec Cgpm.Props
open Cgpm.Spec.Hyper
variable {C : Cat}

theorem rowsOf_card (s : State C) : (rowsOf s).card = s.nRows := Finset.card_range _

/-- `w` is the factor of the views of the model in the weight of a State. -/
def ViewWeight (s : State C) (w : Setoid {c // c ∈ colsOf s} → {c // c ∈ colsOf s} →
    ℝ × RowPartition (rowsOf s) → ℝ) : Prop :=
  (∀ t, KinS s t → ∀ (c : {c // c ∈ colsOf s}) i v, t.Zv c.1 = some i →
    t.views.get? i = some v → w (latentOf (colsOf s) (rowsOf s) t).part c
      ((latentOf (colsOf s) (rowsOf s) t).view c) = viewFactor s.nRows v) ∧
  (∀ p c, ∀ l ∈ blockLabels (rowsOf s), 0 < w p c l) ∧
  ∀ p c c', p.r c c' → w p c = w p c'

theorem ViewWeight.eq {s : State C} {w : Setoid {c // c ∈ colsOf s} → {c // c ∈ colsOf s} →
    ℝ × RowPartition (rowsOf s) → ℝ} (h : ViewWeight s w) {t : State C} (ht : OnModel s t)
    {c : {c // c ∈ colsOf s}} {i : Nat} {v v' : View C} (hz : t.Zv c.1 = some i)
    (hv : t.views.get? i = some v) (hI : View.Inv s.tbl v')
    (hr : ∀ r, v'.seat r ≠ none ↔ r < s.nRows) (hS : Same v v') :
    w (latentOf (colsOf s) (rowsOf s) t).part c (viewLabel s v') = viewFactor s.nRows v' := by
  have hk := ht.kin.setView hv hI hr hS
  have := h.1 _ hk c i v' hz (Dict.get?_set_self _ _ _)
  rw [latentOf_setView ht.kin hv hz, Latent.setView_part, Latent.setView_view] at this
  exact this

/-! ### The concentration -/

/-- One draw of the concentration. -/
noncomputable def viewAlphaOnce (n : ℕ) (v : View C) : List ℝ → Out (View C)
  | u :: _ => (v.crp.transitionAlpha n u).map fun crp => { v with crp }
  | [] => .err .runtime v

open Classical in
/-- The concentration redrawn with probability proportional to `w`. -/
noncomputable def alphaLocal {cols : Finset Col} {rows : Finset Row} (w : Setoid {c // c ∈ cols} →
    {c // c ∈ cols} → ℝ × RowPartition rows → ℝ) : Local cols rows := fun p c l l' =>
  if l'.2 = l.2 then w p c l' / ∑ a ∈ (concentrations rows.card).toFinset, w p c (a, l.2) else 0

open Classical in
theorem alphaLocal_sum {cols : Finset Col} {rows : Finset Row} (w : Setoid {c // c ∈ cols} →
    {c // c ∈ cols} → ℝ × RowPartition rows → ℝ) (p : Setoid {c // c ∈ cols}) (c : {c // c ∈ cols})
    (l : ℝ × RowPartition rows) (F : ℝ × RowPartition rows → ℝ) :
    ∑ l' ∈ blockLabels rows, alphaLocal w p c l l' * F l'
      = ∑ a ∈ (concentrations rows.card).toFinset, (w p c (a, l.2) /
        ∑ b ∈ (concentrations rows.card).toFinset, w p c (b, l.2)) * F (a, l.2) := by
  unfold blockLabels alphaLocal
  rw [Finset.sum_product]
  refine Finset.sum_congr rfl fun a _ => ?_
  simp only [ite_mul, zero_mul]
  rw [Finset.sum_ite_eq' Finset.univ l.2, if_pos (Finset.mem_univ _)]

theorem alphaLocal_balanced {cols : Finset Col} {rows : Finset Row} {w : Setoid {c // c ∈ cols} →
    {c // c ∈ cols} → ℝ × RowPartition rows → ℝ} (hw : ∀ p c, ∀ l ∈ blockLabels rows, 0 < w p c l) :
    (alphaLocal w).Balanced w := by
  classical
  refine ⟨fun p c l' hl' => ?_⟩
  unfold blockLabels alphaLocal
  rw [Finset.sum_product_right]
  simp only [mul_ite, mul_zero]
  have : ∀ q : RowPartition rows, ∑ a ∈ (concentrations rows.card).toFinset,
      (if l'.2 = q then w p c (a, q) * (w p c l' /
        ∑ b ∈ (concentrations rows.card).toFinset, w p c (b, q)) else 0)
      = if l'.2 = q then ∑ a ∈ (concentrations rows.card).toFinset, w p c (a, q) * (w p c l' /
        ∑ b ∈ (concentrations rows.card).toFinset, w p c (b, q)) else 0 := by
    intro q; split <;> simp
  simp only [this]
  rw [Finset.sum_ite_eq Finset.univ l'.2, if_pos (Finset.mem_univ _), ← Finset.sum_mul]
  have hpos : 0 < ∑ b ∈ (concentrations rows.card).toFinset, w p c (b, l'.2) :=
    Finset.sum_pos (fun b hb => hw p c _ (mem_blockLabels.mpr (List.mem_toFinset.mp hb)))
      ⟨l'.1, List.mem_toFinset.mpr (mem_blockLabels.mp hl')⟩
  field_simp

theorem viewAlphaOnce_kernel {s : State C} (hs : Inv s) {w : Setoid {c // c ∈ colsOf s} →
    {c // c ∈ colsOf s} → ℝ × RowPartition (rowsOf s) → ℝ} (hw : ViewWeight s w) :
    IsViewKernel s w 1 (viewAlphaOnce s.nRows) (alphaLocal w) := by
  classical
  have hn := hs.pos
  have hinv : ∀ t, OnModel s t → ∀ i v, t.views.get? i = some v → ∀ a ∈ concentrations s.nRows,
      View.Inv s.tbl { v with crp := { v.crp with alpha := a } } ∧
      (∀ r, View.seat { v with crp := { v.crp with alpha := a } } r ≠ none ↔ r < s.nRows) ∧
      Same v { v with crp := { v.crp with alpha := a } } := by
    intro t ht i v hv a ha
    have ho := ht.kin.inv.views.view i v hv
    have hi : View.Inv s.tbl v := ht.kin.tbl ▸ ho.inv
    refine ⟨⟨⟨hi.crp.wfData, hi.crp.wfCounts, hi.crp.hN, hi.crp.hCounts⟩,
      (concentrations_ok hn).2.2 a ha, hi.wf, hi.dim⟩, ?_, Same.refl v⟩
    rw [← ht.kin.nRows]; exact ho.rows
  have hok : ∀ t, OnModel s t → ∀ i v, t.views.get? i = some v → ∀ u : ℝ, 0 ≤ u ∧ u < 1 →
      ∃ a ∈ concentrations s.nRows,
        viewAlphaOnce s.nRows v [u] = .ok { v with crp := { v.crp with alpha := a } } ∧
        (v.crp.transitionAlpha s.nRows u).state.alpha = a := by
    intro t ht i v hv u hu
    have ho := ht.kin.inv.views.view i v hv
    obtain ⟨a, ha, e⟩ := Crp.transitionAlpha_ok hn v.crp ho.inv.alpha hu
    exact ⟨a, ha, by simp only [viewAlphaOnce, e, Out.map_ok], by rw [e]; rfl⟩
  refine ⟨fun t ht i v hv us hl hu => ?_, fun t ht c i v hz hv F => ?_, fun p c c' hr => ?_,
    alphaLocal_balanced hw.2.1⟩
  · obtain ⟨u, rfl⟩ := List.length_eq_one_iff.mp hl
    obtain ⟨a, ha, e, -⟩ := hok t ht i v hv u (hu u (by simp))
    obtain ⟨h1, h2, h3⟩ := hinv t ht i v hv a ha
    exact ⟨_, e, h1, h2, h3, ha⟩
  · have ho := ht.kin.inv.views.view i v hv
    have h1 : average 1 (fun us => F (viewLabel s (viewAlphaOnce s.nRows v us).state))
        = ∫ u in (0 : ℝ)..1, F ((v.crp.transitionAlpha s.nRows u).state.alpha,
            partitionOf (rowsOf s) v) := by
      have := average_congr (m := 1)
        (F := fun us => F (viewLabel s (viewAlphaOnce s.nRows v us).state))
        (F' := fun us => F ((v.crp.transitionAlpha s.nRows (us.headD 0)).state.alpha,
            partitionOf (rowsOf s) v)) (by
          intro us hl hu
          obtain ⟨u, rfl⟩ := List.length_eq_one_iff.mp hl
          obtain ⟨a, ha, e, e'⟩ := hok t ht i v hv u (hu u (by simp))
          rw [e]
          simp only [List.headD_cons, e', Out.state_ok]
          rfl)
      rw [this]
      simp only [average, List.headD_cons]
    rw [h1, Crp.transitionAlpha_average hn v.crp ho.inv.alpha
      (fun a => F (a, partitionOf (rowsOf s) v)), alphaLocal_sum, rowsOf_card]
    have hwa : ∀ a ∈ (concentrations s.nRows).toFinset,
        w (latentOf (colsOf s) (rowsOf s) t).part c (a, (viewLabel s v).2)
          = Real.exp v.likelihood * (concentrationPrior s.nRows a *
            Real.exp (Crp.logpdfScore { v.crp with alpha := a })) := by
      intro a ha
      obtain ⟨g1, g2, g3⟩ := hinv t ht i v hv a (List.mem_toFinset.mp ha)
      have := hw.eq ht hz hv g1 g2 g3
      rw [show viewLabel s { v with crp := { v.crp with alpha := a } } = (a, (viewLabel s v).2)
        from rfl] at this
      rw [this]
      unfold viewFactor View.score
      rw [Real.exp_add]
      show concentrationPrior s.nRows a * (Real.exp (Crp.logpdfScore { v.crp with alpha := a }) *
        Real.exp v.likelihood) = _
      ring
    refine Finset.sum_congr rfl fun a ha => ?_
    rw [hwa a ha, Finset.sum_congr rfl hwa, ← Finset.mul_sum,
      mul_div_mul_left _ _ (Real.exp_pos _).ne']
    rfl
  · funext l l'
    simp only [alphaLocal, hw.2.2 p c c' hr]

theorem transitionCrpAlpha_viewKernel {s : State C} (hs : Inv s) {w : Setoid {c // c ∈ colsOf s} →
    {c // c ∈ colsOf s} → ℝ × RowPartition (rowsOf s) → ℝ} (hw : ViewWeight s w) :
    IsViewKernel s w 2 (fun v => v.transitionCrpAlpha s.nRows)
      ((alphaLocal w).mul (alphaLocal w)) := by
  refine ((viewAlphaOnce_kernel hs hw).comp (viewAlphaOnce_kernel hs hw)).of_eq fun v us hl => ?_
  obtain ⟨u, u', rfl⟩ := List.length_eq_two.mp hl
  show ((v.crp.transitionAlpha s.nRows u).bind _).map _
    = ((v.crp.transitionAlpha s.nRows u).map _).bind _
  cases h : v.crp.transitionAlpha s.nRows u with
  | ok crp => rfl
  | err e crp => rfl

/-! ### The rows -/

section
variable {rows : Finset Row}
open Classical in
/-- The probability of each partition after the rows of a list have been redrawn. -/
noncomputable def rowMatrix (W : RowPartition rows → ℝ) (order : List Row)
    (q q' : RowPartition rows) : ℝ := redraws W order (fun x => if x = q' then 1 else 0) q

theorem rowMatrix_sum (W : RowPartition rows → ℝ) (order : List Row) (f : RowPartition rows → ℝ)
    (q : RowPartition rows) : redraws W order f q = ∑ q', rowMatrix W order q q' * f q' := by
  classical
  induction order generalizing q with
  | nil => simp [redraws, rowMatrix]
  | cons r order ih =>
    simp only [rowMatrix, redraws, redraw, Finset.sum_mul]
    rw [Finset.sum_comm]
    refine Finset.sum_congr rfl fun q1 _ => ?_
    rw [ih, Finset.mul_sum]
    exact Finset.sum_congr rfl fun q' _ => (mul_assoc _ _ _).symm

theorem rowMatrix_invariant {W : RowPartition rows → ℝ} (hW : ∀ q, 0 < W q) (order : List Row)
    (q' : RowPartition rows) : ∑ q, W q * rowMatrix W order q q' = W q' := by
  classical
  unfold rowMatrix
  rw [redraws_invariant hW]
  simp

end

open Classical in
/-- The columns of the block of `c`. -/
noncomputable def blockCols {cols : Finset Col} (p : Setoid {c // c ∈ cols}) (c : {c // c ∈ cols}) :
    Finset Col := (Finset.univ.filter fun b : {c // c ∈ cols} => p.r b c).image Subtype.val

open Classical in
/-- The rows redrawn in the order given for the block. -/
noncomputable def rowLocal {cols : Finset Col} {rows : Finset Row} (w : Setoid {c // c ∈ cols} →
    {c // c ∈ cols} → ℝ × RowPartition rows → ℝ) (orders : Finset Col → List Row) :
    Local cols rows := fun p c l l' =>
  if l'.1 = l.1 then rowMatrix (fun q => w p c (l.1, q) / concentrationPrior rows.card l.1)
    (orders (blockCols p c)) l.2 l'.2 else 0

theorem blockCols_congr {cols : Finset Col} {p : Setoid {c // c ∈ cols}} {c c' : {c // c ∈ cols}}
    (h : p.r c c') : blockCols p c = blockCols p c' := by
  unfold blockCols
  congr 1
  ext b
  simp only [Finset.mem_filter, Finset.mem_univ, true_and]
  exact ⟨fun g => p.trans g h, fun g => p.trans g (p.symm h)⟩

theorem rowLocal_balanced {cols : Finset Col} {rows : Finset Row} {w : Setoid {c // c ∈ cols} →
    {c // c ∈ cols} → ℝ × RowPartition rows → ℝ} (hw : ∀ p c, ∀ l ∈ blockLabels rows, 0 < w p c l)
    (orders : Finset Col → List Row) : (rowLocal w orders).Balanced w := by
  classical
  refine ⟨fun p c l' hl' => ?_⟩
  have ha := mem_blockLabels.mp hl'
  have hp := concentrationPrior_pos ha
  unfold blockLabels rowLocal
  rw [Finset.sum_product]
  simp only [mul_ite, mul_zero]
  have : ∀ a : ℝ, ∑ q : RowPartition rows, (if l'.1 = a then w p c (a, q) * rowMatrix
      (fun q => w p c (a, q) / concentrationPrior rows.card a) (orders (blockCols p c)) q l'.2 else 0)
      = if l'.1 = a then ∑ q : RowPartition rows, w p c (a, q) * rowMatrix
      (fun q => w p c (a, q) / concentrationPrior rows.card a) (orders (blockCols p c)) q l'.2 else 0 := by
    intro a; split <;> simp
  simp only [this]
  rw [Finset.sum_ite_eq _ l'.1, if_pos (List.mem_toFinset.mpr ha)]
  have h1 := rowMatrix_invariant (W := fun q => w p c (l'.1, q) / concentrationPrior rows.card l'.1)
    (fun q => div_pos (hw p c _ (mem_blockLabels.mpr ha)) hp) (orders (blockCols p c)) l'.2
  have h2 := congrArg (fun x => concentrationPrior rows.card l'.1 * x) h1
  simp only [Finset.mul_sum] at h2
  rw [mul_div_cancel₀ _ hp.ne'] at h2
  rw [show w p c l' = w p c (l'.1, l'.2) from rfl, ← h2]
  refine Finset.sum_congr rfl fun q _ => ?_
  rw [← mul_assoc, mul_div_cancel₀ _ hp.ne']

theorem transitionRows_viewKernel (hL : C.Lawful) (hCh : C.Chain) {s : State C} (hs : Inv s)
    {w : Setoid {c // c ∈ colsOf s} → {c // c ∈ colsOf s} → ℝ × RowPartition (rowsOf s) → ℝ}
    (hw : ViewWeight s w) {orders : Finset Col → List Row} {R : ℕ}
    (hR : ∀ B, (orders B).length = R ∧ ∀ r ∈ orders B, r < s.nRows) :
    IsViewKernel s w R (fun v => v.transitionRowsIn s.tbl orders) (rowLocal w orders) := by
  classical
  have hkin : ∀ t, OnModel s t → ∀ i v, t.views.get? i = some v →
      Kin s.tbl v v ∧ IsRows (rowsOf s) v := by
    intro t ht i v hv
    have ho := ht.kin.inv.views.view i v hv
    refine ⟨⟨ht.kin.tbl ▸ ho.inv, fun _ => Iff.rfl, rfl, Same.refl v⟩, fun r => ?_⟩
    rw [ho.rows r, ht.kin.nRows]
    simp [rowsOf]
  have hgrid : ∀ t, OnModel s t → ∀ i v, t.views.get? i = some v →
      v.crp.alpha ∈ concentrations s.nRows := fun t ht i v hv =>
    views_onGrid ht.kin.inv (cols := colsOf s) (fun c => by rw [mem_colsOf, ht.kin.outputs])
      ht.grid i v hv
  refine ⟨fun t ht i v hv us hl hu => ?_, fun t ht c i v hz hv F => ?_, fun p c c' hr => ?_,
    rowLocal_balanced hw.2.1 orders⟩
  · obtain ⟨hk, hrows⟩ := hkin t ht i v hv
    obtain ⟨v', e, hk', -⟩ := transitionRows_okM hL hCh (rowClosed_kin hL s.tbl v) hrows hk
      ((orders v.dims.keys.toFinset).zip us) (fun d hd => ⟨by
        have := (hR v.dims.keys.toFinset).2 d.1 (List.of_mem_zip hd).1
        simpa [rowsOf] using this, hu d.2 (List.of_mem_zip hd).2⟩)
    refine ⟨v', e, hk'.inv, fun r => ?_, hk'.same, ?_⟩
    · rw [hk'.rows r, ← hrows r]; simp [rowsOf]
    · rw [hk'.alpha]; exact hgrid t ht i v hv
  · obtain ⟨hk, hrows⟩ := hkin t ht i v hv
    have hb : v.dims.keys.toFinset = blockCols (latentOf (colsOf s) (rowsOf s) t).part c := by
      ext b
      rw [List.mem_toFinset, (ht.kin.inv.views.view i v hv).dims]
      simp only [blockCols, Finset.mem_image, Finset.mem_filter, Finset.mem_univ, true_and]
      constructor
      · intro hb
        exact ⟨⟨b, by rw [mem_colsOf, ← ht.kin.outputs, ← ht.kin.inv.cols, hb]; simp⟩,
          hb.trans hz.symm, rfl⟩
      · rintro ⟨b', hr, rfl⟩
        exact (show t.Zv b'.1 = t.Zv c.1 from hr).trans hz
    have ha := hgrid t ht i v hv
    have hprior := concentrationPrior_pos ha
    set P := (latentOf (colsOf s) (rowsOf s) t).part with hP
    have hav := transitionRows_averageM hL hCh (rowClosed_kin hL s.tbl v) hrows
      (W := fun q => w P c (v.crp.alpha, q) / concentrationPrior s.nRows v.crp.alpha)
      (fun u hu => by
        have := hw.eq ht hz hv hu.inv (fun r => by rw [hu.rows r, ← hrows r]; simp [rowsOf]) hu.same
        rw [show viewLabel s u = (v.crp.alpha, partitionOf (rowsOf s) u) by
          rw [viewLabel, hu.alpha]] at this
        show w P c (v.crp.alpha, partitionOf (rowsOf s) u) / _ = _
        rw [this, viewFactor, hu.alpha, mul_div_cancel_left₀ _ hprior.ne'])
      (orders v.dims.keys.toFinset) (fun r hr => by
        have := (hR v.dims.keys.toFinset).2 r hr; simpa [rowsOf] using this)
      (fun q => F (v.crp.alpha, q)) hk
    rw [(hR _).1] at hav
    have h1 : average R (fun us => F (viewLabel s (v.transitionRowsIn s.tbl orders us).state))
        = average R (fun us => F (v.crp.alpha, partitionOf (rowsOf s)
            (v.transitionRows s.tbl ((orders v.dims.keys.toFinset).zip us)).state)) := by
      refine average_congr fun us hl hu => ?_
      obtain ⟨v', e, hk', -⟩ := transitionRows_okM hL hCh (rowClosed_kin hL s.tbl v) hrows hk
        ((orders v.dims.keys.toFinset).zip us) (fun d hd => ⟨by
          have := (hR v.dims.keys.toFinset).2 d.1 (List.of_mem_zip hd).1
          simpa [rowsOf] using this, hu d.2 (List.of_mem_zip hd).2⟩)
      simp only [transitionRowsIn, e, Out.state_ok, viewLabel, hk'.alpha]
    rw [h1, hav, rowMatrix_sum]
    unfold blockLabels rowLocal
    rw [Finset.sum_product, rowsOf_card]
    simp only [ite_mul, zero_mul]
    have hx : ∀ a : ℝ, ∑ q : RowPartition (rowsOf s), (if a = (viewLabel s v).1 then rowMatrix
        (fun q => w P c ((viewLabel s v).1, q) / concentrationPrior s.nRows (viewLabel s v).1)
        (orders (blockCols P c)) (viewLabel s v).2 q * F (a, q) else 0)
        = if a = v.crp.alpha then ∑ q : RowPartition (rowsOf s), rowMatrix
        (fun q => w P c (v.crp.alpha, q) / concentrationPrior s.nRows v.crp.alpha)
        (orders (blockCols P c)) (partitionOf (rowsOf s) v) q * F (v.crp.alpha, q) else 0 := by
      intro a
      show ∑ q : RowPartition (rowsOf s), (if a = v.crp.alpha then _ else _) = _
      by_cases e : a = v.crp.alpha
      · subst e
        simp only [if_true]; rfl
      · simp only [if_neg e, Finset.sum_const_zero]
    simp only [hx]
    rw [Finset.sum_ite_eq' _ v.crp.alpha, if_pos (List.mem_toFinset.mpr ha), hb]
  · funext l l'
    simp only [rowLocal, hw.2.2 p c c' hr, blockCols_congr hr]

end Cgpm.State
