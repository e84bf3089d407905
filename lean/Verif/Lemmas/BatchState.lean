import Verif.Lemmas.BatchView

/-! The law of a batch of rows of a State. -/
namespace Cgpm.Batch
open Cgpm MeasureTheory Cgpm.Props
open scoped ENNReal

variable {P : Prim → Prop} {s : State (catOf P)} {ord : PyOrder} {rowid : Option Row}
  {Ev : Dict Nat (Dict Col (catOf P).Cell)}

/-- What the batch of a view is, for the functions `R`. -/
structure BatchLaw (s : State (catOf P)) (ord : PyOrder) (rowid : Option Row)
    (Ev : Dict Nat (Dict Col (catOf P).Cell)) (R : (List (Col → ℝ) → ℝ≥0∞) → Prop) (x : Col → ℝ)
    (ν : Measure (Col → ℝ)) (p : Nat × List Col) : Prop where
  nodup : p.2.Nodup
  cols : ∀ c ∈ p.2, s.Zv c = some p.1
  prob : IsProbabilityMeasure ν
  view : ∃ view, s.views.get? p.1 = some view ∧
    (view.sample rowid p.2 ((Ev.get? p.1).getD [])).HasLaw (fillIn x) ν ∧
    ∀ N, (view.sampleMany ord rowid p.2 ((Ev.get? p.1).getD []) N).Always
        (fun rows => rows.length = N ∧ ∀ row ∈ rows, row.keys = p.2 ∧ ∀ q ∈ row, q.2 ≠ none) ∧
      ∀ F : List (Col → ℝ) → ℝ≥0∞, R F → MeasL N F →
        (view.sampleMany ord rowid p.2 ((Ev.get? p.1).getD []) N).E (fun l => F (l.map (fillIn x)))
          = seqE (List.replicate N ν) F

theorem fillIn_partIn {row : Dict Col (catOf P).Cell} (hw : row.WF) (v : Nat) (x : Col → ℝ) :
    fillIn x (partIn s v row) = fun c => if s.Zv c = some v then fillIn x row c else x c := by
  funext c
  unfold fillIn partIn
  rw [Dict.get?_filter_of_wf hw]
  by_cases hc : s.Zv c = some v
  · rw [if_pos hc]
    cases row.get? c with
    | none => rfl
    | some z => cases z <;> simp [hc, Option.filter] <;> rfl
  · rw [if_neg hc]
    cases row.get? c <;> simp [hc]

/-- The rows have the columns of the views `l`. -/
def RowsOf (N : Nat) (l : Dict Nat (List Col)) (rows : List (Dict Col (catOf P).Cell)) : Prop :=
  rows.length = N ∧ ∀ row ∈ rows, row.WF ∧ (∀ p ∈ row, p.2 ≠ none) ∧
    ∀ c, c ∈ row.keys ↔ ∃ p ∈ l, c ∈ p.2

theorem update_row {p : Nat × List Col} {t : Dict Nat (List Col)}
    {row rest : Dict Col (catOf P).Cell} (hw : row.WF) (h1 : row.keys = p.2)
    (h2 : ∀ q ∈ row, q.2 ≠ none)
    (h3 : rest.WF ∧ (∀ p ∈ rest, p.2 ≠ none) ∧ ∀ c, c ∈ rest.keys ↔ ∃ p ∈ t, c ∈ p.2) :
    (row.update rest).WF ∧ (∀ q ∈ row.update rest, q.2 ≠ none) ∧
      ∀ c, c ∈ (row.update rest).keys ↔ ∃ q ∈ (p :: t : Dict Nat (List Col)), c ∈ q.2 := by
  have hw' := Dict.wf_update hw rest
  refine ⟨hw', ?_, ?_⟩
  · intro q hq h0
    have hg := Dict.get?_of_mem hw' hq
    rw [Dict.get?_update _ _ h3.1, h0] at hg
    cases hc : rest.get? q.1 with
    | some z =>
      rw [hc] at hg
      cases hg
      exact h3.2.1 _ (Dict.mem_of_get? hc) rfl
    | none =>
      rw [hc] at hg
      exact h2 _ (Dict.mem_of_get? hg) rfl
  · intro c
    rw [Dict.mem_keys_update, h1, h3.2.2]
    simp only [List.mem_cons, exists_eq_or_imp]

theorem batchViews_always {x : Col → ℝ} {R : (List (Col → ℝ) → ℝ≥0∞) → Prop}
    {l : Dict Nat (List Col)} (hl : ∀ p ∈ l, ∃ ν, BatchLaw s ord rowid Ev R x ν p) (N : Nat) :
    (s.batchViews ord rowid Ev N l).Always fun ls => ls.length = l.length ∧
      (l ≠ [] → RowsOf N l (State.zipMerged ls)) := by
  induction l with
  | nil => exact ⟨rfl, fun h => absurd rfl h⟩
  | cons p t ih =>
    obtain ⟨ν, hp⟩ := hl p List.mem_cons_self
    obtain ⟨view, hv, -, h2⟩ := hp.view
    obtain ⟨v, G⟩ := p
    simp only [State.batchViews, hv]
    refine always_bind (h2 N).1 fun rows hr =>
      always_bind (ih fun p hp => hl p (List.mem_cons_of_mem _ hp)) fun rest hs => ?_
    refine ⟨by simp [hs.1], fun _ => ?_⟩
    have hrw : ∀ row ∈ rows, row.WF := fun row hrow => by
      unfold Dict.WF; rw [(hr.2 row hrow).1]; exact hp.nodup
    cases rest with
    | nil =>
      have ht : t = [] := List.length_eq_zero_iff.mp hs.1.symm
      subst ht
      refine ⟨hr.1, fun row hrow => ⟨hrw row hrow, (hr.2 row hrow).2, fun c => ?_⟩⟩
      rw [(hr.2 row hrow).1]
      simp
    | cons a b =>
      have ht : t ≠ [] := by rintro rfl; simp at hs
      obtain ⟨h3, h4⟩ := hs.2 ht
      simp only [State.zipMerged]
      refine ⟨length_zip _ hr.1 h3, fun row hrow => ?_⟩
      obtain ⟨i, hi, rfl⟩ := List.getElem_of_mem hrow
      rw [List.getElem_zipWith]
      have hi1 : i < rows.length := by simp at hi; omega
      have hi2 : i < (State.zipMerged (a :: b)).length := by simp at hi; omega
      exact update_row (p := (v, G)) (hrw _ (List.getElem_mem hi1)) (hr.2 _ (List.getElem_mem hi1)).1
        (hr.2 _ (List.getElem_mem hi1)).2 (h4 _ (List.getElem_mem hi2))

/-- The parts of the merged rows. -/
theorem zip_parts {x : Col → ℝ} {v : Nat} {G : List Col} {t : Dict Nat (List Col)} {N : Nat}
    (hG : ∀ c ∈ G, s.Zv c = some v) (hn : G.Nodup)
    (ht : ∀ q ∈ t, q.1 ≠ v ∧ ∀ c ∈ q.2, s.Zv c = some q.1)
    {rows : List (Dict Col (catOf P).Cell)} {rest : List (List (Dict Col (catOf P).Cell))}
    (hr : rows.length = N ∧ ∀ row ∈ rows, row.keys = G ∧ ∀ q ∈ row, q.2 ≠ none)
    (hs : rest.length = t.length ∧ (t ≠ [] → RowsOf N t (State.zipMerged rest))) :
    (State.zipMerged (rows :: rest)).map (fun row => fillIn x (partIn s v row))
        = rows.map (fillIn x) ∧
      ∀ q ∈ t, (State.zipMerged (rows :: rest)).map (fun row => fillIn x (partIn s q.1 row))
        = (State.zipMerged rest).map (fun row => fillIn x (partIn s q.1 row)) := by
  have hrw : ∀ row ∈ rows, row.WF := fun row hrow => by
    unfold Dict.WF; rw [(hr.2 row hrow).1]; exact hn
  have hout : ∀ row ∈ rows, ∀ c, s.Zv c ≠ some v → fillIn x row c = x c := by
    intro row hrow c hc
    have : row.get? c = none := by
      rw [Dict.get?_eq_none_iff, (hr.2 row hrow).1]
      exact fun h => hc (hG c h)
    unfold fillIn
    rw [this]
  cases rest with
  | nil =>
    have : t = [] := List.length_eq_zero_iff.mp hs.1.symm
    subst this
    refine ⟨List.map_congr_left fun row hrow => ?_, fun q hq => by cases hq⟩
    rw [fillIn_partIn (hrw row hrow)]
    funext c
    split
    · rfl
    · rename_i hc
      exact (hout row hrow c hc).symm
  | cons a b =>
    have hne : t ≠ [] := by rintro rfl; simp at hs
    obtain ⟨h3, h4⟩ := hs.2 hne
    simp only [State.zipMerged]
    generalize State.zipMerged (a :: b) = W at h3 h4
    have key : ∀ i (h1 : i < rows.length) (h2 : i < W.length),
        fillIn x (partIn s v (rows[i].update W[i])) = fillIn x rows[i] ∧
        ∀ q ∈ t, fillIn x (partIn s q.1 (rows[i].update W[i])) = fillIn x (partIn s q.1 W[i]) := by
      intro i h1 h2
      obtain ⟨w1, w2, w3⟩ := h4 _ (List.getElem_mem h2)
      have hrow := List.getElem_mem h1
      have hup := Dict.wf_update (hrw _ hrow) W[i]
      rw [fillIn_partIn hup, fillIn_update w1 w2]
      refine ⟨funext fun c => ?_, fun q hq => ?_⟩
      · by_cases hc : s.Zv c = some v
        · rw [if_pos hc]
          have : W[i].get? c = none := by
            rw [Dict.get?_eq_none_iff, w3]
            rintro ⟨q, hq, hcq⟩
            have := (ht q hq).2 c hcq
            rw [hc] at this
            exact (ht q hq).1 (Option.some.inj this).symm
          conv_lhs => unfold fillIn
          rw [this]
          rfl
        · rw [if_neg hc, hout _ hrow c hc]
      · rw [fillIn_partIn hup, fillIn_partIn w1, fillIn_update w1 w2]
        funext c
        by_cases hc : s.Zv c = some q.1
        · rw [if_pos hc, if_pos hc]
          have hv : fillIn x rows[i] c = x c := hout _ hrow c fun h => (ht q hq).1
            (Option.some.inj (hc.symm.trans h))
          unfold fillIn at hv ⊢
          cases W[i].get? c with
          | none => exact hv
          | some z => cases z with
            | none => exact hv
            | some z => rfl
        · rw [if_neg hc, if_neg hc]
    refine ⟨List.ext_getElem (by simp [hr.1, h3]) fun i h1 h2 => ?_,
      fun q hq => List.ext_getElem (by simp [hr.1, h3]) fun i h1 h2 => ?_⟩
    · rw [List.getElem_map, List.getElem_map, List.getElem_zipWith]
      exact (key i (by simpa using h2) (by simp at h1; omega)).1
    · rw [List.getElem_map, List.getElem_map, List.getElem_zipWith]
      exact (key i (by simp at h1; omega) (by simpa using h2)).2 q hq

/-- The views' parts of a batch are independent, and each is what the view gives. -/
theorem batchViews_law {x : Col → ℝ} {R : (List (Col → ℝ) → ℝ≥0∞) → Prop}
    (hR : ∀ F c d, R F → R fun l => c * F l * d) {ν : Nat → Measure (Col → ℝ)}
    {l : Dict Nat (List Col)} (hw : l.WF)
    (hl : ∀ p ∈ l, BatchLaw s ord rowid Ev R x (ν p.1) p) (N : Nat)
    {F : Nat → List (Col → ℝ) → ℝ≥0∞} (hF : ∀ p ∈ l, R (F p.1) ∧ MeasL N (F p.1)) (c : ℝ≥0∞) :
    (s.batchViews ord rowid Ev N l).E (fun ls => c * (l.map fun p =>
        F p.1 ((State.zipMerged ls).map fun row => fillIn x (partIn s p.1 row))).prod)
      = c * (l.map fun p => ∫⁻ y : Fin N → (Col → ℝ), F p.1 (List.ofFn y)
          ∂Measure.pi fun _ => ν p.1).prod := by
  induction l generalizing c with
  | nil => rfl
  | cons p t ih =>
    have hp := hl p List.mem_cons_self
    obtain ⟨view, hv, -, h2⟩ := hp.view
    obtain ⟨v, G⟩ := p
    have hw' := List.nodup_cons.mp hw
    have ht := fun p hp => hl p (List.mem_cons_of_mem _ hp)
    have htv : ∀ q ∈ t, q.1 ≠ v ∧ ∀ c ∈ q.2, s.Zv c = some q.1 := fun q hq =>
      ⟨fun e => hw'.1 (List.mem_map.mpr ⟨q, hq, e⟩), (ht q hq).cols⟩
    simp only [State.batchViews, hv, List.map_cons, List.prod_cons]
    rw [Cgpm.Draws.E_bind]
    have hFv := hF _ List.mem_cons_self
    have := hp.prob
    set K := (t.map fun p => ∫⁻ y : Fin N → (Col → ℝ), F p.1 (List.ofFn y)
      ∂Measure.pi fun _ => ν p.1).prod with hK
    refine (E_congr_always (g := fun rows => c * F v (rows.map (fillIn x)) * K) (h2 N).1
      fun rows hr => ?_).trans ?_
    · rw [Cgpm.Draws.E_bind, ← ih hw'.2 ht (fun p hp => hF p (List.mem_cons_of_mem _ hp))]
      refine E_congr_always (batchViews_always (fun p hp => ⟨_, ht p hp⟩) N) fun rest hs => ?_
      obtain ⟨z1, z2⟩ := zip_parts (x := x) hp.cols hp.nodup htv hr hs
      simp only [Cgpm.Draws.E]
      have z3 : (t.map fun p => F p.1 ((State.zipMerged (rows :: rest)).map fun row =>
          fillIn x (partIn s p.1 row))) = t.map fun p => F p.1 ((State.zipMerged rest).map fun row =>
          fillIn x (partIn s p.1 row)) := List.map_congr_left fun q hq => congrArg _ (z2 q hq)
      rw [z1, z3, mul_assoc]
    · have hm : MeasL N fun l => c * F v l * K := (Measurable.const_mul hFv.2 c).mul_const K
      rw [(h2 N).2 (fun l => c * F v l * K) (hR _ _ _ hFv.1) hm, seqE_pi _ _ hm,
        lintegral_mul_const _ (Measurable.const_mul hFv.2 c), lintegral_const_mul _ hFv.2, mul_assoc]

theorem batch_total {x : Col → ℝ} {R : (List (Col → ℝ) → ℝ≥0∞) → Prop} (hR : R fun _ => 1)
    {ν : Measure (Col → ℝ)} {p : Nat × List Col} (h : BatchLaw s ord rowid Ev R x ν p) (N : Nat) :
    ∃ view, s.views.get? p.1 = some view ∧
      (view.sampleMany ord rowid p.2 ((Ev.get? p.1).getD []) N).E (fun _ => 1) = 1 := by
  obtain ⟨view, hv, -, h2⟩ := h.view
  have := h.prob
  refine ⟨view, hv, ((h2 N).2 (fun _ => 1) hR measurable_const).trans (seqE_const (fun m hm => ?_) 1)⟩
  rw [List.eq_of_mem_replicate hm]
  infer_instance

theorem batchViews_refused {N : Nat} {l : Dict Nat (List Col)}
    (hl : ∀ p ∈ l, ∃ view, s.views.get? p.1 = some view ∧
      (view.sampleMany ord rowid p.2 ((Ev.get? p.1).getD []) N = .raise .valueError ∨
        (view.sampleMany ord rowid p.2 ((Ev.get? p.1).getD []) N).E (fun _ => 1) = 1))
    (h : ∃ p ∈ l, ∃ view, s.views.get? p.1 = some view ∧
      view.sampleMany ord rowid p.2 ((Ev.get? p.1).getD []) N = .raise .valueError) :
    (s.batchViews ord rowid Ev N l).Always (fun _ => False) ∧
      1 ≤ (s.batchViews ord rowid Ev N l).fails .valueError := by
  induction l with
  | nil => obtain ⟨p, hp, -⟩ := h; cases hp
  | cons p t ih =>
    obtain ⟨view, hv, h1⟩ := hl p List.mem_cons_self
    obtain ⟨v, G⟩ := p
    simp only [State.batchViews, hv]
    simp only at h1
    rcases h1 with h1 | h1
    · rw [h1]
      exact ⟨trivial, by simp [Draws.bind, Draws.fails]⟩
    · have hin : ∃ p ∈ t, ∃ view, s.views.get? p.1 = some view ∧
          view.sampleMany ord rowid p.2 ((Ev.get? p.1).getD []) N = .raise .valueError := by
        obtain ⟨q, hq, w, hw, h2⟩ := h
        rcases List.mem_cons.mp hq with rfl | hq
        · rw [hv] at hw
          cases hw
          simp only at h2
          rw [h2] at h1
          simp [Draws.E] at h1
        · exact ⟨q, hq, w, hw, h2⟩
      obtain ⟨i1, i2⟩ := ih (fun p hp => hl p (List.mem_cons_of_mem _ hp)) hin
      refine ⟨always_false_bind fun row => always_bind i1 fun _ h => h.elim, ?_⟩
      rw [← h1]
      refine fails_bind_le fun row => ?_
      rw [Draws.fails_bind_pure]
      exact i2

theorem fillIn_merge {cols : List Col} {row rest : Dict Col (catOf P).Cell} (hw : rest.WF)
    (h1 : ∀ p ∈ rest, p.2 ≠ none) (h2 : ∀ c, c ∈ rest.keys ↔ c ∈ cols) (x : Col → ℝ) :
    fillIn x (row.update rest)
      = fun c => if c ∈ cols then fillIn x rest c else fillIn x row c := by
  rw [fillIn_update hw h1]
  funext c
  by_cases hc : c ∈ cols
  · rw [if_pos hc]
    obtain ⟨z, hz⟩ := Dict.exists_of_mem_keys ((h2 c).mpr hc)
    have hz' := h1 _ (Dict.mem_of_get? hz)
    unfold fillIn
    rw [hz]
    cases z with
    | none => exact absurd rfl hz'
    | some z => rfl
  · rw [if_neg hc]
    have : rest.get? c = none := by
      rw [Dict.get?_eq_none_iff, h2]; exact hc
    conv_lhs => unfold fillIn
    rw [this]
    rfl

/-- If the batches of the views are exactly what independent draws give, so are the merged rows. -/
theorem batchViews_exact {x : Col → ℝ} {l : Dict Nat (List Col)} (hne : l ≠ [])
    (hl : ∀ p ∈ l, ∃ ν, BatchLaw s ord rowid Ev (fun _ => True) x ν p) :
    ∃ ν : Measure (Col → ℝ), IsProbabilityMeasure ν ∧
      (s.sampleViews rowid Ev l).HasLaw (fillIn x) ν ∧
      ∀ N, SeqLaw (fillIn x) ((s.batchViews ord rowid Ev N l).bind fun ls =>
        .pure (State.zipMerged ls)) (List.replicate N ν) := by
  induction l with
  | nil => exact absurd rfl hne
  | cons p t ih =>
    have hlen : ∀ N, ((s.batchViews ord rowid Ev N (p :: t)).bind fun ls =>
        Cgpm.Draws.pure (State.zipMerged ls)).Always fun l => l.length = N := fun N =>
      always_bind (batchViews_always hl N) fun ls h => (h.2 hne).1
    obtain ⟨ν, hp⟩ := hl p List.mem_cons_self
    obtain ⟨view, hv, h1, h2⟩ := hp.view
    have hν := hp.prob
    obtain ⟨v, G⟩ := p
    have ht := fun p hp => hl p (List.mem_cons_of_mem _ hp)
    by_cases ht0 : t = []
    · subst ht0
      refine ⟨ν, hν, fun g hg => ?_, fun N => ⟨?_, fun F hF => ?_⟩⟩
      · simp only [State.sampleViews, hv]
        rw [Cgpm.Draws.E_bind]
        exact h1 g hg
      · rw [List.length_replicate]; exact hlen N
      · rw [List.length_replicate] at hF
        simp only [State.batchViews, hv]
        rw [Cgpm.Draws.E_bind, Cgpm.Draws.E_bind]
        exact (h2 N).2 F trivial hF
    · obtain ⟨νt, hνt, t1, t2⟩ := ih ht0 ht
      let cols := t.flatMap Prod.snd
      let f : (Col → ℝ) → (Col → ℝ) → (Col → ℝ) := fun y z c => if c ∈ cols then z c else y c
      have hf : Measurable fun p : (Col → ℝ) × (Col → ℝ) => f p.1 p.2 := by
        refine measurable_pi_iff.mpr fun c => ?_
        by_cases hc : c ∈ cols
        · simp only [f, if_pos hc]
          exact (measurable_pi_apply c).comp measurable_snd
        · simp only [f, if_neg hc]
          exact (measurable_pi_apply c).comp measurable_fst
      have hmerge : ∀ row rest : Dict Col (catOf P).Cell, rest.WF → (∀ p ∈ rest, p.2 ≠ none) →
          (∀ c, c ∈ rest.keys ↔ ∃ p ∈ t, c ∈ p.2) →
          fillIn x (row.update rest) = f (fillIn x row) (fillIn x rest) := fun row rest w1 w2 w3 =>
        fillIn_merge w1 w2 (fun c => by rw [w3, List.mem_flatMap]) x
      refine ⟨(ν.prod νt).map fun p => f p.1 p.2, Measure.isProbabilityMeasure_map hf.aemeasurable,
        fun g hg => ?_, fun N => ⟨?_, fun F hF => ?_⟩⟩
      · simp only [State.sampleViews, hv]
        rw [Cgpm.Draws.E_bind]
        refine (E_congr_always (g := fun row => ∫⁻ z, g (f (fillIn x row) z) ∂νt) (always_true _)
          fun row _ => ?_).trans ?_
        · rw [Cgpm.Draws.E_bind]
          refine (E_congr_always (sampleViews_always s rowid Ev t
            fun p hp => (ht p hp).choose_spec.nodup) fun rest hr =>
            congrArg g (hmerge row rest hr.1 hr.2.1 hr.2.2)).trans ?_
          exact t1 (fun z => g (f (fillIn x row) z)) (hg.comp (hf.comp measurable_prodMk_left))
        · refine (h1 (fun y => ∫⁻ z, g (f y z) ∂νt)
            (Measurable.lintegral_prod_right' (f := fun p : (Col → ℝ) × (Col → ℝ) => g (f p.1 p.2))
              (hg.comp hf))).trans ?_
          rw [lintegral_map hg hf]
          exact (lintegral_prod (fun p : (Col → ℝ) × (Col → ℝ) => g (f p.1 p.2))
            (hg.comp hf).aemeasurable).symm
      · rw [List.length_replicate]; exact hlen N
      · rw [List.length_replicate] at hF
        simp only [State.batchViews, hv]
        rw [Cgpm.Draws.E_bind, Cgpm.Draws.E_bind, ← seqE_zip hf N hF]
        have hz := MeasP.zip_right hF hf
        have hs : ∀ m ∈ List.replicate N νt, SFinite m := by
          intro m hm; rw [List.eq_of_mem_replicate hm]; infer_instance
        rw [← (h2 N).2 (fun ys => seqE (List.replicate N νt) fun zs => F (List.zipWith f ys zs)) trivial
          (measurable_seqE (List.replicate N νt) hs
            (G := fun (ys : Fin N → (Col → ℝ)) zs => F (List.zipWith f (List.ofFn ys) zs)) (by
              rw [List.length_replicate]; exact hz))]
        refine E_congr_always (h2 N).1 fun rows hr => ?_
        rw [Cgpm.Draws.E_bind]
        have hl' : (rows.map (fillIn x)).length = N := by rw [List.length_map]; exact hr.1
        have hFr : MeasL N fun zs => F (List.zipWith f (rows.map (fillIn x)) zs) := by
          generalize rows.map (fillIn x) = ys at hl'
          subst hl'
          have := hz.comp (f := fun zs : Fin ys.length → (Col → ℝ) => (ys.get, zs))
            measurable_prodMk_left
          simp only [Function.comp_def, List.ofFn_get] at this
          exact this
        rw [← (t2 N).law (fun zs => F (List.zipWith f (rows.map (fillIn x)) zs)) (by
          rw [List.length_replicate]; exact hFr), Cgpm.Draws.E_bind]
        refine E_congr_always (batchViews_always ht N) fun rest hs => congrArg F ?_
        cases rest with
        | nil => exact absurd (List.length_eq_zero_iff.mp hs.1.symm) ht0
        | cons a b =>
          obtain ⟨w1, w2⟩ := hs.2 ht0
          simp only [State.zipMerged]
          generalize State.zipMerged (a :: b) = W at w1 w2
          refine List.ext_getElem (by simp) fun i i1 i2 => ?_
          rw [List.getElem_map, List.getElem_zipWith, List.getElem_zipWith, List.getElem_map,
            List.getElem_map]
          obtain ⟨a1, a2, a3⟩ := w2 (W[i]'(by simp at i1; omega)) (List.getElem_mem _)
          exact hmerge _ _ a1 a2 a3

end Cgpm.Batch
