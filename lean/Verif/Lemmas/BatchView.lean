import Verif.Lemmas.BatchDraws

/-! The law of a batch of rows of one view. -/
namespace Cgpm.Batch
open Cgpm MeasureTheory Cgpm.Props Cgpm.View
open scoped ENNReal

variable {P : Prim → Prop} {X : (catOf P).Tbl} {v : View (catOf P)}

theorem many_pure {α : Type} (a : α) (n : Nat) :
    (Cgpm.Draws.pure a).many n = .pure (List.replicate n a) := by
  induction n with
  | zero => rfl
  | succ n ih => simp only [Cgpm.Draws.many, Cgpm.Draws.bind, ih, List.replicate_succ]

theorem prob_of_total {α Y : Type} [MeasurableSpace Y] {m : Cgpm.Draws α} {φ : α → Y} {ν : Measure Y}
    (h : m.HasLaw φ ν) (h1 : m.E (fun _ => 1) = 1) : IsProbabilityMeasure ν := by
  have := h (fun _ => 1) measurable_const
  rw [h1, lintegral_one] at this
  exact ⟨this.symm⟩

theorem fillIn_cons' {row : Dict Col (catOf P).Cell} (c : Col) (x : Col → ℝ)
    (a : ℝ) : fillIn x ((c, some a) :: row : Dict Col (catOf P).Cell)
      = Function.update (fillIn x row) c a := by
  funext i
  unfold fillIn
  rw [Dict.get?_cons]
  by_cases h : c = i
  · subst h; simp
  · have : i ≠ c := fun e => h e.symm
    simp [h, this]

theorem mem_zip {α β γ : Type} {f : α → β → γ} {xs : List α} {ys : List β} {z : γ}
    (h : z ∈ List.zipWith f xs ys) : ∃ a, ∃ b ∈ ys, z = f a b := by
  obtain ⟨i, hi, rfl⟩ := List.getElem_of_mem h
  rw [List.getElem_zipWith]
  exact ⟨_, _, List.getElem_mem _, rfl⟩

theorem length_zip {α β γ : Type} (f : α → β → γ) {xs : List α} {ys : List β} {n : Nat}
    (h : xs.length = n) (h' : ys.length = n) : (List.zipWith f xs ys).length = n := by
  simp [h, h']

theorem map_zip {α β γ δ : Type} {f : α → β → γ} {g : γ → δ} {φ : β → δ} {u : α → δ → δ}
    (h : ∀ a b, g (f a b) = u a (φ b)) (xs : List α) (ys : List β) :
    (List.zipWith f xs ys).map g = List.zipWith u xs (ys.map φ) := by
  rw [List.map_zipWith, List.zipWith_map_right]
  congr 1
  funext a b
  exact h a b

theorem rowMany_always (v : View (catOf P)) (k : Tab) (N : Nat) (G : List Col) :
    (v.sampleRowMany k N G).Always fun rows => rows.length = N ∧
      ∀ row ∈ rows, row.keys = G ∧ ∀ p ∈ row, p.2 ≠ none := by
  induction G with
  | nil =>
    refine ⟨List.length_replicate, fun row hr => ?_⟩
    rw [List.eq_of_mem_replicate hr]
    exact ⟨rfl, by simp⟩
  | cons c t ih =>
    unfold View.sampleRowMany
    split
    · trivial
    · refine always_bind (many_always _ N) fun xs hxs => always_bind ih fun rows hr => ?_
      refine ⟨length_zip _ hxs hr.1, fun row hrow => ?_⟩
      obtain ⟨a, b, hb, rfl⟩ := mem_zip hrow
      obtain ⟨h1, h2⟩ := hr.2 _ hb
      refine ⟨?_, ?_⟩
      · simp only [Dict.keys, List.map_cons] at h1 ⊢
        rw [h1]
      · intro p hp
        rcases List.mem_cons.mp hp with rfl | hp
        · simp
        · exact h2 p hp

theorem sampleRow_batch (hI : View.Inv X v) (k : Tab) {μ : Col → Measure ℝ} {G : List Col}
    (hG : Drawable μ v G) (x : Col → ℝ) :
    ∃ ν : Measure (Col → ℝ), IsProbabilityMeasure ν ∧ (v.sampleRow k G).HasLaw (fillIn x) ν ∧
      ∀ N, SeqLaw (fillIn x) (v.sampleRowMany k N G) (List.replicate N ν) := by
  induction G with
  | nil =>
    have h : (v.sampleRow k []).HasLaw (fillIn x) (Measure.dirac x) := by
      intro g hg
      rw [lintegral_dirac' _ hg]
      rfl
    refine ⟨Measure.dirac x, inferInstance, h, fun N => ?_⟩
    have := many_law h N
    simp only [View.sampleRow, many_pure] at this
    exact this
  | cons c t ih =>
    obtain ⟨d, h1, h2, h3, h4⟩ := hG c List.mem_cons_self
    obtain ⟨νt, hνt, ht, htm⟩ := ih fun c' hc' => hG c' (List.mem_cons_of_mem _ hc')
    have hsl := sampleIn_law hI h1 h2 h3 k
    let μc : Measure ℝ := d.kind.1.base.withDensity fun a => cellDensity d k (some a) []
    have hc : (d.sampleIn k).HasLaw id μc := by
      intro g hg
      refine (hsl.2 g hg).trans ?_
      rw [lintegral_withDensity_eq_lintegral_mul _ hsl.1 hg]
      refine lintegral_congr fun a => ?_
      rw [Pi.mul_apply, mul_comm]
    have hμc : IsProbabilityMeasure μc := prob_of_total hc (sampleIn_total hI h1 h2 h3 k)
    let f : ℝ → (Col → ℝ) → (Col → ℝ) := fun a y => Function.update y c a
    have hf : Measurable fun p : ℝ × (Col → ℝ) => f p.1 p.2 :=
      measurable_update'.comp (measurable_snd.prodMk measurable_fst)
    refine ⟨(μc.prod νt).map fun p => f p.1 p.2, Measure.isProbabilityMeasure_map hf.aemeasurable,
      fun g hg => ?_, fun N => ⟨?_, fun F hF => ?_⟩⟩
    · simp only [View.sampleRow, h1]
      rw [Cgpm.Draws.E_bind]
      have e1 : ∀ a, ((v.sampleRow k t).bind fun row => Cgpm.Draws.pure ((c, some a) :: row)).E
          (fun row => g (fillIn x row)) = ∫⁻ y, g (f a y) ∂νt := by
        intro a
        rw [Cgpm.Draws.E_bind]
        refine (E_congr_always (always_true _) fun row _ =>
          congrArg g (fillIn_cons' c x a)).trans ?_
        exact ht (fun y => g (f a y)) (hg.comp (hf.comp measurable_prodMk_left))
      refine (E_congr_always (always_true _) fun a _ => e1 a).trans ?_
      refine (hc (fun a => ∫⁻ y, g (f a y) ∂νt)
        (Measurable.lintegral_prod_right' (f := fun p : ℝ × (Col → ℝ) => g (f p.1 p.2))
          (hg.comp hf))).trans ?_
      rw [lintegral_map hg hf]
      exact (lintegral_prod (fun p : ℝ × (Col → ℝ) => g (f p.1 p.2)) (hg.comp hf).aemeasurable).symm
    · rw [List.length_replicate]
      exact always_imp (rowMany_always v k N (c :: t)) fun _ h => h.1
    · rw [List.length_replicate] at hF
      simp only [View.sampleRowMany, h1]
      rw [← seqE_zip hf N hF, Cgpm.Draws.E_bind]
      have hz := MeasP.zip_right hF hf
      have hs : ∀ m ∈ List.replicate N νt, SFinite m := by
        intro m hm; rw [List.eq_of_mem_replicate hm]; infer_instance
      rw [← many_seqE hc N (F := fun xs => seqE (List.replicate N νt) fun ys =>
        F (List.zipWith f xs ys)) (measurable_seqE (List.replicate N νt) hs
          (G := fun (xs : Fin N → ℝ) ys => F (List.zipWith f (List.ofFn xs) ys)) (by
            rw [List.length_replicate]; exact hz))]
      refine E_congr_always (many_always _ N) fun xs hxs => ?_
      rw [Cgpm.Draws.E_bind, List.map_id]
      refine (E_congr_always (always_true _) fun rows _ => congrArg F
        (map_zip (φ := fillIn x) (u := f) (fun a row => fillIn_cons' c x a) xs rows)).trans ?_
      refine (htm N).law (fun ys => F (List.zipWith f xs ys)) ?_
      rw [List.length_replicate]
      subst hxs
      have := hz.comp (f := fun ys : Fin xs.length → (Col → ℝ) => (xs.get, ys)) measurable_prodMk_left
      simp only [Function.comp_def, List.ofFn_get] at this
      exact this

theorem sampleGroups_eq (v : View (catOf P)) (G : List Col) (ks L : List Tab) :
    v.sampleGroups G ks L = chained (L.map fun k => v.sampleRowsOf G k (ks.count k)) := by
  induction L with
  | nil => rfl
  | cons k t ih => simp only [View.sampleGroups, List.map_cons, chained, ih]

theorem chained_always {α : Type} {Q : α → Prop} {ms : List (Cgpm.Draws (List α))}
    (h : ∀ m ∈ ms, m.Always fun l => ∀ a ∈ l, Q a) : (chained ms).Always fun l => ∀ a ∈ l, Q a := by
  induction ms with
  | nil => intro a ha; cases ha
  | cons m t ih =>
    refine always_bind (h m List.mem_cons_self) fun l hl =>
      always_bind (ih fun m hm => h m (List.mem_cons_of_mem _ hm)) fun l' hl' => ?_
    intro a ha
    rcases List.mem_append.mp ha with ha | ha
    exacts [hl a ha, hl' a ha]

theorem sampleRowsOf_always (v : View (catOf P)) (k : Tab) (N : Nat) (G : List Col) :
    (v.sampleRowsOf G k N).Always fun rows =>
      ∀ row ∈ rows, row.keys = G ∧ ∀ p ∈ row, p.2 ≠ none := by
  unfold View.sampleRowsOf
  split
  · intro row hr; cases hr
  · exact always_imp (rowMany_always v k N G) fun _ h => h.2

/-- The law of a batch of a view, and of one sample: for a new row up to order, for a row of the view
exactly. -/
theorem view_batch (hI : View.Inv X v) (hne : ∃ r, v.seat r ≠ none) {rowid : Option Row}
    (hh : v.hypothetical rowid = true) {E : Dict Col (catOf P).Cell} (hEw : E.WF) (hE : Plain v E)
    (h0 : mixture v (fun k => rowDensity v k E.get?) ≠ 0) {ord : PyOrder}
    (hset : ∀ l, (ord.set l).Perm l) {μ : Col → Measure ℝ} {G : List Col} (hG0 : G ≠ [])
    (hG : Drawable μ v G) (x : Col → ℝ) :
    ∃ ν : Measure (Col → ℝ), IsProbabilityMeasure ν ∧ (v.sample rowid G E).HasLaw (fillIn x) ν ∧
      ∀ N, (v.sampleMany ord rowid G E N).Always (fun rows => rows.length = N ∧
          ∀ row ∈ rows, row.keys = G ∧ ∀ p ∈ row, p.2 ≠ none) ∧
        ∀ F : List (Col → ℝ) → ℝ≥0∞, Symm F → MeasL N F →
          (v.sampleMany ord rowid G E N).E (fun l => F (l.map (fillIn x)))
            = seqE (List.replicate N ν) F := by
  obtain ⟨K, fresh, lc, u, hK, hnd, hmem, hf, c1, hudef, hu, hufin, hsum, hbot⟩ :=
    fast_weights hI hne hEw hE
  have hnot : ¬ (lc.all fun w => w == (⊥ : LogP)) = true := fun h => h0 (hbot.mp h)
  have heq : v.sample rowid G E = (Draws.ofRand (Rand.logPflip u (K ++ [fresh]))).bind fun k =>
      v.sampleRow k G := by
    unfold View.sample
    rw [hh]
    cases rowid <;> simp only [hK, c1, hudef] <;> rw [if_neg hnot]
  have heqN : ∀ N, v.sampleMany ord rowid G E N =
      ((Draws.ofRand (Rand.logPflip u (K ++ [fresh]))).many N).bind fun ks =>
        v.sampleGroups G ks (ord.set (drawnTabs ks)) := by
    intro N
    unfold View.sampleMany
    rw [hh]
    cases rowid <;> simp only [hK, c1, hudef] <;> rw [if_neg hnot]
  obtain ⟨w, hw, hwE⟩ := logPflip_finite u (K ++ [fresh])
  choose ν hν hν1 hνN using fun k => sampleRow_batch hI k hG x
  have hlaw : (v.sample rowid G E).HasLaw (fillIn x) (∑ k ∈ (K ++ [fresh]).toFinset, w k • ν k) := by
    intro g hg
    rw [heq, Cgpm.Draws.E_bind, hwE, lintegral_finsetSum_measure]
    refine Finset.sum_congr rfl fun k _ => ?_
    rw [lintegral_smul_measure, smul_eq_mul, hν1 k g hg]
  have hL : ∀ ks : List Tab, (ord.set (drawnTabs ks)).Nodup ∧
      ∀ k, k ∈ ord.set (drawnTabs ks) ↔ k ∈ ks := by
    intro ks
    have hp : (ord.set (drawnTabs ks)).Perm ks.dedup :=
      (hset _).trans (List.mergeSort_perm _ _)
    exact ⟨hp.nodup_iff.mpr ks.nodup_dedup, fun k => by rw [hp.mem_iff, List.mem_dedup]⟩
  have hseq : ∀ ks : List Tab, SeqLaw (fillIn x) (v.sampleGroups G ks (ord.set (drawnTabs ks)))
      ((ord.set (drawnTabs ks)).flatMap fun k => List.replicate (ks.count k) (ν k)) := by
    intro ks
    rw [sampleGroups_eq, List.flatMap_def]
    refine chained_law ?_ ?_
    · rw [List.forall₂_map_left_iff, List.forall₂_map_right_iff, List.forall₂_same]
      intro k _
      unfold View.sampleRowsOf
      rw [if_neg (by simpa using hG0)]
      exact hνN k _
    · intro l hl m hm
      obtain ⟨k, -, rfl⟩ := List.mem_map.mp hl
      rw [List.eq_of_mem_replicate hm]
      have := hν k
      infer_instance
  refine ⟨_, prob_of_total hlaw (view_sample_total hI hne hh hEw hE h0 hG), hlaw, fun N => ⟨?_, ?_⟩⟩
  · rw [heqN]
    refine always_bind (many_always _ N) fun ks hks => ?_
    have h1 := (hseq ks).length
    have h2 : (v.sampleGroups G ks (ord.set (drawnTabs ks))).Always fun rows =>
        ∀ row ∈ rows, row.keys = G ∧ ∀ p ∈ row, p.2 ≠ none := by
      rw [sampleGroups_eq]
      refine chained_always fun m hm => ?_
      obtain ⟨k, -, rfl⟩ := List.mem_map.mp hm
      exact sampleRowsOf_always v k _ G
    have hlen : ((ord.set (drawnTabs ks)).flatMap fun k => List.replicate (ks.count k) (ν k)).length
        = N := by
      have := ((flatMap_count_perm (hL ks).1 fun k => ((hL ks).2 k).mpr).map ν).length_eq
      rw [List.map_flatMap, List.length_map, hks] at this
      rw [← this]
      congr 2
      funext k
      rw [List.map_replicate]
    rw [hlen] at h1
    revert h1 h2
    generalize v.sampleGroups G ks (ord.set (drawnTabs ks)) = m
    intro h1 h2
    induction m with
    | pure a => exact ⟨h1, h2⟩
    | raise e => trivial
    | draw law k ih => exact fun y => ih y (h1 y) (h2 y)
  · intro F hs hF
    rw [heqN]
    exact grouped_law (K := (K ++ [fresh]).toFinset) (w := w) (fun k _ => hw k) hwE
      (fun k => by have := hν k; infer_instance)
      (fun ks _ _ => ⟨_, (hL ks).1, (hL ks).2, hseq ks⟩) hs hF

/-- Values that are impossible are refused. -/
theorem view_batch_refused (hI : View.Inv X v) (hne : ∃ r, v.seat r ≠ none) {rowid : Option Row}
    (hh : v.hypothetical rowid = true) {E : Dict Col (catOf P).Cell} (hEw : E.WF) (hE : Plain v E)
    (h0 : mixture v (fun k => rowDensity v k E.get?) = 0) (ord : PyOrder) (G : List Col) (N : Nat) :
    v.sampleMany ord rowid G E N = .raise .valueError := by
  obtain ⟨K, fresh, lc, u, hK, hnd, hmem, hf, c1, hudef, hu, hufin, hsum, hbot⟩ :=
    fast_weights hI hne hEw hE
  unfold View.sampleMany
  rw [hh]
  cases rowid <;> simp only [hK, c1] <;> rw [if_pos (hbot.mpr h0)]

/-- A batch for a row of the view. -/
theorem view_batch_row (hI : View.Inv X v) {r : Row} {k : Tab} (hk : v.seat r = some k)
    (hh : v.hypothetical (some r) = false) (E : Dict Col (catOf P).Cell) (ord : PyOrder)
    {μ : Col → Measure ℝ} {G : List Col} (hG0 : G ≠ []) (hG : Drawable μ v G) (x : Col → ℝ) :
    ∃ ν : Measure (Col → ℝ), IsProbabilityMeasure ν ∧ (v.sample (some r) G E).HasLaw (fillIn x) ν ∧
      ∀ N, (v.sampleMany ord (some r) G E N).Always (fun rows => rows.length = N ∧
          ∀ row ∈ rows, row.keys = G ∧ ∀ p ∈ row, p.2 ≠ none) ∧
        ∀ F : List (Col → ℝ) → ℝ≥0∞, MeasL N F →
          (v.sampleMany ord (some r) G E N).E (fun l => F (l.map (fillIn x)))
            = seqE (List.replicate N ν) F := by
  obtain ⟨ν, h1, h2, h3⟩ := sampleRow_batch hI k hG x
  have e1 : v.sample (some r) G E = v.sampleRow k G := by
    unfold View.sample; rw [hh]; simp only [hk]
  have e2 : ∀ N, v.sampleMany ord (some r) G E N = v.sampleRowMany k N G := by
    intro N
    unfold View.sampleMany
    rw [hh]
    simp only [hk]
    unfold View.sampleRowsOf
    rw [if_neg (by simpa using hG0)]
  refine ⟨ν, h1, by rw [e1]; exact h2, fun N => ?_⟩
  rw [e2]
  exact ⟨rowMany_always v k N G, fun F hF => (h3 N).law F (by rw [List.length_replicate]; exact hF)⟩

end Cgpm.Batch
