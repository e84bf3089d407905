import Verif.Lemmas.ViewGibbs

/-! The invariant of a view is preserved by every call. -/
namespace Cgpm
namespace View

variable {C : Cat}

/-- What the theorems ask of a call: a row is added with the values the data set has for
it (NaN or admissible); hyperparameters are admissible; a forced cell belongs to a
seated row, holds NaN or an admissible value, and is not an input of another column. -/
def Legal (s : C.Tbl × View C) : Op C → Prop
  | .inc r obs _ _ => s.2.seat r = none →
      (∀ p ∈ s.2.dims, obs.get? p.1 = some (s.1 p.1 r)) ∧ ∀ p ∈ s.2.dims, Accepts s.1 p.2 r
  | .force r c x => (∃ d, s.2.dims.get? c = some d ∧ Accepts (setCell s.1 c r x) d r) ∧
      s.2.seat r ≠ none ∧ ∀ p ∈ s.2.dims, c ∉ p.2.inputs
  | .incDim _ _ i h => (C.F i).hypOk h
  | .cctype _ i _ h => (C.F i).hypOk h
  | .hypers c h => ∀ d, s.2.dims.get? c = some d → d.fam.hypOk h
  | _ => True

theorem incorporate_sampled_ok (hL : C.Lawful) {X : C.Tbl} {v : View C} (h : Inv X v) {r : Row}
    (hr : v.seat r = none) (k : Option Tab) (z : Tab) {obs : Dict Col C.Cell}
    (hacc : ∀ p ∈ v.dims, Accepts X p.2 r)
    (hobs : ∀ p ∈ v.dims, obs.get? p.1 = some (X p.1 r)) :
    ∃ v', v.incorporate X r obs k z = .ok v' ∧ Inv X v' ∧
      v'.seat = upd v.seat r (some (k.getD z)) ∧ v'.crp.alpha = v.crp.alpha ∧ Same v v' := by
  cases k with
  | some k =>
    obtain ⟨v', h1, h2, h3, h4, -, h6⟩ := incorporateAt_ok h hr k hacc hobs
    exact ⟨v', h1, h2, h3, h4, h6.same⟩
  | none =>
    obtain ⟨v1, h1, h2, h3, h4, -, h6⟩ := incorporateAt_ok h hr 0 hacc hobs
    obtain ⟨v2, g1, g2, g3, g4, g5⟩ := gibbsTransitionRow_ok hL h2 (r := r) (by rw [h3]; simp) z
    refine ⟨v2, by simp only [incorporate, h1, Out.bind_ok, g1], g2, ?_, by rw [g4, h4],
      h6.same.trans g5⟩
    rw [g3, h3, upd_upd]; rfl

theorem incorporate_dup {X : C.Tbl} {v : View C} {r : Row} (hr : v.seat r ≠ none)
    (k : Option Tab) (z : Tab) (obs : Dict Col C.Cell) :
    v.incorporate X r obs k z = .err .valueError v := by
  cases k <;> simp [incorporate, incorporateAt_dup hr]

theorem uncDims_missing {X : C.Tbl} {s : Row → Option Tab} {occ : Tab → Prop} {r : Row}
    (hr : s r = none) {ds : Dict Col (Dim C)} (h : ∀ p ∈ ds, DimOk' X s occ p.1 p.2) :
    uncDims r ds = (if ds = [] then .ok [] else .err .valueError ds) := by
  cases ds with
  | nil => rfl
  | cons p t =>
    obtain ⟨c, d⟩ := p
    have := Dim.unincorporate_missing (h (c, d) (by simp)).core (r := r) (by simp [filing, hr])
    simp only at this
    simp [uncDims, this]

theorem unincorporate_missing {X : C.Tbl} {v : View C} (h : Inv X v) {r : Row}
    (hr : v.seat r = none) : ∃ e, v.unincorporate r = .err e v := by
  have hr' : v.crp.data.get? r = none := hr
  unfold unincorporate
  rw [uncDims_missing hr h.dim]
  by_cases e : v.dims = []
  · refine ⟨.keyError, ?_⟩
    simp only [e, if_true, hr']
    congr
    rw [← e]
  · exact ⟨.valueError, by simp only [e, if_false]⟩

theorem fold_upd_seat (l : List (Row × Tab)) (s : Row → Option Tab) (r : Row)
    (hw : (l.map Prod.fst).Nodup) :
    (l.foldl (fun s p => upd s p.1 (some p.2)) s) r = (Dict.get? l r).or (s r) := by
  induction l generalizing s with
  | nil => rfl
  | cons p t ih =>
    obtain ⟨a, b⟩ := p
    simp only [List.map_cons, List.nodup_cons] at hw
    simp only [List.foldl_cons, ih _ hw.2, Dict.get?_cons]
    by_cases e : a = r
    · subst e
      have : Dict.get? t a = none := (Dict.get?_eq_none_iff _ _).mpr hw.1
      simp [this]
    · rw [upd_ne _ _ (Ne.symm e)]; simp [e]

/-- Filing all rows of a view in a cleared column either raises or gives a column that
agrees with the partition. -/
theorem bulkFold_spec {X : C.Tbl} (l : List (Row × Tab)) (hw : (l.map Prod.fst).Nodup)
    {s : Row → Option Tab} {c : Col} {d : Dim C} (h : DimOk X s c d)
    (hl : ∀ p ∈ l, s p.1 = none) :
    (∃ d', bulkFold X l d = .ok d' ∧ Dim.Frame d d' ∧ (∀ p ∈ l, Accepts X d p.1) ∧
      DimOk X (l.foldl (fun s p => upd s p.1 (some p.2)) s) c d') ∨
    (∃ e d' p, bulkFold X l d = .err e d' ∧ p ∈ l ∧ ¬ Accepts X d p.1) := by
  induction l generalizing s d with
  | nil => exact Or.inl ⟨d, rfl, Dim.Frame.refl d, by simp, h⟩
  | cons p t ih =>
    obtain ⟨r, k⟩ := p
    simp only [List.map_cons, List.nodup_cons] at hw
    have hr : s r = none := hl (r, k) (by simp)
    by_cases ha : Accepts X d r
    · obtain ⟨d1, h1, h2, h3⟩ := h.inc hr ha k
      have h3' : DimOk X (upd s r (some k)) c d1 :=
        h3.congrOcc (fun k' => (occ_upd_some hr k k').symm)
      rw [← h.index] at h1
      have hl' : ∀ p ∈ t, upd s r (some k) p.1 = none := by
        intro p hp
        rw [upd_ne]; exact hl p (by simp [hp])
        rintro e
        exact hw.1 (e ▸ List.mem_map_of_mem (f := Prod.fst) hp)
      rcases ih hw.2 h3' hl' with ⟨d', g1, g2, g3, g4⟩ | ⟨e, d', p, g1, g2, g3⟩
      · refine Or.inl ⟨d', by simp only [bulkFold, h1, g1], h2.trans g2, ?_, g4⟩
        intro p hp
        rcases List.mem_cons.mp hp with rfl | hp
        · exact ha
        · exact (accepts_frame h2 _).mp (g3 p hp)
      · refine Or.inr ⟨e, d', p, by simp only [bulkFold, h1, g1], by simp [g2], ?_⟩
        rwa [accepts_frame h2] at g3
    · refine Or.inr ?_
      unfold Accepts at ha
      push Not at ha
      obtain ⟨o, ho, hp⟩ := ha
      cases hpe : d.fam.prep o with
      | ok o' => exact absurd hpe (hp o')
      | error e =>
        have := h.core.incorporate_refused (r := r) (by simp [filing, hr]) k (X d.index r)
          (inputsOf X d r) ho hpe
        refine ⟨e, d.ensure k, (r, k), by simp only [bulkFold, this], by simp, ?_⟩
        intro hA
        obtain ⟨o', ho'⟩ := hA o ho
        exact hp o' ho'

theorem dimOk_cleared (X : C.Tbl) (d : Dim C) (hh : d.fam.hypOk d.hyp) :
    DimOk X (fun _ => none) d.index
      { d with clusters := [], Zr := [], Zi := [], aux := d.createAux } where
  index := rfl
  core := ⟨Dict.wf_nil, Dict.wf_nil, Dict.wf_nil, fun _ => rfl, fun _ => rfl,
    fun k c h => by simp at h, fun r k o h => by simp [filing] at h, Comp.Holds.init _ _⟩
  keys := by
    intro k
    constructor
    · intro h; simp [Dict.keys] at h
    · rintro ⟨r, hr⟩; cases hr
  shared := ⟨fun k c h => by simp at h, rfl⟩
  hyp := hh
  acc := fun r k h => by cases h

theorem bulkIncorporate_spec {X : C.Tbl} {v : View C} (h : Inv X v) (d : Dim C)
    (hh : d.fam.hypOk d.hyp) :
    (∃ d', v.bulkIncorporate X d = .ok d' ∧ Dim.Frame d d' ∧ DimOk X v.seat d.index d' ∧
      ∀ r, v.seat r ≠ none → Accepts X d r) ∨
    (∃ e d' r, v.bulkIncorporate X d = .err e d' ∧ v.seat r ≠ none ∧ ¬ Accepts X d r) := by
  have hf : Dim.Frame d { d with clusters := [], Zr := [], Zi := [], aux := d.createAux } :=
    ⟨rfl, rfl, rfl, rfl⟩
  rcases bulkFold_spec (X := X) v.crp.data h.crp.wfData (dimOk_cleared X d hh)
    (fun _ _ => rfl) with ⟨d', h1, h2, h3, h4⟩ | ⟨e, d', p, h1, h2, h3⟩
  · refine Or.inl ⟨d', h1, hf.trans h2, ?_, ?_⟩
    · have hs : (v.crp.data.foldl (fun s p => upd s p.1 (some p.2)) (fun _ => none)) = v.seat := by
        funext r
        rw [fold_upd_seat _ _ _ h.crp.wfData]
        unfold View.seat
        cases v.crp.data.get? r <;> rfl
      rw [hs] at h4
      exact h4
    · intro r hr
      obtain ⟨k, hk⟩ := Option.ne_none_iff_exists'.mp hr
      exact (accepts_frame hf r).mp (h3 (r, k) (Dict.mem_of_get? hk))
  · refine Or.inr ⟨e, d', p.1, h1, ?_, ?_⟩
    · unfold View.seat
      rw [Dict.get?_of_mem h.crp.wfData (v := p.2) h2]; simp
    · exact fun hA => h3 ((accepts_frame hf p.1).mpr hA)

/-- Replacing or adding a column that agrees with the partition. -/
theorem Inv.setDim {X : C.Tbl} {v : View C} (h : Inv X v) {c : Col} {d : Dim C}
    (hd : DimOk X v.seat c d) : Inv X { v with dims := v.dims.set c d } where
  crp := h.crp
  alpha := h.alpha
  wf := Dict.wf_set h.wf _ _
  dim := by
    rintro ⟨c', d'⟩ hp
    have hg := Dict.get?_of_mem (Dict.wf_set h.wf c d) hp
    rw [Dict.get?_set] at hg
    split at hg
    · rename_i e
      cases hg
      obtain rfl : c' = c := e
      exact hd
    · exact h.dim (c', d') (Dict.mem_of_get? hg)

theorem Inv.eraseDim {X : C.Tbl} {v : View C} (h : Inv X v) (c : Col) :
    Inv X { v with dims := v.dims.erase c } where
  crp := h.crp
  alpha := h.alpha
  wf := Dict.wf_erase h.wf _
  dim := by
    rintro ⟨c', d'⟩ hp
    have hg := Dict.get?_of_mem (Dict.wf_erase h.wf c) hp
    rw [Dict.get?_erase] at hg
    split at hg
    · cases hg
    · exact h.dim (c', d') (Dict.mem_of_get? hg)

theorem incorporateDim_spec {X : C.Tbl} {v : View C} (h : Inv X v) (d : Dim C)
    (hh : d.fam.hypOk d.hyp) :
    (∃ d', v.incorporateDim X d true = .ok { v with dims := v.dims.set d.index d' } ∧
      Dim.Frame d d' ∧ DimOk X v.seat d.index d' ∧ ∀ r, v.seat r ≠ none → Accepts X d r) ∨
    (∃ e r, v.incorporateDim X d true = .err e v ∧ v.seat r ≠ none ∧ ¬ Accepts X d r) := by
  rcases bulkIncorporate_spec h d hh with ⟨d', h1, h2, h3, h4⟩ | ⟨e, d', r, h1, h2, h3⟩
  · refine Or.inl ⟨d', ?_, h2, h3, h4⟩
    simp only [incorporateDim, if_true, h1, h2.index]
  · exact Or.inr ⟨e, r, by simp only [incorporateDim, if_true, h1], h2, h3⟩

theorem Inv.incorporateDim {X : C.Tbl} {v : View C} (h : Inv X v) (d : Dim C)
    (hh : d.fam.hypOk d.hyp) : Inv X (v.incorporateDim X d true).state := by
  rcases incorporateDim_spec h d hh with ⟨d', h1, -, h3, -⟩ | ⟨e, r, h1, -⟩
  · rw [h1]; exact h.setDim h3
  · rw [h1]; exact h

theorem Inv.unincorporateDim {X : C.Tbl} {v : View C} (h : Inv X v) (c : Col) :
    Inv X (v.unincorporateDim c).state := by
  unfold View.unincorporateDim
  split
  · exact h.eraseDim c
  · exact h

theorem Inv.updateCctype {X : C.Tbl} {v : View C} (h : Inv X v) (c : Col) (i : C.ι)
    (ins : List Col) (hy : C.H) (hh : (C.F i).hypOk hy) :
    Inv X (v.updateCctype X c i ins hy).state := by
  unfold View.updateCctype View.unincorporateDim
  split
  · exact (h.eraseDim c).incorporateDim _ hh
  · exact h

theorem Inv.setAlpha {X : C.Tbl} {v : View C} (h : Inv X v) (a : ℝ) :
    Inv X (v.setAlpha a).state := by
  unfold View.setAlpha Crp.setHypers
  split
  · rename_i ha
    exact ⟨⟨h.crp.wfData, h.crp.wfCounts, h.crp.hN, h.crp.hCounts⟩, ha, h.wf, h.dim⟩
  · exact h

theorem DimOk.transitionHypers {X : C.Tbl} {s : Row → Option Tab} {c : Col} {d : Dim C}
    (h : DimOk X s c d) {hy : C.H} (hh : d.fam.hypOk hy) :
    DimOk X s c (d.transitionHypers hy) where
  index := h.index
  core := h.core.transitionHypers hy
  keys := by
    intro k
    change k ∈ Dict.keys (List.map (fun p : Tab × C.Cl => (p.1, p.2.withHyp hy)) d.clusters) ↔ _
    rw [Dict.keys_map_val (fun c : C.Cl => c.withHyp hy)]; exact h.keys k
  shared := Dim.shared_transitionHypers d hy
  hyp := hh
  acc := h.acc

theorem Inv.transitionDimHypers {X : C.Tbl} {v : View C} (h : Inv X v) (c : Col) (hy : C.H)
    (hh : ∀ d, v.dims.get? c = some d → d.fam.hypOk hy) :
    Inv X (v.transitionDimHypers c hy).state := by
  unfold View.transitionDimHypers
  split
  · exact h
  · rename_i d hd
    exact h.setDim ((h.dim (c, d) (Dict.mem_of_get? hd)).transitionHypers (hh d hd))

theorem obsOf_setCell_other {X : C.Tbl} {d : Dim C} {c : Col} {r r' : Row} {x : C.Cell}
    (hi : c ∉ d.inputs) (h : d.index ≠ c ∨ r' ≠ r) :
    obsOf (setCell X c r x) d r' = obsOf X d r' := by
  unfold obsOf
  have h1 : setCell X c r x d.index r' = X d.index r' := by
    unfold setCell
    rw [if_neg]
    rintro ⟨e1, e2⟩
    rcases h with h | h
    · exact h e1
    · exact h e2
  have h2 : inputsOf (setCell X c r x) d r' = inputsOf X d r' := by
    unfold inputsOf
    apply List.map_congr_left
    intro i hi'
    unfold setCell
    rw [if_neg]
    rintro ⟨e1, -⟩
    exact hi (e1 ▸ hi')
  rw [h1, h2]

theorem filing_congr {X X' : C.Tbl} {s : Row → Option Tab} {d : Dim C}
    (h : ∀ r, s r ≠ none → obsOf X' d r = obsOf X d r) : filing X' s d = filing X s d := by
  funext r
  unfold filing stored
  cases hs : s r with
  | none => rfl
  | some k => simp [h r (by simp [hs])]

/-- A column only depends on the cells of its seated rows. -/
theorem DimOk'.congrX {X X' : C.Tbl} {s : Row → Option Tab} {occ : Tab → Prop} {c : Col} {d : Dim C}
    (h : DimOk' X s occ c d) (hX : ∀ r, s r ≠ none → obsOf X' d r = obsOf X d r) :
    DimOk' X' s occ c d where
  index := h.index
  core := by rw [filing_congr hX]; exact h.core
  keys := h.keys
  shared := h.shared
  hyp := h.hyp
  acc := by
    intro r k hk o ho
    rw [hX r (by simp [hk])] at ho
    exact h.acc r k hk o ho

theorem forceCell_ok (hL : C.Lawful) {X : C.Tbl} {v : View C} (h : Inv X v) {r : Row} {c : Col}
    {x : C.Cell} {d : Dim C} (hd : v.dims.get? c = some d) (hr : v.seat r ≠ none)
    (hacc : Accepts (setCell X c r x) d r) (hin : ∀ p ∈ v.dims, c ∉ p.2.inputs) :
    ∃ d', v.forceCell (setCell X c r x) r c x = .ok { v with dims := v.dims.set c d' } ∧
      Dim.Frame d d' ∧ Inv (setCell X c r x) { v with dims := v.dims.set c d' } := by
  obtain ⟨k, hk⟩ := Option.ne_none_iff_exists'.mp hr
  have hdo := h.dim (c, d) (Dict.mem_of_get? hd)
  have hci : c ∉ d.inputs := hin (c, d) (Dict.mem_of_get? hd)
  obtain ⟨d1, h1, h2, h3⟩ := hdo.unc hL hr
  have h3' : DimOk' (setCell X c r x) (upd v.seat r none) (Occ v.seat) c d1 := by
    refine h3.congrX (fun r' hr' => obsOf_setCell_other (by rw [h2.inputs]; exact hci) (Or.inr ?_))
    rintro rfl; simp at hr'
  obtain ⟨d2, g1, g2, g3⟩ := h3'.inc (r := r) (by simp)
    ((accepts_frame h2 r).mpr hacc) k
  rw [ne_upd_ne hk] at g3
  have g4 : DimOk (setCell X c r x) v.seat c d2 := g3.congrOcc (fun k' => by
      constructor
      · rintro (rfl | h')
        · exact ⟨r, hk⟩
        · exact h'
      · exact Or.inr)
  have hx : setCell X c r x c r = x := by simp [setCell]
  rw [hx] at g1
  refine ⟨d2, ?_, h2.trans g2, ⟨h.crp, h.alpha, Dict.wf_set h.wf _ _, ?_⟩⟩
  · simp only [forceCell, hk, hd, h1, g1]
  · rintro ⟨c', d'⟩ hp
    have hg := Dict.get?_of_mem (Dict.wf_set h.wf c d2) hp
    rw [Dict.get?_set] at hg
    split at hg
    · rename_i e
      cases hg
      obtain rfl : c' = c := e
      exact g4
    · rename_i hne
      have hm := Dict.mem_of_get? hg
      have hd' := h.dim (c', d') hm
      exact hd'.congrX (fun r' _ => obsOf_setCell_other (hin _ hm)
        (Or.inl (by rw [hd'.index]; exact hne)))

theorem Inv.apply (hL : C.Lawful) {s : C.Tbl × View C} (h : Inv s.1 s.2) (op : Op C)
    (hl : Legal s op) : Inv (View.apply s op).1 (View.apply s op).2.state := by
  obtain ⟨X, v⟩ := s
  cases op with
  | inc r obs k z =>
    by_cases hr : v.seat r = none
    · obtain ⟨ho, ha⟩ := hl hr
      obtain ⟨v', h1, h2, -⟩ := incorporate_sampled_ok hL h hr k z ha ho
      simp only [View.apply, h1]; exact h2
    · simp only [View.apply, incorporate_dup hr]; exact h
  | unc r =>
    by_cases hr : v.seat r = none
    · obtain ⟨e, he⟩ := unincorporate_missing h hr
      simp only [View.apply, he]; exact h
    · obtain ⟨v', h1, h2, -⟩ := unincorporate_ok hL h hr
      simp only [View.apply, h1]; exact h2
  | gibbs r z =>
    by_cases hr : v.seat r = none
    · obtain ⟨e, he⟩ := gibbsTransitionRow_missing (X := X) hr z
      simp only [View.apply, he]; exact h
    · obtain ⟨v', h1, h2, -⟩ := gibbsTransitionRow_ok hL h hr z
      simp only [View.apply, h1]; exact h2
  | force r c x =>
    obtain ⟨⟨d, hd, ha⟩, hr, hin⟩ := hl
    obtain ⟨d', h1, -, h2⟩ := forceCell_ok hL h hd hr ha hin
    simp only [View.apply, h1]; exact h2
  | incDim c ins i hy => exact h.incorporateDim _ hl
  | uncDim c => exact h.unincorporateDim c
  | cctype c i ins hy => exact h.updateCctype c i ins hy hl
  | alpha a => exact h.setAlpha a
  | hypers c hy => exact h.transitionDimHypers c hy hl

/-- Every call of a history is legal when it is made. -/
def LegalRun (s : C.Tbl × View C) : List (Op C) → Prop
  | [] => True
  | op :: ops => Legal s op ∧ LegalRun ((View.apply s op).1, (View.apply s op).2.state) ops

theorem Inv.run (hL : C.Lawful) {s : C.Tbl × View C} (h : Inv s.1 s.2) (ops : List (Op C))
    (hl : LegalRun s ops) : Inv (View.run s ops).1 (View.run s ops).2 := by
  induction ops generalizing s with
  | nil => exact h
  | cons op ops ih =>
    exact ih (s := ((View.apply s op).1, (View.apply s op).2.state)) (h.apply hL op hl.1) hl.2

end View
end Cgpm
