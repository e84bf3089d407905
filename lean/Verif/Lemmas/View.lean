import Verif.Model.View
import Verif.Lemmas.Dim
import Verif.Lemmas.CrpGibbs

/-! A consistent view is determined by its row partition, its data and its schema. -/
namespace Cgpm
namespace View

variable {C : Cat}

/-- What column `d` stores for row `r`. -/
def stored (X : C.Tbl) (d : Dim C) (r : Row) : Option C.O :=
  match obsOf X d r with
  | none => none
  | some o => match d.fam.prep o with
    | .ok o' => some o'
    | .error _ => none

/-- The filing of column `d` for the row partition `s`. -/
def filing (X : C.Tbl) (s : Row → Option Tab) (d : Dim C) : Filing C :=
  fun r => (s r).map fun k => (k, stored X d r)

/-- The column's type allows the row's value. -/
def Accepts (X : C.Tbl) (d : Dim C) (r : Row) : Prop :=
  ∀ o, obsOf X d r = some o → ∃ o', d.fam.prep o = .ok o'

/-- A row is given the cluster `k`, or removed. -/
def upd (s : Row → Option Tab) (r : Row) (k : Option Tab) : Row → Option Tab :=
  fun r' => if r' = r then k else s r'

@[simp] theorem upd_self (s : Row → Option Tab) (r : Row) (k : Option Tab) : upd s r k r = k := by
  simp [upd]

theorem upd_ne (s : Row → Option Tab) {r r' : Row} (k : Option Tab) (h : r' ≠ r) :
    upd s r k r' = s r' := by simp [upd, h]

theorem upd_upd (s : Row → Option Tab) (r : Row) (k k' : Option Tab) :
    upd (upd s r k) r k' = upd s r k' := by
  funext r'; unfold upd; split <;> rfl

theorem upd_eq (s : Row → Option Tab) (r : Row) : upd s r (s r) = s := by
  funext r'; unfold upd; split
  · subst_vars; rfl
  · rfl

/-- Column `c` agrees with the row partition `s` and the data, holding components
exactly for the clusters `occ`. -/
structure DimOk' (X : C.Tbl) (s : Row → Option Tab) (occ : Tab → Prop) (c : Col) (d : Dim C) :
    Prop where
  index : d.index = c
  core : Dim.Core d (filing X s d)
  keys : ∀ k, k ∈ d.clusters.keys ↔ occ k
  shared : Dim.Shared d
  hyp : d.fam.hypOk d.hyp
  acc : ∀ r k, s r = some k → Accepts X d r

/-- The clusters in use. -/
def Occ (s : Row → Option Tab) (k : Tab) : Prop := ∃ r, s r = some k

/-- Column `c` agrees with the row partition `s` and the data. -/
abbrev DimOk (X : C.Tbl) (s : Row → Option Tab) (c : Col) (d : Dim C) : Prop :=
  DimOk' X s (Occ s) c d

/-- Invariant of a view. -/
structure Inv (X : C.Tbl) (v : View C) : Prop where
  crp : Crp.Inv v.crp
  alpha : 0 < v.crp.alpha
  wf : v.dims.WF
  dim : ∀ p ∈ v.dims, DimOk X v.seat p.1 p.2

theorem inv_empty (X : C.Tbl) {a : ℝ} (ha : 0 < a) : Inv X (empty a : View C) :=
  ⟨Crp.inv_init a, ha, Dict.wf_nil, fun p hp => by simp [empty] at hp⟩

section frame
variable {X : C.Tbl} {d d' : Dim C}

theorem inputsOf_frame (h : Dim.Frame d d') (r : Row) : inputsOf X d' r = inputsOf X d r := by
  simp [inputsOf, h.inputs]

theorem obsOf_frame (h : Dim.Frame d d') (r : Row) : obsOf X d' r = obsOf X d r := by
  simp [obsOf, h.index, inputsOf_frame h]

theorem stored_frame (h : Dim.Frame d d') (r : Row) : stored X d' r = stored X d r := by
  simp [stored, obsOf_frame h, h.fam]

theorem filing_frame (h : Dim.Frame d d') (s : Row → Option Tab) :
    filing X s d' = filing X s d := by
  funext r; simp [filing, stored_frame h]

theorem accepts_frame (h : Dim.Frame d d') (r : Row) : Accepts X d' r ↔ Accepts X d r := by
  unfold Accepts; rw [obsOf_frame h, h.fam]

end frame

theorem filing_upd (X : C.Tbl) (s : Row → Option Tab) (d : Dim C) (r : Row) (k : Option Tab) :
    filing X (upd s r k) d =
      fun r' => if r' = r then k.map (fun k => (k, stored X d r)) else filing X s d r' := by
  funext r'; unfold filing upd
  split
  · subst_vars; rfl
  · rfl

theorem stored_spec {X : C.Tbl} {d : Dim C} {r : Row} (h : Accepts X d r) :
    match validObs (X d.index r) (inputsOf X d r) with
      | none => stored X d r = none
      | some o => ∃ o', d.fam.prep o = .ok o' ∧ stored X d r = some o' := by
  cases hv : validObs (X d.index r) (inputsOf X d r) with
  | none => simp [stored, obsOf, hv]
  | some o =>
    obtain ⟨o', ho'⟩ := h o hv
    exact ⟨o', ho', by simp [stored, obsOf, hv, ho']⟩

/-- Filing a row in one column. -/
theorem DimOk'.inc {X : C.Tbl} {s : Row → Option Tab} {occ : Tab → Prop} {c : Col} {d : Dim C}
    (h : DimOk' X s occ c d) {r : Row} (hr : s r = none) (hacc : Accepts X d r) (k : Tab) :
    ∃ d', d.incorporate r k (X c r) (inputsOf X d r) = .ok d' ∧ Dim.Frame d d' ∧
      DimOk' X (upd s r (some k)) (fun k' => k' = k ∨ occ k') c d' := by
  obtain ⟨d', h1, h2, h3, h4, h5⟩ := h.core.incorporate (r := r) (by simp [filing, hr]) k
    (X d.index r) (inputsOf X d r) (stored X d r) (stored_spec hacc)
  rw [← h.index]
  refine ⟨d', h1, h2, h2.index, ?_, ?_, h5 h.shared, ?_, ?_⟩
  · rw [filing_frame h2, filing_upd]
    exact h3
  · intro k'
    rw [h4, h.keys]
  · rw [h2.fam, h2.hyp]; exact h.hyp
  · intro r' k' hk
    rw [accepts_frame h2]
    by_cases e : r' = r
    · subst e; exact hacc
    · rw [upd_ne _ _ e] at hk; exact h.acc r' k' hk

/-- Removing a row from one column. -/
theorem DimOk'.unc (hL : C.Lawful) {X : C.Tbl} {s : Row → Option Tab} {occ : Tab → Prop} {c : Col}
    {d : Dim C} (h : DimOk' X s occ c d) {r : Row} (hr : s r ≠ none) :
    ∃ d', d.unincorporate r = .ok d' ∧ Dim.Frame d d' ∧ DimOk' X (upd s r none) occ c d' := by
  obtain ⟨k, hk⟩ := Option.ne_none_iff_exists'.mp hr
  obtain ⟨d', h1, h2, h3, h4, h5, h6⟩ := h.core.unincorporate hL (r := r) (by simp [filing, hk])
  refine ⟨d', h1, h2, h2.index.trans h.index, ?_, ?_, h6 h.shared, ?_, ?_⟩
  · rw [filing_frame h2, filing_upd]
    exact h3
  · intro k'
    rw [h4, h.keys]
  · rw [h2.fam, h2.hyp]; exact h.hyp
  · intro r' k' hk'
    rw [accepts_frame h2]
    by_cases e : r' = r
    · subst e; exact h.acc r' k hk
    · rw [upd_ne _ _ e] at hk'; exact h.acc r' k' hk'

theorem DimOk'.congrOcc {X : C.Tbl} {s : Row → Option Tab} {occ occ' : Tab → Prop} {c : Col}
    {d : Dim C} (h : DimOk' X s occ c d) (e : ∀ k, occ k ↔ occ' k) : DimOk' X s occ' c d :=
  { h with keys := fun k => (h.keys k).trans (e k) }

/-- Dropping the component of an unused cluster. -/
theorem DimOk'.drop {X : C.Tbl} {s : Row → Option Tab} {occ : Tab → Prop} {c : Col}
    {d : Dim C} (h : DimOk' X s occ c d) {k : Tab} (hk : ¬ Occ s k) :
    DimOk' X s (fun k' => k' ≠ k ∧ occ k') c { d with clusters := d.clusters.erase k } where
  index := h.index
  core := by
    refine h.core.dropCluster (fun r o hm => hk ⟨r, ?_⟩)
    simp only [filing, Option.map_eq_some_iff] at hm
    obtain ⟨a, ha, hp⟩ := hm
    rw [ha, (Prod.mk.inj hp).1]
  keys := fun k' => by rw [Dict.mem_keys_erase, h.keys]
  shared := h.shared.dropCluster k
  hyp := h.hyp
  acc := h.acc

theorem occ_upd_some {s : Row → Option Tab} {r : Row} (hr : s r = none) (k k' : Tab) :
    Occ (upd s r (some k)) k' ↔ k' = k ∨ Occ s k' := by
  constructor
  · rintro ⟨r', h⟩
    by_cases e : r' = r
    · subst e; simp at h; exact Or.inl h.symm
    · rw [upd_ne _ _ e] at h; exact Or.inr ⟨r', h⟩
  · rintro (rfl | ⟨r', h⟩)
    · exact ⟨r, by simp⟩
    · refine ⟨r', ?_⟩
      rw [upd_ne]; exact h
      rintro rfl; rw [hr] at h; cases h

/-- How the list of columns changes: same columns, same schema, now agreeing with `s'`. -/
def Step (X : C.Tbl) (s' : Row → Option Tab) (occ' : Tab → Prop) (ds ds' : Dict Col (Dim C)) :
    Prop :=
  List.Forall₂ (fun p p' : Col × Dim C => p'.1 = p.1 ∧ Dim.Frame p.2 p'.2 ∧
    DimOk' X s' occ' p'.1 p'.2) ds ds'

theorem Step.keys {X : C.Tbl} {s' : Row → Option Tab} {occ' : Tab → Prop}
    {ds ds' : Dict Col (Dim C)} (h : Step X s' occ' ds ds') : ds'.keys = ds.keys := by
  induction h with
  | nil => rfl
  | cons h _ ih => simp only [Dict.keys, List.map_cons] at ih ⊢; rw [h.1, ih]

theorem Step.wf {X : C.Tbl} {s' : Row → Option Tab} {occ' : Tab → Prop}
    {ds ds' : Dict Col (Dim C)} (h : Step X s' occ' ds ds') (hw : ds.WF) : ds'.WF := by
  unfold Dict.WF; rw [h.keys]; exact hw

theorem Step.ok {X : C.Tbl} {s' : Row → Option Tab} {occ' : Tab → Prop}
    {ds ds' : Dict Col (Dim C)} (h : Step X s' occ' ds ds') :
    ∀ p ∈ ds', DimOk' X s' occ' p.1 p.2 := by
  induction h with
  | nil => simp
  | cons h _ ih =>
    intro p hp
    rcases List.mem_cons.mp hp with rfl | hp
    · exact h.2.2
    · exact ih p hp

theorem Step.get? {X : C.Tbl} {s' : Row → Option Tab} {occ' : Tab → Prop}
    {ds ds' : Dict Col (Dim C)} (h : Step X s' occ' ds ds') (c : Col) :
    Option.Rel Dim.Frame (ds.get? c) (ds'.get? c) := by
  induction h with
  | nil => exact Option.Rel.none
  | @cons p p' l l' h _ ih =>
    obtain ⟨a, d⟩ := p
    obtain ⟨a', d'⟩ := p'
    obtain ⟨h1, h2, -⟩ := h
    simp only at h1 h2
    subst h1
    simp only [Dict.get?_cons]
    split
    · exact Option.Rel.some h2
    · exact ih

theorem Step.trans {X : C.Tbl} {s' s'' : Row → Option Tab} {occ' occ'' : Tab → Prop}
    {a b c : Dict Col (Dim C)} (h : Step X s' occ' a b) (h' : Step X s'' occ'' b c) :
    Step X s'' occ'' a c := by
  unfold Step at *
  induction h generalizing c with
  | nil => cases h'; exact List.Forall₂.nil
  | cons h _ ih =>
    cases h' with
    | cons g t => exact List.Forall₂.cons ⟨g.1.trans h.1, h.2.1.trans g.2.1, g.2.2⟩ (ih t)

theorem Step.congrOcc {X : C.Tbl} {s' : Row → Option Tab} {occ occ' : Tab → Prop}
    {a b : Dict Col (Dim C)} (h : Step X s' occ a b) (e : ∀ k, occ k ↔ occ' k) :
    Step X s' occ' a b := by
  have : occ = occ' := funext fun k => propext (e k)
  rwa [← this]

theorem Step.refl {X : C.Tbl} {s : Row → Option Tab} {occ : Tab → Prop} {ds : Dict Col (Dim C)}
    (h : ∀ p ∈ ds, DimOk' X s occ p.1 p.2) : Step X s occ ds ds := by
  unfold Step
  induction ds with
  | nil => exact List.Forall₂.nil
  | cons p t ih =>
    exact List.Forall₂.cons ⟨rfl, Dim.Frame.refl _, h p (by simp)⟩
      (ih (fun q hq => h q (by simp [hq])))

/-- The loop of `incorporate`. -/
theorem incDims_ok {X : C.Tbl} {s : Row → Option Tab} {occ : Tab → Prop} {r : Row}
    (hr : s r = none) (k : Tab) {obs : Dict Col C.Cell} {ds : Dict Col (Dim C)}
    (h : ∀ p ∈ ds, DimOk' X s occ p.1 p.2) (hacc : ∀ p ∈ ds, Accepts X p.2 r)
    (hobs : ∀ p ∈ ds, obs.get? p.1 = some (X p.1 r)) :
    ∃ ds', incDims X r k obs ds = .ok ds' ∧
      Step X (upd s r (some k)) (fun k' => k' = k ∨ occ k') ds ds' := by
  induction ds with
  | nil => exact ⟨[], rfl, List.Forall₂.nil⟩
  | cons p t ih =>
    obtain ⟨c, d⟩ := p
    obtain ⟨d', h1, h2, h3⟩ := (h (c, d) (by simp)).inc hr (hacc (c, d) (by simp)) k
    obtain ⟨t', h4, h5⟩ := ih (fun p hp => h p (by simp [hp])) (fun p hp => hacc p (by simp [hp]))
      (fun p hp => hobs p (by simp [hp]))
    refine ⟨(c, d') :: t', ?_, List.Forall₂.cons ⟨rfl, h2, h3⟩ h5⟩
    have ho := hobs (c, d) (by simp)
    simp only at ho h1
    simp only [incDims, ho, h1, h4]

/-- The loop of `unincorporate`. -/
theorem uncDims_ok (hL : C.Lawful) {X : C.Tbl} {s : Row → Option Tab} {occ : Tab → Prop} {r : Row}
    (hr : s r ≠ none) {ds : Dict Col (Dim C)} (h : ∀ p ∈ ds, DimOk' X s occ p.1 p.2) :
    ∃ ds', uncDims r ds = .ok ds' ∧ Step X (upd s r none) occ ds ds' := by
  induction ds with
  | nil => exact ⟨[], rfl, List.Forall₂.nil⟩
  | cons p t ih =>
    obtain ⟨c, d⟩ := p
    obtain ⟨d', h1, h2, h3⟩ := (h (c, d) (by simp)).unc hL hr
    obtain ⟨t', h4, h5⟩ := ih (fun p hp => h p (by simp [hp]))
    exact ⟨(c, d') :: t', by simp only [uncDims, h1, h4], List.Forall₂.cons ⟨rfl, h2, h3⟩ h5⟩

theorem delClusters_ok {X : C.Tbl} {s : Row → Option Tab} {occ : Tab → Prop} {k : Tab}
    (hk : ¬ Occ s k) (ho : occ k) {ds : Dict Col (Dim C)}
    (h : ∀ p ∈ ds, DimOk' X s occ p.1 p.2) :
    ∃ ds', delClusters k ds = .ok ds' ∧ Step X s (fun k' => k' ≠ k ∧ occ k') ds ds' := by
  induction ds with
  | nil => exact ⟨[], rfl, List.Forall₂.nil⟩
  | cons p t ih =>
    obtain ⟨c, d⟩ := p
    have hd := h (c, d) (by simp)
    obtain ⟨t', h4, h5⟩ := ih (fun p hp => h p (by simp [hp]))
    have hh : d.clusters.has k = true := by rw [Dict.has_iff, hd.keys]; exact ho
    exact ⟨(c, { d with clusters := d.clusters.erase k }) :: t',
      by simp only [delClusters, hh, if_true, h4],
      List.Forall₂.cons ⟨rfl, ⟨rfl, rfl, rfl, rfl⟩, hd.drop hk⟩ h5⟩

/-- `incorporate` with a given cluster. -/
theorem incorporateAt_ok {X : C.Tbl} {v : View C} (h : Inv X v) {r : Row} (hr : v.seat r = none)
    (k : Tab) {obs : Dict Col C.Cell} (hacc : ∀ p ∈ v.dims, Accepts X p.2 r)
    (hobs : ∀ p ∈ v.dims, obs.get? p.1 = some (X p.1 r)) :
    ∃ v', v.incorporateAt X r obs k = .ok v' ∧ Inv X v' ∧ v'.seat = upd v.seat r (some k) ∧
      v'.crp.alpha = v.crp.alpha ∧ v.crp.incorporate r k = .ok v'.crp ∧
      Step X v'.seat (Occ v'.seat) v.dims v'.dims := by
  obtain ⟨crp', hc1, hc2, hc3, hc4⟩ := Crp.inc_data h.crp k hr
  obtain ⟨ds', hd1, hd2⟩ := incDims_ok hr k h.dim hacc hobs
  have hs : (fun r' => crp'.data.get? r') = upd v.seat r (some k) := by
    funext r'; rw [hc4]; rfl
  have hd3 := hd2.congrOcc (fun k' => (occ_upd_some hr k k').symm)
  refine ⟨⟨crp', ds'⟩, ?_, ⟨hc2, by rw [hc3]; exact h.alpha, hd2.wf h.wf, ?_⟩, hs, hc3, hc1, ?_⟩
  · have : v.crp.data.has r = false := (Dict.has_false_iff _ _).mpr hr
    simp only [incorporateAt, this, Bool.false_eq_true, if_false, hc1, hd1]
  · change ∀ p ∈ ds', DimOk X (fun r' => crp'.data.get? r') p.1 p.2
    rw [hs]; exact hd3.ok
  · change Step X (fun r' => crp'.data.get? r') (Occ fun r' => crp'.data.get? r') v.dims ds'
    rw [hs]; exact hd3

theorem incorporateAt_dup {X : C.Tbl} {v : View C} {r : Row} (hr : v.seat r ≠ none)
    (k : Tab) (obs : Dict Col C.Cell) : v.incorporateAt X r obs k = .err .valueError v := by
  have : v.crp.data.has r = true := by rw [Dict.has]; exact Option.ne_none_iff_isSome.mp hr
  simp [incorporateAt, this]

theorem unincorporate_ok (hL : C.Lawful) {X : C.Tbl} {v : View C} (h : Inv X v) {r : Row}
    (hr : v.seat r ≠ none) :
    ∃ v', v.unincorporate r = .ok v' ∧ Inv X v' ∧ v'.seat = upd v.seat r none ∧
      v'.crp.alpha = v.crp.alpha ∧ v.crp.unincorporate r = .ok v'.crp ∧
      Step X v'.seat (Occ v'.seat) v.dims v'.dims := by
  obtain ⟨k, hk⟩ := Option.ne_none_iff_exists'.mp hr
  have hk' : v.crp.data.get? r = some k := hk
  obtain ⟨crp', hc1, hc2, hc3, hc4⟩ := Crp.unc_data h.crp hk
  obtain ⟨ds', hd1, hd2⟩ := uncDims_ok hL hr h.dim
  have hs : (fun r' => crp'.data.get? r') = upd v.seat r none := by
    funext r'; rw [hc4]; rfl
  have hocc : ∀ t, t ∈ crp'.counts.keys ↔ Occ (upd v.seat r none) t := by
    intro t; rw [Crp.occupied_iff hc2, ← hs]; rfl
  have hsplit : ∀ k', Occ v.seat k' ↔ k' = k ∨ Occ (upd v.seat r none) k' := by
    intro k'
    have := occ_upd_some (s := upd v.seat r none) (r := r) (by simp) k k'
    rw [upd_upd, ← hk, upd_eq] at this
    exact this
  have main : ∀ ds'', Step X (upd v.seat r none) (Occ (upd v.seat r none)) v.dims ds'' →
      Inv X (⟨crp', ds''⟩ : View C) ∧ (⟨crp', ds''⟩ : View C).seat = upd v.seat r none ∧
      (⟨crp', ds''⟩ : View C).crp.alpha = v.crp.alpha ∧
      v.crp.unincorporate r = .ok (⟨crp', ds''⟩ : View C).crp ∧
      Step X (⟨crp', ds''⟩ : View C).seat (Occ (⟨crp', ds''⟩ : View C).seat) v.dims ds'' := by
    intro ds'' hst
    refine ⟨⟨hc2, by rw [hc3]; exact h.alpha, hst.wf h.wf, ?_⟩, hs, hc3, hc1, ?_⟩
    · change ∀ p ∈ ds'', DimOk X (fun r' => crp'.data.get? r') p.1 p.2
      rw [hs]; exact hst.ok
    · change Step X (fun r' => crp'.data.get? r') (Occ fun r' => crp'.data.get? r') v.dims ds''
      rw [hs]; exact hst
  by_cases ho : Occ (upd v.seat r none) k
  · have hh : crp'.counts.has k = true := by rw [Dict.has_iff, hocc]; exact ho
    refine ⟨⟨crp', ds'⟩, by simp only [unincorporate, hd1, hk', hc1, hh, if_true], main ds' ?_⟩
    refine hd2.congrOcc (fun k' => ?_)
    rw [hsplit]
    constructor
    · rintro (rfl | h')
      · exact ho
      · exact h'
    · exact Or.inr
  · have hh : ¬ crp'.counts.has k = true := by rw [Dict.has_iff, hocc]; exact ho
    obtain ⟨ds'', hd3, hd4⟩ := delClusters_ok (k := k) ho ((hsplit k).mpr (Or.inl rfl)) hd2.ok
    refine ⟨⟨crp', ds''⟩, by simp only [unincorporate, hd1, hk', hc1, hh, hd3]; rfl,
      main ds'' ?_⟩
    refine (hd2.trans hd4).congrOcc (fun k' => ?_)
    rw [hsplit]
    constructor
    · rintro ⟨h1, h2 | h2⟩
      · exact absurd h2 h1
      · exact h2
    · intro h'
      exact ⟨fun e => ho (e ▸ h'), Or.inr h'⟩

end View
end Cgpm
