import Verif.Lemmas.StateGibbs

/-! Column transitions that raise after they have taken the column out of its view. -/
namespace Cgpm
namespace State
variable {C : Cat}
open View

theorem forbid_missing {zv : Col → Option Nat} {keys : List Nat} {as : List Col}
    (h : ∀ a ∈ as, zv a = none ∨ ∃ v, zv a = some v ∧ v ∈ keys) {a : Col} (ha : a ∈ as)
    (hn : zv a = none) (w : List LogP) : forbid zv keys as w = .error .keyError := by
  induction as generalizing w with
  | nil => cases ha
  | cons b as ih =>
    unfold forbid
    rcases h b (by simp) with hb | ⟨v, hv, hk⟩
    · simp only [hb]
    · simp only [hv, if_pos hk]
      rcases List.mem_cons.mp ha with rfl | ha
      · rw [hn] at hv; cases hv
      · exact ih (fun c hc => h c (by simp [hc])) ha _

theorem Inv.gibbsDimScore_stuck {cfg : Cfg C} {s : State C} (h : Inv s) {col : Col} {d : Dim C}
    (hd : s.dimFor col = .ok d) {m : Nat} {aux : Nat → ℝ × (Row → Tab)} :
    (m = 0 → s.gibbsDimScore cfg col m aux =
      .err .assertion { s with views := dropCol col s.views }) ∧
    (0 < m → (∀ j, 0 < (aux j).1) → (∃ a ∈ avoid s.Ci col, a ∉ s.outputs) →
      s.gibbsDimScore cfg col m aux =
        .err .keyError { s with views := dropCol col s.views }) := by
  obtain ⟨i0, v0, hz, hv0, hd0⟩ := dimFor_ok hd
  have ho0 := h.views.view i0 v0 hv0
  have hdo := ho0.inv.dim (col, d) (Dict.mem_of_get? hd0)
  have hacc : ∀ r, r < s.nRows → Accepts s.tbl d r := fun r hr => by
    obtain ⟨k, hk⟩ := Option.ne_none_iff_exists'.mp ((ho0.rows r).mpr hr)
    exact hdo.acc r k hk
  obtain ⟨ps, h1, h2⟩ := proposeAll_ok (cfg := cfg) (X := s.tbl) hdo.index hdo.hyp (vs := s.views)
    (by
      rintro ⟨i, v⟩ hp
      have hg := Dict.get?_of_mem h.views.wf hp
      have ho := h.views.view i v hg
      refine ⟨ho.inv, fun r hr => hacc r ((ho.rows r).mp hr), Or.inr fun hc => ?_⟩
      have : s.Zv col = some i := (ho.dims col).mp hc
      rw [hz] at this
      cases this
      rw [hv0] at hg; cases hg
      exact hdo) (Dim.Frame.refl d) (Or.inr rfl)
  refine ⟨fun hm => ?_, fun hm haux ⟨a, ha, hno⟩ => ?_⟩
  · subst hm
    unfold gibbsDimScore
    simp only [hd, h1, Crp.gibbsTables, if_pos]
  have hlps : ps.length = s.views.length := h2.length_eq.symm
  set d' := (ps.getLast?.map Prod.fst).getD d with hd'
  have hf' : Dim.Frame d d' := by
    rw [hd']
    cases hl : ps.getLast? with
    | none => exact Dim.Frame.refl d
    | some q =>
      obtain ⟨i, hi⟩ := List.getElem?_of_mem (List.mem_of_getLast? hl)
      obtain ⟨p, -, hp⟩ := forall2_right h2 hi
      exact hp.1
  obtain ⟨auxs, h3, h4⟩ := proposeAux_ok (cfg := cfg) (X := s.tbl) (n := s.nRows) (d := d')
    (hf'.index.trans hdo.index) (by rw [hf'.fam, hf'.hyp]; exact hdo.hyp)
    (fun r hr => (accepts_frame hf' r).mpr (hacc r hr)) haux (List.range (s.mAux col m))
  have hnum : (s.candidates col m).length - s.views.length = s.mAux col m := by
    unfold candidates
    rw [List.length_append, h.length_views]; simp
  have hown' : s.crp.data.get? col = some i0 := hz
  have hlogps : s.crp.gibbsLogps col m = .ok
      ((s.candidates col m).map fun t => Real.log (s.crp.gibbsWeight i0 m t)) := by
    unfold Crp.gibbsLogps
    simp only [hown', h.gibbsTables col hm]
  have hlen : (ps.map Prod.snd ++ auxs.map fun p => p.2.2).length =
      ((s.candidates col m).map fun t => Real.log (s.crp.gibbsWeight i0 m t)).length := by
    have := h4.length_eq
    rw [List.length_range] at this
    simp only [List.length_append, List.length_map, hlps, ← this, candidates, h.length_views,
      List.length_range]
  have g1 := forbid_missing (zv := s.Zv) (keys := s.views.keys) (as := avoid s.Ci col)
    (fun b _ => by
      by_cases hb : b ∈ s.outputs
      · obtain ⟨v, vb, db, hzb, hvb, _⟩ := h.dim hb
        exact Or.inr ⟨v, hzb, Dict.mem_keys_of_get? hvb⟩
      · exact Or.inl (by by_contra hne; exact hb ((h.cols b).mp hne)))
    ha (by by_contra hne; exact hno ((h.cols a).mp hne))
    (List.zipWith (fun a b : ℝ => ((a + b : ℝ) : LogP))
      (ps.map Prod.snd ++ auxs.map fun p => p.2.2)
      ((s.candidates col m).map fun t => Real.log (s.crp.gibbsWeight i0 m t)))
  unfold gibbsDimScore
  simp only [hd, h1, h.gibbsTables col hm, hnum, ← hd', h3, hlogps]
  rw [if_neg (by rw [hlen]; simp)]
  simp only [g1]

/-- A column that no view holds. -/
theorem dimFor_dropCol {s : State C} {col : Col} (c : Col) :
    ({ s with views := dropCol col s.views } : State C).dimFor c =
      if c = col then .error .keyError else s.dimFor c := by
  unfold dimFor
  show (match s.Zv c with
    | none => _
    | some v => _) = _
  cases hz : s.Zv c with
  | none => simp
  | some v =>
    simp only [get?_dropCol]
    cases hv : s.views.get? v with
    | none => simp
    | some w =>
      simp only [Option.map_some, drop]
      rw [Dict.get?_erase]
      split <;> simp_all

end State
end Cgpm
