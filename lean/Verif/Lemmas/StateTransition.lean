import Verif.Lemmas.StateMove

/-! The Gibbs transition of a column. -/
namespace Cgpm
open Props
theorem ofLogP_ne (x : LogP) : Fl.ofLogP x ≠ .nan ∧ Fl.ofLogP x ≠ .pinf := by
  cases x <;> simp [Fl.ofLogP]

theorem mass_ofLogP_bot : mass (Fl.ofLogP ⊥) = 0 := rfl

theorem mass_ofLogP_coe (x : ℝ) : mass (Fl.ofLogP (x : LogP)) ≠ 0 := by
  show ENNReal.ofReal (Real.exp x) ≠ 0
  rw [Ne, ENNReal.ofReal_eq_zero, not_le]
  exact Real.exp_pos x

/-- A draw from log weights, not all minus infinity, has a weight that is not minus infinity. -/
theorem flip_ok {w : List LogP} (hw : ∃ (i : Nat) (x : ℝ), w[i]? = some (x : LogP)) {u : ℝ}
    (hu : 0 ≤ u) (hu1 : u < 1) :
    ∃ k, k < w.length ∧ logPflip (w.map Fl.ofLogP) (List.range w.length) u = .ok k ∧
      w[k]? ≠ some ⊥ := by
  have h0 : total (w.map Fl.ofLogP) ≠ 0 := by
    obtain ⟨i, x, hi⟩ := hw
    obtain ⟨hlt, he⟩ := List.getElem?_eq_some_iff.mp hi
    intro hz
    unfold total at hz
    have := (List.sum_eq_zero_iff.mp hz) (mass (Fl.ofLogP (x : LogP)))
      (by
        rw [List.map_map]
        exact List.mem_map.mpr ⟨(x : LogP), by rw [← he]; exact List.getElem_mem hlt, rfl⟩)
    exact mass_ofLogP_coe x this
  obtain ⟨k, hk, hk', e1, e2⟩ := C36_draw_has_positive_weight (w.map Fl.ofLogP)
    (List.range w.length) (by
      intro a ha
      obtain ⟨x, -, rfl⟩ := List.mem_map.mp ha
      exact ofLogP_ne x) h0 (by simp) u hu hu1
  have hlt : k < w.length := by simpa using hk
  refine ⟨k, hlt, by rw [e1]; simp, fun hb => e2 ?_⟩
  rw [List.getElem?_eq_getElem hlt, Option.some.injEq] at hb
  rw [List.getElem_map, hb]
  rfl

namespace State
variable {C : Cat}
open View

/-- The views are listed in increasing order. -/
def Sorted (s : State C) : Prop := s.views.keys.Pairwise (· < ·)

theorem Inv.sorted_keys {s : State C} (h : Inv s) (hs : s.Sorted) :
    pySorted s.crp.counts.keys = s.views.keys := by
  have hp : (pySorted s.crp.counts.keys).Perm s.views.keys :=
    (pySorted_perm _).trans h.keys_perm
  refine hp.eq_of_pairwise (le := (· ≤ ·)) (fun a b _ _ h1 h2 => le_antisymm h1 h2) ?_
    (hs.imp fun h => le_of_lt h)
  exact List.pairwise_insertionSort _ _

theorem Inv.candidate_cases {s : State C} (h : Inv s) {col : Col} {m k : Nat} {new : Nat}
    (hk : (s.candidates col m)[k]? = some new) :
    (k < s.views.length ∧ (pySorted s.crp.counts.keys)[k]? = some new ∧ new ∈ s.views.keys) ∨
    (s.views.length ≤ k ∧ k - s.views.length < s.mAux col m ∧
      new = pyMax s.views.keys + 1 + (k - s.views.length)) := by
  unfold candidates at hk
  rw [List.getElem?_append, h.length_views] at hk
  split at hk
  · rename_i hlt
    refine Or.inl ⟨hlt, hk, ?_⟩
    have := List.mem_of_getElem? hk
    exact h.keys_perm.mem_iff.mp ((pySorted_perm _).mem_iff.mp this)
  · rename_i hlt
    rw [List.getElem?_map] at hk
    cases hr : (List.range (s.mAux col m))[k - s.views.length]? with
    | none => rw [hr] at hk; cases hk
    | some j =>
      rw [hr] at hk
      obtain ⟨hl, e⟩ := List.getElem?_eq_some_iff.mp hr
      simp at e hl
      subst e
      refine Or.inr ⟨not_lt.mp hlt, hl, ?_⟩
      have := Option.some.inj hk
      rw [← this, pyMax_perm h.keys_perm]

theorem mem_avoid {Ci : Pairs} {col a : Col} :
    a ∈ avoid Ci col ↔ a ≠ col ∧ ((a, col) ∈ Ci ∨ (col, a) ∈ Ci) := by
  unfold avoid
  simp only [List.mem_flatMap, List.mem_filter, decide_eq_true_eq]
  constructor
  · rintro ⟨⟨x, y⟩, ⟨hp, hc⟩, ha, hne⟩
    refine ⟨hne, ?_⟩
    simp only [List.mem_cons, List.not_mem_nil, or_false] at ha
    rcases ha with rfl | rfl
    · rcases hc with h | h
      · exact absurd h hne
      · subst h; exact Or.inl hp
    · rcases hc with h | h
      · subst h; exact Or.inr hp
      · exact absurd h hne
  · rintro ⟨hne, h | h⟩
    · exact ⟨(a, col), ⟨h, by simp⟩, by simp, hne⟩
    · exact ⟨(col, a), ⟨h, by simp⟩, by simp, hne⟩

/-- A column transition on a consistent state. -/
theorem Inv.gibbsTransitionDim_draw {cfg : Cfg C} {s : State C} (h : Inv s) {col : Col} {d : Dim C}
    (hd : s.dimFor col = .ok d) (hc : s.anyConditional cfg = false) (hCd : s.Cd = []) {m : Nat}
    (hm : 0 < m) {aux : Nat → ℝ × (Row → Tab)} (haux : ∀ j, 0 < (aux j).1)
    (hCi : ∀ a ∈ avoid s.Ci col, a ∈ s.outputs) {u : ℝ} (hu : 0 ≤ u) (hu1 : u < 1)
    (hok : cfg.collapsed d.kind = true ∨ s.Sorted) :
    ∃ s' cur new va, s.gibbsTransitionDim cfg col m aux u = .ok s' ∧ Inv s' ∧
      s.Zv col = some cur ∧ Moved s col d cur new va s' ∧
      (new ∈ s.views.keys ∨ pyMax s.views.keys < new ∧ va.dims = []) ∧
      (s.Sorted → ∀ a ∈ avoid s.Ci col, s.Zv a ≠ some new) ∧
      ∃ k : Nat, (s.candidates col m)[k]? = some new ∧
        ¬ ∃ a ∈ avoid s.Ci col, ∃ v, s.Zv a = some v ∧ s.views.keys[k]? = some v := by
  obtain ⟨cur, vcur, hcur, hvcur, hdcur⟩ := dimFor_ok hd
  obtain ⟨ps, auxs, w, h1, h2, h3, h4, h5, h6⟩ := h.gibbsDimScore_ok (cfg := cfg) hd hm haux hCi
    hcur
  have hlps : ps.length = s.views.length := h2.length_eq.symm
  have hlaux : auxs.length = s.mAux col m := by rw [← h3.length_eq]; simp
  have hlcand : (s.candidates col m).length = s.views.length + s.mAux col m := by
    unfold candidates; rw [List.length_append, h.length_views]; simp
  -- some weight is not minus infinity
  have hw : ∃ (i : Nat) (x : ℝ), w[i]? = some (x : LogP) := by
    have key : ∀ i, i < (s.candidates col m).length →
        (¬ ∃ a ∈ avoid s.Ci col, ∃ v, s.Zv a = some v ∧ s.views.keys[i]? = some v) →
        ∃ (i : Nat) (x : ℝ), w[i]? = some (x : LogP) := by
      intro i hi hno
      have hlt : i < (List.zipWith (fun a b : ℝ => ((a + b : ℝ) : LogP))
          (ps.map Prod.snd ++ auxs.map fun p => p.2.2)
          ((s.candidates col m).map fun t => Real.log (s.crp.gibbsWeight cur m t))).length := by
        simp [hlps, hlaux, hlcand] at hi ⊢; exact hi
      have h6' := h6 i hno
      rw [List.getElem?_eq_getElem hlt, List.getElem_zipWith] at h6'
      exact ⟨i, _, h6'⟩
    by_cases hs : s.crp.singleton (some col) = true
    · have hone : s.crp.counts.get? cur = some 1 := by
        unfold Crp.singleton at hs
        have hcur' : s.crp.data.get? col = some cur := hcur
        simpa [hcur'] using hs
      have hone' := (count_one_iff h.crp hcur hone).mp rfl
      have hmem : cur ∈ s.views.keys := Dict.mem_keys_of_get? hvcur
      have hidx := List.getElem?_idxOf hmem
      refine key (s.views.keys.idxOf cur) ?_ ?_
      · have := List.idxOf_lt_length_of_mem hmem
        rw [hlcand]
        simp [Dict.keys] at this ⊢
        omega
      · rintro ⟨a, ha, v, hv, hi⟩
        rw [hidx] at hi
        cases hi
        exact (mem_avoid.mp ha).1 (hone' a hv)
    · refine key s.views.length ?_ ?_
      · rw [hlcand]
        unfold mAux
        rw [if_neg hs]; omega
      · rintro ⟨a, ha, v, hv, hi⟩
        obtain ⟨hlt, -⟩ := List.getElem?_eq_some_iff.mp hi
        simp [Dict.keys] at hlt
  obtain ⟨k, hk, hflip, hkb⟩ := flip_ok hw hu hu1
  rw [h4] at hk
  have htab := List.getElem?_eq_getElem hk
  set new := (s.candidates col m)[k] with hnew
  -- the target
  have htgt : ∃ dk va, (ps.map Prod.fst ++ auxs.map (fun p => p.2.1))[k]? = some dk ∧
      Dim.Frame d dk ∧ Target cfg s col d dk new va ∧
      (pyMax s.views.keys < new →
        (auxs.map (fun p => p.1))[k - s.views.length]? = some va ∧ va.dims = []) := by
    rcases h.candidate_cases htab with ⟨hlt, hs, hmem⟩ | ⟨hge, hlt, he⟩
    · have hkl : k < ps.length := by omega
      obtain ⟨p, hp, hf, hdo, -⟩ := forall2_right h2 (List.getElem?_eq_getElem hkl)
      refine ⟨(ps[k]'hkl).1, vcur, ?_, hf, Or.inl ⟨hmem, fun v hv => ?_⟩,
        fun hcon => absurd hcon (mem_le_pyMax hmem)⟩
      · rw [List.getElem?_append, if_pos (by simpa using hkl), List.getElem?_map,
          List.getElem?_eq_getElem hkl]; rfl
      · rcases hok with hok | hok
        · exact Or.inl hok
        · right
          rw [h.sorted_keys hok, Dict.keys, List.getElem?_map, hp] at hs
          have hpn : p.1 = new := Option.some.inj hs
          have hg := Dict.get?_of_mem (k := p.1) (v := p.2) h.views.wf (List.mem_of_getElem? hp)
          rw [hpn, hv] at hg
          rw [Option.some.inj hg]
          exact hdo
    · have hkl : k - s.views.length < auxs.length := by omega
      obtain ⟨j, hj, hi, hdm, ha, hseat, hf, hdo, -⟩ :=
        forall2_right h3 (List.getElem?_eq_getElem hkl)
      have hva : (auxs.map (fun p => p.1))[k - s.views.length]? =
          some (auxs[k - s.views.length]'hkl).1 := by
        rw [List.getElem?_map, List.getElem?_eq_getElem hkl]; rfl
      refine ⟨_, (auxs[k - s.views.length]'hkl).1, ?_, hf,
        Or.inr ⟨?_, hi, hdm, ?_, Or.inr hdo⟩, fun _ => ⟨hva, hdm⟩⟩
      · rw [List.getElem?_append, if_neg (by simp; omega), List.getElem?_map]
        simp only [List.length_map, hlps]
        rw [List.getElem?_eq_getElem hkl]; rfl
      · omega
      · intro r
        rw [hseat, ne_eq, List.getElem?_eq_none_iff, not_le]
        simp
  obtain ⟨dk, va, hdk, hf, ht, hva⟩ := htgt
  obtain ⟨s', e1, e2, e3⟩ := h.gibbsDimMove_ok hd hcur htab hdk hf ht (fun hl => (hva hl).1)
  refine ⟨s', cur, new, va, ?_, e2, hcur, e3, ?_, ?_, k, htab, fun hcon =>
    hkb (h5 k hcon (by rw [h4]; exact hk))⟩
  · unfold gibbsTransitionDim
    rw [hc, if_neg (by simp), if_neg (by simp [hCd]), h1]
    simp only [h4, ne_eq, not_true_eq_false, if_false]
    rw [h4] at hflip
    simp only [hflip]
    exact e1
  · rcases ht with ⟨hmem, -⟩ | ⟨hlt, -⟩
    · exact Or.inl hmem
    · exact Or.inr ⟨hlt, (hva hlt).2⟩
  · intro hs a ha hza
    rcases h.candidate_cases htab with ⟨hlt, hs', hmem⟩ | ⟨hge, hlt, he⟩
    · rw [h.sorted_keys hs] at hs'
      exact hkb (h5 k ⟨a, ha, new, hza, hs'⟩ (by rw [h4]; exact hk))
    · have : new ∈ s.views.keys := (h.occ new).mpr ⟨a, hza⟩
      exact mem_le_pyMax this (by omega)

theorem Inv.gibbsTransitionDim_ok {cfg : Cfg C} {s : State C} (h : Inv s) {col : Col} {d : Dim C}
    (hd : s.dimFor col = .ok d) (hc : s.anyConditional cfg = false) (hCd : s.Cd = []) {m : Nat}
    (hm : 0 < m) {aux : Nat → ℝ × (Row → Tab)} (haux : ∀ j, 0 < (aux j).1)
    (hCi : ∀ a ∈ avoid s.Ci col, a ∈ s.outputs) {u : ℝ} (hu : 0 ≤ u) (hu1 : u < 1)
    (hok : cfg.collapsed d.kind = true ∨ s.Sorted) :
    ∃ s' cur new va, s.gibbsTransitionDim cfg col m aux u = .ok s' ∧ Inv s' ∧
      s.Zv col = some cur ∧ Moved s col d cur new va s' ∧
      (new ∈ s.views.keys ∨ pyMax s.views.keys < new ∧ va.dims = []) ∧
      (s.Sorted → ∀ a ∈ avoid s.Ci col, s.Zv a ≠ some new) := by
  obtain ⟨s', cur, new, va, h1, h2, h3, h4, h5, h6, -⟩ :=
    h.gibbsTransitionDim_draw hd hc hCd hm haux hCi hu hu1 hok
  exact ⟨s', cur, new, va, h1, h2, h3, h4, h5, h6⟩

end State
end Cgpm
