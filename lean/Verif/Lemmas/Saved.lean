import Verif.Spec.Saved
import Verif.Lemmas.Metadata
import Verif.Lemmas.NetSample
import Verif.Lemmas.LogSpace

/-! Rows that are saved and loaded. -/
namespace Cgpm.SavedRows
open Cgpm Cgpm.Spec

variable {X : Type}

/-- Each row of the object has a value and covariates, and no row occurs twice. -/
structure Aligned (s : RegRows X) : Prop where
  keys : s.x.keys = s.Y.keys
  wf : s.x.WF

theorem aligned_empty : Aligned (.empty : RegRows X) := ⟨rfl, Dict.wf_nil⟩

theorem aligned_inc {s : RegRows X} (h : Aligned s) (r : Row)
    (prep : Except Exn (X × List (Option ℝ))) : Aligned (s.incorporate r prep).state := by
  unfold RegRows.incorporate
  split
  · exact h
  · split
    · exact h
    · split
      · exact h
      · exact ⟨by simp only [Out.state, Dict.keys_set, h.keys], Dict.wf_set h.wf _ _⟩

theorem aligned_unc {s : RegRows X} (h : Aligned s) (r : Row) : Aligned (s.unincorporate r).state := by
  simp only [RegRows.unincorporate]
  split
  · rename_i h1
    split
    · exact ⟨by simp only [Out.state, Dict.keys_erase, h.keys], Dict.wf_erase h.wf _⟩
    · rename_i h2
      exfalso
      apply h2
      show s.Y.has r = true
      rw [Dict.has_iff, ← h.keys, ← Dict.has_iff]
      exact h1
  · exact h

/-- The triples of an object, for the row numbers `ks`. -/
def triples (s : RegRows X) (ks : List Row) : List (Row × X × List (Option ℝ)) :=
  ks.filterMap fun r => (s.x.get? r).bind fun x => (s.Y.get? r).map fun y => (r, x, y)

theorem filterMap_keys {V : Type} {d : Dict Row V} (hd : d.WF) :
    (d.keys.filterMap fun r => (d.get? r).map fun v => (r, v)) = d := by
  unfold Dict.keys
  rw [List.filterMap_map]
  refine (List.filterMap_congr fun q hq => ?_).trans (List.filterMap_some (l := d))
  show (d.get? q.1).map _ = some q
  rw [Dict.get?_of_mem hd (v := q.2) hq]
  rfl

theorem triples_x {s : RegRows X} (h : Aligned s) {ks : List Row} (hk : ∀ r ∈ ks, r ∈ s.x.keys) :
    (triples s ks).map (fun e => (e.1, e.2.1))
      = ks.filterMap fun r => (s.x.get? r).map fun v => (r, v) := by
  unfold triples
  rw [List.map_filterMap]
  refine List.filterMap_congr fun r hr => ?_
  obtain ⟨x, hx⟩ := Dict.exists_of_mem_keys (hk r hr)
  obtain ⟨y, hy⟩ := Dict.exists_of_mem_keys (h.keys ▸ hk r hr)
  simp [hx, hy]

theorem triples_Y {s : RegRows X} (h : Aligned s) {ks : List Row} (hk : ∀ r ∈ ks, r ∈ s.x.keys) :
    (triples s ks).map (fun e => (e.1, e.2.2))
      = ks.filterMap fun r => (s.Y.get? r).map fun v => (r, v) := by
  unfold triples
  rw [List.map_filterMap]
  refine List.filterMap_congr fun r hr => ?_
  obtain ⟨x, hx⟩ := Dict.exists_of_mem_keys (hk r hr)
  obtain ⟨y, hy⟩ := Dict.exists_of_mem_keys (h.keys ▸ hk r hr)
  simp [hx, hy]

theorem wfY {s : RegRows X} (h : Aligned s) : s.Y.WF := by
  have := h.wf
  unfold Dict.WF at this ⊢
  rwa [← h.keys]

theorem reload_eq {V : Type} {ord : List Row → List Row} (ho : IsOrder ord) {d : Dict Row V}
    (hd : d.WF) : d.reload ord = (ord d.keys).filterMap fun r => (d.get? r).map fun v => (r, v) := by
  unfold Dict.reload
  refine Dict.update_nil_eq ?_
  have h1 : ((ord d.keys).filterMap fun r => (d.get? r).map fun v => (r, v)).Perm d :=
    (List.Perm.filterMap _ (ho d.keys)).trans (List.Perm.of_eq (filterMap_keys hd))
  exact (Dict.wf_perm h1).mpr hd

theorem reload_same {ord : List Row → List Row} (ho : IsOrder ord) {s : RegRows X} (h : Aligned s) :
    SameRows s (.reload ord s.N s.x s.Y) := by
  refine ⟨rfl, triples s s.x.keys, triples s (ord s.x.keys), (List.Perm.filterMap _ (ho _)).symm, ?_⟩
  have hmem : ∀ r ∈ ord s.x.keys, r ∈ s.x.keys := fun r hr => (ho _).mem_iff.mp hr
  rw [triples_x h fun r hr => hr, triples_Y h fun r hr => hr, triples_x h hmem, triples_Y h hmem]
  refine ⟨(filterMap_keys h.wf).symm, ?_, reload_eq ho h.wf, ?_⟩
  · rw [h.keys]
    exact (filterMap_keys (wfY h)).symm
  · rw [h.keys]
    exact reload_eq ho (wfY h)

theorem reload_id {s : RegRows X} (h : Aligned s) {ord : List Row → List Row} (ho : ∀ l, ord l = l) :
    RegRows.reload ord s.N s.x s.Y = s := by
  have hi : IsOrder ord := fun l => List.Perm.of_eq (ho l)
  unfold RegRows.reload
  rw [reload_eq hi h.wf, reload_eq hi (wfY h), ho, ho, filterMap_keys h.wf, filterMap_keys (wfY h)]

/-! ### What objects with the same rows have in common -/

theorem same_x {s t : RegRows X} (h : SameRows s t) : s.x.Perm t.x := by
  obtain ⟨-, l, l', hp, h1, -, h3, -⟩ := h
  rw [h1, h3]
  exact hp.map _

theorem same_Y {s t : RegRows X} (h : SameRows s t) : s.Y.Perm t.Y := by
  obtain ⟨-, l, l', hp, -, h2, -, h4⟩ := h
  rw [h2, h4]
  exact hp.map _

theorem perm_has {V : Type} {d e : Dict Row V} (h : d.Perm e) (r : Row) : d.has r = e.has r := by
  rw [Bool.eq_iff_iff, Dict.has_iff, Dict.has_iff]
  exact (h.map Prod.fst).mem_iff

theorem same_get {s t : RegRows X} (h : SameRows s t) (hs : Aligned s) (r : Row) :
    s.x.get? r = t.x.get? r := Dict.get?_perm hs.wf (same_x h) r

theorem set_new {V : Type} {l : List (Row × V)} {r : Row} {v : V} (h : Dict.has l r = false) :
    Dict.set l r v = l ++ [(r, v)] := Dict.set_of_not_mem v (by rwa [Dict.has_false_iff] at h)

theorem erase_map {V W : Type} (f : W → Row × V) (l : List W) (r : Row) :
    Dict.erase (l.map f) r = (l.filter fun e => decide ((f e).1 ≠ r)).map f := by
  induction l with
  | nil => rfl
  | cons e l ih =>
    rw [List.map_cons, List.filter_cons]
    generalize hq : f e = q at *
    obtain ⟨k, v⟩ := q
    unfold Dict.erase
    by_cases hk : k = r
    · simp [hk, ih]
    · simp [hk, ih, hq]

theorem same_inc {s t : RegRows X} (h : SameRows s t) (r : Row)
    (prep : Except Exn (X × List (Option ℝ))) :
    SameRows (s.incorporate r prep).state (t.incorporate r prep).state ∧
    (s.incorporate r prep).exn = (t.incorporate r prep).exn := by
  unfold RegRows.incorporate
  rw [← perm_has (same_x h) r, ← perm_has (same_Y h) r]
  by_cases h1 : s.x.has r = true
  · rw [if_pos h1, if_pos h1]
    exact ⟨h, rfl⟩
  · rw [if_neg h1, if_neg h1]
    by_cases h2 : s.Y.has r = true
    · rw [if_pos h2, if_pos h2]
      exact ⟨h, rfl⟩
    · rw [if_neg h2, if_neg h2]
      cases prep with
      | error e => exact ⟨h, rfl⟩
      | ok q =>
        obtain ⟨x, y⟩ := q
        refine ⟨?_, rfl⟩
        have h1' : t.x.has r = false := by
          rw [← perm_has (same_x h) r]; exact Bool.not_eq_true _ ▸ h1
        have h2' : t.Y.has r = false := by
          rw [← perm_has (same_Y h) r]; exact Bool.not_eq_true _ ▸ h2
        obtain ⟨hN, l, l', hp, e1, e2, e3, e4⟩ := h
        refine ⟨by simp [hN], l ++ [(r, x, y)], l' ++ [(r, x, y)], hp.append_right _, ?_⟩
        refine ⟨?_, ?_, ?_, ?_⟩
        · show s.x.set r x = _
          rw [set_new (Bool.not_eq_true _ ▸ h1), e1, List.map_append]; rfl
        · show s.Y.set r y = _
          rw [set_new (Bool.not_eq_true _ ▸ h2), e2, List.map_append]; rfl
        · show t.x.set r x = _
          rw [set_new h1', e3, List.map_append]; rfl
        · show t.Y.set r y = _
          rw [set_new h2', e4, List.map_append]; rfl

theorem same_unc {s t : RegRows X} (h : SameRows s t) (hs : Aligned s) (r : Row) :
    SameRows (s.unincorporate r).state (t.unincorporate r).state ∧
    (s.unincorporate r).exn = (t.unincorporate r).exn := by
  have hxy : s.Y.has r = s.x.has r := by
    rw [Bool.eq_iff_iff, Dict.has_iff, Dict.has_iff, hs.keys]
  unfold RegRows.unincorporate
  rw [← perm_has (same_x h) r]
  by_cases h1 : s.x.has r = true
  · have h2 : s.Y.has r = true := hxy.trans h1
    have h2' : t.Y.has r = true := by rw [← perm_has (same_Y h) r]; exact h2
    rw [if_pos h1, if_pos h1]
    simp only [h2, h2', if_true]
    refine ⟨?_, rfl⟩
    obtain ⟨hN, l, l', hp, e1, e2, e3, e4⟩ := h
    refine ⟨by simp [hN], l.filter (fun e => decide (e.1 ≠ r)), l'.filter (fun e => decide (e.1 ≠ r)),
      hp.filter _, ?_, ?_, ?_, ?_⟩
    · show s.x.erase r = _
      rw [e1, erase_map]
    · show s.Y.erase r = _
      rw [e2, erase_map]
    · show t.x.erase r = _
      rw [e3, erase_map]
    · show t.Y.erase r = _
      rw [e4, erase_map]
  · rw [if_neg h1, if_neg h1]
    exact ⟨h, rfl⟩

theorem out_map_exn {σ τ : Type} (f : σ → τ) (o : Out σ) : (o.map f).exn = o.exn := by cases o <;> rfl

theorem out_map_state {σ τ : Type} (f : σ → τ) (o : Out σ) : (o.map f).state = f o.state := by
  cases o <;> rfl

/-! ### Sums that do not depend on the order -/

theorem fl_right_comm (a b c : Fl) : (a.add b).add c = (a.add c).add b := by
  cases a <;> cases b <;> cases c <;> simp [Fl.add, add_right_comm]

theorem flSum_perm {l l' : List Fl} (h : l.Perm l') : flSum l = flSum l' := by
  have : RightCommutative Fl.add := ⟨fl_right_comm⟩
  exact h.foldl_eq _

theorem collect_perm {α β : Type} {f : α → Except Exn β} {l l' : List α} (h : l.Perm l') {r : List β}
    (hr : Net.collect f l = .ok r) : ∃ r', Net.collect f l' = .ok r' ∧ r.Perm r' := by
  induction h generalizing r with
  | nil => exact ⟨r, hr, List.Perm.refl _⟩
  | cons a h ih =>
    unfold Net.collect at hr ⊢
    cases ha : f a with
    | error e => simp [ha] at hr
    | ok b =>
      simp only [ha] at hr ⊢
      rename_i t t'
      cases ht : Net.collect f t with
      | error e => simp [ht, Except.map] at hr
      | ok c =>
        obtain ⟨c', h1, h2⟩ := ih ht
        simp only [ht, Except.map, Except.ok.injEq] at hr
        subst hr
        exact ⟨b :: c', by simp [h1, Except.map], h2.cons b⟩
  | swap a b t =>
    simp only [Net.collect] at hr ⊢
    cases ha : f a with
    | error e => cases hb : f b <;> simp [ha, hb, Except.map] at hr
    | ok a' =>
      cases hb : f b with
      | error e => simp [hb] at hr
      | ok b' =>
        simp only [ha, hb] at hr ⊢
        cases ht : Net.collect f t with
        | error e => simp [ht, Except.map] at hr
        | ok c =>
          simp only [ht, Except.map, Except.ok.injEq] at hr ⊢
          subst hr
          exact ⟨_, rfl, List.Perm.swap _ _ _⟩
  | trans _ _ ih1 ih2 =>
    obtain ⟨r1, h1, p1⟩ := ih1 hr
    obtain ⟨r2, h2, p2⟩ := ih2 h1
    exact ⟨r2, h2, p1.trans p2⟩

end Cgpm.SavedRows
