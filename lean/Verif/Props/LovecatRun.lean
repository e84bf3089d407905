import Verif.Props.Lovecat
import Verif.Spec.LovecatRun
import Mathlib.Data.Finset.Sort

/-!
C87: a transition of a State by Lovecat.
-/
namespace Cgpm.Props
open Cgpm Cgpm.State Cgpm.Lovecat
variable {P : Prim → Prop}

/-! ### The codes of a column -/

theorem zipRange_wf {l : List ℤ} (h : l.Nodup) : Dict.WF (l.zip (List.range l.length) : Dict ℤ Nat) := by
  unfold Dict.WF Dict.keys
  rw [List.map_fst_zip (by simp)]
  exact h

theorem zipRange_get {l : List ℤ} (h : l.Nodup) {a : ℤ} (ha : a ∈ l) :
    Dict.get? (l.zip (List.range l.length) : Dict ℤ Nat) a = some (l.idxOf a) := by
  apply Dict.get?_of_mem (zipRange_wf h)
  rw [List.mem_iff_getElem]
  have hi := List.idxOf_lt_length_of_mem ha
  exact ⟨l.idxOf a, by simpa using hi, by simp⟩

theorem rangeZip_wf (l : List ℤ) : Dict.WF ((List.range l.length).zip l : Dict Nat ℤ) := by
  unfold Dict.WF Dict.keys
  rw [List.map_fst_zip (by simp)]
  exact List.nodup_range

theorem rangeZip_get (l : List ℤ) {j : Nat} {a : ℤ} (h : l[j]? = some a) :
    Dict.get? ((List.range l.length).zip l : Dict Nat ℤ) j = some a := by
  apply Dict.get?_of_mem (rangeZip_wf l)
  rw [List.mem_iff_getElem]
  obtain ⟨hj, rfl⟩ := List.getElem?_eq_some_iff.mp h
  exact ⟨j, by simpa using hj, by simp⟩

/-- The codes of a column. -/
noncomputable def codesOf (ord : List (Option ℝ) → List (Option ℝ)) (l : List (Option ℝ)) : List ℤ :=
  (ord l).reduceOption.map fun c => ⌊c⌋

theorem mem_cats {ord : List (Option ℝ) → List (Option ℝ)} (ho : SortsSets ord) (l : List (Option ℝ))
    (v : ℝ) : v ∈ (ord l).reduceOption ↔ some v ∈ l := by
  rw [List.reduceOption_mem_iff]
  exact (ho l).2.1 v

section column
variable {ord : List (Option ℝ) → List (Option ℝ)} {l : List (Option ℝ)} {k : Nat}

theorem floor_inj_of (hv : ∀ v, some v ∈ l → categoricalOk k v) {v w : ℝ} (h1 : some v ∈ l)
    (h2 : some w ∈ l) (h : ⌊v⌋ = ⌊w⌋) : v = w := by
  obtain ⟨⟨n, rfl⟩, -⟩ := hv v h1
  obtain ⟨⟨m, rfl⟩, -⟩ := hv w h2
  simpa using h

theorem codes_nodup (ho : SortsSets ord) (hv : ∀ v, some v ∈ l → categoricalOk k v) :
    (codesOf ord l).Nodup := by
  refine (List.nodup_map_iff_inj_on (ho l).1).mpr fun v h1 w h2 h => ?_
  exact floor_inj_of hv ((mem_cats ho l v).mp h1) ((mem_cats ho l w).mp h2) h

theorem mem_codes (ho : SortsSets ord) {v : ℝ} (h : some v ∈ l) : ⌊v⌋ ∈ codesOf ord l :=
  List.mem_map_of_mem ((mem_cats ho l v).mpr h)

theorem codes_bound (ho : SortsSets ord) (hv : ∀ v, some v ∈ l → categoricalOk k v) :
    (codesOf ord l).length ≤ k := by
  have hn := codes_nodup ho hv
  have hs : (codesOf ord l).toFinset ⊆ (Finset.range k).image fun n : ℕ => (n : ℤ) := by
    intro z hz
    rw [List.mem_toFinset] at hz
    obtain ⟨v, h1, rfl⟩ := List.mem_map.mp hz
    obtain ⟨n, hn, rfl⟩ := (categoricalOk_iff k v).mp (hv v ((mem_cats ho l v).mp h1))
    exact Finset.mem_image.mpr ⟨n, Finset.mem_range.mpr hn, by simp⟩
  have := Finset.card_le_card hs
  rw [List.toFinset_card_of_nodup hn] at this
  exact this.trans (Finset.card_image_le.trans (by simp))

theorem metaCategorical_ok (ho : SortsSets ord) (hv : ∀ v, some v ∈ l → categoricalOk k v) :
    metaCategorical ord l k = .ok ⟨true, (List.range (codesOf ord l).length).zip (codesOf ord l),
      (codesOf ord l).zip (List.range (codesOf ord l).length)⟩ := by
  unfold metaCategorical
  simp only
  rw [if_pos fun c hc => ((hv c ((mem_cats ho l c).mp hc)).2)]
  have h1 := Dict.update_nil_eq (rangeZip_wf (codesOf ord l))
  have h2 := Dict.update_nil_eq (zipRange_wf (codes_nodup ho hv))
  unfold codesOf at h1 h2 ⊢
  rw [h1, h2]

theorem toCode_ok (ho : SortsSets ord) (hv : ∀ v, some v ∈ l → categoricalOk k v) {x : Option ℝ}
    (hx : x ∈ l) (b : Bool) (d : Dict Nat ℤ) :
    toCode ⟨b, d, (codesOf ord l).zip (List.range (codesOf ord l).length)⟩ x
      = .ok (x.map fun v => ((codesOf ord l).idxOf ⌊v⌋ : ℝ)) := by
  cases x with
  | none => rfl
  | some v =>
    have hm := mem_codes ho hx
    have he : ((codesOf ord l).zip (List.range (codesOf ord l).length)).isEmpty = false := by
      cases hc : codesOf ord l with
      | nil => rw [hc] at hm; cases hm
      | cons a t => simp [List.range_succ_eq_map]
    simp only [toCode, he, Bool.false_eq_true, if_false, zipRange_get (codes_nodup ho hv) hm]
    rfl

end column

/-- A list of calls each of which succeeds or fails with `e`, and one fails. -/
theorem collect_fail {α β : Type} {f : α → Except Exn β} {e : Exn} {l : List α} {a : α}
    (h : ∀ b ∈ l, f b = .error e ∨ ∃ y, f b = .ok y) (ha : a ∈ l) (he : f a = .error e) :
    Net.collect f l = .error e := by
  induction l with
  | nil => cases ha
  | cons b t ih =>
    rcases h b (by simp) with hb | ⟨y, hb⟩
    · simp only [Net.collect, hb]
    · rcases List.mem_cons.mp ha with rfl | hat
      · rw [he] at hb; cases hb
      · simp only [Net.collect, hb, ih (fun b hb => h b (by simp [hb])) hat]
        rfl

/-! ### The State -/

section state
variable {cfg : Cfg (catOf P)} {s : State (catOf P)}

/-- A column is stored as a list, which is the column of the table. -/
theorem column_list (h : State.Inv s) {c : Col} (hc : c ∈ s.outputs) :
    ∃ l, s.X.get? c = some l ∧ l.length = s.nRows ∧ (∀ r < s.nRows, l[r]? = some (s.tbl c r)) ∧
      ∀ v : ℝ, some v ∈ l ↔ Occurs s c v := by
  obtain ⟨l, hl⟩ := (h.data.mem c).mp hc
  have hn := h.data.len c l hl
  have ht : ∀ r < s.nRows, l[r]? = some (s.tbl c r) := by
    intro r hr
    rw [← hn] at hr
    simp only [State.tbl, State.tblOf, hl, Option.bind_some, List.getElem?_eq_getElem hr, Option.getD_some]
  refine ⟨l, hl, hn, ht, fun v => ⟨fun hv => ?_, ?_⟩⟩
  · obtain ⟨r, hr, e⟩ := List.mem_iff_getElem.mp hv
    have hr' : r < s.nRows := hn ▸ hr
    refine ⟨r, hr', ?_⟩
    have := ht r hr'
    exact Option.some.inj (this.symm.trans ((List.getElem?_eq_getElem hr).trans (congrArg some e)))
  · rintro ⟨r, hr, e⟩
    have := ht r hr
    rw [e] at this
    exact List.mem_of_getElem? this

/-- A categorical column holds categories. -/
theorem column_cats (h : State.Inv s) {c : Col} {d : Dim (catOf P)} {k : Nat} (hd : s.dimFor c = .ok d)
    (hi : d.inputs = []) (hk : d.kind.1 = .categorical k) {v : ℝ} (hv : Occurs s c v) :
    categoricalOk k v := by
  obtain ⟨r, hr, e⟩ := hv
  obtain ⟨i, view, h1, h2, h3⟩ := dimFor_ok hd
  have hok := h.views.view i view h2
  have hdim := hok.inv.dim (c, d) (Dict.mem_of_get? h3)
  obtain ⟨t, ht⟩ := Option.ne_none_iff_exists'.mp ((hok.rows r).mpr hr)
  have hobs : View.obsOf s.tbl d r = some (v, []) := by
    unfold View.obsOf View.inputsOf
    rw [hdim.index, hi, e]
    rfl
  obtain ⟨o', ho'⟩ := hdim.acc r t ht _ hobs
  have hp := (Prim.lift_prep (p := d.kind.1) ho').2.2
  rw [hk] at hp
  by_contra hn
  simp [Prim.fam, Cgpm.categorical, hn] at hp

open Classical in
/-- The entry of a column in the metadata. -/
noncomputable def metaOf (ord : List (Option ℝ) → List (Option ℝ)) (s : State (catOf P)) (c : Col) :
    ColMeta :=
  if ∃ d k, s.dimFor c = .ok d ∧ d.kind.1 = .categorical k then
    ⟨true, (List.range (codesOf ord ((s.X.get? c).getD [])).length).zip (codesOf ord ((s.X.get? c).getD [])),
      (codesOf ord ((s.X.get? c).getD [])).zip
        (List.range (codesOf ord ((s.X.get? c).getD [])).length)⟩
  else metaNumerical

theorem mc_ok (h : State.Inv s) (hi : ∀ c d, s.dimFor c = .ok d → d.inputs = [])
    (hs : ∀ c d, s.dimFor c = .ok d → supports d.kind = true) {ord : List (Option ℝ) → List (Option ℝ)}
    (ho : SortsSets ord) : crosscatMc ord s = .ok (s.outputs.map (metaOf ord s)) := by
  unfold crosscatMc
  rw [if_pos (supported_all h hs)]
  refine Net.collect_ok _ _ _ fun c hc => ?_
  obtain ⟨-, -, d, -, -, -, hd, -⟩ := h.dim hc
  obtain ⟨l, hl, -, -, hocc⟩ := column_list h hc
  have hsup := hs c d hd
  unfold supports at hsup
  unfold columnMeta metaOf
  simp only [hd, hl, Option.getD_some]
  cases hk : d.kind.1 with
  | categorical k =>
    simp only
    rw [if_pos ⟨d, k, hd, hk⟩]
    exact metaCategorical_ok ho fun v hv => column_cats h hd (hi c d hd) hk ((hocc v).mp hv)
  | normal =>
    simp only
    rw [if_neg]
    rintro ⟨d', k, e, e'⟩
    rw [hd] at e
    cases e
    rw [hk] at e'
    cases e'
  | _ => rw [hk] at hsup; cases hsup

/-- The code of a value in a column. -/
noncomputable def lovecatCode (ord : List (Option ℝ) → List (Option ℝ)) (s : State (catOf P)) (c : Col)
    (v : ℝ) : Nat := (codesOf ord ((s.X.get? c).getD [])).idxOf ⌊v⌋

open Classical in
/-- An entry of the table. -/
noncomputable def entryOf (ord : List (Option ℝ) → List (Option ℝ)) (s : State (catOf P)) (r : Row)
    (p : Col × Nat) : Option ℝ :=
  if ∃ d k, s.dimFor p.1 = .ok d ∧ d.kind.1 = .categorical k then
    (s.tbl p.1 r).map fun v : ℝ => (lovecatCode ord s p.1 v : ℝ)
  else s.tbl p.1 r

open Classical in
/-- An entry of the hyperparameters. -/
noncomputable def hypOf (ord : List (Option ℝ) → List (Option ℝ)) (s : State (catOf P)) (p : Col × Nat) :
    ColHyp :=
  match s.dimFor p.1 with
  | .error _ => ⟨⟨.normal, ⟨0, 0, 0, 0⟩⟩, none⟩
  | .ok d => ⟨d.hyp, if ∃ k, d.kind.1 = .categorical k then
      some (codesOf ord ((s.X.get? p.1).getD [])).length else none⟩

theorem metas_get (ord : List (Option ℝ) → List (Option ℝ)) {p : Col × Nat} (hp : p ∈ s.outputs.zipIdx) :
    p.1 ∈ s.outputs ∧ (s.outputs.map (metaOf ord s))[p.2]? = some (metaOf ord s p.1) := by
  have h := List.mem_zipIdx_iff_getElem?.mp hp
  exact ⟨List.mem_of_getElem? h, by rw [List.getElem?_map, h]; rfl⟩

theorem table_ok (h : State.Inv s) (hi : ∀ c d, s.dimFor c = .ok d → d.inputs = [])
    {ord : List (Option ℝ) → List (Option ℝ)} (ho : SortsSets ord) :
    crosscatT (s.outputs.map (metaOf ord s)) s
      = .ok ((List.range s.nRows).map fun r => s.outputs.zipIdx.map (entryOf ord s r)) := by
  have hne : s.outputs ≠ [] := h.data.ne
  obtain ⟨c0, hc0⟩ : ∃ c, s.outputs.head? = some c := by
    cases hs : s.outputs with
    | nil => exact absurd hs hne
    | cons a t => exact ⟨a, rfl⟩
  obtain ⟨l0, hl0, hn0, -, -⟩ := column_list h (List.mem_of_mem_head? hc0)
  unfold crosscatT
  simp only [hc0, hl0]
  have hn0' : List.length (α := Option ℝ) l0 = s.nRows := hn0
  refine (congrArg (Net.collect _) (congrArg List.range hn0')).trans ?_
  refine Net.collect_ok _ _ _ fun r hr => Net.collect_ok _ _ _ fun p hp => ?_
  rw [List.mem_range] at hr
  obtain ⟨hpo, hm⟩ := metas_get ord hp
  obtain ⟨l, hl, hn, ht, hocc⟩ := column_list h hpo
  obtain ⟨-, -, d, -, -, -, hd, -⟩ := h.dim hpo
  have htr : (l : List (Option ℝ))[r]? = some (s.tbl p.1 r) := ht r hr
  unfold tableEntry
  simp only [hl, htr, hm]
  unfold metaOf entryOf lovecatCode
  rw [hl, Option.getD_some]
  by_cases hcat : ∃ d k, s.dimFor p.1 = .ok d ∧ d.kind.1 = .categorical k
  · refine (congrArg (fun m => toCode m _) (if_pos hcat)).trans
      (Eq.trans ?_ (congrArg Except.ok (if_pos hcat).symm))
    obtain ⟨d', k, e, hk⟩ := hcat
    exact toCode_ok ho (fun v hv => column_cats h e (hi _ _ e) hk ((hocc v).mp hv))
      (List.mem_of_getElem? htr) _ _
  · refine (congrArg (fun m => toCode m _) (if_neg hcat)).trans
      (Eq.trans ?_ (congrArg Except.ok (if_neg hcat).symm))
    cases s.tbl p.1 r <;> rfl

theorem hypers_ok (h : State.Inv s) {ord : List (Option ℝ) → List (Option ℝ)} (ho : SortsSets ord)
    (hv : ∀ c d k, s.dimFor c = .ok d → d.kind.1 = .categorical k → ∃ v, Occurs s c v) :
    Net.collect (columnHyp (s.outputs.map (metaOf ord s)) s) s.outputs.zipIdx
      = .ok (s.outputs.zipIdx.map (hypOf ord s)) := by
  refine Net.collect_ok _ _ _ fun p hp => ?_
  obtain ⟨hpo, hm⟩ := metas_get ord hp
  obtain ⟨l, hl, hn, ht, hocc⟩ := column_list h hpo
  obtain ⟨-, -, d, -, -, -, hd, -⟩ := h.dim hpo
  unfold columnHyp hypOf
  simp only [hd]
  cases hk : d.kind.1 with
  | categorical k =>
    obtain ⟨v, hvo⟩ := hv _ _ _ hd hk
    have hm' := mem_codes ho ((hocc v).mpr hvo)
    have hmeta : metaOf ord s p.1 = ⟨true, (List.range (codesOf ord l).length).zip (codesOf ord l),
        (codesOf ord l).zip (List.range (codesOf ord l).length)⟩ := by
      unfold metaOf
      rw [if_pos ⟨d, k, hd, hk⟩, hl, Option.getD_some]
    simp only [hm, hmeta, hl, Option.getD_some]
    have hlen : ((codesOf ord l).zip (List.range (codesOf ord l).length)).length = (codesOf ord l).length := by
      simp
    rw [hlen, if_pos (List.length_pos_of_mem hm'), if_pos ⟨k, rfl⟩]
  | _ => 
    simp only
    rw [if_neg]
    rintro ⟨k, e⟩
    cases e

/-- The call that is made describes the State. -/
theorem describes_of (h : State.Inv s) (hi : ∀ c d, s.dimFor c = .ok d → d.inputs = [])
    (hv : ∀ c d k, s.dimFor c = .ok d → d.kind.1 = .categorical k → ∃ v, Occurs s c v)
    {ord : List (Option ℝ) → List (Option ℝ)} (ho : SortsSets ord) {x : Call}
    (h1 : x.metas = s.outputs.map (metaOf ord s))
    (h2 : x.table = (List.range s.nRows).map fun r => s.outputs.zipIdx.map (entryOf ord s r))
    (h3 : x.hypers = s.outputs.zipIdx.map (hypOf ord s)) : Describes x s := by
  have hcell : ∀ (i : Nat) c, s.outputs[i]? = some c → ∀ r < s.nRows,
      (x.table[r]?.bind fun l => l[i]?) = some (entryOf ord s r (c, i)) := by
    intro i c hic r hr
    rw [h2, List.getElem?_map, List.getElem?_range hr]
    simp [hic]
  have hm : ∀ (i : Nat) c, s.outputs[i]? = some c → x.metas[i]? = some (metaOf ord s c) := by
    intro i c hic
    rw [h1, List.getElem?_map, hic]; rfl
  have hh : ∀ (i : Nat) c, s.outputs[i]? = some c → x.hypers[i]? = some (hypOf ord s (c, i)) := by
    intro i c hic
    rw [h3]; simp [hic]
  refine ⟨by rw [h2]; simp, ?_, ?_, ?_⟩
  · intro l hl
    rw [h2] at hl
    obtain ⟨r, -, rfl⟩ := List.mem_map.mp hl
    simp
  · intro i c d hic hd hk
    have hno : ¬ ∃ d k, s.dimFor c = .ok d ∧ d.kind.1 = .categorical k := by
      rintro ⟨d', k, e, e'⟩
      rw [hd] at e
      cases e
      rw [hk] at e'
      cases e'
    refine ⟨fun r hr => ?_, ?_, ?_⟩
    · rw [hcell i c hic r hr]
      exact congrArg some (if_neg hno)
    · rw [hm i c hic]
      unfold metaOf
      rw [if_neg hno]
      rfl
    · rw [hh i c hic]
      unfold hypOf
      simp only [hd]
      rw [if_neg]
      rintro ⟨k, e⟩
      rw [hk] at e
      cases e
  · intro i c d k hic hd hk
    have hcat : ∃ d k, s.dimFor c = .ok d ∧ d.kind.1 = .categorical k := ⟨d, k, hd, hk⟩
    obtain ⟨l, hl, hn, ht, hocc⟩ := column_list h (List.mem_of_getElem? hic)
    have hcv : ∀ v : ℝ, some v ∈ l → categoricalOk k v := fun v hv =>
      column_cats h hd (hi _ _ hd) hk ((hocc v).mp hv)
    have hnd := codes_nodup ho hcv
    have hmem : ∀ v, Occurs s c v → ⌊v⌋ ∈ codesOf ord l := fun v hv => mem_codes ho ((hocc v).mpr hv)
    refine ⟨metaOf ord s c, (codesOf ord l).length, lovecatCode ord s c, hm i c hic, ?_, ?_, ?_⟩
    · unfold metaOf; rw [if_pos hcat]
    · have hcode : ∀ v, lovecatCode ord s c v = (codesOf ord l).idxOf ⌊v⌋ := by
        intro v; unfold lovecatCode; rw [hl, Option.getD_some]
      refine ⟨?_, codes_bound ho hcv, ?_, ?_, ?_, ?_, ?_, ?_⟩
      · obtain ⟨v, hvo⟩ := hv c d k hd hk
        exact List.length_pos_of_mem (hmem v hvo)
      · intro r hr
        exact (hcell i c hic r hr).trans (congrArg some (if_pos hcat))
      · intro v hvo
        rw [hcode]
        exact List.idxOf_lt_length_of_mem (hmem v hvo)
      · intro j hj
        obtain ⟨v, hvm, e⟩ := List.mem_map.mp (List.getElem_mem hj)
        refine ⟨v, (hocc v).mp ((mem_cats ho l v).mp hvm), ?_⟩
        rw [hcode, e]
        exact hnd.idxOf_getElem j hj
      · intro v w h1 h2 e
        rw [hcode, hcode] at e
        exact floor_inj_of hcv ((hocc v).mpr h1) ((hocc w).mpr h2)
          ((List.idxOf_inj (hmem v h1)).mp e)
      · intro v hvo
        refine ⟨?_, ?_⟩
        · unfold metaOf
          rw [if_pos hcat, hl, Option.getD_some, hcode]
          exact rangeZip_get _ (List.getElem?_idxOf (hmem v hvo))
        · obtain ⟨n, -, rfl⟩ := (categoricalOk_iff k v).mp (hcv v ((hocc v).mpr hvo))
          simp
      · intro hfull v w h1 h2 hlt
        have hnone : none ∉ l := by
          intro hc
          obtain ⟨r, hr, e⟩ := List.mem_iff_getElem.mp hc
          have hr' : r < s.nRows := hn ▸ hr
          exact hfull r hr' (Option.some.inj ((ht r hr').symm.trans
            ((List.getElem?_eq_getElem hr).trans (congrArg some e))))
        have hp := (ho l).2.2 hnone
        have hi1 := List.idxOf_lt_length_of_mem (hmem v h1)
        have hi2 := List.idxOf_lt_length_of_mem (hmem w h2)
        rw [hcode, hcode]
        by_contra hge
        have hle : (codesOf ord l).idxOf ⌊w⌋ ≤ (codesOf ord l).idxOf ⌊v⌋ := not_lt.mp hge
        have hp' : (codesOf ord l).Pairwise (· ≤ ·) :=
          List.pairwise_map.mpr (hp.imp fun h => Int.floor_le_floor h.le)
        have hle' : ⌊w⌋ ≤ ⌊v⌋ := by
          rcases hle.lt_or_eq with hl' | he
          · have := List.pairwise_iff_getElem.mp hp' _ _ hi2 hi1 hl'
            simpa using this
          · exact le_of_eq ((List.idxOf_inj (hmem w h2)).mp he)
        have : ⌊v⌋ = ⌊w⌋ := le_antisymm (Int.floor_le_floor hlt.le) hle'
        exact hlt.ne (floor_inj_of hcv ((hocc v).mpr h1) ((hocc w).mpr h2) this)
    · rw [hh i c hic]
      unfold hypOf
      simp only [hd, hl, Option.getD_some]
      rw [if_pos ⟨k, hk⟩]

theorem notCond_of (h : State.Inv s) (hq : ∀ c d, s.dimFor c = .ok d → cfg.conditional d.kind = false) :
    s.anyConditional cfg = false := by
  unfold State.anyConditional State.dims
  rw [Bool.eq_false_iff, ne_eq, List.any_eq_true]
  rintro ⟨o, ho, hc⟩
  obtain ⟨c, hcm, rfl⟩ := List.mem_map.mp ho
  obtain ⟨-, -, d, -, -, -, hd, -⟩ := h.dim hcm
  simp only [hd, hq c d hd] at hc
  cases hc

end state

/-! ### The transition -/

theorem supports_iff (k : (catOf P).ι) : supports k = true ↔ LovecatType k := by
  obtain ⟨p, hp⟩ := k
  cases p <;> simp [supports, LovecatType]

/-- C87. A transition by Lovecat hands over the table, the types, the hyperparameters and the partition
of the State, with the run that is asked for, and installs what comes back: the partition is Lovecat's,
and the data, the columns and the constraints are as before.  If Lovecat raises, the State is as before. -/
theorem C87_transition {cfg : Cfg (catOf P)} {s : State (catOf P)} (hr : StateReachable cfg s)
    (hi : ∀ c d, s.dimFor c = .ok d → d.inputs = [])
    (hs : ∀ c d, s.dimFor c = .ok d → LovecatType d.kind)
    (hq : ∀ c d, s.dimFor c = .ok d → cfg.conditional d.kind = false)
    (hc : ∀ k, LovecatType k → cfg.collapsed k = true)
    (hv : ∀ c d k, s.dimFor c = .ok d → d.kind.1 = .categorical k → ∃ v, Occurs s c v)
    {ord : List (Option ℝ) → List (Option ℝ)} (ho : SortsSets ord) {N : Option Nat} {S : Option ℝ}
    (hN : N ≠ none ∨ S ≠ none) {cols : Option (List Col)} (hcols : ∀ c ∈ cols.getD [], c ∈ s.outputs)
    (kernels : Option (List String)) (rowids : Option (List Row)) (seed : Nat) (checkpoint : Option Nat) :
    ∃ call : Lovecat.Call, Describes call s ∧ Lovecat.ofState supports s = .ok call.latent ∧
      Asks call s.outputs N S kernels rowids cols seed checkpoint ∧
      ∀ analyze : Lovecat.Call → Except Exn Lovecat,
        (∀ e, analyze call = .error e →
          s.transitionLovecat cfg ord analyze N S kernels rowids cols seed checkpoint = .err e s) ∧
        ∀ x, analyze call = .ok x → LovecatFits x s →
          ∃ s', s.transitionLovecat cfg ord analyze N S kernels rowids cols seed checkpoint = .ok s' ∧
            StateReachable cfg s' ∧ StateConsistent s' ∧ Kept s s' ∧ s'.crp.alpha = x.alpha ∧
            (∀ (i j : Nat) c e, s.outputs[i]? = some c → s.outputs[j]? = some e →
              (s'.Zv c = s'.Zv e ↔ x.assignments[i]? = x.assignments[j]?)) ∧
            ∀ (i k : Nat) c, s.outputs[i]? = some c → x.assignments[i]? = some k →
              ∃ j v, s'.viewFor c = .ok (j, v) ∧ some v.crp.alpha = x.viewAlphas[k]? ∧
                ∃ zs, x.rows[k]? = some zs ∧ ∀ r, v.seat r = zs[r]? := by
  have hL := catOf_lawful P
  have h := hr.inv hL
  simp only [← supports_iff] at hs hc
  obtain ⟨lat, hlat, -⟩ := C40_export hL hr hs
  have hst : stepsOf N S = .ok (N.getD 150000, S) := by
    cases N <;> cases S <;> first | rfl | simp at hN
  have hpos : positions s.outputs cols = .ok ((cols.getD []).map s.outputs.idxOf) := by
    cases cols with
    | none => rfl
    | some l => exact Net.collect_ok _ _ _ fun c hcl => if_pos (hcols c hcl)
  have htr : ∀ analyze, s.transitionLovecat cfg ord analyze N S kernels rowids cols seed checkpoint
      = match analyze ⟨s.outputs.map (metaOf ord s),
          (List.range s.nRows).map fun r => s.outputs.zipIdx.map (entryOf ord s r),
          s.outputs.zipIdx.map (hypOf ord s), lat, seed, kernels.getD [], N.getD 150000, S,
          (cols.getD []).map s.outputs.idxOf, rowids.getD [], checkpoint⟩ with
        | .error e => .err e s
        | .ok x => x.update cfg supports s := by
    intro analyze
    unfold State.transitionLovecat Lovecat.transition
    rw [if_neg (not_not.mpr (supported_all h hs)), if_neg (by rw [notCond_of h hq]; simp)]
    simp only [hst, hpos, mc_ok h hi hs ho, table_ok h hi ho, hypers_ok h ho hv, hlat]
    rfl
  refine ⟨⟨s.outputs.map (metaOf ord s),
    (List.range s.nRows).map fun r => s.outputs.zipIdx.map (entryOf ord s r),
    s.outputs.zipIdx.map (hypOf ord s), lat, seed, kernels.getD [], N.getD 150000, S,
    (cols.getD []).map s.outputs.idxOf, rowids.getD [], checkpoint⟩,
    describes_of h hi hv ho rfl rfl rfl, hlat, ⟨rfl, rfl, ?_, rfl, rfl, rfl, rfl⟩,
    fun analyze => ⟨fun e he => ?_, fun x hx hf => ?_⟩⟩
  · rw [List.map_map]
    exact List.map_congr_left fun c hcl => List.getElem?_idxOf (hcols c hcl)
  · rw [htr]
    simp only [he]
  · obtain ⟨s', g1, g2, g3, -, g4, g5, -, -, g6, g7⟩ := C40_import hL hr hs hc hf
    refine ⟨s', ?_, g2, g3, g4, g5, g6, g7⟩
    rw [htr]
    simp only [hx]
    exact g1

/-- C87. A column of a type that Lovecat does not have, a column conditional on others, and a column
that the State does not have are a `ValueError`, and the State is as before; Lovecat is not called. -/
theorem C87_refused (cfg : Cfg (catOf P)) (s : State (catOf P))
    (ord : List (Option ℝ) → List (Option ℝ)) (analyze : Lovecat.Call → Except Exn Lovecat)
    (N : Option Nat) (S : Option ℝ) (kernels : Option (List String)) (rowids : Option (List Row))
    (cols : Option (List Col)) (seed : Nat) (checkpoint : Option Nat) :
    ((∃ c ∈ s.outputs, ∃ d, s.dimFor c = .ok d ∧ ¬ LovecatType d.kind) →
      s.transitionLovecat cfg ord analyze N S kernels rowids cols seed checkpoint = .err .valueError s) ∧
    ((∃ c ∈ s.outputs, ∃ d, s.dimFor c = .ok d ∧ cfg.conditional d.kind = true) →
      s.transitionLovecat cfg ord analyze N S kernels rowids cols seed checkpoint = .err .valueError s) ∧
    (N ≠ none ∨ S ≠ none → (∃ c ∈ cols.getD [], c ∉ s.outputs) →
      s.transitionLovecat cfg ord analyze N S kernels rowids cols seed checkpoint = .err .valueError s) := by
  refine ⟨?_, ?_, ?_⟩
  · rintro ⟨c, hc, d, hd, hs⟩
    rw [← supports_iff, Bool.not_eq_true] at hs
    unfold State.transitionLovecat
    rw [if_pos]
    unfold Lovecat.typesOk
    rw [List.all_eq_true]
    intro h
    have := h (some d) (List.mem_map.mpr ⟨c, hc, by simp only [hd]⟩)
    simp only at this
    rw [hs] at this
    cases this
  · rintro ⟨c, hc, d, hd, hs⟩
    unfold State.transitionLovecat
    split
    · rfl
    · rw [if_pos]
      unfold State.anyConditional State.dims
      rw [List.any_eq_true]
      exact ⟨some d, List.mem_map.mpr ⟨c, hc, by simp only [hd]⟩, hs⟩
  · rintro hN ⟨c, hc, hno⟩
    unfold State.transitionLovecat
    split
    · rfl
    · split
      · rfl
      · have hst : stepsOf N S = .ok (N.getD 150000, S) := by
          cases N <;> cases S <;> first | rfl | simp at hN
        unfold Lovecat.transition
        simp only [hst]
        cases cols with
        | none => cases hc
        | some l =>
          have : positions s.outputs (some l) = .error .valueError := by
            refine collect_fail (fun b hb => ?_) hc (if_neg hno)
            by_cases hb' : b ∈ s.outputs
            · exact Or.inr ⟨_, if_pos hb'⟩
            · exact Or.inl (if_neg hb')
          simp only [this]

/-- C87. With neither a number of steps nor a time the transition fails with an `AssertionError`, although
the code provides one step for this case. -/
theorem C87_steps_violated {cfg : Cfg (catOf P)} {s : State (catOf P)} (hr : StateReachable cfg s)
    (hs : ∀ c d, s.dimFor c = .ok d → LovecatType d.kind)
    (hq : ∀ c d, s.dimFor c = .ok d → cfg.conditional d.kind = false)
    (ord : List (Option ℝ) → List (Option ℝ)) (analyze : Lovecat.Call → Except Exn Lovecat)
    (kernels : Option (List String)) (rowids : Option (List Row))
    (cols : Option (List Col)) (seed : Nat) (checkpoint : Option Nat) :
    s.transitionLovecat cfg ord analyze none none kernels rowids cols seed checkpoint = .err .assertion s := by
  have h := hr.inv (catOf_lawful P)
  simp only [← supports_iff] at hs
  unfold State.transitionLovecat Lovecat.transition
  rw [if_neg (not_not.mpr (supported_all h hs)), if_neg (by rw [notCond_of h hq]; simp)]
  rfl

/-- C87. A categorical column of which nothing is observed cannot be handed over: the transition fails
with an `AssertionError`, and the State is as before. -/
theorem C87_missing_violated {cfg : Cfg (catOf P)} {s : State (catOf P)} (hr : StateReachable cfg s)
    (hi : ∀ c d, s.dimFor c = .ok d → d.inputs = [])
    (hs : ∀ c d, s.dimFor c = .ok d → LovecatType d.kind)
    (hq : ∀ c d, s.dimFor c = .ok d → cfg.conditional d.kind = false)
    {c : Col} {d : Dim (catOf P)} {k : Nat} (hcm : c ∈ s.outputs) (hd : s.dimFor c = .ok d)
    (hk : d.kind.1 = .categorical k) (hv : ∀ r < s.nRows, s.tbl c r = none)
    {ord : List (Option ℝ) → List (Option ℝ)} (ho : SortsSets ord) {N : Option Nat} {S : Option ℝ}
    (hN : N ≠ none ∨ S ≠ none) {cols : Option (List Col)} (hcols : ∀ c ∈ cols.getD [], c ∈ s.outputs)
    (analyze : Lovecat.Call → Except Exn Lovecat)
    (kernels : Option (List String)) (rowids : Option (List Row)) (seed : Nat) (checkpoint : Option Nat) :
    s.transitionLovecat cfg ord analyze N S kernels rowids cols seed checkpoint = .err .assertion s := by
  have h := hr.inv (catOf_lawful P)
  simp only [← supports_iff] at hs
  have hst : stepsOf N S = .ok (N.getD 150000, S) := by
    cases N <;> cases S <;> first | rfl | simp at hN
  have hpos : positions s.outputs cols = .ok ((cols.getD []).map s.outputs.idxOf) := by
    cases cols with
    | none => rfl
    | some l => exact Net.collect_ok _ _ _ fun c hcl => if_pos (hcols c hcl)
  have hyp : Net.collect (columnHyp (s.outputs.map (metaOf ord s)) s) s.outputs.zipIdx = .error .assertion := by
    obtain ⟨i, hlt, rfl⟩ := List.mem_iff_getElem.mp hcm
    refine collect_fail (a := (s.outputs[i], i)) (fun p hp => ?_)
      (List.mem_zipIdx_iff_getElem?.mpr (List.getElem?_eq_getElem hlt)) ?_
    · obtain ⟨hpo, hm⟩ := metas_get ord hp
      obtain ⟨-, -, d', -, -, -, hd', -⟩ := h.dim hpo
      unfold columnHyp
      simp only [hd', hm]
      split
      · split
        · exact Or.inr ⟨_, rfl⟩
        · exact Or.inl rfl
      · exact Or.inr ⟨_, rfl⟩
    · obtain ⟨l, hl, hn, ht, hocc⟩ := column_list h hcm
      have hm : (s.outputs.map (metaOf ord s))[i]? = some (metaOf ord s s.outputs[i]) := by
        rw [List.getElem?_map, List.getElem?_eq_getElem hlt]; rfl
      have hempty : codesOf ord l = [] := by
        rw [List.eq_nil_iff_forall_not_mem]
        intro z hz
        obtain ⟨v, hvm, -⟩ := List.mem_map.mp hz
        obtain ⟨r, hr', e⟩ := (hocc v).mp ((mem_cats ho l v).mp hvm)
        rw [hv r hr'] at e
        cases e
      unfold columnHyp
      simp only [hd, hk, hm]
      rw [if_neg]
      unfold metaOf
      rw [if_pos ⟨d, k, hd, hk⟩, hl, Option.getD_some, hempty]
      simp
  unfold State.transitionLovecat Lovecat.transition
  rw [if_neg (not_not.mpr (supported_all h hs)), if_neg (by rw [notCond_of h hq]; simp)]
  simp only [hst, hpos, mc_ok h hi hs ho, table_ok h hi ho, hyp]

/-! ### The hypotheses can be met -/

/-- Python's `sorted(set(column))`, with missing values dropped. -/
noncomputable def sortSet (l : List (Option ℝ)) : List (Option ℝ) :=
  (l.reduceOption.toFinset.sort (· ≤ ·)).map some

theorem sortSet_sorts : SortsSets sortSet := by
  intro l
  have e : (sortSet l).reduceOption = l.reduceOption.toFinset.sort (· ≤ ·) := by
    unfold sortSet List.reduceOption
    rw [List.filterMap_map]
    exact List.filterMap_some
  refine ⟨by rw [e]; exact Finset.sort_nodup _ _, fun v => ?_, fun _ => ?_⟩
  · unfold sortSet
    simp [List.reduceOption_mem_iff]
  · rw [e]
    exact Finset.sortedLT_sort _ |>.pairwise

theorem categorical_hyp : (libCat.F ⟨.categorical 3, trivial⟩).hypOk ⟨.categorical 3, (⟨1⟩ : CategoricalH)⟩ :=
  ⟨rfl, one_pos⟩

theorem categorical_remembered : remembered (.categorical 3) 2 ≠ none := by
  have : ∃ n < 3, (2 : ℝ) = (n : ℕ) := ⟨2, by norm_num, by norm_num⟩
  simp [remembered, support, this]

theorem supports_collapsed (k : libCat.ι) (h : LovecatType k) : plainCfg.collapsed k = true := by
  rw [← supports_iff] at h
  obtain ⟨p, hp⟩ := k
  cases p <;> first | rfl | (cases h)

/-- Two categorical columns, one with a missing value. -/
example : ∃ s : State libCat, StateReachable plainCfg s ∧ SortsSets sortSet ∧
    (∀ c d, s.dimFor c = .ok d → d.inputs = []) ∧
    (∀ c d, s.dimFor c = .ok d → LovecatType d.kind) ∧
    (∀ c d, s.dimFor c = .ok d → plainCfg.conditional d.kind = false) ∧
    (∀ k : libCat.ι, LovecatType k → plainCfg.collapsed k = true) ∧
    (∀ c d k, s.dimFor c = .ok d → d.kind.1 = .categorical k → ∃ v, Occurs s c v) ∧
    (∃ d, s.dimFor 1 = .ok d ∧ d.kind.1 = .categorical 3) ∧
    (∀ c ∈ (some [1, 0] : Option (List Col)).getD [], c ∈ s.outputs) ∧
    LovecatFits ⟨2, [0, 0], [3], [[4, 9]]⟩ s := by
  obtain ⟨s, h1, h2, h3, h4, h5, -, -, -, -, -, -, h12⟩ := stateDemo_init categorical_remembered
    categorical_hyp (a := 0) (b := 1) (by decide) [] []
  obtain ⟨-, -, d1, -, -, -, hd1, -⟩ := h2.dim (c := 1) (by rw [h4]; simp)
  refine ⟨s, h1, sortSet_sorts, fun c d hd => (h12 c d hd).2.1, fun c d hd => ?_, fun _ _ _ => rfl,
    supports_collapsed, fun c d k hd hk => ⟨2, 1, by rw [h5]; norm_num, ?_⟩, ⟨d1, hd1, ?_⟩, ?_, ?_⟩
  · rw [(h12 c d hd).1]; exact .inr ⟨3, rfl⟩
  · have hc : c ∈ s.outputs := by
      obtain ⟨i, v, g1, -, -⟩ := dimFor_ok hd
      exact (h2.cols c).mp (by rw [g1]; simp)
    rw [h4] at hc
    unfold State.tbl
    rw [h3]
    rcases (by simpa using hc : c = 0 ∨ c = 1) with rfl | rfl <;> rfl
  · rw [(h12 1 d1 hd1).1]
  · rw [h4]; simp
  · exact ⟨by norm_num, by rw [h4]; rfl, rfl, by simp, by simp [h5], by simp⟩

/-- A column of another type; and a column conditional on others. -/
example : ∃ (s : State libCat) (d : Dim libCat), StateReachable plainCfg s ∧ 0 ∈ s.outputs ∧
    s.dimFor 0 = .ok d ∧ ¬ LovecatType d.kind ∧
    (⟨fun _ => true, fun _ => true⟩ : Cfg libCat).conditional d.kind = true ∧ 7 ∉ s.outputs := by
  obtain ⟨s, h1, h2, -, h4, -, -, -, -, -, -, -, h12⟩ := stateDemo_init bernoulli_remembered_one
    bernoulli_hyp (a := 0) (b := 1) (by decide) [] []
  obtain ⟨-, -, d, -, -, -, hd, -⟩ := h2.dim (c := 0) (by rw [h4]; simp)
  exact ⟨s, d, h1, by rw [h4]; simp, hd, by rw [(h12 0 d hd).1]; simp [LovecatType], rfl, by rw [h4]; simp⟩

/-- One categorical column of which nothing is observed. -/
theorem lovecatEmpty_legal : LegalInit [(0, [none, none])] 2 (stateDemoSchema (.categorical 3) (⟨1⟩ : CategoricalH)) 1
    [(0, 0)] [0] (fun _ => (1, [0, 1])) := by
  refine ⟨⟨by simp [Dict.keys], by simp⟩, ?_, by norm_num, one_pos,
    ⟨by simp [Dict.keys], fun c => by simp [Dict.keys]⟩,
    ⟨by simp, fun v => ?_⟩, fun v _ => ⟨one_pos, rfl⟩, fun c _ => categorical_hyp,
    fun c _ i hi => (by cases hi), fun c hc r hr => ?_⟩
  · intro c l h
    simp only [Dict.get?_cons, Dict.get?_nil] at h
    split at h
    · cases h; rfl
    · cases h
  · simp only [List.mem_cons, List.not_mem_nil, or_false, Dict.get?_cons, Dict.get?_nil]
    constructor
    · rintro rfl
      exact ⟨0, by simp⟩
    · rintro ⟨c, h⟩
      split at h
      · cases h; rfl
      · cases h
  · unfold admissible fileOf
    have hc' : c = 0 := by simpa [Dict.keys] using hc
    have hr' : r = 0 ∨ r = 1 := by
      have : r < 2 := hr
      rcases r with _ | _ | r
      · exact .inl rfl
      · exact .inr rfl
      · exact absurd this (by simp)
    subst hc'
    rcases hr' with rfl | rfl <;>
      simp [file, tblOf, Dict.get?_cons, stateDemoSchema, Dim.new]

example : ∃ (s : State libCat) (d : Dim libCat), StateReachable plainCfg s ∧ 0 ∈ s.outputs ∧
    (∀ c d, s.dimFor c = .ok d → d.inputs = []) ∧
    (∀ c d, s.dimFor c = .ok d → LovecatType d.kind) ∧
    (∀ c d, s.dimFor c = .ok d → plainCfg.conditional d.kind = false) ∧
    s.dimFor 0 = .ok d ∧ d.kind.1 = .categorical 3 ∧ ∀ r < s.nRows, s.tbl 0 r = none := by
  obtain ⟨s, h1, h2, h3, h4, h5, h6, h7, h8, h9, h10, h11⟩ := init_ok [] [] (initOk_of lovecatEmpty_legal)
  have hk : ∀ c d, s.dimFor c = .ok d → d.kind = ⟨.categorical 3, trivial⟩ ∧ d.inputs = [] := by
    intro c d hd
    obtain ⟨i, v, -, g2, g3⟩ := dimFor_ok hd
    have := (h11 i v g2).2.2 c d g3
    exact ⟨this.kind, this.inputs⟩
  obtain ⟨-, -, d, -, -, -, hd, -⟩ := h2.dim (c := 0) (by rw [h4]; simp [Dict.keys])
  refine ⟨s, d, .of _ _ _ _ _ _ _ _ _ lovecatEmpty_legal s h1 [] trivial, by rw [h4]; simp [Dict.keys],
    fun c d hd => (hk c d hd).2, fun c d hd => by rw [(hk c d hd).1]; exact .inr ⟨3, rfl⟩, fun _ _ _ => rfl, hd,
    by rw [(hk 0 d hd).1], fun r hr => ?_⟩
  rw [h5] at hr
  unfold State.tbl
  rw [h3]
  rcases r with _ | _ | r
  · rfl
  · rfl
  · omega

end Cgpm.Props
