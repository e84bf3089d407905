import Verif.Props.Loom

/-!
C40: the exchange of the partition with Lovecat.
-/
namespace Cgpm.Props
open Cgpm Cgpm.State
variable {C : Cat}

theorem supported_all {s : State C} (h : Inv s) {supported : C.ι → Bool}
    (hs : ∀ c d, s.dimFor c = .ok d → supported d.kind = true) :
    Lovecat.typesOk supported s = true := by
  unfold Lovecat.typesOk
  rw [List.all_eq_true]
  intro o ho
  obtain ⟨c, hc, rfl⟩ := List.mem_map.mp ho
  obtain ⟨-, -, d, -, -, -, hd, -⟩ := h.dim hc
  simp only [hd]
  exact hs c d hd

/-- C40. X_L and X_D that fit the State are installed: the column concentration, the view of each
column with its concentration, and the cluster of each row in each view are those given.  The views list the rows in their order in the
data. -/
theorem C40_import (hL : C.Lawful) {cfg : Cfg C} {s : State C} (hr : StateReachable cfg s)
    {supported : C.ι → Bool} (hs : ∀ c d, s.dimFor c = .ok d → supported d.kind = true)
    (hc : ∀ k, supported k = true → cfg.collapsed k = true)
    {x : Lovecat} (hx : LovecatFits x s) :
    ∃ s', x.update cfg supported s = .ok s' ∧ StateReachable cfg s' ∧ StateConsistent s' ∧
      RowsInOrder s' ∧ Kept s s' ∧ s'.crp.alpha = x.alpha ∧ s'.views.length = x.rows.length ∧
      (∀ i, i ∈ s'.views.keys → i ∉ s.views.keys) ∧
      (∀ (i j : Nat) c e, s.outputs[i]? = some c → s.outputs[j]? = some e →
        (s'.Zv c = s'.Zv e ↔ x.assignments[i]? = x.assignments[j]?)) ∧
      ∀ (i k : Nat) c, s.outputs[i]? = some c → x.assignments[i]? = some k →
        ∃ j v, s'.viewFor c = .ok (j, v) ∧ some v.crp.alpha = x.viewAlphas[k]? ∧
          ∃ zs, x.rows[k]? = some zs ∧ ∀ r, v.seat r = zs[r]? := by
  have hI := hr.inv hL
  obtain ⟨s1, hs1⟩ : ∃ s1 : State C, s1 = { s with crp := { s.crp with alpha := x.alpha } } := ⟨_, rfl⟩
  have hset : s.setAlpha x.alpha = .ok s1 := by
    unfold State.setAlpha Crp.setHypers
    rw [if_pos hx.alpha, hs1]; rfl
  have hI1 : Inv s1 := by
    have := hI.setAlpha x.alpha
    rwa [hset] at this
  have ho : s1.outputs = s.outputs := by rw [hs1]
  have hn : s1.nRows = s.nRows := by rw [hs1]; rfl
  have hdim : s1.dimFor = s.dimFor := by rw [hs1]; rfl
  have hnd := hI.data.nodup
  have hidx : ∀ (i : Nat) c, s.outputs[i]? = some c → s.outputs.idxOf c = i := by
    intro i c hi
    obtain ⟨hlt, rfl⟩ := List.getElem?_eq_some_iff.mp hi
    exact hnd.idxOf_getElem i hlt
  have hzl : (x.viewAlphas.zip x.rows).length = x.rows.length := by
    rw [List.length_zip, hx.views, min_self]
  have hmem : ∀ c ∈ s.outputs, ∃ k, x.assignments[s.outputs.idxOf c]? = some k ∧ k < x.rows.length := by
    intro c hcm
    have hlt : s.outputs.idxOf c < x.assignments.length := by
      rw [hx.columns]; exact List.idxOf_lt_length_iff.mpr hcm
    refine ⟨_, List.getElem?_eq_getElem hlt, (hx.used _).mp (List.getElem_mem hlt)⟩
  obtain ⟨s', g1, g2⟩ := hI1.installPartition_ok (rows := x.viewAlphas.zip x.rows)
    (reassign := fun d => cfg.collapsed d.kind)
    (target := fun c => x.assignments[s1.outputs.idxOf c]?)
    (fun c d0 d hd hf => by
      rw [hf.kind]
      rw [hdim] at hd
      exact hc _ (hs c d0 hd))
    (fun p hp => by
      obtain ⟨a, b⟩ := p
      have := List.of_mem_zip hp
      rw [hn]
      exact ⟨hx.pos _ this.1, hx.rows _ this.2⟩)
    (fun c hcm => by
      rw [ho] at hcm ⊢
      rw [hzl]
      exact hmem c hcm)
    (fun k hk => by
      rw [hzl] at hk
      obtain ⟨i, hi, e⟩ := List.mem_iff_getElem.mp ((hx.used k).mpr hk)
      have hi' : i < s.outputs.length := by rw [← hx.columns]; exact hi
      refine ⟨s.outputs[i], by rw [ho]; exact List.getElem_mem hi', ?_⟩
      rw [ho, hnd.idxOf_getElem i hi', List.getElem?_eq_getElem hi, e])
  have hk := kept_of g2
  have hkept : Kept s s' := by
    refine ⟨by rw [hk.data, hs1], by rw [hk.outputs, hs1], by rw [hk.dependent, hs1],
      by rw [hk.independent, hs1], fun c d hd => hk.columns c d (by rw [hdim]; exact hd)⟩
  have hZ : ∀ (i : Nat) c, s.outputs[i]? = some c →
      s'.Zv c = (x.assignments[i]?).map (· + (pyMax s1.views.keys + 1)) := by
    intro i c hi
    rw [g2.Zv c (by rw [ho]; exact List.mem_of_getElem? hi), ho, hidx i c hi]
  refine ⟨s', ?_, reachable_of cfg g2, stateConsistent_of g2.inv, rowsInOrder_of g2, hkept, ?_, ?_, ?_, ?_, ?_⟩
  · unfold Lovecat.update
    rw [if_neg (not_not.mpr (supported_all hI hs)), if_neg, if_neg, if_neg, hset]
    · exact g1
    · rw [not_not]; exact hx.columns
    · rw [not_not]; exact hx.views.symm
    · rw [not_not, List.all_eq_true]
      exact fun zs hz => by simpa using hx.rows zs hz
  · rw [g2.alpha, hs1]
  · have hp : s'.views.keys.Perm (List.range' (pyMax s1.views.keys + 1) x.rows.length) := by
      refine (List.perm_ext_iff_of_nodup g2.inv.views.wf (List.nodup_range')).mpr fun i => ?_
      rw [g2.keys, List.mem_range'_1, hzl]
    have := hp.length_eq
    simpa [Dict.keys] using this
  · intro i hi hm
    have h1 := (g2.keys i).mp hi
    have h2 := le_pyMax (show i ∈ s1.views.keys by rw [hs1]; exact hm)
    omega
  · intro i j c e hi hj
    rw [hZ i c hi, hZ j e hj]
    constructor
    · exact fun h => Option.map_injective (fun a b h => by simpa using h) h
    · exact fun h => by rw [h]
  · intro i k c hi hk
    have hz := hZ i c hi
    rw [hk, Option.map_some] at hz
    have hkr : k < x.rows.length := (hx.used k).mp (List.mem_of_getElem? hk)
    have hka : k < x.viewAlphas.length := by rw [hx.views]; exact hkr
    obtain ⟨v, v1, v2, v3⟩ := g2.new k (x.viewAlphas[k], x.rows[k]) (by
      rw [List.getElem?_eq_getElem (by rw [hzl]; exact hkr), List.getElem_zip])
    exact ⟨_, v, viewFor_of hz (by rw [Nat.add_comm]; exact v1),
      by rw [v2, List.getElem?_eq_getElem hka], _, List.getElem?_eq_getElem hkr, v3⟩

/-- C40. A State with a column of another type is refused in both directions, and is as before. -/
theorem C40_unsupported (cfg : Cfg C) {s : State C} {supported : C.ι → Bool} {c : Col} {d : Dim C}
    (hc : c ∈ s.outputs) (hd : s.dimFor c = .ok d) (hs : supported d.kind = false) (x : Lovecat) :
    x.update cfg supported s = .err .assertion s ∧ Lovecat.ofState supported s = .error .assertion := by
  have : ¬ Lovecat.typesOk supported s = true := by
    unfold Lovecat.typesOk
    rw [List.all_eq_true]
    intro h
    have := h (some d) (List.mem_map.mpr ⟨c, hc, by simp only [hd]⟩)
    simp only at this
    rw [hs] at this
    cases this
  constructor
  · unfold Lovecat.update; rw [if_pos this]
  · unfold Lovecat.ofState; rw [if_neg this]

/-! ### Export -/

theorem countsOk_of {l : List Nat} (h : ∀ k m, m ∈ l → k ≤ m → k ∈ l) : Lovecat.countsOk l = true := by
  unfold Lovecat.countsOk
  rw [Bool.not_eq_true', Bool.eq_false_iff, ne_eq, List.contains_iff_mem]
  intro h0
  obtain ⟨k, hk, e⟩ := List.mem_map.mp h0
  rw [List.count_eq_zero] at e
  rw [List.mem_range] at hk
  have : ∀ l : List Nat, k < l.foldr (fun k m => max (k + 1) m) 0 → ∃ m ∈ l, k ≤ m := by
    intro l
    induction l with
    | nil => simp
    | cons a t ih =>
      intro hm
      rw [List.foldr_cons] at hm
      by_cases ha : k ≤ a
      · exact ⟨a, by simp, ha⟩
      · obtain ⟨m, h1, h2⟩ := ih (by omega)
        exact ⟨m, by simp [h1], h2⟩
  obtain ⟨m, hm, hkm⟩ := this l hk
  exact e (h k m hm hkm)

/-- The ranks of the entries of a list are a list of numbers without gaps. -/
theorem ranks_closed {α : Type} (f : α → Nat) (l : List α) (V : List Nat) (hnd : V.Nodup)
    (h1 : ∀ a ∈ l, f a ∈ V) (h2 : ∀ v ∈ V, ∃ a ∈ l, f a = v) :
    (∀ k, k ∈ (l.map fun a => V.idxOf (f a)) ↔ k < V.length) := by
  intro k
  constructor
  · intro h
    obtain ⟨a, ha, rfl⟩ := List.mem_map.mp h
    exact List.idxOf_lt_length_iff.mpr (h1 a ha)
  · intro hk
    obtain ⟨a, ha, e⟩ := h2 _ (List.getElem_mem hk)
    exact List.mem_map.mpr ⟨a, ha, by rw [e, hnd.idxOf_getElem k hk]⟩

theorem recode_closed (l : List Nat) : Lovecat.countsOk (Lovecat.recode l) = true := by
  have hp := pySorted_perm l.dedup
  have := ranks_closed id l (pySorted l.dedup) (hp.nodup_iff.mpr l.nodup_dedup)
    (fun a ha => by rw [hp.mem_iff, List.mem_dedup]; exact ha)
    (fun v hv => ⟨v, by rw [hp.mem_iff, List.mem_dedup] at hv; exact hv, rfl⟩)
  refine countsOk_of fun k m hm hkm => ?_
  have e : Lovecat.recode l = l.map fun a => (pySorted l.dedup).idxOf (id a) := rfl
  rw [e, this] at hm ⊢
  omega

theorem recode_get? (l : List Nat) (a b : Nat) (x y : Nat) (ha : l[a]? = some x) (hb : l[b]? = some y) :
    (Lovecat.recode l)[a]? = (Lovecat.recode l)[b]? ↔ x = y := by
  have hm : ∀ z, z ∈ l → z ∈ pySorted l.dedup := fun z hz => by
    rw [(pySorted_perm _).mem_iff, List.mem_dedup]; exact hz
  unfold Lovecat.recode
  rw [List.getElem?_map, List.getElem?_map, ha, hb, Option.map_some, Option.map_some, Option.some.injEq]
  exact List.idxOf_inj (hm x (List.mem_of_getElem? ha))

theorem rowLists_ok {s : State C} (vs : List Nat) (h : ∀ v ∈ vs, v ∈ s.views.keys) :
    ∃ l, Lovecat.rowLists s vs = .ok l ∧ l.length = vs.length ∧ ∀ (j v : Nat), vs[j]? = some v →
      ∃ view, s.views.get? v = some view ∧ l[j]? = some (view.crp.alpha, view.crp.data.vals) := by
  induction vs with
  | nil => exact ⟨[], rfl, rfl, by simp⟩
  | cons v vs ih =>
    obtain ⟨l, h1, h2, h3⟩ := ih fun w hw => h w (by simp [hw])
    obtain ⟨view, hv⟩ := Dict.exists_of_mem_keys (h v (by simp))
    refine ⟨(view.crp.alpha, view.crp.data.vals) :: l, by simp [Lovecat.rowLists, hv, h1, Except.map],
      by simp [h2], ?_⟩
    intro j w hj
    cases j with
    | zero => simp at hj; subst hj; exact ⟨view, hv, rfl⟩
    | succ j => exact h3 j w (by simpa using hj)

/-- C40. The export of a State fits it, and says which columns share a view, the concentrations, and,
in each view, which of the rows *in the order in which the view lists them* share a cluster. -/
theorem C40_export (hL : C.Lawful) {cfg : Cfg C} {s : State C} (hr : StateReachable cfg s)
    {supported : C.ι → Bool} (hs : ∀ c d, s.dimFor c = .ok d → supported d.kind = true) :
    ∃ x, Lovecat.ofState supported s = .ok x ∧ LovecatFits x s ∧ x.alpha = s.crp.alpha ∧
      (∀ (i j : Nat) c e, s.outputs[i]? = some c → s.outputs[j]? = some e →
        (x.assignments[i]? = x.assignments[j]? ↔ s.Zv c = s.Zv e)) ∧
      ∀ (i : Nat) c, s.outputs[i]? = some c → ∃ k n v zs, x.assignments[i]? = some k ∧
        s.viewFor c = .ok (n, v) ∧ x.viewAlphas[k]? = some v.crp.alpha ∧ x.rows[k]? = some zs ∧
        ∀ (a b : Nat) ra rb, (rowsListed v)[a]? = some ra → (rowsListed v)[b]? = some rb →
          (zs[a]? = zs[b]? ↔ v.seat ra = v.seat rb) := by
  have hI := hr.inv hL
  set V := pySorted s.crp.data.vals.dedup with hV
  have hVn : V.Nodup := (pySorted_perm _).nodup_iff.mpr (List.nodup_dedup _)
  have hVm : ∀ v, v ∈ V ↔ ∃ c, s.Zv c = some v := by
    intro v
    rw [hV, (pySorted_perm _).mem_iff, List.mem_dedup]
    constructor
    · intro h
      obtain ⟨p, hp, rfl⟩ := List.mem_map.mp h
      exact ⟨p.1, Dict.get?_of_mem hI.crp.wfData hp⟩
    · rintro ⟨c, hc⟩
      exact List.mem_map.mpr ⟨(c, v), Dict.mem_of_get? hc, rfl⟩
  obtain ⟨l, l1, l2, l3⟩ := rowLists_ok (s := s) V fun v hv => (hI.occ v).mpr ((hVm v).mp hv)
  have hZ : ∀ c ∈ s.outputs, ∃ v, s.Zv c = some v := fun c hc =>
    Option.ne_none_iff_exists'.mp ((hI.cols c).mpr hc)
  have hassign := ranks_closed (fun o => (s.Zv o).getD 0) s.outputs V hVn
    (fun c hc => by
      obtain ⟨v, hv⟩ := hZ c hc
      rw [hv]; exact (hVm v).mpr ⟨c, hv⟩)
    (fun v hv => by
      obtain ⟨c, hc⟩ := (hVm v).mp hv
      exact ⟨c, (hI.cols c).mp (by rw [hc]; simp), by rw [hc]; rfl⟩)
  have hview : ∀ v ∈ V, ∃ view, s.views.get? v = some view ∧ 0 < view.crp.alpha ∧
      view.crp.data.vals.length = s.nRows := by
    intro v hv
    obtain ⟨view, hw⟩ := Dict.exists_of_mem_keys ((hI.occ v).mpr ((hVm v).mp hv))
    have ho := hI.views.view v view hw
    refine ⟨view, hw, ho.inv.alpha, ?_⟩
    have hp : view.crp.data.keys.Perm (List.range s.nRows) := by
      refine (List.perm_ext_iff_of_nodup ho.inv.crp.wfData List.nodup_range).mpr fun r => ?_
      rw [List.mem_range, ← ho.rows r]
      show _ ↔ view.crp.data.get? r ≠ none
      rw [ne_eq, Dict.get?_eq_none_iff, not_not]
    have := hp.length_eq
    simpa [Dict.keys, Dict.vals] using this
  have hll : ∀ p ∈ l, 0 < p.1 ∧ p.2.length = s.nRows := by
    intro p hp
    obtain ⟨j, hj, rfl⟩ := List.mem_iff_getElem.mp hp
    have hjV : j < V.length := by rw [← l2]; exact hj
    obtain ⟨view, h1, h2⟩ := l3 j _ (List.getElem?_eq_getElem hjV)
    rw [List.getElem?_eq_getElem hj] at h2
    obtain ⟨view', h3, h4, h5⟩ := hview _ (List.getElem_mem hjV)
    rw [h1] at h3; cases h3
    rw [Option.some.inj h2]
    exact ⟨h4, h5⟩
  refine ⟨{ alpha := s.crp.alpha
            assignments := s.outputs.map fun o => V.idxOf ((s.Zv o).getD 0)
            viewAlphas := l.map Prod.fst, rows := l.map fun p => Lovecat.recode p.2 }, ?_, ?_, rfl, ?_, ?_⟩
  · unfold Lovecat.ofState
    rw [if_pos (supported_all hI hs)]
    simp only [← hV, l1]
    rw [if_pos]
    rw [Bool.and_eq_true]
    refine ⟨countsOk_of fun k m hm hkm => ?_, ?_⟩
    · rw [hassign] at hm ⊢; omega
    · rw [List.all_eq_true]
      intro zs hz
      obtain ⟨p, -, rfl⟩ := List.mem_map.mp hz
      exact recode_closed _
  · refine ⟨hI.alpha, by simp, by simp, ?_, ?_, ?_⟩
    · intro a ha
      obtain ⟨p, hp, rfl⟩ := List.mem_map.mp ha
      exact (hll p hp).1
    · intro zs hz
      obtain ⟨p, hp, rfl⟩ := List.mem_map.mp hz
      rw [← (hll p hp).2]
      simp [Lovecat.recode]
    · intro k
      rw [hassign]; simp [l2]
  · intro i j c e hi hj
    obtain ⟨v, hv⟩ := hZ c (List.mem_of_getElem? hi)
    obtain ⟨w, hw⟩ := hZ e (List.mem_of_getElem? hj)
    simp only [List.getElem?_map, hi, hj, Option.map_some, hv, hw, Option.getD_some, Option.some.injEq]
    exact List.idxOf_inj ((hVm v).mpr ⟨c, hv⟩)
  · intro i c hi
    obtain ⟨n, hn⟩ := hZ c (List.mem_of_getElem? hi)
    have hnV := (hVm n).mpr ⟨c, hn⟩
    obtain ⟨v, h1, h2⟩ := l3 (V.idxOf n) n (List.getElem?_idxOf hnV)
    refine ⟨V.idxOf n, n, v, Lovecat.recode v.crp.data.vals, ?_, viewFor_of hn h1, ?_, ?_, ?_⟩
    · simp only [List.getElem?_map, hi, Option.map_some, hn, Option.getD_some]
    · simp only [List.getElem?_map, h2, Option.map_some]
    · simp only [List.getElem?_map, h2, Option.map_some]
    · intro a b ra rb ha hb
      have hseat : ∀ (a : Nat) ra, (rowsListed v)[a]? = some ra →
          ∃ z, v.crp.data.vals[a]? = some z ∧ v.seat ra = some z := by
        intro a ra ha
        unfold rowsListed Dict.keys at ha
        rw [List.getElem?_map, Option.map_eq_some_iff] at ha
        obtain ⟨p, hp, rfl⟩ := ha
        refine ⟨p.2, by simp [Dict.vals, hp], ?_⟩
        exact Dict.get?_of_mem (hI.views.view n v h1).inv.crp.wfData (List.mem_of_getElem? hp)
      obtain ⟨za, a1, a2⟩ := hseat a ra ha
      obtain ⟨zb, b1, b2⟩ := hseat b rb hb
      rw [recode_get? _ _ _ _ _ a1 b1, a2, b2, Option.some.injEq]

/-- C40. Export and import of the unchanged result.  The data, the columns and their hyperparameters,
all concentrations and the column partition are those of the State.  In each view the rows `a` and `b`
share a cluster exactly if the `a`-th and the `b`-th row *listed by the old view* did. -/
theorem C40_roundtrip (hL : C.Lawful) {cfg : Cfg C} {s : State C} (hr : StateReachable cfg s)
    {supported : C.ι → Bool} (hs : ∀ c d, s.dimFor c = .ok d → supported d.kind = true)
    (hc : ∀ k, supported k = true → cfg.collapsed k = true) :
    ∃ x s', Lovecat.ofState supported s = .ok x ∧ x.update cfg supported s = .ok s' ∧
      StateReachable cfg s' ∧ Kept s s' ∧ s'.crp.alpha = s.crp.alpha ∧
      (∀ c ∈ s.outputs, ∀ e ∈ s.outputs, (s'.Zv c = s'.Zv e ↔ s.Zv c = s.Zv e)) ∧
      ∀ c n v, s.viewFor c = .ok (n, v) → ∃ n' v', s'.viewFor c = .ok (n', v') ∧
        v'.crp.alpha = v.crp.alpha ∧ (∀ r, v'.seat r ≠ none ↔ v.seat r ≠ none) ∧
        ∀ (a b : Nat) ra rb, (rowsListed v)[a]? = some ra → (rowsListed v)[b]? = some rb →
          (v'.seat a = v'.seat b ↔ v.seat ra = v.seat rb) := by
  have hI := hr.inv hL
  obtain ⟨x, h1, h2, h3, h4, h5⟩ := C40_export hL hr hs
  obtain ⟨s', g1, g2, -, -, g3, g4, -, -, g5, g6⟩ := C40_import hL hr hs hc h2
  refine ⟨x, s', h1, g1, g2, g3, g4.trans h3, ?_, ?_⟩
  · intro c hcm e hem
    have hi := List.getElem?_idxOf hcm
    have hj := List.getElem?_idxOf hem
    rw [g5 _ _ c e hi hj, h4 _ _ c e hi hj]
  · intro c n v hv
    have hcm : c ∈ s.outputs := by
      refine (hI.cols c).mp fun hz => ?_
      simp only [viewFor, hz] at hv
      cases hv
    have hi := List.getElem?_idxOf hcm
    obtain ⟨k, n', v', zs, e1, e2, e3, e4, e5⟩ := h5 _ c hi
    rw [hv] at e2
    cases e2
    obtain ⟨j, w, f1, f2, zs', f3, f4⟩ := g6 _ k c hi e1
    rw [e4] at f3; cases f3
    rw [e3] at f2
    have hg : s.views.get? n = some v := by
      unfold viewFor at hv
      split at hv
      · cases hv
      · split at hv
        · cases hv
        · cases hv; assumption
    refine ⟨j, w, f1, Option.some.inj f2, fun r => ?_, ?_⟩
    · rw [f4, (hI.views.view n v hg).rows, ne_eq, List.getElem?_eq_none_iff, not_le,
        h2.rows zs (List.mem_of_getElem? e4)]
    · intro a b ra rb ha hb
      rw [f4, f4]
      exact e5 a b ra rb ha hb

/-- C40, PARTIAL: the row partitions are those of the State if every view lists the rows in their
order in the data.  (Missing: States in which a view lists them in another order; see
`C40_violated`.) -/
theorem C40_roundtrip_partial (hL : C.Lawful) {cfg : Cfg C} {s : State C} (hr : StateReachable cfg s)
    {supported : C.ι → Bool} (hs : ∀ c d, s.dimFor c = .ok d → supported d.kind = true)
    (hc : ∀ k, supported k = true → cfg.collapsed k = true)
    (hl : RowsInOrder s) :
    ∃ x s', Lovecat.ofState supported s = .ok x ∧ x.update cfg supported s = .ok s' ∧
      StateReachable cfg s' ∧ Kept s s' ∧ s'.crp.alpha = s.crp.alpha ∧
      (∀ c ∈ s.outputs, ∀ e ∈ s.outputs, (s'.Zv c = s'.Zv e ↔ s.Zv c = s.Zv e)) ∧
      ∀ c n v, s.viewFor c = .ok (n, v) → ∃ n' v', s'.viewFor c = .ok (n', v') ∧
        v'.crp.alpha = v.crp.alpha ∧ ∀ a b, (v'.seat a = v'.seat b ↔ v.seat a = v.seat b) := by
  have hI := hr.inv hL
  obtain ⟨x, s', h1, h2, h3, h4, h5, h6, h7⟩ := C40_roundtrip hL hr hs hc
  refine ⟨x, s', h1, h2, h3, h4, h5, h6, fun c n v hv => ?_⟩
  obtain ⟨n', v', g1, g2, g3, g4⟩ := h7 c n v hv
  have hg : s.views.get? n = some v := by
    unfold viewFor at hv
    split at hv
    · cases hv
    · split at hv
      · cases hv
      · cases hv; assumption
  refine ⟨n', v', g1, g2, fun a b => ?_⟩
  have hrows := (hI.views.view n v hg).rows
  have hlist := hl n v hg
  by_cases ha : a < s.nRows
  · by_cases hb : b < s.nRows
    · exact g4 a b a b (by rw [hlist, List.getElem?_range ha]) (by rw [hlist, List.getElem?_range hb])
    · have e1 : v.seat b = none := by
        by_contra h; exact hb ((hrows b).mp h)
      have e2 : v'.seat b = none := by
        by_contra h; exact (g3 b).mp h e1
      rw [e1, e2]
      have := g3 a
      tauto
  · have e1 : v.seat a = none := by
      by_contra h; exact ha ((hrows a).mp h)
    have e2 : v'.seat a = none := by
      by_contra h; exact (g3 a).mp h e1
    rw [e1, e2]
    have := g3 b
    constructor
    · intro h
      by_contra hne
      exact (this.mpr (fun e => hne e.symm)) h.symm
    · intro h
      by_contra hne
      exact (this.mp (fun e => hne e.symm)) h.symm

/-! ### The order in which the rows are listed -/

open Cgpm.View in
/-- C40. A row that is moved to another cluster is listed last. -/
theorem gibbsTransitionRow_listed (hL : C.Lawful) {X : C.Tbl} {v v' : View C} (h : View.Inv X v)
    {r : Row} {z : Tab} (hr : v.seat r ≠ none) (hz : v.seat r ≠ some z)
    (hv : v.gibbsTransitionRow X r z = .ok v') :
    v'.crp.data = v.crp.data.erase r ++ [(r, z)] := by
  obtain ⟨ws, v1, h1, h2, h3, h4⟩ := gibbsScore_ok hL h hr
  have hs : v1.seat = v.seat := by unfold View.seat; rw [h3]
  simp only [gibbsTransitionRow, h1, hs, if_neg hz] at hv
  obtain ⟨own, hown⟩ := Option.ne_none_iff_exists'.mp hr
  obtain ⟨v2, g1, g2, g3, -⟩ := View.unincorporate_ok hL h2 (r := r) (by rw [hs]; exact hr)
  simp only [migrateRow, g1, Out.bind_ok] at hv
  have e1 : v1.crp.unincorporate r = .ok v2.crp := by
    unfold View.unincorporate at g1
    split at g1
    · cases g1
    · split at g1
      · cases g1
      · split at g1
        · cases g1
        · rename_i hc
          split at g1
          · cases g1; exact hc
          · split at g1
            · cases g1
            · cases g1; exact hc
  have e2 : v2.crp.incorporate r z = .ok v'.crp := by
    unfold View.incorporateAt at hv
    split at hv
    · cases hv
    · split at hv
      · cases hv
      · rename_i hc
        split at hv
        · cases hv
        · cases hv; exact hc
  have hd : v2.crp.data = v.crp.data.erase r := by
    have := Crp.unincorporate_ok h2.crp (r := r) (x := own) (by
      show v1.seat r = _
      rw [hs]; exact hown)
    rw [e1] at this
    injection this with this
    rw [this]
    simp only [h3]
  have hn : v2.crp.data.get? r = none := by
    rw [hd, Dict.get?_erase, if_pos rfl]
  have := Crp.incorporate_ok g2.crp (x := z) hn
  rw [e2] at this
  injection this with this
  rw [this]
  simp only [hd]

/-! ### The hypotheses can be met; a State that is not restored -/

/-- One column with three values. -/
def lovecatDemoX (x y z : ℝ) : Dict Col (List libCat.Cell) := [(0, [some x, some y, some z])]

theorem lovecatDemo_legal : LegalInit (lovecatDemoX 0 1 2) 3 (stateDemoSchema .normal ⟨0, 1, 1, 1⟩) 1 [(0, 0)] [0]
    (fun _ => (1, [0, 0, 1])) := by
  have hp : ∀ x : ℝ, (libCat.F ⟨.normal, trivial⟩).prep (x, []) = .ok (x, []) := fun x =>
    (C10_primitives_store _ _ _).mpr ⟨rfl, by simp [remembered, support]⟩
  refine ⟨⟨by simp [lovecatDemoX, Dict.keys], by simp [lovecatDemoX]⟩, ?_, by norm_num, one_pos,
    ⟨by simp [Dict.keys], fun c => by simp [lovecatDemoX, Dict.keys]⟩,
    ⟨by simp, fun v => ?_⟩, fun v _ => ⟨one_pos, rfl⟩, fun c _ => normal_hyp,
    fun c _ i hi => (by cases hi), fun c hc r hr => ?_⟩
  · intro c l h
    simp only [lovecatDemoX, Dict.get?_cons, Dict.get?_nil] at h
    split at h
    · cases h; rfl
    · cases h
  · simp only [List.mem_cons, List.not_mem_nil, or_false, Dict.get?_cons, Dict.get?_nil]
    constructor
    · rintro rfl
      exact ⟨0, by simp⟩
    · rintro ⟨c, h⟩
      split at h
      · cases h; rfl
      · cases h
  · unfold admissible fileOf
    have hc' : c = 0 := by simpa [lovecatDemoX, Dict.keys] using hc
    have hr' : r = 0 ∨ r = 1 ∨ r = 2 := by
      have : r < 3 := hr
      rcases r with _ | _ | _ | r
      · exact .inl rfl
      · exact .inr (.inl rfl)
      · exact .inr (.inr rfl)
      · exact absurd this (by simp)
    subst hc'
    rcases hr' with rfl | rfl | rfl <;>
      simp [file, tblOf, lovecatDemoX, Dict.get?_cons, stateDemoSchema, Dim.new, hp]

/-- The type of a normal column. -/
def isNormal : libCat.ι → Bool
  | ⟨.normal, _⟩ => true
  | _ => false

theorem isNormal_collapsed (k : libCat.ι) (h : isNormal k = true) : plainCfg.collapsed k = true := by
  obtain ⟨p, hp⟩ := k
  cases p <;> first | rfl | (cases h)

/-- The State of the demonstration, with the order in which its view lists the rows. -/
theorem lovecatDemo : ∃ s : State libCat, State.init (lovecatDemoX 0 1 2)
    (stateDemoSchema .normal ⟨0, 1, 1, 1⟩) 1 [(0, 0)] [0] (fun _ => (1, [0, 0, 1])) [] [] = .ok s ∧
    State.Inv s ∧ s.outputs = [0] ∧ s.nRows = 3 ∧ s.Zv 0 = some 0 ∧
    (∀ c d, s.dimFor c = .ok d → d.kind = ⟨.normal, trivial⟩) ∧
    ∃ v, s.views.get? 0 = some v ∧ (∀ r, v.seat r = [0, 0, 1][r]?) ∧ rowsListed v = [0, 1, 2] := by
  obtain ⟨s, h1, h2, h3, h4, h5, h6, h7, h8, h9, h10, h11⟩ := init_ok [] [] (initOk_of lovecatDemo_legal)
  refine ⟨s, h1, h2, h4, h5, by rw [h7]; rfl, fun c d hd => ?_, ?_⟩
  · obtain ⟨i, v, -, g2, g3⟩ := dimFor_ok hd
    exact ((h11 i v g2).2.2 c d g3).kind
  · obtain ⟨v, hv⟩ := Dict.exists_of_mem_keys (show 0 ∈ s.views.keys by rw [h8]; simp)
    refine ⟨v, hv, (h11 0 v hv).2.1, ?_⟩
    rw [C40_built lovecatDemo_legal h1 0 v hv, h5]
    rfl

example : ∃ (s : State libCat), StateReachable plainCfg s ∧ RowsInOrder s ∧
    (∀ c d, s.dimFor c = .ok d → isNormal d.kind = true) ∧
    (∀ k, isNormal k = true → plainCfg.collapsed k = true) := by
  obtain ⟨s, h1, -, -, -, -, h6, -⟩ := lovecatDemo
  refine ⟨s, .of _ _ _ _ _ _ _ _ _ lovecatDemo_legal s h1 [] trivial, C40_built lovecatDemo_legal h1,
    fun c d hd => by rw [h6 c d hd]; rfl, isNormal_collapsed⟩

example : ∃ (s : State libCat) (x : Lovecat), StateReachable plainCfg s ∧ LovecatFits x s := by
  obtain ⟨s, h1, -, h3, h4, -⟩ := lovecatDemo
  refine ⟨s, ⟨2, [0], [3], [[4, 4, 9]]⟩, .of _ _ _ _ _ _ _ _ _ lovecatDemo_legal s h1 [] trivial, ?_⟩
  exact ⟨by norm_num, by rw [h3], rfl, by simp, by simp [h4], by simp⟩

example : ∃ (s : State libCat) (d : Dim libCat), StateReachable plainCfg s ∧ 0 ∈ s.outputs ∧
    s.dimFor 0 = .ok d ∧ isNormal d.kind = false := by
  obtain ⟨s, h1, h2, -, h4, -, -, -, -, -, -, -, h12⟩ := stateDemo_init bernoulli_remembered_one
    bernoulli_hyp (a := 0) (b := 1) (by decide) [] []
  obtain ⟨-, -, d, -, -, -, hd, -⟩ := h2.dim (c := 0) (by rw [h4]; simp)
  exact ⟨s, d, h1, by rw [h4]; simp, hd, by rw [(h12 0 d hd).1]; rfl⟩

theorem viewRow_view {s : State C} {i : Nat} {v v' : View C} {r : Row} {z : Tab}
    (hv : s.views.get? i = some v) (hn : s.nRows ≠ 1)
    (h : s.viewRow i r z = .ok { s with views := s.views.set i v' }) :
    v.gibbsTransitionRow s.tbl r z = .ok v' := by
  unfold State.viewRow onView at h
  rw [if_neg hn] at h
  simp only [hv] at h
  split at h
  · cases h
  · rename_i w hw
    injection h with h
    have e : Dict.get? (s.views.set i w) i = Dict.get? (s.views.set i v') i :=
      congrArg (fun s : State C => s.views.get? i) h
    rw [Dict.get?_set_self, Dict.get?_set_self] at e
    rw [hw, Option.some.inj e]

/-- C40. FALSE: there is a State, reached by moving a row to a cluster of its own and back, for which
the import of the unchanged export changes the row partition: rows 0 and 1 shared a cluster in the
State and do not afterwards. -/
theorem C40_violated : ∃ (s s' : State libCat) (x : Lovecat) (v v' : View libCat) (n n' : Nat),
    StateReachable plainCfg s ∧ (∀ c d, s.dimFor c = .ok d → isNormal d.kind = true) ∧
    Lovecat.ofState isNormal s = .ok x ∧ x.update plainCfg isNormal s = .ok s' ∧
    s.viewFor 0 = .ok (n, v) ∧ s'.viewFor 0 = .ok (n', v') ∧
    v.seat 0 = v.seat 1 ∧ v'.seat 0 ≠ v'.seat 1 := by
  have hL := catOf_lawful (fun _ => True)
  obtain ⟨s0, h1, h2, h3, h4, h5, h6, v0, h7, h8, h9⟩ := lovecatDemo
  obtain ⟨v1, a1, a2, a3, -, a5⟩ := h2.viewRow_ok hL h7 (r := 0) (by rw [h4]; norm_num) (by rw [h4]; norm_num) 5
  set s1 : State libCat := { s0 with views := s0.views.set 0 v1 } with hs1
  have hv1 : s1.views.get? 0 = some v1 := Dict.get?_set_self _ _ _
  have hn1 : s1.nRows = 3 := h4
  obtain ⟨v2, b1, b2, b3, -, b5⟩ := a2.viewRow_ok hL hv1 (r := 0) (by rw [hn1]; norm_num) (by rw [hn1]; norm_num) 0
  set s2 : State libCat := { s1 with views := s1.views.set 0 v2 } with hs2
  have hv2 : s2.views.get? 0 = some v2 := Dict.get?_set_self _ _ _
  have hreach : StateReachable plainCfg s2 := by
    have := StateReachable.of _ _ _ _ _ _ _ _ _ lovecatDemo_legal s0 h1
      [.row 0 0 5, .row 0 0 0] (cfg := plainCfg) ⟨trivial, trivial, trivial⟩
    simpa only [State.run, List.foldl, State.apply, a1, b1, Out.state_ok] using this
  have hl1 : v1.crp.data = v0.crp.data.erase 0 ++ [(0, 5)] := by
    refine gibbsTransitionRow_listed hL (h2.views.view 0 v0 h7).inv (X := s0.tbl) ?_ ?_ ?_
    · rw [h8]; simp
    · rw [h8]; simp
    · exact viewRow_view h7 (by rw [h4]; norm_num) a1
  have hl2 : v2.crp.data = v1.crp.data.erase 0 ++ [(0, 0)] := by
    refine gibbsTransitionRow_listed hL (a2.views.view 0 v1 hv1).inv (X := s1.tbl) ?_ ?_ ?_
    · rw [a3]; simp
    · rw [a3]; simp
    · exact viewRow_view hv1 (by rw [hn1]; norm_num) b1
  have hlist : rowsListed v2 = [1, 2, 0] := by
    have e0 : v0.crp.data.keys = [0, 1, 2] := h9
    have e1 : (v0.crp.data.erase 0).keys = [1, 2] := by rw [Dict.keys_erase, e0]; rfl
    unfold rowsListed
    rw [hl2, hl1, Dict.erase_append]
    show List.map Prod.fst _ = _
    rw [List.map_append, List.map_append]
    have e2 : List.map Prod.fst ((v0.crp.data.erase 0).erase 0) = [1, 2] := by
      have := Dict.keys_erase (v0.crp.data.erase 0) 0
      rw [e1] at this
      exact this
    rw [e2]
    rfl
  have hZ2 : s2.Zv 0 = some 0 := h5
  have hsup : ∀ c d, s2.dimFor c = .ok d → isNormal d.kind = true := by
    intro c d hd
    obtain ⟨i, v, q1, q2, q3⟩ := dimFor_ok hd
    have hc : c ∈ s0.outputs := (h2.cols c).mp (by rw [show s0.Zv c = some i from q1]; simp)
    rw [h3] at hc
    obtain rfl : c = 0 := by simpa using hc
    rw [hZ2] at q1; cases q1
    rw [hv2] at q2; cases q2
    have hrel := (a5.trans b5) 0
    rw [q3] at hrel
    cases hd0 : v0.dims.get? 0 with
    | none => rw [hd0] at hrel; cases hrel
    | some d0 =>
      rw [hd0] at hrel
      cases hrel with
      | some hf =>
        have : s0.dimFor 0 = .ok d0 := by simp only [dimFor, h5, h7, hd0]
        rw [hf.kind, h6 0 d0 this]
        rfl
  obtain ⟨x, s', c1, c2, c3, c4, c5, c6, c7⟩ := C40_roundtrip hL hreach hsup isNormal_collapsed
  obtain ⟨n', v', d1, d2, d3, d4⟩ := c7 0 0 v2 (viewFor_of hZ2 hv2)
  refine ⟨s2, s', x, v2, v', 0, n', hreach, hsup, c1, c2, viewFor_of hZ2 hv2, d1, ?_, ?_⟩
  · rw [b3, a3]; simp [View.upd, h8]
  · intro h
    have := (d4 0 1 1 2 (by rw [hlist]; rfl) (by rw [hlist]; rfl)).mp h
    rw [b3, a3] at this
    simp [View.upd, h8] at this

end Cgpm.Props
