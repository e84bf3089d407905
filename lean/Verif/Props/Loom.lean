import Verif.Lemmas.LoomImport
import Verif.Lemmas.StateDemo
import Verif.Model.StateQuery

/-!
C41: importing a Loom sample installs exactly the imported partition.
-/
namespace Cgpm.Props
open Cgpm Cgpm.State
variable {C : Cat}

theorem viewFor_of {s : State C} {c : Col} {i : Nat} {v : View C} (hz : s.Zv c = some i)
    (hv : s.views.get? i = some v) : s.viewFor c = .ok (i, v) := by
  simp only [viewFor, hz, hv]

theorem kept_of {s s' : State C} {rows : List (ℝ × List Tab)} {target : Col → Option Nat}
    (h : Installed s rows target s') : Kept s s' :=
  ⟨h.X, h.outputs, h.Cd, h.Ci, fun c d hd => by
    obtain ⟨d', h1, h2⟩ := h.frames c d hd
    exact ⟨d', h1, h2.kind, h2.hyp, h2.inputs⟩⟩

theorem reachable_of {s s' : State C} (cfg : Cfg C) {rows : List (ℝ × List Tab)}
    {target : Col → Option Nat} (h : Installed s rows target s') : StateReachable cfg s' := by
  obtain ⟨schema, Zv, order, rows', h1, h2⟩ := h.built
  exact StateReachable.of _ _ _ _ _ _ _ _ _ h1 s' h2 [] trivial

theorem addDims_crp {X : C.Tbl} {schema : Col → ColSpec C} (cs : List Col) {v v' : View C}
    (h : addDims X schema cs v = .ok v') : v'.crp = v.crp := by
  induction cs generalizing v with
  | nil => cases h; rfl
  | cons c cs ih =>
    simp only [addDims] at h
    split at h
    · cases h
    · rename_i v1 h1
      rw [ih h]
      unfold View.incorporateDim at h1
      simp only [if_true] at h1
      split at h1
      · cases h1
      · cases h1; rfl

theorem seatRows_listed {crp crp' : Crp} (zs : List Tab) (i : Nat) (hk : crp.data.keys = List.range i)
    (h : seatRows crp zs i = .ok crp') : crp'.data.keys = List.range (i + zs.length) := by
  induction zs generalizing crp i with
  | nil => cases h; exact hk
  | cons z zs ih =>
    simp only [seatRows] at h
    split at h
    · cases h
    · rename_i c1 h1
      rw [ih (i + 1) ?_ h]
      · congr 1; rw [List.length_cons]; omega
      · unfold Crp.incorporate at h1
        have hn : crp.data.get? i = none := by
          rw [Dict.get?_eq_none_iff, hk, List.mem_range]; exact lt_irrefl _
        rw [if_neg (by rw [(Dict.has_false_iff _ _).mpr hn]; simp)] at h1
        simp only at h1
        split at h1
        · cases h1
        · cases h1
          show (crp.data.set i z).keys = _
          rw [Dict.keys_set, if_neg ((Dict.get?_eq_none_iff _ _).mp hn), hk, List.range_succ]

theorem buildViews_listed {X : C.Tbl} {schema : Col → ColSpec C} {outputs : List Col} {crp : Crp}
    {rows : Nat → ℝ × List Tab} {n : Nat} (order : List Nat) {W : Dict Nat (View C)}
    (hn : ∀ i ∈ order, (rows i).2.length = n)
    (h : buildViews X schema outputs crp rows order = .ok W) :
    ∀ p ∈ W, rowsListed p.2 = List.range n := by
  induction order generalizing W with
  | nil => cases h; simp
  | cons i order ih =>
    simp only [buildViews] at h
    split at h
    · cases h
    · rename_i v0 h0
      split at h
      · cases h
      · rename_i v1 h1
        split at h
        · cases h
        · rename_i rest hrest
          cases h
          intro p hp
          rcases List.mem_cons.mp hp with rfl | hp
          · unfold rowsListed
            rw [addDims_crp _ h1]
            unfold newView at h0
            split at h0
            · cases h0
            · rename_i c hc
              cases h0
              have := seatRows_listed _ 0 rfl hc
              rw [Nat.zero_add, hn i (by simp)] at this
              exact this
          · exact ih (fun j hj => hn j (by simp [hj])) hrest p hp

/-- C40. The views of a State that has just been built list the rows in order. -/
theorem C40_built {X : Dict Col (List C.Cell)} {n : Nat} {schema : Col → ColSpec C} {alpha : ℝ}
    {Zv : Dict Col Nat} {order : List Nat} {rows : Nat → ℝ × List Tab} {Cd : Blocks} {Ci : Pairs}
    (h : LegalInit X n schema alpha Zv order rows) {s : State C}
    (hs : State.init X schema alpha Zv order rows Cd Ci = .ok s) : RowsInOrder s := by
  obtain ⟨s', h1, h2, h3, h4, h5, -⟩ := init_ok Cd Ci (initOk_of h)
  rw [hs] at h1
  cases h1
  intro i v hv
  unfold State.init at hs
  split at hs
  · cases hs
  · split at hs
    · cases hs
    · split at hs
      · cases hs
      · rename_i W hW
        cases hs
        rw [h5]
        exact buildViews_listed order (fun j hj => (h.rows j hj).2) hW (i, v) (Dict.mem_of_get? hv)

theorem rowsInOrder_of {s s' : State C} {rows : List (ℝ × List Tab)}
    {target : Col → Option Nat} (h : Installed s rows target s') : RowsInOrder s' := by
  obtain ⟨schema, Zv, order, rows', h1, h2⟩ := h.built
  exact C40_built h1 h2

/-- C41. The names under which the columns are written are read back. -/
theorem C41_names (n : Nat) : columnOf (columnName n) = n := columnOf_columnName n

/-- C41. A sample that fits the State is installed.  The data, the columns, their hyperparameters
and the column concentration are kept; there is one view per kind; two columns share a view exactly
if their features share a kind; and in that view each row is in the group that the sample gives.
The State is one that the constructor builds, hence everything that is proved of the States that
arise from legal calls holds after any number of imports between the calls. -/
theorem C41_import (hL : C.Lawful) {cfg : Cfg C} {s : State C} (hs : StateReachable cfg s)
    {x : LoomSample} (hx : LoomFits x s) {alphas : Nat → ℝ} (ha : ∀ k, 0 < alphas k) :
    ∃ s', x.update alphas s = .ok s' ∧ StateReachable cfg s' ∧ StateConsistent s' ∧ Kept s s' ∧
      s'.crp.alpha = s.crp.alpha ∧
      s'.views.length = x.kinds.length ∧
      (∀ i, i ∈ s'.views.keys → i ∉ s.views.keys) ∧
      (∀ (f g : Nat) c e, x.features[f]? = some (columnName c) → x.features[g]? = some (columnName e) →
        (s'.Zv c = s'.Zv e ↔ ∃ l ∈ x.kinds, f ∈ l ∧ g ∈ l)) ∧
      ∀ (k f : Nat) l c, x.kinds[k]? = some l → f ∈ l → x.features[f]? = some (columnName c) →
        ∃ i v, s'.viewFor c = .ok (i, v) ∧ v.crp.alpha = alphas k ∧
          ∀ r g, (r, g) ∈ x.rows → v.seat r = g[k]? := by
  have hI := hs.inv hL
  have hnd := hI.data.nodup
  obtain ⟨rows, hr1, hr2, hr3⟩ := LoomSample.Fits.rowPartitions hx
  have hviews := LoomSample.Fits.views hx hnd
  have hkl : ∀ c k, x.columnViews.get? c = some k → k < rows.length := by
    intro c k h
    obtain ⟨f, l, -, h2, -⟩ := (hviews c k).mp h
    rw [hr2]
    exact (List.getElem?_eq_some_iff.mp h2).1
  have hkc : ∀ k, k < rows.length → ∃ c ∈ s.outputs, x.columnViews.get? c = some k := by
    intro k hk
    rw [hr2] at hk
    have hl := List.getElem_mem hk
    obtain ⟨f, t, e⟩ := List.exists_cons_of_ne_nil (hx.nonempty _ hl)
    have hf : f ∈ x.kinds[k] := by rw [e]; simp
    obtain ⟨c, hc, h1, -⟩ := LoomSample.Fits.mapped hx (List.mem_flatten.mpr ⟨_, hl, hf⟩)
    exact ⟨c, hc, (hviews c k).mpr ⟨f, _, h1, List.getElem?_eq_getElem hk, hf⟩⟩
  have hct : ∀ c ∈ s.outputs, ∃ k, x.columnViews.get? c = some k := by
    intro c hc
    obtain ⟨f, hf⟩ := LoomSample.Fits.feature hx hc
    have hlt := (List.getElem?_eq_some_iff.mp hf).1
    rw [LoomSample.Fits.length hx] at hlt
    obtain ⟨l, hl, hfl⟩ := List.mem_flatten.mp (hx.kinds.mem_iff.mpr (List.mem_range.mpr hlt))
    obtain ⟨k, hk, e⟩ := List.mem_iff_getElem.mp hl
    exact ⟨k, (hviews c k).mpr ⟨f, l, hf, by rw [List.getElem?_eq_getElem hk, e], hfl⟩⟩
  have hrl : (rows.zipIdx.map fun p => (alphas p.2, p.1)).length = rows.length := by simp
  obtain ⟨s', g1, g2⟩ := hI.installPartition_ok (rows := rows.zipIdx.map fun p => (alphas p.2, p.1))
    (reassign := fun _ => true) (target := fun c => x.columnViews.get? c) (fun _ _ _ _ _ => rfl)
    (fun p hp => by
      obtain ⟨⟨zs, k⟩, hq, rfl⟩ := List.mem_map.mp hp
      rw [List.mem_zipIdx_iff_getElem?] at hq
      exact ⟨ha k, (hr3 k zs hq).1⟩)
    (fun c hc => by
      obtain ⟨k, hk⟩ := hct c hc
      exact ⟨k, hk, by rw [hrl]; exact hkl c k hk⟩)
    (fun k hk => hkc k (by rwa [hrl] at hk))
  have hZ : ∀ c k, x.columnViews.get? c = some k → s'.Zv c = some (k + (pyMax s.views.keys + 1)) := by
    intro c k hk
    have hc : c ∈ s.outputs := by
      obtain ⟨f, l, h1, -, -⟩ := (hviews c k).mp hk
      obtain ⟨c', hc', e⟩ := LoomSample.Fits.name hx h1
      rwa [LoomSample.columnName_injective e]
    rw [g2.Zv c hc, hk, Option.map_some]
  refine ⟨s', ?_, reachable_of cfg g2, stateConsistent_of g2.inv, kept_of g2, g2.alpha, ?_, ?_, ?_, ?_⟩
  · unfold LoomSample.update
    rw [if_neg, if_neg, hr1]
    · simp only
      rw [if_neg]
      · exact g1
      · rw [not_not]
        simp only [Bool.and_eq_true, List.all_eq_true, decide_eq_true_eq, List.contains_iff_mem,
          List.mem_range]
        refine ⟨fun k hk => ?_, fun k hk => ?_⟩
        · obtain ⟨⟨c, k'⟩, hp, rfl⟩ := List.mem_map.mp hk
          obtain ⟨e1, e2⟩ := LoomSample.Fits.views_list hx hnd
          refine hkl c k' (Dict.get?_of_mem ?_ hp)
          rw [e1]; exact e2
        · obtain ⟨c, -, hc⟩ := hkc k hk
          exact List.mem_map.mpr ⟨(c, k), Dict.mem_of_get? hc, rfl⟩
    · rw [not_not, LoomSample.outputMapping_vals]
      refine pySorted_eq_of_perm ?_
      refine (hx.features.map columnOf).trans ?_
      rw [List.map_map]
      have : (columnOf ∘ columnName) = id := funext columnOf_columnName
      rw [this, List.map_id]
    · rw [not_not, LoomSample.Fits.partition_keys hx, pySorted_eq_of_perm hx.kinds, pySorted_range]
  · have hp : s'.views.keys.Perm (List.range' (pyMax s.views.keys + 1) x.kinds.length) := by
      refine (List.perm_ext_iff_of_nodup g2.inv.views.wf (List.nodup_range')).mpr fun i => ?_
      rw [g2.keys, List.mem_range'_1, hrl, hr2]
    have := hp.length_eq
    simpa [Dict.keys] using this
  · intro i hi hm
    have h1 := (g2.keys i).mp hi
    have h2 := le_pyMax hm
    omega
  · intro f g c e hf hg
    have hcm : c ∈ s.outputs := by
      obtain ⟨c', hc', e⟩ := LoomSample.Fits.name hx hf
      rwa [LoomSample.columnName_injective e]
    have hem : e ∈ s.outputs := by
      obtain ⟨c', hc', e⟩ := LoomSample.Fits.name hx hg
      rwa [LoomSample.columnName_injective e]
    obtain ⟨k, hk⟩ := hct c hcm
    obtain ⟨j, hj⟩ := hct e hem
    rw [hZ c k hk, hZ e j hj]
    constructor
    · intro h
      have hkj : k = j := by simpa using h
      subst hkj
      obtain ⟨f', l, a1, a2, a3⟩ := (hviews c k).mp hk
      obtain ⟨g', l', b1, b2, b3⟩ := (hviews e k).mp hj
      rw [a2] at b2
      cases b2
      have hinj : ∀ {a b : Nat} {z}, x.features[a]? = some z → x.features[b]? = some z → a = b := by
        intro a b z h1 h2
        obtain ⟨i1, i2⟩ := List.getElem?_eq_some_iff.mp h1
        obtain ⟨j1, j2⟩ := List.getElem?_eq_some_iff.mp h2
        exact (LoomSample.Fits.nodup hx hnd).getElem_inj_iff.mp (i2.trans j2.symm)
      refine ⟨l, List.mem_of_getElem? a2, ?_, ?_⟩
      · rw [hinj hf a1]; exact a3
      · rw [hinj hg b1]; exact b3
    · rintro ⟨l, hl, h1, h2⟩
      obtain ⟨i, hi, e'⟩ := List.mem_iff_getElem.mp hl
      have hli : x.kinds[i]? = some l := by rw [List.getElem?_eq_getElem hi, e']
      have e1 := (hviews c i).mpr ⟨f, l, hf, hli, h1⟩
      have e2 := (hviews e i).mpr ⟨g, l, hg, hli, h2⟩
      rw [hk] at e1; rw [hj] at e2
      rw [Option.some.inj e1, Option.some.inj e2]
  · intro k f l c hk hfl hf
    have hz := hZ c k ((hviews c k).mpr ⟨f, l, hf, hk, hfl⟩)
    have hkr : k < rows.length := by rw [hr2]; exact (List.getElem?_eq_some_iff.mp hk).1
    obtain ⟨v, v1, v2, v3⟩ := g2.new k (alphas k, rows[k]) (by
      rw [List.getElem?_map, List.getElem?_zipIdx, List.getElem?_eq_getElem hkr]
      simp)
    refine ⟨_, v, viewFor_of hz (by rw [Nat.add_comm]; exact v1), v2, fun r g hg => ?_⟩
    rw [v3]
    exact (hr3 k _ (List.getElem?_eq_getElem hkr)).2 r g hg

theorem mem_of_update {V : Type} (d e : Dict Nat V) {p : Nat × V} (h : p ∈ Dict.update d e) :
    p ∈ d ∨ p ∈ e := by
  induction e generalizing d with
  | nil => exact .inl h
  | cons q e ih =>
    have hset : ∀ (d : Dict Nat V), p ∈ Dict.set d q.1 q.2 → p ∈ d ∨ p = q := by
      intro d
      induction d with
      | nil =>
        intro h
        exact .inr (by simpa [Dict.set] using h)
      | cons a d ih =>
        intro h
        rw [Dict.set] at h
        split at h
        · rcases List.mem_cons.mp h with h | h
          · exact .inr h
          · exact .inl (by simp [h])
        · rcases List.mem_cons.mp h with h | h
          · exact .inl (by simp [h])
          · rcases ih h with h | h
            · exact .inl (by simp [h])
            · exact .inr h
    rcases ih (Dict.set d q.1 q.2) h with h | h
    · rcases hset d h with h | h
      · exact .inl h
      · exact .inr (by simp [h])
    · exact .inr (by simp [h])

theorem mem_keys_update_nil {V : Type} (e : Dict Nat V) (k : Nat) :
    k ∈ (Dict.update [] e).keys ↔ k ∈ e.keys := by
  have : ∀ d : Dict Nat V, k ∈ (Dict.update d e).keys ↔ k ∈ d.keys ∨ k ∈ e.keys := by
    induction e with
    | nil => intro d; simp [Dict.update, Dict.keys]
    | cons q e ih =>
      intro d
      have h := ih (Dict.set d q.1 q.2)
      have e1 : Dict.update d (q :: e) = Dict.update (Dict.set d q.1 q.2) e := rfl
      rw [e1, h, Dict.mem_keys_set]
      simp only [Dict.keys, List.map_cons, List.mem_cons]
      tauto
  simpa [Dict.keys] using this []

/-- C41. A sample whose features are not the columns of the State, whose kinds do not list the
features, or that has a kind without features is refused, and the State is as before. -/
theorem C41_refuses {s : State C} (x : LoomSample) (alphas : Nat → ℝ)
    (h : ¬ (x.features.map columnOf).Perm s.outputs ∨
      (∃ f, ¬ ((∃ l ∈ x.kinds, f ∈ l) ↔ f < s.outputs.length)) ∨
      ((∀ p ∈ x.rows, x.kinds.length ≤ p.2.length) ∧ [] ∈ x.kinds)) :
    x.update alphas s = .err .assertion s := by
  unfold LoomSample.update
  by_cases h1 : pySorted x.columnPartition.keys ≠ List.range s.outputs.length
  · rw [if_pos h1]
  rw [if_neg h1]
  by_cases h2 : pySorted x.outputMapping.vals ≠ pySorted s.outputs
  · rw [if_pos h2]
  rw [if_neg h2]
  rw [not_not] at h1 h2
  have hp : (x.features.map columnOf).Perm s.outputs := by
    rw [← LoomSample.outputMapping_vals]
    exact ((pySorted_perm _).symm.trans (by rw [h2])).trans (pySorted_perm _)
  have hk : ∀ f, f ∈ x.columnPartition.keys ↔ ∃ l ∈ x.kinds, f ∈ l := by
    intro f
    unfold LoomSample.columnPartition
    rw [mem_keys_update_nil, ← List.mem_flatten, ← LoomSample.partition_list_keys x.kinds 0]
    rfl
  have hk' : ∀ f, f ∈ x.columnPartition.keys ↔ f < s.outputs.length := by
    intro f
    rw [← (pySorted_perm _).mem_iff, h1, List.mem_range]
  rcases h with h | ⟨f, h⟩ | ⟨h3, h4⟩
  · exact absurd hp h
  · exact absurd ((hk f).symm.trans (hk' f)) h
  · have ha := LoomSample.assignments_ok _ _ h3
    obtain ⟨k, hkl, e⟩ := List.mem_iff_getElem.mp h4
    cases hr : x.rowPartitions with
    | error e =>
      unfold LoomSample.rowPartitions at hr
      rw [ha] at hr
      cases hr
    | ok rows =>
      have hlen : rows.length = x.kinds.length := by
        unfold LoomSample.rowPartitions at hr
        rw [ha] at hr
        injection hr with hr
        rw [← hr]; simp
      simp only
      rw [if_pos]
      simp only [Bool.and_eq_true, List.all_eq_true, List.contains_iff_mem, List.mem_range, not_and]
      intro _ hall
      have hm := hall k (by rw [hlen]; exact hkl)
      obtain ⟨⟨c, k'⟩, hq, rfl⟩ := List.mem_map.mp hm
      rcases mem_of_update _ _ hq with hq | hq
      · cases hq
      · obtain ⟨⟨f, k''⟩, hq2, he⟩ := List.mem_map.mp hq
        simp only [Prod.mk.injEq] at he
        obtain ⟨-, rfl⟩ := he
        rcases mem_of_update _ _ hq2 with hq | hq
        · cases hq
        · obtain ⟨-, g, hg, hfg⟩ := (LoomSample.mem_partition_list _ _ _ _).mp hq
          rw [Nat.sub_zero, List.getElem?_eq_getElem hkl] at hg
          simp only at e
          rw [e] at hg
          cases hg
          cases hfg

theorem assignments_short {n : Nat} {l : List (Nat × List Tab)} (h : ∃ p ∈ l, p.2.length < n) :
    LoomSample.assignments n l = .error .indexError := by
  have hg : ∀ g : List Tab, LoomSample.groupsOf n g = .error .indexError ∨
      n ≤ g.length ∧ ∃ g', LoomSample.groupsOf n g = .ok g' := by
    intro g
    unfold LoomSample.groupsOf
    by_cases hl : g.length < n
    · left; rw [if_pos hl]
    · right; exact ⟨by omega, _, if_neg hl⟩
  induction l with
  | nil => simp at h
  | cons p t ih =>
    obtain ⟨r, g⟩ := p
    unfold LoomSample.assignments
    rcases hg g with e | ⟨hl, g', e⟩
    · rw [e]
    · obtain ⟨q, hq, hs⟩ := h
      rcases List.mem_cons.1 hq with rfl | hq
      · simp only at hs; omega
      · rw [e, ih ⟨q, hq, hs⟩]

/-- C41. A sample in which a row has no group for some kind is refused, and the State is as before. -/
theorem C41_short_row {s : State C} (x : LoomSample) (alphas : Nat → ℝ)
    (h : ∃ p ∈ x.rows, p.2.length < x.kinds.length) :
    ∃ e, x.update alphas s = .err e s := by
  unfold LoomSample.update LoomSample.rowPartitions
  rw [assignments_short h]
  split
  · exact ⟨_, rfl⟩
  · split
    · exact ⟨_, rfl⟩
    · exact ⟨_, rfl⟩

example : ∃ (s : State libCat) (x : LoomSample), StateReachable plainCfg s ∧
    ¬ (x.features.map columnOf).Perm s.outputs := by
  obtain ⟨s, h1, -, -, h4, -⟩ := stateDemo_init (normal_remembered 0) normal_hyp
    (a := 0) (b := 1) (by decide) [] []
  refine ⟨s, ⟨[], [columnName 0], []⟩, h1, fun h => ?_⟩
  have := h.length_eq
  rw [h4] at this
  simp at this

/-! ### The hypotheses can be met -/

/-- Loom lists the second column first and finds one kind; the stream lists the second row first. -/
def loomDemo : LoomSample :=
  { kinds := [[1, 0]], features := [columnName 1, columnName 0], rows := [(1, [3]), (0, [0])] }

theorem loomDemo_fits {s : State C} (ho : s.outputs = [0, 1]) (hn : s.nRows = 2) :
    LoomFits loomDemo s := by
  refine ⟨?_, ?_, by simp [loomDemo], ?_, by simp [loomDemo]⟩
  · rw [ho]; exact List.Perm.swap _ _ _
  · rw [ho]; exact List.Perm.swap _ _ _
  · rw [hn]; exact List.Perm.swap _ _ _

example : ∃ (s : State libCat) (x : LoomSample), StateReachable plainCfg s ∧ LoomFits x s ∧
    x.kinds ≠ [] := by
  obtain ⟨s, h1, -, -, h4, h5, -⟩ := stateDemo_init (normal_remembered 0) normal_hyp
    (a := 0) (b := 1) (by decide) [] []
  exact ⟨s, loomDemo, h1, loomDemo_fits h4 h5, by simp [loomDemo]⟩

/-- C21. FALSE for the import of a Loom sample: constraints on the columns are not looked at. -/
theorem C21_loom_violated : ∃ (s s' : State libCat) (x : LoomSample) (alphas : Nat → ℝ),
    StateReachable plainCfg s ∧ ConstraintsHold s ∧ LoomFits x s ∧ (∀ k, 0 < alphas k) ∧
    x.update alphas s = .ok s' ∧ ¬ ConstraintsHold s' := by
  obtain ⟨s, h1, -, -, h4, h5, h6, h7, -, h9, h10, -⟩ := stateDemo_init (normal_remembered 0) normal_hyp
    (a := 0) (b := 1) (by decide) [] [(0, 1)]
  have hfit := loomDemo_fits h4 h5
  obtain ⟨s', g1, g2, -, g3, -, -, -, g7, -⟩ := C41_import (catOf_lawful _) h1 hfit
    (alphas := fun _ => 1) (fun _ => one_pos)
  refine ⟨s, s', loomDemo, fun _ => 1, h1, ⟨?_, ?_⟩, hfit, fun _ => one_pos, g1, fun hc => ?_⟩
  · intro a b hab hne v hv
    rw [h10] at hab
    simp only [List.mem_singleton, Prod.mk.injEq] at hab
    obtain ⟨rfl, rfl⟩ := hab
    rw [h6] at hv; cases hv
    rw [h7]; simp
  · intro block hb
    rw [h9] at hb; cases hb
  · have e : s'.Zv 1 = s'.Zv 0 := (g7 0 1 1 0 rfl rfl).mpr ⟨[1, 0], by simp [loomDemo], by simp, by simp⟩
    have hI := g2.inv (catOf_lawful _)
    obtain ⟨v, hv⟩ := Option.ne_none_iff_exists'.mp ((hI.cols 0).mpr (by rw [g3.outputs, h4]; simp))
    exact hc.independent 0 1 (by rw [g3.independent, h10]; simp) (by decide) v hv (e.trans hv)

end Cgpm.Props
