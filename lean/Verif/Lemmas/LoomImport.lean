import Verif.Spec.Import
import Verif.Lemmas.Import
import Verif.Lemmas.StateCheck

/-! The files of a Loom sample. -/
namespace Cgpm
open Cgpm.Props

theorem foldl_digits (l : List Nat) : (l.reverse).foldl (fun a d => 10 * a + d) 0 = Nat.ofDigits 10 l := by
  induction l with
  | nil => rfl
  | cons d l ih =>
    rw [List.reverse_cons, List.foldl_append, ih, Nat.ofDigits_cons]
    simp [Nat.add_comm]

theorem columnOf_columnName (n : Nat) : columnOf (columnName n) = n := by
  unfold columnOf columnName
  rw [List.foldl_append]
  have : ∀ k, (List.replicate k 0).foldl (fun a d => 10 * a + d) 0 = 0 := by
    intro k
    induction k with
    | zero => rfl
    | succ k ih => rw [List.replicate_succ, List.foldl_cons]; exact ih
  rw [this, foldl_digits, Nat.ofDigits_digits]

theorem pySorted_range (n : Nat) : pySorted (List.range n) = List.range n := by
  refine (pySorted_perm _).eq_of_pairwise' (r := (· ≤ ·)) ?_ ?_
  · exact List.pairwise_insertionSort _ _
  · exact List.pairwise_le_range

namespace LoomSample
variable {C : Cat}

theorem outputMapping_vals (x : LoomSample) : x.outputMapping.vals = x.features.map columnOf := by
  unfold outputMapping Dict.vals
  rw [List.map_map]
  conv_rhs => rw [← List.zipIdx_map_fst 0 x.features, List.map_map]
  rfl

theorem outputMapping_get? (x : LoomSample) (f : Nat) :
    x.outputMapping.get? f = (x.features[f]?).map columnOf := by
  have : ∀ (l : List (List Nat)) (k f : Nat),
      Dict.get? ((l.zipIdx k).map fun p => (p.2, columnOf p.1)) f =
        if f < k then none else (l[f - k]?).map columnOf := by
    intro l
    induction l with
    | nil => intro k f; simp
    | cons a l ih =>
      intro k f
      rw [List.zipIdx_cons, List.map_cons, Dict.get?, ih]
      by_cases e : k = f
      · subst e; simp
      · by_cases h : f < k
        · simp [e, h, Nat.lt_succ_of_lt h]
        · obtain ⟨m, rfl⟩ : ∃ m, f = k + 1 + m := ⟨f - k - 1, by omega⟩
          have e1 : ¬ k + 1 + m < k + 1 := by omega
          have e2 : k + 1 + m - k = m + 1 := by omega
          rw [if_neg e, if_neg e1, if_neg h, e2, show k + 1 + m - (k + 1) = m by omega,
            List.getElem?_cons_succ]
  have := this x.features 0 f
  simpa [outputMapping] using this

theorem partition_list_keys (l : List (List Nat)) (k : Nat) :
    ((l.zipIdx k).flatMap fun p => p.1.map fun f => (f, p.2)).map Prod.fst = l.flatten := by
  induction l generalizing k with
  | nil => rfl
  | cons a l ih =>
    rw [List.zipIdx_cons, List.flatMap_cons, List.map_append, ih, List.flatten_cons, List.map_map]
    congr 1
    exact List.map_id' _

theorem mem_partition_list (l : List (List Nat)) (k f j : Nat) :
    (f, j) ∈ ((l.zipIdx k).flatMap fun p => p.1.map fun f => (f, p.2)) ↔
      k ≤ j ∧ ∃ g, l[j - k]? = some g ∧ f ∈ g := by
  simp only [List.mem_flatMap, List.mem_map, Prod.mk.injEq]
  constructor
  · rintro ⟨⟨g, i⟩, hp, f', hf, rfl, rfl⟩
    rw [List.mem_zipIdx_iff_le_and_getElem?_sub] at hp
    exact ⟨hp.1, g, hp.2, hf⟩
  · rintro ⟨hk, g, hg, hf⟩
    exact ⟨(g, j), List.mem_zipIdx_iff_le_and_getElem?_sub.mpr ⟨hk, hg⟩, f, hf, rfl, rfl⟩

theorem columnName_injective : Function.Injective columnName := fun a b h => by
  rw [← columnOf_columnName a, h, columnOf_columnName]

variable {x : LoomSample} {s : State C}

/-- The name of a feature is the name of a column. -/
theorem Fits.name (hx : LoomFits x s) {f : Nat} {name : List Nat} (hf : x.features[f]? = some name) :
    ∃ c ∈ s.outputs, name = columnName c := by
  have := hx.features.mem_iff.mp (List.mem_of_getElem? hf)
  obtain ⟨c, hc, rfl⟩ := List.mem_map.mp this
  exact ⟨c, hc, rfl⟩

theorem Fits.length (hx : LoomFits x s) : x.features.length = s.outputs.length := by
  simpa using hx.features.length_eq

theorem Fits.nodup (hx : LoomFits x s) (hnd : s.outputs.Nodup) : x.features.Nodup :=
  hx.features.nodup_iff.mpr (hnd.map columnName_injective)

theorem Fits.feature (hx : LoomFits x s) {c : Col} (hc : c ∈ s.outputs) :
    ∃ f : Nat, x.features[f]? = some (columnName c) := by
  have : columnName c ∈ x.features := hx.features.mem_iff.mpr (List.mem_map_of_mem hc)
  obtain ⟨f, hf, e⟩ := List.mem_iff_getElem.mp this
  exact ⟨f, by rw [List.getElem?_eq_getElem hf, e]⟩

theorem Fits.mapped (hx : LoomFits x s) {f : Nat} (hf : f ∈ x.kinds.flatten) :
    ∃ c ∈ s.outputs, x.features[f]? = some (columnName c) ∧ (x.outputMapping.get? f).getD 0 = c := by
  have hlt : f < x.features.length := by
    have := hx.kinds.mem_iff.mp hf
    rw [List.mem_range] at this
    rw [Fits.length hx]; exact this
  obtain ⟨c, hc, e⟩ := Fits.name hx (List.getElem?_eq_getElem hlt)
  refine ⟨c, hc, by rw [List.getElem?_eq_getElem hlt, e], ?_⟩
  rw [outputMapping_get?, List.getElem?_eq_getElem hlt, e, Option.map_some, columnOf_columnName]
  rfl

theorem Fits.partition (hx : LoomFits x s) :
    x.columnPartition = (x.kinds.zipIdx.flatMap fun p => p.1.map fun f => (f, p.2)) := by
  refine Dict.update_nil_eq ?_
  show (List.map Prod.fst _).Nodup
  rw [partition_list_keys]
  exact hx.kinds.nodup_iff.mpr List.nodup_range

theorem Fits.partition_keys (hx : LoomFits x s) : x.columnPartition.keys = x.kinds.flatten := by
  rw [Fits.partition hx]
  exact partition_list_keys _ _

theorem Fits.views_list (hx : LoomFits x s) (hnd : s.outputs.Nodup) :
    x.columnViews = (x.columnPartition.map fun p => (((x.outputMapping.get? p.1).getD 0), p.2)) ∧
      ((x.columnPartition.map fun p => (((x.outputMapping.get? p.1).getD 0), p.2)).map
        Prod.fst).Nodup := by
  have hk : ((x.columnPartition.map fun p => (((x.outputMapping.get? p.1).getD 0), p.2)).map
      Prod.fst).Nodup := by
    rw [List.map_map]
    have e : (x.columnPartition.map (Prod.fst ∘ fun p : Nat × Nat =>
        (((x.outputMapping.get? p.1).getD 0), p.2))) =
        x.columnPartition.keys.map fun f => (x.outputMapping.get? f).getD 0 := by
      unfold Dict.keys
      rw [List.map_map]
      rfl
    rw [e, Fits.partition_keys hx]
    refine List.Nodup.map_on ?_ (hx.kinds.nodup_iff.mpr List.nodup_range)
    intro f hf g hg hfg
    obtain ⟨c, -, h1, h2⟩ := Fits.mapped hx hf
    obtain ⟨e, -, g1, g2⟩ := Fits.mapped hx hg
    rw [h2, g2] at hfg
    subst hfg
    have h1' := List.getElem?_eq_some_iff.mp h1
    have g1' := List.getElem?_eq_some_iff.mp g1
    obtain ⟨i1, i2⟩ := h1'
    obtain ⟨j1, j2⟩ := g1'
    exact (Fits.nodup hx hnd).getElem_inj_iff.mp (i2.trans j2.symm)
  exact ⟨Dict.update_nil_eq hk, hk⟩

/-- The view of a column is the kind of its feature. -/
theorem Fits.views (hx : LoomFits x s) (hnd : s.outputs.Nodup) (c : Col) (k : Nat) :
    x.columnViews.get? c = some k ↔
      ∃ (f : Nat) (l : List Nat), x.features[f]? = some (columnName c) ∧ x.kinds[k]? = some l ∧ f ∈ l := by
  obtain ⟨h1, h2⟩ := Fits.views_list hx hnd
  have hP := Fits.partition hx
  constructor
  · intro h
    have := Dict.mem_of_get? h
    rw [h1] at this
    obtain ⟨⟨f, k'⟩, hp, he⟩ := List.mem_map.mp this
    simp only [Prod.mk.injEq] at he
    obtain ⟨he, rfl⟩ := he
    have hf : f ∈ x.kinds.flatten := by
      rw [← Fits.partition_keys hx]
      exact List.mem_map.mpr ⟨_, hp, rfl⟩
    obtain ⟨c', -, g1, g2⟩ := Fits.mapped hx hf
    rw [g2] at he
    subst he
    rw [hP, mem_partition_list] at hp
    obtain ⟨-, g, g3, g4⟩ := hp
    exact ⟨f, g, g1, by simpa using g3, g4⟩
  · rintro ⟨f, l, e1, e2, e3⟩
    have hf : f ∈ x.kinds.flatten := List.mem_flatten.mpr ⟨l, List.mem_of_getElem? e2, e3⟩
    obtain ⟨c', -, g1, g2⟩ := Fits.mapped hx hf
    rw [e1] at g1
    have := columnName_injective (Option.some.inj g1)
    subst this
    rw [h1]
    refine Dict.get?_of_mem h2 (List.mem_map.mpr ⟨(f, k), ?_, by rw [g2]⟩)
    rw [hP, mem_partition_list]
    exact ⟨Nat.zero_le _, l, by simpa using e2, e3⟩

theorem assignments_ok (n : Nat) (l : List (Nat × List Tab)) (h : ∀ p ∈ l, n ≤ p.2.length) :
    assignments n l = .ok (l.map fun p => (p.1, p.2.take n)) := by
  induction l with
  | nil => rfl
  | cons p l ih =>
    obtain ⟨r, g⟩ := p
    have h0 : ¬ g.length < n := by have := h (r, g) (by simp); simp only at this; omega
    simp only [assignments, groupsOf, if_neg h0, ih fun p hp => h p (by simp [hp]), List.map_cons]

/-- The row partition of each kind. -/
theorem Fits.rowPartitions (hx : LoomFits x s) : ∃ rows, x.rowPartitions = .ok rows ∧
    rows.length = x.kinds.length ∧ ∀ (k : Nat) zs, rows[k]? = some zs → zs.length = s.nRows ∧
      ∀ r g, (r, g) ∈ x.rows → zs[r]? = g[k]? := by
  have ha := assignments_ok _ _ hx.groups
  have hk : Dict.keys (x.rows.map fun p => (p.1, p.2.take x.kinds.length)) = x.rows.map Prod.fst := by
    unfold Dict.keys; rw [List.map_map]; rfl
  have hwf : Dict.WF (x.rows.map fun p => (p.1, p.2.take x.kinds.length)) := by
    unfold Dict.WF
    rw [hk]
    exact hx.rows.nodup_iff.mpr List.nodup_range
  have hs : pySorted (x.rows.map Prod.fst) = List.range s.nRows := by
    rw [pySorted_eq_of_perm hx.rows, pySorted_range]
  unfold LoomSample.rowPartitions
  rw [ha]
  simp only [Dict.update_nil_eq hwf, hk, hs]
  refine ⟨_, rfl, by simp, fun k zs hz => ?_⟩
  rw [List.getElem?_map, Option.map_eq_some_iff] at hz
  obtain ⟨k', h1, rfl⟩ := hz
  obtain ⟨hlt, h2⟩ := List.getElem?_eq_some_iff.mp h1
  rw [List.getElem_range] at h2
  subst h2
  rw [List.length_range] at hlt
  refine ⟨by simp, fun r g hg => ?_⟩
  have hr : r < s.nRows := by
    have := hx.rows.mem_iff.mp (List.mem_map.mpr ⟨_, hg, rfl⟩)
    simpa using this
  have hget : Dict.get? (x.rows.map fun p => (p.1, p.2.take x.kinds.length)) r =
      some (g.take x.kinds.length) :=
    Dict.get?_of_mem hwf (List.mem_map.mpr ⟨_, hg, rfl⟩)
  have hgl := hx.groups _ hg
  simp only at hgl
  rw [List.getElem?_map, List.getElem?_range hr, Option.map_some, hget, Option.bind_some,
    List.getElem?_take_of_lt hlt, List.getElem?_eq_getElem (by omega), Option.getD_some]

end LoomSample
end Cgpm
