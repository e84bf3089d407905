import Verif.Model.Partition
import Verif.Lemmas.Dict

/-
C37: partitioning a query by view.
-/
namespace Cgpm
variable {L K V : Type} [DecidableEq L] [DecidableEq K]

theorem groupLoop_spec {A : Type} (key : A → Option K) (items done : List A)
    (res : Dict K (List A)) (hk : ∀ a ∈ items, key a ≠ none) (hw : res.WF)
    (hres : ∀ k, res.get? k = if (done.filter fun a => key a = some k) = [] then none
      else some (done.filter fun a => key a = some k)) :
    ∃ out, groupLoop key items res = .ok out ∧ out.WF ∧
      ∀ k, out.get? k = if ((done ++ items).filter fun a => key a = some k) = [] then none
        else some ((done ++ items).filter fun a => key a = some k) := by
  induction items generalizing done res with
  | nil => exact ⟨res, rfl, hw, by simpa using hres⟩
  | cons a t ih =>
    obtain ⟨k, hka⟩ := Option.ne_none_iff_exists'.mp (hk a (by simp))
    have hset : ∀ g, res.get? k = some g ∨ (res.get? k = none ∧ g = []) →
        g = (done.filter fun a => key a = some k) ∧
        ∀ k', (res.set k (g ++ [a])).get? k' =
          if ((done ++ [a]).filter fun a => key a = some k') = [] then none
          else some ((done ++ [a]).filter fun a => key a = some k') := by
      intro g hg
      have hgd : g = done.filter fun a => key a = some k := by
        have := hres k
        rcases hg with hg | ⟨hg, rfl⟩
        · rw [hg] at this; split at this
          · cases this
          · exact Option.some.inj this
        · rw [hg] at this; split at this
          · rename_i h; exact h.symm
          · cases this
      refine ⟨hgd, fun k' => ?_⟩
      rw [Dict.get?_set]
      by_cases hkk : k' = k
      · subst hkk
        simp [List.filter_append, hka, hgd]
      · have hne : ¬ key a = some k' := by rw [hka]; simpa using fun h => hkk h.symm
        rw [if_neg hkk, hres k']
        simp [List.filter_append, hne]
    simp only [groupLoop, hka]
    cases hg : res.get? k with
    | some g =>
      obtain ⟨-, h2⟩ := hset g (.inl hg)
      obtain ⟨out, h3, h4, h5⟩ := ih (done ++ [a]) _ (fun b hb => hk b (by simp [hb]))
        (Dict.wf_set hw _ _) h2
      exact ⟨out, h3, h4, by simpa using h5⟩
    | none =>
      obtain ⟨-, h2⟩ := hset [] (.inr ⟨hg, rfl⟩)
      obtain ⟨out, h3, h4, h5⟩ := ih (done ++ [a]) _ (fun b hb => hk b (by simp [hb]))
        (Dict.wf_set hw _ _) h2
      exact ⟨out, h3, h4, by simpa using h5⟩

theorem groupLoop_missing {A : Type} (key : A → Option K) (items : List A)
    (res : Dict K (List A)) (a : A) (ha : a ∈ items) (hk : key a = none) :
    groupLoop key items res = .error .keyError := by
  induction items generalizing res with
  | nil => cases ha
  | cons b t ih =>
    simp only [groupLoop]
    rcases List.mem_cons.mp ha with rfl | ha
    · simp [hk]
    · split
      · rfl
      · split <;> exact ih _ ha

namespace Props

/-- SPEC. The groups of a list: group `k` is present exactly when some item belongs to it,
and then holds the items that belong to it, in their original order and multiplicity. -/
def IsGrouping {A : Type} (key : A → Option K) (items : List A) (out : Dict K (List A)) : Prop :=
  out.keys.Nodup ∧
  (∀ k, k ∈ out.keys ↔ ∃ a ∈ items, key a = some k) ∧
  (∀ k g, out.get? k = some g → g = items.filter fun a => key a = some k)

theorem isGrouping_of {A : Type} (key : A → Option K) (items : List A) (hk : ∀ a ∈ items, key a ≠ none) :
    ∃ out, groupLoop key items [] = .ok out ∧ IsGrouping key items out := by
  obtain ⟨out, h1, h2, h3⟩ := groupLoop_spec key items [] [] hk Dict.wf_nil (by simp [Dict.get?])
  refine ⟨out, h1, h2, fun k => ?_, fun k g hg => ?_⟩
  · rw [← Dict.get?_isSome_iff, h3 k]
    simp only [List.nil_append]
    by_cases h : (items.filter fun a => key a = some k) = []
    · rw [if_pos h]
      simp only [Option.isSome_none, Bool.false_eq_true, false_iff]
      rintro ⟨a, ha, hka⟩
      have : a ∈ items.filter fun a => key a = some k := by simp [ha, hka]
      rw [h] at this; cases this
    · rw [if_neg h]
      obtain ⟨a, ha⟩ := List.exists_mem_of_ne_nil _ h
      simp only [Option.isSome_some, true_iff]
      have := List.mem_filter.mp ha
      exact ⟨a, this.1, by simpa using this.2⟩
  · rw [h3 k, List.nil_append] at hg
    split at hg
    · cases hg
    · exact (Option.some.inj hg).symm

/-- **C37.** `partition_list` groups the variables by view: nothing is lost, duplicated,
reordered within a group or put in another group, and no group is empty. -/
theorem C37_partition_list (Z : Dict L K) (items : List L) (h : ∀ l ∈ items, Z.get? l ≠ none) :
    ∃ out, partitionList Z items = .ok out ∧ IsGrouping (fun l => Z.get? l) items out :=
  isGrouping_of _ items h

/-- **C37.** `partition_dict` does the same to the variables of a dict, each with its value:
the value of `l` in its group is its value in the dict. -/
theorem C37_partition_dict (Z : Dict L K) (items : Dict L V) (hw : items.keys.Nodup)
    (h : ∀ l ∈ items.keys, Z.get? l ≠ none) :
    ∃ out, partitionDict Z items = .ok out ∧ IsGrouping (fun p => Z.get? p.1) items out ∧
      ∀ k g, out.get? k = some g → g.keys.Nodup ∧
        ∀ l, g.get? l = if Z.get? l = some k then items.get? l else none := by
  obtain ⟨out, h1, h2⟩ := isGrouping_of (fun p : L × V => Z.get? p.1) items
    (fun p hp => h p.1 (List.mem_map_of_mem hp))
  refine ⟨out, h1, h2, fun k g hg => ?_⟩
  have hgf := h2.2.2 k g hg
  have hgw : Dict.WF g := by
    rw [hgf]; unfold Dict.WF Dict.keys
    exact List.Nodup.sublist (List.Sublist.map _ List.filter_sublist) hw
  refine ⟨hgw, fun l => ?_⟩
  cases hl : Dict.get? g l with
  | some v =>
    have hm := Dict.mem_of_get? hl
    rw [hgf] at hm
    have hm' := List.mem_filter.mp hm
    have hz : Z.get? l = some k := by simpa using hm'.2
    rw [if_pos hz, Dict.get?_of_mem hw hm'.1]
  | none =>
    split
    · rename_i hz
      cases hi : items.get? l with
      | none => rfl
      | some v =>
        have hm : (l, v) ∈ g := by
          rw [hgf]
          exact List.mem_filter.mpr ⟨Dict.mem_of_get? hi, by simpa using hz⟩
        rw [Dict.get?_of_mem hgw hm] at hl; cases hl
    · rfl

/-- **C37.** A variable that belongs to no view makes the call raise. -/
theorem C37_unknown_variable (Z : Dict L K) (items : List L) (l : L) (hl : l ∈ items)
    (h : Z.get? l = none) : partitionList Z items = .error .keyError :=
  groupLoop_missing _ items [] l hl h

/-- **C37.** Query and evidence are grouped by the same assignment; without evidence the query
is grouped the same way and there are no groups of evidence. -/
theorem C37_query_evidence (Z : Dict L K) (query : List L) (evidence : Dict L V)
    (hw : evidence.keys.Nodup) (hq : ∀ l ∈ query, Z.get? l ≠ none)
    (he : ∀ l ∈ evidence.keys, Z.get? l ≠ none) :
    ∃ q e, partitionQueryEvidence Z query (some evidence) = .ok (q, e) ∧
      IsGrouping (fun l => Z.get? l) query q ∧ IsGrouping (fun p => Z.get? p.1) evidence e ∧
      partitionQueryEvidence (V := V) Z query none = .ok (q, []) := by
  obtain ⟨q, hq1, hq2⟩ := C37_partition_list Z query hq
  obtain ⟨e, he1, he2, -⟩ := C37_partition_dict Z evidence hw he
  exact ⟨q, e, by simp [partitionQueryEvidence, hq1, he1], hq2, he2,
    by simp [partitionQueryEvidence, hq1]⟩

example : partitionList (L := Nat) (K := Nat) [(0, 0), (1, 2), (2, 7), (3, 7), (4, 0)] [2, 1, 0, 4, 3]
    = .ok [(7, [2, 3]), (2, [1]), (0, [0, 4])] := rfl

end Props
end Cgpm
