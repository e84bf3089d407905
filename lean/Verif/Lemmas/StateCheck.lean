import Verif.Lemmas.StateRun
import Verif.Model.StateCheck
import Verif.Lemmas.Network

/-! The debug checks hold of consistent states. -/
namespace Cgpm.Props
open Cgpm Cgpm.View Cgpm.State

variable {C : Cat}

theorem mem_vals_iff {K V : Type} [DecidableEq K] {d : Dict K V} (hd : d.WF) {v : V} :
    v ∈ d.vals ↔ ∃ k, d.get? k = some v := by
  constructor
  · intro h
    obtain ⟨⟨k, w⟩, hp, rfl⟩ := List.mem_map.mp h
    exact ⟨k, Dict.get?_of_mem hd hp⟩
  · rintro ⟨k, hk⟩
    exact List.mem_map.mpr ⟨(k, v), Dict.mem_of_get? hk, rfl⟩

theorem pySorted_eq_of_perm {a b : List Nat} (h : a.Perm b) : pySorted a = pySorted b := by
  have hp : (pySorted a).Perm (pySorted b) :=
    ((pySorted_perm a).trans h).trans (pySorted_perm b).symm
  exact hp.eq_of_pairwise (le := (· ≤ ·)) (fun a b _ _ h1 h2 => le_antisymm h1 h2)
    (List.pairwise_insertionSort _ _) (List.pairwise_insertionSort _ _)

theorem filter_and_not {α : Type} (l : List α) (p q : α → Bool) :
    (l.filter p).length = (l.filter fun x => p x && !q x).length +
      (l.filter fun x => p x && q x).length := by
  induction l with
  | nil => rfl
  | cons a t ih =>
    simp only [List.filter_cons]
    cases hp : p a <;> cases hq : q a <;> simp [hp, hq, ih] <;> omega

theorem dimCheck_of {X : Dict Col (List C.Cell)} {n : Nat} {Z : Col → Option Nat} {o : List Col}
    {i : Nat} {v : View C} (hR : Rect X o n) (h : VOk (tblOf X) n Z (· ∈ o) i v)
    (hZ : ∀ c, Z c = some i → c ∈ o) {c : Col} {d : Dim C} (hd : v.dims.get? c = some d) :
    View.DimCheck X n v c d := by
  have hD : DimOk (tblOf X) v.seat c d := h.inv.dim (c, d) (Dict.mem_of_get? hd)
  have hcr := columnConsistent_of hD
  have hass : ∀ r, (d.Zr.update d.Zi).get? r = v.crp.data.get? r := by
    intro r
    rw [Dict.get?_update _ _ hD.core.wfI]
    have h1 := hcr.rows r
    cases hz : d.Zi.get? r with
    | some k =>
      have := (h1 k).mp (Or.inr hz)
      simp only [Option.some_or]; exact this.symm
    | none =>
      simp only [Option.none_or]
      cases hr : d.Zr.get? r with
      | some k => exact ((h1 k).mp (Or.inl hr)).symm
      | none =>
        cases hs : v.crp.data.get? r with
        | none => rfl
        | some k =>
          rcases (h1 k).mpr hs with h2 | h2
          · rw [hr] at h2; cases h2
          · rw [hz] at h2; cases h2
  have hwu : (d.Zr.update d.Zi).WF := Dict.wf_update hD.core.wfR _
  have hocc : ∀ k, k ∈ v.crp.counts.keys ↔ ∃ r, v.crp.data.get? r = some k :=
    fun k => Crp.occupied_iff h.inv.crp k
  refine ⟨?_, hass, ?_, ?_, ?_⟩
  · obtain ⟨l, hl⟩ := (hR.mem c).mp (hZ c ((h.dims c).mp (Dict.mem_keys_of_get? hd)))
    exact ⟨l, hl, hR.len c l hl⟩
  · intro k
    rw [mem_vals_iff hwu, hocc]
    simp only [hass]
  · intro k
    rw [List.mem_append, mem_vals_iff hD.core.wfI, hocc, hcr.clusters]
    constructor
    · rintro (h1 | ⟨r, hr⟩)
      · exact h1
      · exact ⟨r, (hcr.rows r k).mp (Or.inr hr)⟩
    · exact Or.inl
  · intro k cl hcl
    have hk : k ∈ v.crp.counts.keys := by
      rw [hocc]; exact (hcr.clusters k).mp (Dict.mem_keys_of_get? hcl)
    obtain ⟨nk, hnk⟩ := Dict.exists_of_mem_keys hk
    have hnum : {r | v.seat r = some k}.ncard =
        ((List.range n).filter fun r => decide (v.crp.data.get? r = some k)).length := by
      have : {r | v.seat r = some k} =
          (((List.range n).filter fun r => decide (v.crp.data.get? r = some k)).toFinset : Set Row) := by
        ext r
        simp only [Set.mem_ofPred_eq, List.coe_toFinset, List.mem_filter, decide_eq_true_eq,
          List.mem_range]
        constructor
        · intro hr
          exact ⟨(h.rows r).mp (by rw [hr]; simp), hr⟩
        · exact fun hr => hr.2
      rw [this, Set.ncard_coe_finset, List.toFinset_card_of_nodup]
      exact List.nodup_range.filter _
    have hv := ((consistent_of h.inv).counts k nk).mp hnk
    rw [hnk, hv.1, hnum, filter_and_not _ _
      (fun r => (d.index :: d.inputs).any fun j => (tblOf X j r).isNone)]
    congr 2
    congr 1
    -- the rows a component holds are those without a missing value
    have hperm : cl.data.keys.Perm ((List.range n).filter fun r =>
        decide (v.crp.data.get? r = some k) &&
          !((d.index :: d.inputs).any fun j => (tblOf X j r).isNone)) := by
      refine (List.perm_ext_iff_of_nodup (hcr.once k cl hcl) (List.nodup_range.filter _)).mpr
        fun r => ?_
      rw [← Dict.get?_isSome_iff, Option.isSome_iff_exists]
      simp only [hcr.values k cl hcl, List.mem_filter, List.mem_range, Bool.and_eq_true,
        decide_eq_true_eq]
      constructor
      · rintro ⟨o', h1, h2⟩
        refine ⟨(h.rows r).mp (by rw [h1]; simp), h1, ?_⟩
        unfold fileOf file at h2
        cases hx : tblOf X d.index r with
        | none => rw [hx] at h2; simp at h2
        | some x =>
          rw [hx] at h2
          cases hb : (d.inputs.map fun j => tblOf X j r).any Option.isNone with
          | true => rw [hb] at h2; simp at h2
          | false =>
            rw [List.any_cons, hx]
            rw [List.any_map] at hb
            have hb' : (d.inputs.any fun j => (tblOf X j r).isNone) = false := hb
            rw [hb']; rfl
      · rintro ⟨-, h1, h2⟩
        have hacc := hD.acc r k h1
        have hf := fileOf_filing hacc k
        rw [List.any_cons, Bool.not_eq_true', Bool.or_eq_false_iff] at h2
        have hb : (d.inputs.map fun j => tblOf X j r).any Option.isNone = false := by
          rw [List.any_map]; exact h2.2
        cases hx : tblOf X d.index r with
        | none => rw [hx] at h2; simp at h2
        | some x =>
          cases hst : stored (tblOf X) d r with
          | some o' => exact ⟨o', h1, by rw [hf, hst]⟩
          | none =>
            exfalso
            rw [hst] at hf
            unfold fileOf file at hf
            rw [hx, hb] at hf
            simp only at hf
            split at hf <;> simp at hf
    have := hperm.length_eq.symm
    simpa [Dict.keys] using this

theorem viewCheck_of {X : Dict Col (List C.Cell)} {n : Nat} {Z : Col → Option Nat} {o : List Col}
    {i : Nat} {v : View C} (hR : Rect X o n) (h : VOk (tblOf X) n Z (· ∈ o) i v)
    (hZ : ∀ c, Z c = some i → c ∈ o) : View.Check X n v where
  alpha := h.inv.alpha
  rows := fun r => by
    rw [← Dict.get?_isSome_iff, Option.isSome_iff_ne_none, List.mem_range]
    exact h.rows r
  values := fun k => by rw [mem_vals_iff h.inv.crp.wfData, Crp.occupied_iff h.inv.crp]
  dims := fun c d hd => dimCheck_of hR h hZ hd

theorem stateCheck_of {s : State C} (h : State.Inv s) : State.Check s where
  alpha := h.alpha
  counts := fun v view hv => by
    have hk : v ∈ s.views.keys := Dict.mem_keys_of_get? hv
    obtain ⟨c, hc⟩ := (h.occ v).mp hk
    obtain ⟨nv, hn⟩ := h.counts hc
    have ho := h.views.view v view hv
    rw [hn, (((stateConsistent_of h).counts v nv).mp hn).1]
    congr 2
    have : {c | s.Zv c = some v} = (view.dims.keys.toFinset : Set Col) := by
      ext c
      simp only [Set.mem_ofPred_eq, List.coe_toFinset]
      exact (ho.dims c).symm
    rw [this, Set.ncard_coe_finset, List.toFinset_card_of_nodup ho.inv.wf]
    simp [Dict.keys]
  data := fun c hc => by rw [h.data.keys]; exact hc
  columns := by
    apply pySorted_eq_of_perm
    refine (List.perm_ext_iff_of_nodup h.crp.wfData h.data.nodup).mpr fun c => ?_
    rw [← Dict.get?_isSome_iff, Option.isSome_iff_ne_none]
    exact h.cols c
  number := by
    have hp : s.crp.data.keys.Perm s.outputs := by
      refine (List.perm_ext_iff_of_nodup h.crp.wfData h.data.nodup).mpr fun c => ?_
      rw [← Dict.get?_isSome_iff, Option.isSome_iff_ne_none]
      exact h.cols c
    have := hp.length_eq
    simpa [Dict.keys] using this
  dims := fun c hc => (dimFor_of_mem h).mpr hc
  total := by
    have hp : s.crp.data.keys.Perm s.outputs := by
      refine (List.perm_ext_iff_of_nodup h.crp.wfData h.data.nodup).mpr fun c => ?_
      rw [← Dict.get?_isSome_iff, Option.isSome_iff_ne_none]
      exact h.cols c
    have hl := hp.length_eq
    rw [Crp.sum_counts h.crp, h.crp.hN, ← hl]
    simp [Dict.keys]
  views := fun v view hv => viewCheck_of h.data (h.views.view v view hv) (fun c hc => h.hZ c hc)

end Cgpm.Props
