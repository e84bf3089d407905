import Verif.Spec.Network
import Verif.Lemmas.Topo

namespace Cgpm
open Classical

namespace Dict
variable {K V : Type} [DecidableEq K]

theorem update_append (d a b : Dict K V) : update d (a ++ b) = update (update d a) b := by
  simp [update, List.foldl_append]

theorem mem_keys_update (d e : Dict K V) (k : K) :
    k ∈ keys (update d e) ↔ k ∈ keys d ∨ k ∈ keys e := by
  unfold update
  induction e generalizing d with
  | nil => simp [keys]
  | cons p t ih =>
    rw [List.foldl_cons, ih, mem_keys_set]
    simp only [keys, List.map_cons, List.mem_cons]
    tauto

/-- A dict display built from pairs: every key has one of its values. -/
theorem get?_update_nil_mem {l : List (K × V)} {k : K} {v : V} (h : get? (update [] l) k = some v) :
    (k, v) ∈ l := by
  induction l using List.reverseRecOn with
  | nil => simp [update] at h
  | append_singleton l p ih =>
    rw [update_append] at h
    simp only [update, List.foldl_cons, List.foldl_nil] at h
    rw [get?_set] at h
    split at h
    · rename_i e
      cases h; subst e; simp
    · exact List.mem_append_left _ (ih h)

theorem get?_update_nil_of_wf {l : Dict K V} (h : WF l) (k : K) :
    get? (update [] l) k = get? l k := by
  rw [get?_update _ _ h]; simp

end Dict

namespace Net
variable {R V Ω : Type}

theorem validate_ok_iff (cgpms : List (NetCgpm R V Ω)) :
    validateCgpms cgpms = .ok () ↔ (∀ c ∈ cgpms, c.outputs ≠ []) ∧
      ∀ (i j : Nat) (a b : NetCgpm R V Ω), cgpms[i]? = some a → cgpms[j]? = some b →
        ∀ v ∈ a.outputs, v ∈ b.outputs → i = j := by
  have hp : (cgpms.Pairwise fun a b => ∀ v ∈ a.outputs, v ∉ b.outputs) ↔
      ∀ (i j : Nat) (a b : NetCgpm R V Ω), cgpms[i]? = some a → cgpms[j]? = some b →
        ∀ v ∈ a.outputs, v ∈ b.outputs → i = j := by
    rw [List.pairwise_iff_getElem]
    constructor
    · intro h i j a b hi hj v hva hvb
      obtain ⟨hi', rfl⟩ := List.getElem?_eq_some_iff.mp hi
      obtain ⟨hj', rfl⟩ := List.getElem?_eq_some_iff.mp hj
      rcases Nat.lt_trichotomy i j with hlt | he | hlt
      · exact absurd hvb (h i j hi' hj' hlt v hva)
      · exact he
      · exact absurd hva (h j i hj' hi' hlt v hvb)
    · intro h i j hi hj hlt v hva hvb
      have := h i j _ _ (List.getElem?_eq_getElem hi) (List.getElem?_eq_getElem hj) v hva hvb
      omega
  unfold validateCgpms
  rw [← hp]
  by_cases h1 : ∀ c ∈ cgpms, c.outputs ≠ []
  · by_cases h2 : cgpms.Pairwise fun a b => ∀ v ∈ a.outputs, v ∉ b.outputs
    · rw [if_neg (not_not.mpr h1), if_neg (not_not.mpr h2)]
      exact ⟨fun _ => ⟨h1, h2⟩, fun _ => rfl⟩
    · rw [if_neg (not_not.mpr h1), if_pos h2]; simp [h2]
  · rw [if_pos h1]; simp only [reduceCtorEq, false_iff, not_and]; exact fun h => absurd h h1

theorem validate_error (cgpms : List (NetCgpm R V Ω)) (e : Exn)
    (h : validateCgpms cgpms = .error e) : e = .valueError := by
  unfold validateCgpms at h
  split at h
  · exact (Except.error.inj h).symm
  · split at h
    · exact (Except.error.inj h).symm
    · cases h

theorem mem_zipIdx_flat (cgpms : List (NetCgpm R V Ω)) (v i : Nat) :
    (v, i) ∈ (cgpms.zipIdx.flatMap fun p => p.1.outputs.map fun v => (v, p.2)) ↔
      ∃ c, cgpms[i]? = some c ∧ v ∈ c.outputs := by
  simp only [List.mem_flatMap, List.mem_map, Prod.mk.injEq]
  constructor
  · rintro ⟨⟨c, j⟩, hp, w, hw, rfl, rfl⟩
    exact ⟨c, List.mem_zipIdx_iff_getElem?.mp hp, hw⟩
  · rintro ⟨c, hc, hv⟩
    exact ⟨(c, i), List.mem_zipIdx_iff_getElem?.mpr hc, v, hv, rfl, rfl⟩

theorem vToC_some {cgpms : List (NetCgpm R V Ω)} {v i : Nat}
    (h : (variableToCgpm cgpms).get? v = some i) : ∃ c, cgpms[i]? = some c ∧ v ∈ c.outputs :=
  (mem_zipIdx_flat cgpms v i).mp (Dict.get?_update_nil_mem h)

theorem vToC_has (cgpms : List (NetCgpm R V Ω)) (v : Nat) :
    (variableToCgpm cgpms).has v = true ↔ Produced cgpms v := by
  rw [Dict.has_iff]
  constructor
  · intro h
    obtain ⟨i, hi⟩ := Dict.exists_of_mem_keys h
    obtain ⟨c, hc, hv⟩ := vToC_some hi
    exact ⟨c, List.mem_of_getElem? hc, hv⟩
  · rintro ⟨c, hc, hv⟩
    obtain ⟨i, hi⟩ := List.mem_iff_getElem?.mp hc
    unfold variableToCgpm
    rw [Dict.mem_keys_update]
    right
    exact List.mem_map.mpr ⟨(v, i), (mem_zipIdx_flat cgpms v i).mpr ⟨c, hi, hv⟩, rfl⟩

theorem vToC_iff {cgpms : List (NetCgpm R V Ω)}
    (hu : ∀ (i j : Nat) (a b : NetCgpm R V Ω), cgpms[i]? = some a → cgpms[j]? = some b →
        ∀ v ∈ a.outputs, v ∈ b.outputs → i = j) (v i : Nat) :
    (variableToCgpm cgpms).get? v = some i ↔ ∃ c, cgpms[i]? = some c ∧ v ∈ c.outputs := by
  refine ⟨vToC_some, ?_⟩
  rintro ⟨c, hc, hv⟩
  obtain ⟨j, hj⟩ := Dict.exists_of_mem_keys
    ((Dict.has_iff _ _).mp ((vToC_has cgpms v).mpr ⟨c, List.mem_of_getElem? hc, hv⟩))
  obtain ⟨c', hc', hv'⟩ := vToC_some hj
  rw [hj, hu i j c c' hc hc' v hv hv']

theorem adjacency_get? (cgpms : List (NetCgpm R V Ω)) (vToC : Dict Nat Nat) :
    (adjacencyList cgpms vToC).keys = List.range cgpms.length ∧
    ∀ j es, (adjacencyList cgpms vToC).get? j = some es ↔
      ∃ b, cgpms[j]? = some b ∧ es = (b.inputs.filterMap fun q => vToC.get? q).dedup := by
  have hk : (adjacencyList cgpms vToC).keys = List.range cgpms.length := by
    unfold adjacencyList Dict.keys
    rw [List.map_map]
    have : (Prod.fst ∘ fun p : NetCgpm R V Ω × Nat =>
        (p.2, (p.1.inputs.filterMap fun q => vToC.get? q).dedup)) = Prod.snd := rfl
    rw [this, List.zipIdx_map_snd, List.range_eq_range']
  refine ⟨hk, fun j es => ?_⟩
  have hwf : (adjacencyList cgpms vToC).WF := by
    unfold Dict.WF; rw [hk]; exact List.nodup_range
  rw [← Dict.mem_iff_get? hwf]
  unfold adjacencyList
  simp only [List.mem_map, Prod.mk.injEq]
  constructor
  · rintro ⟨⟨b, i⟩, hp, rfl, rfl⟩
    exact ⟨b, List.mem_zipIdx_iff_getElem?.mp hp, rfl⟩
  · rintro ⟨b, hb, rfl⟩
    exact ⟨(b, j), List.mem_zipIdx_iff_getElem?.mpr hb, rfl, rfl⟩

theorem adjacency_edge {cgpms : List (NetCgpm R V Ω)}
    (hu : ∀ (i j : Nat) (a b : NetCgpm R V Ω), cgpms[i]? = some a → cgpms[j]? = some b →
        ∀ v ∈ a.outputs, v ∈ b.outputs → i = j) (i j : Nat) :
    (adjacencyList cgpms (variableToCgpm cgpms)).Edge i j ↔ Feeds cgpms i j := by
  obtain ⟨hk, hg⟩ := adjacency_get? cgpms (variableToCgpm cgpms)
  constructor
  · rintro ⟨hi, es, hes, hmem⟩
    obtain ⟨b, hb, rfl⟩ := (hg j es).mp hes
    rw [List.mem_dedup, List.mem_filterMap] at hmem
    obtain ⟨q, hq, hqi⟩ := hmem
    obtain ⟨a, ha, hqa⟩ := vToC_some hqi
    exact ⟨a, b, ha, hb, q, hqa, hq⟩
  · rintro ⟨a, b, ha, hb, v, hva, hvb⟩
    refine ⟨?_, _, (hg j _).mpr ⟨b, hb, rfl⟩, ?_⟩
    · rw [hk, List.mem_range]; exact (List.getElem?_eq_some_iff.mp ha).1
    · rw [List.mem_dedup, List.mem_filterMap]
      exact ⟨v, hvb, (vToC_iff hu v i).mpr ⟨a, ha, hva⟩⟩

theorem adjacency_wf (cgpms : List (NetCgpm R V Ω)) (vToC : Dict Nat Nat) :
    (adjacencyList cgpms vToC).WF := by
  unfold Dict.WF; rw [(adjacency_get? cgpms vToC).1]; exact List.nodup_range

end Net
end Cgpm
