import Verif.Model.Py
import Mathlib.Data.List.Perm.Basic
import Mathlib.Data.List.Nodup

/-! Facts about dictionaries used by the proofs. -/
namespace Cgpm.Dict
variable {K V : Type} [DecidableEq K]

@[simp] theorem get?_nil (k : K) : get? ([] : Dict K V) k = none := rfl

theorem get?_cons (k' : K) (v : V) (t : Dict K V) (k : K) :
    get? ((k', v) :: t) k = if k' = k then some v else get? t k := rfl

@[simp] theorem get?_set_self (d : Dict K V) (k : K) (v : V) :
    get? (set d k v) k = some v := by
  induction d with
  | nil => simp [set, get?]
  | cons p t ih =>
    obtain ⟨k', v'⟩ := p
    by_cases h : k' = k <;> simp [set, h, get?, ih]

theorem get?_set_ne (d : Dict K V) {k k' : K} (v : V) (h : k' ≠ k) :
    get? (set d k v) k' = get? d k' := by
  induction d with
  | nil => simp [set, get?, h.symm]
  | cons p t ih =>
    obtain ⟨k₀, v₀⟩ := p
    by_cases h₀ : k₀ = k
    · subst h₀; simp [set, get?, h.symm]
    · simp only [set, if_neg h₀, get?, ih]

theorem get?_set (d : Dict K V) (k k' : K) (v : V) :
    get? (set d k v) k' = if k' = k then some v else get? d k' := by
  by_cases h : k' = k
  · subst h; simp
  · simp [h, get?_set_ne d v h]

@[simp] theorem get?_erase_self (d : Dict K V) (k : K) : get? (erase d k) k = none := by
  induction d with
  | nil => rfl
  | cons p t ih =>
    obtain ⟨k', v'⟩ := p
    by_cases h : k' = k <;> simp [erase, h, get?, ih]

theorem get?_erase_ne (d : Dict K V) {k k' : K} (h : k' ≠ k) :
    get? (erase d k) k' = get? d k' := by
  induction d with
  | nil => rfl
  | cons p t ih =>
    obtain ⟨k₀, v₀⟩ := p
    by_cases h₀ : k₀ = k
    · subst h₀; simp [erase, ih, get?, h.symm]
    · simp [erase, h₀, get?, ih]

theorem get?_erase (d : Dict K V) (k k' : K) :
    get? (erase d k) k' = if k' = k then none else get? d k' := by
  by_cases h : k' = k
  · subst h; simp
  · simp [h, get?_erase_ne d h]

theorem get?_eq_none_iff (d : Dict K V) (k : K) : get? d k = none ↔ k ∉ keys d := by
  induction d with
  | nil => simp [keys]
  | cons p t ih =>
    obtain ⟨k', v'⟩ := p
    by_cases h : k' = k
    · simp [get?, h, keys]
    · have h' : ¬ k = k' := fun e => h e.symm
      simp only [get?, if_neg h, ih, keys, List.map_cons, List.mem_cons, h', false_or]

theorem get?_isSome_iff (d : Dict K V) (k : K) : (get? d k).isSome ↔ k ∈ keys d := by
  rw [← not_iff_not, ← get?_eq_none_iff]; simp

theorem has_iff (d : Dict K V) (k : K) : has d k = true ↔ k ∈ keys d := get?_isSome_iff d k

theorem has_false_iff (d : Dict K V) (k : K) : has d k = false ↔ get? d k = none := by
  simp [has]

theorem mem_keys_of_get? {d : Dict K V} {k : K} {v : V} (h : get? d k = some v) : k ∈ keys d := by
  rw [← get?_isSome_iff, h]; rfl

theorem exists_of_mem_keys {d : Dict K V} {k : K} (h : k ∈ keys d) : ∃ v, get? d k = some v := by
  rw [← get?_isSome_iff] at h; exact Option.isSome_iff_exists.mp h

theorem mem_of_get? {d : Dict K V} {k : K} {v : V} (h : get? d k = some v) : (k, v) ∈ d := by
  induction d with
  | nil => simp at h
  | cons p t ih =>
    obtain ⟨k', v'⟩ := p
    by_cases h' : k' = k
    · simp [get?, h'] at h; simp [h, h']
    · simp [get?, h'] at h; exact List.mem_cons_of_mem _ (ih h)

theorem get?_of_mem {d : Dict K V} (hd : WF d) {k : K} {v : V} (h : (k, v) ∈ d) :
    get? d k = some v := by
  induction d with
  | nil => simp at h
  | cons p t ih =>
    obtain ⟨k', v'⟩ := p
    simp only [WF, keys, List.map_cons, List.nodup_cons] at hd
    rcases List.mem_cons.mp h with h | h
    · cases h; simp [get?]
    · have : k' ≠ k := by
        rintro rfl
        exact hd.1 (List.mem_map_of_mem (f := Prod.fst) h)
      simp [get?, this, ih hd.2 h]

theorem mem_iff_get? {d : Dict K V} (hd : WF d) {k : K} {v : V} :
    (k, v) ∈ d ↔ get? d k = some v := ⟨get?_of_mem hd, mem_of_get?⟩

theorem set_of_not_mem {d : Dict K V} {k : K} (v : V) (h : get? d k = none) :
    set d k v = d ++ [(k, v)] := by
  induction d with
  | nil => rfl
  | cons p t ih =>
    obtain ⟨k', v'⟩ := p
    by_cases h' : k' = k
    · simp [get?, h'] at h
    · simp [get?, h'] at h; simp [set, h', ih h]

theorem erase_of_not_mem {d : Dict K V} {k : K} (h : get? d k = none) : erase d k = d := by
  induction d with
  | nil => rfl
  | cons p t ih =>
    obtain ⟨k', v'⟩ := p
    by_cases h' : k' = k
    · simp [get?, h'] at h
    · simp [get?, h'] at h; simp [erase, h', ih h]

theorem erase_append (d e : Dict K V) (k : K) : erase (d ++ e) k = erase d k ++ erase e k := by
  induction d with
  | nil => rfl
  | cons p t ih =>
    obtain ⟨k', v'⟩ := p
    by_cases h' : k' = k <;> simp [erase, h', ih]

theorem erase_append_singleton {d : Dict K V} {k : K} (v : V) (h : get? d k = none) :
    erase (d ++ [(k, v)]) k = d := by
  rw [erase_append, erase_of_not_mem h]; simp [erase]

theorem erase_set_of_not_mem {d : Dict K V} {k : K} (v : V) (h : get? d k = none) :
    erase (set d k v) k = d := by
  rw [set_of_not_mem v h, erase_append_singleton v h]

@[simp] theorem erase_set (d : Dict K V) (k : K) (v : V) : erase (set d k v) k = erase d k := by
  induction d with
  | nil => simp [set, erase]
  | cons p t ih =>
    obtain ⟨k', v'⟩ := p
    by_cases h : k' = k <;> simp [set, h, erase, ih]

@[simp] theorem set_set (d : Dict K V) (k : K) (v w : V) : set (set d k v) k w = set d k w := by
  induction d with
  | nil => simp [set]
  | cons p t ih =>
    obtain ⟨k', v'⟩ := p
    by_cases h : k' = k <;> simp [set, h, ih]

theorem set_get? {d : Dict K V} {k : K} {v : V} (h : get? d k = some v) : set d k v = d := by
  induction d with
  | nil => simp at h
  | cons p t ih =>
    obtain ⟨k', v'⟩ := p
    by_cases h' : k' = k
    · simp [get?, h'] at h; simp [set, h', h]
    · simp [get?, h'] at h; simp [set, h', ih h]

theorem keys_set (d : Dict K V) (k : K) (v : V) :
    keys (set d k v) = if k ∈ keys d then keys d else keys d ++ [k] := by
  induction d with
  | nil => simp [set, keys]
  | cons p t ih =>
    obtain ⟨k', v'⟩ := p
    by_cases h : k' = k
    · simp [set, h, keys]
    · have h' : ¬ k = k' := fun e => h e.symm
      simp only [keys] at ih ⊢
      simp only [set, if_neg h, List.map_cons, ih, List.mem_cons, h', false_or]
      split <;> simp_all

theorem mem_keys_set (d : Dict K V) (k k' : K) (v : V) :
    k' ∈ keys (set d k v) ↔ k' = k ∨ k' ∈ keys d := by
  rw [keys_set]; split
  · constructor
    · exact Or.inr
    · rintro (rfl | h) <;> assumption
  · simp [or_comm]

theorem mem_keys_erase (d : Dict K V) (k k' : K) :
    k' ∈ keys (erase d k) ↔ k' ≠ k ∧ k' ∈ keys d := by
  rw [← get?_isSome_iff, ← get?_isSome_iff, get?_erase]
  by_cases h : k' = k <;> simp [h]

omit [DecidableEq K] in
@[simp] theorem wf_nil : WF ([] : Dict K V) := List.nodup_nil

theorem wf_set {d : Dict K V} (h : WF d) (k : K) (v : V) : WF (set d k v) := by
  unfold WF; rw [keys_set]; split
  · exact h
  · rename_i hk
    exact List.Nodup.append h (List.nodup_singleton k) (by simpa [List.disjoint_singleton] using hk)

theorem keys_erase (d : Dict K V) (k : K) :
    keys (erase d k) = (keys d).filter (fun x => decide (x ≠ k)) := by
  induction d with
  | nil => rfl
  | cons p t ih =>
    obtain ⟨k', v'⟩ := p
    simp only [keys] at ih ⊢
    by_cases h : k' = k
    · simp [erase, h]; simpa using ih
    · simp [erase, h]; simpa using ih

theorem wf_erase {d : Dict K V} (h : WF d) (k : K) : WF (erase d k) := by
  unfold WF; rw [keys_erase]; exact h.filter _

theorem wf_cons {k : K} {v : V} {t : Dict K V} :
    WF ((k, v) :: t) ↔ get? t k = none ∧ WF t := by
  simp [WF, keys, get?_eq_none_iff]

omit [DecidableEq K] in
theorem wf_perm {d e : Dict K V} (h : d.Perm e) : WF d ↔ WF e :=
  (h.map Prod.fst).nodup_iff

/-- Pull a key to the front. -/
theorem perm_cons_erase {d : Dict K V} (hd : WF d) {k : K} {v : V} (h : get? d k = some v) :
    d.Perm ((k, v) :: erase d k) := by
  induction d with
  | nil => simp at h
  | cons p t ih =>
    obtain ⟨k', v'⟩ := p
    rw [wf_cons] at hd
    by_cases h' : k' = k
    · subst h'
      simp [get?] at h; subst h
      simp [erase, erase_of_not_mem hd.1]
    · simp [get?, h'] at h
      simp only [erase, if_neg h']
      exact ((ih hd.2 h).cons _).trans (List.Perm.swap _ _ _)

theorem get?_perm {d e : Dict K V} (hd : WF d) (h : d.Perm e) (k : K) : get? d k = get? e k := by
  have he := (wf_perm h).mp hd
  apply Option.ext; intro v
  rw [← mem_iff_get? hd, ← mem_iff_get? he]; exact h.mem_iff

/-- Dictionaries with the same bindings are permutations of each other. -/
theorem perm_of_get? {d e : Dict K V} (hd : WF d) (he : WF e)
    (h : ∀ k, get? d k = get? e k) : d.Perm e := by
  have hnd : d.Nodup := List.Nodup.of_map Prod.fst hd
  have hne : e.Nodup := List.Nodup.of_map Prod.fst he
  rw [List.perm_ext_iff_of_nodup hnd hne]
  rintro ⟨k, v⟩
  rw [mem_iff_get? hd, mem_iff_get? he, h]

theorem perm_iff {d e : Dict K V} (hd : WF d) (he : WF e) :
    d.Perm e ↔ ∀ k, get? d k = get? e k :=
  ⟨fun h k => get?_perm hd h k, perm_of_get? hd he⟩

theorem erase_set_comm {d : Dict K V} {k k' : K} (v : V) (h : k ≠ k') :
    erase (set d k v) k' = set (erase d k') k v := by
  induction d with
  | nil => simp [set, erase, h]
  | cons p t ih =>
    obtain ⟨k₀, v₀⟩ := p
    by_cases h₀ : k₀ = k
    · subst h₀; simp [set, erase, h]
    · by_cases h₁ : k₀ = k'
      · subst h₁; simp [set, erase, h₀, ih]
      · simp [set, erase, h₀, h₁, ih]

theorem length_erase {d : Dict K V} (hd : WF d) {k : K} {v : V} (h : get? d k = some v) :
    d.length = (erase d k).length + 1 := by
  simpa using (perm_cons_erase hd h).length_eq

theorem get?_map_val {W : Type} (f : V → W) (d : Dict K V) (k : K) :
    get? (d.map (fun p => (p.1, f p.2))) k = (get? d k).map f := by
  induction d with
  | nil => rfl
  | cons p t ih =>
    obtain ⟨k', v'⟩ := p
    by_cases h : k' = k <;> simp [get?, h, ih]

omit [DecidableEq K] in
theorem keys_map_val {W : Type} (f : V → W) (d : Dict K V) :
    keys (d.map (fun p => (p.1, f p.2))) = keys d := by
  simp [keys]

theorem get?_filter_of_wf {d : Dict K V} (hd : WF d) (P : K × V → Bool) (k : K) :
    get? (d.filter P) k = (get? d k).filter (fun v => P (k, v)) := by
  have hf : WF (d.filter P) := by
    unfold WF keys at *
    exact List.Nodup.sublist (List.Sublist.map _ List.filter_sublist) hd
  apply Option.ext; intro v
  rw [← mem_iff_get? hf, List.mem_filter, mem_iff_get? hd]
  constructor
  · rintro ⟨h1, h2⟩; simp [h1, h2]
  · intro h; simp [Option.filter_eq_some_iff] at h; exact h

theorem get?_append (d e : Dict K V) (k : K) :
    get? (d ++ e) k = (get? d k).or (get? e k) := by
  induction d with
  | nil => simp
  | cons p t ih =>
    obtain ⟨k', v'⟩ := p
    by_cases h : k' = k <;> simp [get?, h, ih]

/-- `merged`: later bindings win. -/
theorem get?_update (d e : Dict K V) (he : WF e) (k : K) :
    get? (update d e) k = (get? e k).or (get? d k) := by
  unfold update
  induction e generalizing d with
  | nil => simp
  | cons p t ih =>
    obtain ⟨k', v'⟩ := p
    rw [wf_cons] at he
    simp only [List.foldl_cons]
    rw [ih _ he.2, get?_set, get?]
    by_cases h : k' = k
    · subst h; simp [he.1]
    · have : ¬ k = k' := fun e => h e.symm
      simp [h, this]

theorem wf_update {d : Dict K V} (hd : WF d) (e : Dict K V) : WF (update d e) := by
  unfold update
  induction e generalizing d with
  | nil => simpa
  | cons p t ih => exact ih (wf_set hd _ _)

end Cgpm.Dict
