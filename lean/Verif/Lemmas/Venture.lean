import Verif.Spec.Venture
import Verif.Lemmas.Dict
import Mathlib.Data.List.Nodup
import Mathlib.Logic.Function.Basic

/-!
Lemmas for C79: the effects of the parts of the calls.
-/
namespace Cgpm.Vs
variable {V : Type} [DecidableEq V] {P : Program V} {s s' : VsCgpm V} {row : Nat}

/-- The label of a cell. -/
def lab (s : VsCgpm V) (r q : Nat) : Option Nat := (entry s r).labels.get? q

/-- The recorded inputs of a row. -/
def inp (s : VsCgpm V) (r : Nat) : Option (Dict Nat V) := (entry s r).inputs

theorem sameSet_iff {a b : List Nat} : sameSet a b = true ↔ ∀ i, i ∈ a ↔ i ∈ b := by
  unfold sameSet
  simp only [Bool.and_eq_true, List.all_eq_true, List.contains_iff_mem]
  exact ⟨fun h i => ⟨h.1 i, h.2 i⟩, fun h => ⟨fun i => (h i).mp, fun i => (h i).mpr⟩⟩

theorem args_ok {ins : Dict Nat V} {l : List Nat} (h : ∀ i ∈ l, i ∈ ins.keys) :
    ∃ a, args ins l = .ok a ∧ a.map some = l.map ins.get? := by
  induction l with
  | nil => exact ⟨[], rfl, rfl⟩
  | cons i t ih =>
    obtain ⟨a, a1, a2⟩ := ih fun j hj => h j (List.mem_cons_of_mem _ hj)
    obtain ⟨v, hv⟩ := Dict.exists_of_mem_keys (h i List.mem_cons_self)
    refine ⟨v :: a, ?_, by rw [List.map_cons, List.map_cons, a2, hv]⟩
    rw [args, hv]
    simp only [a1]
    rfl

theorem args_some {ins : Dict Nat V} {l : List Nat} {a : List V} (h : args ins l = .ok a) :
    a.map some = l.map ins.get? := by
  induction l generalizing a with
  | nil => cases h; rfl
  | cons i t ih =>
    rw [args] at h
    cases hv : ins.get? i with
    | none => rw [hv] at h; cases h
    | some v =>
      rw [hv] at h
      simp only at h
      cases ht : args ins t with
      | error e => rw [ht] at h; cases h
      | ok b =>
        rw [ht] at h
        cases h
        rw [List.map_cons, List.map_cons, ih ht, hv]

theorem entry_set (s : VsCgpm V) (row : Nat) (e : Entry V) (R : Dict Nat (Fact V)) (c r : Nat) :
    entry { s with obs := s.obs.set row e, ripl := R, clock := c } r
      = if r = row then e else entry s r := by
  unfold entry
  rw [Dict.get?_set]
  split <;> rename_i h <;> simp [h]

theorem has_set (s : VsCgpm V) (row : Nat) (e : Entry V) (r : Nat) :
    (s.obs.set row e).has r = (s.obs.has r || decide (r = row)) := by
  unfold Dict.has
  rw [Dict.get?_set]
  by_cases h : r = row <;> simp [h]

/-- All values are accepted. -/
def Accepting (P : Program V) : Prop := ∀ r q a v, P.accepts r q a v = true

/-- The labels in use were generated. -/
def Used (P : Program V) (s : VsCgpm V) : Prop :=
  ∀ l, s.ripl.get? l ≠ none → ∃ i < s.clock, l = P.label i

theorem fresh (hinj : Function.Injective P.label) (hu : Used P s) {i : Nat} (hi : s.clock ≤ i) :
    s.ripl.get? (P.label i) = none := by
  by_contra h
  obtain ⟨j, hj, e⟩ := hu _ h
  have := hinj e
  omega

theorem observeCell_ok (hacc : Accepting P) (hinj : Function.Injective P.label) (hu : Used P s)
    {ins : Dict Nat V} {a : List V} (ha : args ins s.inputs = .ok a) {q : Nat} {v : V}
    (hq : q ∈ s.outputs) :
    ∃ s', observeCell P s row q v ins = .ok s' ∧ s'.outputs = s.outputs ∧ s'.inputs = s.inputs ∧
      s'.clock = s.clock + 1 ∧ Used P s' ∧ (∀ r, inp s' r = inp s r) ∧
      (∀ r, s'.obs.has r = (s.obs.has r || decide (r = row))) ∧
      (∀ r c, lab s' r c = if r = row ∧ c = q then some (P.label s.clock) else lab s r c) ∧
      ∀ l, s'.ripl.get? l = if l = P.label s.clock then some ⟨row, q, a, some v⟩
        else s.ripl.get? l := by
  have hf := fresh hinj hu (Nat.le_refl s.clock)
  unfold observeCell
  rw [ha]
  simp only []
  rw [if_neg (by simpa using hq), if_neg (by simp [hacc row q a v, Dict.has, hf])]
  refine ⟨_, rfl, rfl, rfl, rfl, ?_, ?_, ?_, ?_, ?_⟩
  · intro l hl
    rw [Dict.get?_set] at hl
    split at hl
    · rename_i h
      exact ⟨s.clock, Nat.lt_succ_self _, h⟩
    · obtain ⟨i, hi, e⟩ := hu l hl
      exact ⟨i, Nat.lt_succ_of_lt hi, e⟩
  · intro r
    unfold inp
    rw [entry_set]
    split <;> rename_i h <;> simp [h]
  · exact has_set s row _
  · intro r c
    unfold lab
    rw [entry_set]
    by_cases h : r = row
    · subst h
      rw [if_pos rfl]
      simp only [true_and, Dict.get?_set]
    · simp [h]
  · intro l
    rw [Dict.get?_set]

theorem observeAll_ok (hacc : Accepting P) (hinj : Function.Injective P.label)
    {ins : Dict Nat V} {a : List V} {cs : Dict Nat V} (hcs : cs.WF) (hu : Used P s)
    (ha : args ins s.inputs = .ok a) (hq : ∀ q ∈ cs.keys, q ∈ s.outputs) :
    ∃ s', observeAll P row ins cs s = .ok s' ∧ s'.outputs = s.outputs ∧ s'.inputs = s.inputs ∧
      s.clock ≤ s'.clock ∧ Used P s' ∧ (∀ r, inp s' r = inp s r) ∧
      (∀ r, s'.obs.has r = (s.obs.has r || (decide (r = row) && !cs.isEmpty))) ∧
      (∀ r c, (r ≠ row ∨ c ∉ cs.keys) → lab s' r c = lab s r c) ∧
      (∀ q v, cs.get? q = some v → ∃ i, s.clock ≤ i ∧ lab s' row q = some (P.label i) ∧
        s'.ripl.get? (P.label i) = some ⟨row, q, a, some v⟩) ∧
      (∀ l, (∀ q ∈ cs.keys, lab s' row q ≠ some l) → s'.ripl.get? l = s.ripl.get? l) := by
  induction cs generalizing s with
  | nil =>
    exact ⟨s, rfl, rfl, rfl, Nat.le_refl _, hu, fun _ => rfl, fun r => by simp, fun _ _ _ => rfl,
      (fun q v h => by cases h), fun _ _ => rfl⟩
  | cons p t ih =>
    obtain ⟨q, v⟩ := p
    obtain ⟨hqt', ht⟩ := Dict.wf_cons.mp hcs
    have hqt : q ∉ Dict.keys t := (Dict.get?_eq_none_iff _ _).mp hqt'
    obtain ⟨s1, b1, b2, b3, b4, b5, b6, b7, b8, b9⟩ := observeCell_ok (row := row) (v := v) hacc hinj
      hu ha (hq q (by simp [Dict.keys]))
    obtain ⟨s2, c1, c2, c3, c4, c5, c6, c7, c8, c9, c10⟩ := ih ht b5 (by rw [b3]; exact ha)
      fun q hq' => by rw [b2]; exact hq q (List.mem_cons_of_mem _ hq')
    have hk : ∀ c, c ∈ Dict.keys ((q, v) :: t) ↔ c = q ∨ c ∈ Dict.keys t := fun c => by
      simp [Dict.keys]
    have hlq : lab s2 row q = some (P.label s.clock) := by
      rw [c8 row q (Or.inr hqt), b8, if_pos ⟨rfl, rfl⟩]
    have hold : ∀ l, s1.ripl.get? l ≠ none → s2.ripl.get? l = s1.ripl.get? l := by
      intro l hl
      refine c10 l fun c hc e => ?_
      obtain ⟨w, hw⟩ := Dict.exists_of_mem_keys hc
      obtain ⟨i, hi, e1, e2⟩ := c9 c w hw
      rw [e] at e1
      cases e1
      exact hl (fresh hinj b5 hi)
    refine ⟨s2, ?_, c2.trans b2, c3.trans b3, by omega, c5, fun r => (c6 r).trans (b6 r), ?_, ?_, ?_, ?_⟩
    · rw [observeAll, b1]
      exact c1
    · intro r
      rw [c7, b7]
      by_cases h : r = row <;> simp [h]
    · intro r c hc
      rw [c8 r c, b8, if_neg]
      · rintro ⟨rfl, rfl⟩
        rcases hc with h | h
        · exact h rfl
        · exact h ((hk _).mpr (Or.inl rfl))
      · rcases hc with h | h
        · exact Or.inl h
        · exact Or.inr fun h' => h ((hk _).mpr (Or.inr h'))
    · intro c w hw
      rw [Dict.get?_cons] at hw
      split at hw
      · rename_i e
        subst e
        cases hw
        refine ⟨s.clock, Nat.le_refl _, hlq, ?_⟩
        have h1 := b9 (P.label s.clock)
        rw [if_pos rfl] at h1
        rw [hold _ (by rw [h1]; simp), h1]
      · obtain ⟨i, hi, e1, e2⟩ := c9 c w hw
        exact ⟨i, by omega, e1, e2⟩
    · intro l hl
      rw [c10 l fun c hc => hl c ((hk c).mpr (Or.inr hc)), b9, if_neg]
      rintro rfl
      exact hl q ((hk q).mpr (Or.inl rfl)) hlq

theorem forgetCell_ok {q : Nat} (hin : ∀ l, lab s row q = some l → s.ripl.get? l ≠ none) :
    ∃ s', forgetCell s row q = .ok s' ∧ s'.outputs = s.outputs ∧ s'.inputs = s.inputs ∧
      s'.clock = s.clock ∧ (∀ r, inp s' r = inp s r) ∧
      (∀ r, s'.obs.has r = (s.obs.has r || decide (r = row))) ∧
      (∀ r c, lab s' r c = if r = row ∧ c = q then none else lab s r c) ∧
      ∀ l, s'.ripl.get? l = if lab s row q = some l then none else s.ripl.get? l := by
  unfold forgetCell
  cases hl : lab s row q with
  | none =>
    have : (entry s row).labels.get? q = none := hl
    simp only [this]
    refine ⟨_, rfl, rfl, rfl, rfl, ?_, has_set s row _, ?_, fun l => by simp⟩
    · intro r
      unfold inp
      have := entry_set s row (entry s row) s.ripl s.clock r
      rw [this]
      split <;> rename_i h <;> simp [h]
    · intro r c
      unfold lab
      have := entry_set s row (entry s row) s.ripl s.clock r
      rw [this]
      by_cases h : r = row
      · subst h
        rw [if_pos rfl]
        by_cases e : c = q
        · rw [if_pos ⟨rfl, e⟩, e]; exact hl
        · rw [if_neg fun h => e h.2]
      · simp [h]
  | some l =>
    have : (entry s row).labels.get? q = some l := hl
    simp only [this]
    have hne := hin l hl
    rw [if_neg (by
      obtain ⟨f, hf⟩ := Option.ne_none_iff_exists'.mp hne
      simp [Dict.has, hf])]
    refine ⟨_, rfl, rfl, rfl, rfl, ?_, has_set s row _, ?_, ?_⟩
    · intro r
      unfold inp
      have := entry_set s row { entry s row with labels := (entry s row).labels.erase q }
        (s.ripl.erase l) s.clock r
      rw [this]
      split <;> rename_i h <;> simp [h]
    · intro r c
      unfold lab
      have := entry_set s row { entry s row with labels := (entry s row).labels.erase q }
        (s.ripl.erase l) s.clock r
      rw [this]
      by_cases h : r = row
      · subst h
        rw [if_pos rfl]
        simp only [true_and, Dict.get?_erase]
      · simp [h]
    · intro l'
      simp only [Dict.get?_erase, Option.some.injEq]
      by_cases h : l' = l
      · simp [h]
      · rw [if_neg h, if_neg fun e => h e.symm]

theorem forgetAll_ok {qs : List Nat} (hqs : qs.Nodup)
    (hin : ∀ q ∈ qs, ∀ l, lab s row q = some l → s.ripl.get? l ≠ none)
    (hdis : ∀ q ∈ qs, ∀ q' ∈ qs, ∀ l, lab s row q = some l → lab s row q' = some l → q = q') :
    ∃ s', forgetAll row qs s = .ok s' ∧ s'.outputs = s.outputs ∧ s'.inputs = s.inputs ∧
      s'.clock = s.clock ∧ (∀ r, inp s' r = inp s r) ∧
      (∀ r, s'.obs.has r = (s.obs.has r || (decide (r = row) && !qs.isEmpty))) ∧
      (∀ r c, (r ≠ row ∨ c ∉ qs) → lab s' r c = lab s r c) ∧ (∀ q ∈ qs, lab s' row q = none) ∧
      (∀ l, (∀ q ∈ qs, lab s row q ≠ some l) → s'.ripl.get? l = s.ripl.get? l) ∧
      ∀ l, (∃ q ∈ qs, lab s row q = some l) → s'.ripl.get? l = none := by
  induction qs generalizing s with
  | nil =>
    exact ⟨s, rfl, rfl, rfl, rfl, fun _ => rfl, fun r => by simp, fun _ _ _ => rfl,
      (fun q h => by cases h), fun _ _ => rfl, (fun l ⟨q, h, _⟩ => by cases h)⟩
  | cons q t ih =>
    obtain ⟨hqt, ht⟩ := List.nodup_cons.mp hqs
    obtain ⟨s1, b1, b2, b3, b4, b6, b7, b8, b9⟩ := forgetCell_ok (s := s) (row := row) (q := q)
      (hin q List.mem_cons_self)
    have hlab : ∀ c ∈ t, lab s1 row c = lab s row c := fun c hc => by
      rw [b8, if_neg]
      rintro ⟨-, rfl⟩
      exact hqt hc
    obtain ⟨s2, c1, c2, c3, c4, c6, c7, c8, c9, c10, c11⟩ := ih (s := s1) ht (fun c hc l hl => by
        rw [hlab c hc] at hl
        rw [b9, if_neg]
        · exact hin c (List.mem_cons_of_mem _ hc) l hl
        · intro e
          have := hdis q List.mem_cons_self c (List.mem_cons_of_mem _ hc) l e hl
          subst this
          exact hqt hc) (fun c hc c' hc' l h1 h2 => by
        rw [hlab c hc] at h1
        rw [hlab c' hc'] at h2
        exact hdis c (List.mem_cons_of_mem _ hc) c' (List.mem_cons_of_mem _ hc') l h1 h2)
    refine ⟨s2, ?_, c2.trans b2, c3.trans b3, c4.trans b4, fun r => (c6 r).trans (b6 r), ?_, ?_, ?_, ?_,
      ?_⟩
    · rw [forgetAll, b1]
      exact c1
    · intro r
      rw [c7, b7]
      by_cases h : r = row <;> simp [h]
    · intro r c hc
      rw [c8 r c, b8, if_neg]
      · rintro ⟨rfl, rfl⟩
        rcases hc with h | h
        · exact h rfl
        · exact h List.mem_cons_self
      · rcases hc with h | h
        · exact Or.inl h
        · exact Or.inr fun h' => h (List.mem_cons_of_mem _ h')
    · intro c hc
      rcases List.mem_cons.mp hc with rfl | hc
      · rw [c8 row c (Or.inr hqt), b8, if_pos ⟨rfl, rfl⟩]
      · exact c9 c hc
    · intro l hl
      rw [c10 l fun c hc => by rw [hlab c hc]; exact hl c (List.mem_cons_of_mem _ hc), b9,
        if_neg (hl q List.mem_cons_self)]
    · rintro l ⟨c, hc, hl⟩
      rcases List.mem_cons.mp hc with rfl | hc
      · by_cases h : ∃ q ∈ t, lab s1 row q = some l
        · exact c11 l h
        · rw [c10 l (fun c hc e => h ⟨c, hc, e⟩), b9, if_pos hl]
      · exact c11 l ⟨c, hc, by rw [hlab c hc]; exact hl⟩

theorem predictAll_ok (hinj : Function.Injective P.label) {ins : Dict Nat V} {a : List V}
    {draw : Nat → V} {clock : Nat} {ts : List Nat} {i : Nat} (ha : args ins s.inputs = .ok a)
    (hf : ∀ j, i ≤ j → s.ripl.get? (P.label (clock + j)) = none) :
    ∃ R, predictAll P row ins draw clock i ts s
        = .ok (List.zipWith (fun q j => (q, draw j)) ts (List.range' i ts.length)) { s with ripl := R } ∧
      (∀ l, (∀ j ∈ List.range' i ts.length, l ≠ P.label (clock + j)) → R.get? l = s.ripl.get? l) ∧
      ∀ j ∈ List.range' i ts.length, R.get? (P.label (clock + j)) ≠ none := by
  induction ts generalizing s i with
  | nil => exact ⟨s.ripl, rfl, fun _ _ => rfl, (fun j h => by cases h)⟩
  | cons q t ih =>
    have hne : ∀ j, i + 1 ≤ j → P.label (clock + j) ≠ P.label (clock + i) := fun j hj e => by
      have := hinj e
      omega
    obtain ⟨R, r1, r2, r3⟩ := ih (i := i + 1)
      (s := { s with ripl := s.ripl.set (P.label (clock + i)) ⟨row, q, a, none⟩ }) ha fun j hj => by
      show Dict.get? (s.ripl.set _ _) _ = none
      rw [Dict.get?_set, if_neg (hne j hj)]
      exact hf j (by omega)
    refine ⟨R, ?_, ?_, ?_⟩
    · rw [predictAll, ha]
      simp only []
      rw [if_neg (by simp [Dict.has, hf i (Nat.le_refl i)]), r1]
      rfl
    · intro l hl
      rw [List.length_cons, List.range'_succ] at hl
      rw [r2 l fun j hj => hl j (List.mem_cons_of_mem _ hj)]
      show Dict.get? (s.ripl.set _ _) _ = _
      rw [Dict.get?_set, if_neg (hl i List.mem_cons_self)]
    · intro j hj
      rw [List.length_cons, List.range'_succ] at hj
      rcases List.mem_cons.mp hj with rfl | hj
      · rw [r2 _ fun k hk => (hne k (List.mem_range'_1.mp hk).1).symm]
        show Dict.get? (s.ripl.set _ _) _ ≠ _
        simp
      · exact r3 j hj

theorem forgetLabels_ok {ls : List Nat} (hls : ls.Nodup) (hin : ∀ l ∈ ls, s.ripl.get? l ≠ none) :
    ∃ R, forgetLabels ls s = .ok { s with ripl := R } ∧
      (∀ l, l ∉ ls → R.get? l = s.ripl.get? l) ∧ ∀ l ∈ ls, R.get? l = none := by
  induction ls generalizing s with
  | nil => exact ⟨s.ripl, rfl, fun _ _ => rfl, (fun j h => by cases h)⟩
  | cons l t ih =>
    obtain ⟨hlt, ht⟩ := List.nodup_cons.mp hls
    obtain ⟨R, r1, r2, r3⟩ := ih (s := { s with ripl := s.ripl.erase l }) ht fun m hm => by
      show Dict.get? (s.ripl.erase l) m ≠ none
      rw [Dict.get?_erase, if_neg (fun e : m = l => hlt (e ▸ hm))]
      exact hin m (List.mem_cons_of_mem _ hm)
    refine ⟨R, ?_, ?_, ?_⟩
    · obtain ⟨f, hf⟩ := Option.ne_none_iff_exists'.mp (hin l List.mem_cons_self)
      rw [forgetLabels, if_neg (by simp [Dict.has, hf]), r1]
    · intro m hm
      rw [r2 m fun h => hm (List.mem_cons_of_mem _ h)]
      show Dict.get? (s.ripl.erase l) m = _
      rw [Dict.get?_erase, if_neg (fun e : m = l => hm (e ▸ List.mem_cons_self))]
    · intro m hm
      by_cases h : m ∈ t
      · exact r3 m h
      · rw [r2 m h]
        rcases List.mem_cons.mp hm with rfl | hm
        · exact Dict.get?_erase_self _ _
        · exact absurd hm h

/-- The bookkeeping is right. -/
structure Inv (P : Program V) (s : VsCgpm V) (b : Book V) : Prop where
  used : Used P s
  link : ∀ l f, s.ripl.get? l = some f → lab s f.row f.col = some l
  back : ∀ r q l, lab s r q = some l → ∃ f, s.ripl.get? l = some f ∧ f.row = r ∧ f.col = q
  outs : ∀ r q, lab s r q ≠ none → q ∈ s.outputs
  nodup : s.outputs.Nodup
  sound : ∀ l f, s.ripl.get? l = some f → f.value ≠ none ∧ b.held f.row f.col = f.value ∧
    f.args.map some = s.inputs.map (b.given f.row)
  comp : ∀ r q, b.held r q ≠ none → lab s r q ≠ none
  rows : ∀ r, b.Has r → ∃ ins a, inp s r = some ins ∧ args ins s.inputs = .ok a ∧
    a.map some = s.inputs.map (b.given r)
  idle : ∀ r, ¬ b.Has r → inp s r = none ∨ inp s r = some []

theorem Inv.faithful {b : Book V} (h : Inv P s b) : Faithful s b where
  sound := h.sound
  complete := fun r q v hv => by
    obtain ⟨l, hl⟩ := Option.ne_none_iff_exists'.mp (h.comp r q (by rw [hv]; simp))
    obtain ⟨f, hf, h1, h2⟩ := h.back r q l hl
    exact ⟨l, f, hf, h1, h2⟩
  once := fun l l' f f' h1 h2 e1 e2 => by
    have a1 := h.link l f h1
    have a2 := h.link l' f' h2
    rw [e1, e2, a2] at a1
    cases a1
    rfl

theorem Inv.lab_iff {b : Book V} (h : Inv P s b) (r q : Nat) : lab s r q = none ↔ b.held r q = none := by
  constructor
  · intro hl
    by_contra hne
    exact h.comp r q hne hl
  · intro hb
    by_contra hne
    obtain ⟨l, hl⟩ := Option.ne_none_iff_exists'.mp hne
    obtain ⟨f, hf, rfl, rfl⟩ := h.back r q l hl
    have := h.sound l f hf
    rw [hb] at this
    exact this.1 this.2.1.symm

/-- The part of the object that a call without effects leaves. -/
theorem Inv.congr {b : Book V} (h : Inv P s b) (h1 : s'.outputs = s.outputs) (h2 : s'.inputs = s.inputs)
    (h3 : Used P s') (h4 : ∀ l, s'.ripl.get? l = s.ripl.get? l) (h5 : ∀ r q, lab s' r q = lab s r q)
    (h6 : ∀ r, inp s' r = inp s r ∨ (inp s r = none ∧ inp s' r = some [])) : Inv P s' b where
  used := h3
  link := fun l f hf => by rw [h5]; exact h.link l f (by rw [← h4]; exact hf)
  back := fun r q l hl => by
    rw [h5] at hl
    rw [h4]
    exact h.back r q l hl
  outs := fun r q hl => by rw [h1]; rw [h5] at hl; exact h.outs r q hl
  nodup := by rw [h1]; exact h.nodup
  sound := fun l f hf => by rw [h4] at hf; rw [h2]; exact h.sound l f hf
  comp := fun r q hb => by rw [h5]; exact h.comp r q hb
  rows := fun r hr => by
    obtain ⟨ins, a, i1, i2, i3⟩ := h.rows r hr
    rcases h6 r with e | ⟨e, -⟩
    · exact ⟨ins, a, e.trans i1, by rw [h2]; exact i2, by rw [h2]; exact i3⟩
    · rw [i1] at e; cases e
  idle := fun r hr => by
    rcases h6 r with e | ⟨-, e⟩
    · rw [e]; exact h.idle r hr
    · exact Or.inr e

end Cgpm.Vs
