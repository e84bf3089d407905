import Verif.Lemmas.Venture

/-!
Lemmas for C79: the effects of the calls.
-/
namespace Cgpm.Vs
variable {V : Type} [DecidableEq V] {P : Program V} {s s' : VsCgpm V} {row : Nat} {b : Book V}

/-- The two objects hold the same, up to an empty record of inputs. -/
structure Near (s s' : VsCgpm V) : Prop where
  outputs : s'.outputs = s.outputs
  inputs : s'.inputs = s.inputs
  clock : s.clock ≤ s'.clock
  ripl : ∀ l, s'.ripl.get? l = s.ripl.get? l
  lab : ∀ r q, lab s' r q = lab s r q
  inp : ∀ r, inp s' r = inp s r ∨ (inp s r = none ∧ inp s' r = some [])

theorem Near.rfl : Near s s :=
  ⟨Eq.refl _, Eq.refl _, Nat.le_refl _, fun _ => Eq.refl _, fun _ _ => Eq.refl _, fun _ => Or.inl (Eq.refl _)⟩

theorem Near.inv (h : Inv P s b) (n : Near s s') : Inv P s' b :=
  h.congr n.outputs n.inputs (fun l hl => by
    rw [n.ripl] at hl
    obtain ⟨i, hi, e⟩ := h.used l hl
    exact ⟨i, Nat.lt_of_lt_of_le hi n.clock, e⟩) n.ripl n.lab n.inp

theorem lab_of_not_has (h : s.obs.has row = false) (q : Nat) : lab s row q = none := by
  unfold lab entry
  cases hg : s.obs.get? row with
  | none => rfl
  | some e => simp [Dict.has, hg] at h

theorem inp_of_not_has (h : s.obs.has row = false) : inp s row = none := by
  unfold inp entry
  cases hg : s.obs.get? row with
  | none => rfl
  | some e => simp [Dict.has, hg] at h

theorem labels_has (q : Nat) : (entry s row).labels.has q = (lab s row q).isSome := rfl

/-- The object with the inputs of a row recorded. -/
def record (s : VsCgpm V) (row : Nat) (ins : Dict Nat V) : VsCgpm V :=
  { s with obs := s.obs.set row { entry s row with inputs := some ins } }

theorem record_lab (ins : Dict Nat V) (r q : Nat) : lab (record s row ins) r q = lab s r q := by
  unfold lab record
  have := entry_set s row { entry s row with inputs := some ins } s.ripl s.clock r
  rw [this]
  split <;> rename_i h <;> simp [h]

theorem record_inp (ins : Dict Nat V) (r : Nat) :
    inp (record s row ins) r = if r = row then some ins else inp s r := by
  unfold inp record
  have := entry_set s row { entry s row with inputs := some ins } s.ripl s.clock r
  rw [this]
  split <;> rename_i h <;> simp [h]

theorem record_has (ins : Dict Nat V) (r : Nat) :
    (record s row ins).obs.has r = (s.obs.has r || decide (r = row)) := has_set s row _ r

theorem record_near (h : s.obs.has row = true) : Near s (record s row ((inp s row).getD [])) := by
  refine ⟨rfl, rfl, Nat.le_refl _, fun _ => rfl, fun r q => record_lab _ r q, fun r => ?_⟩
  rw [record_inp]
  split
  · rename_i e
    subst e
    cases hi : inp s r with
    | none => exact Or.inr ⟨rfl, rfl⟩
    | some x => exact Or.inl rfl
  · exact Or.inl rfl

theorem ite_eq_cases {α : Type} {c : Prop} [Decidable c] {x y v : α} (h : (if c then x else y) = v) :
    (c ∧ x = v) ∨ (¬ c ∧ y = v) := by
  by_cases hc : c
  · rw [if_pos hc] at h; exact Or.inl ⟨hc, h⟩
  · rw [if_neg hc] at h; exact Or.inr ⟨hc, h⟩

theorem validateSimulate_cases (P : Program V) (s : VsCgpm V) (row : Nat) (targets : List Nat)
    (constraints inputs : Dict Nat V) :
    (∃ e s1, validateSimulate P s row targets constraints inputs = .err e s1 ∧ Near s s1 ∧
      ∀ r, s1.obs.has r = s.obs.has r) ∨
    ∃ ins s1, validateSimulate P s row targets constraints inputs = .ok ins s1 ∧ Near s s1 ∧
      (∀ r, s1.obs.has r = s.obs.has r) ∧ sameSet ins.keys s.inputs = true ∧
      (∀ q ∈ constraints.keys, q ∈ s.outputs) ∧ (∀ q ∈ constraints.keys, lab s row q = none) := by
  generalize hv : validateSimulate P s row targets constraints inputs = v
  unfold validateSimulate at hv
  rcases ite_eq_cases hv with ⟨-, hv⟩ | ⟨-, hv⟩; · exact Or.inl ⟨_, _, hv.symm, Near.rfl, fun _ => rfl⟩
  rcases ite_eq_cases hv with ⟨-, hv⟩ | ⟨-, hv⟩; · exact Or.inl ⟨_, _, hv.symm, Near.rfl, fun _ => rfl⟩
  rcases ite_eq_cases hv with ⟨-, hv⟩ | ⟨-, hv⟩; · exact Or.inl ⟨_, _, hv.symm, Near.rfl, fun _ => rfl⟩
  rcases ite_eq_cases hv with ⟨-, hv⟩ | ⟨-, hv⟩; · exact Or.inl ⟨_, _, hv.symm, Near.rfl, fun _ => rfl⟩
  rcases ite_eq_cases hv with ⟨-, hv⟩ | ⟨hc, hv⟩; · exact Or.inl ⟨_, _, hv.symm, Near.rfl, fun _ => rfl⟩
  rcases ite_eq_cases hv with ⟨-, hv⟩ | ⟨-, hv⟩; · exact Or.inl ⟨_, _, hv.symm, Near.rfl, fun _ => rfl⟩
  rcases ite_eq_cases hv with ⟨-, hv⟩ | ⟨-, hv⟩; · exact Or.inl ⟨_, _, hv.symm, Near.rfl, fun _ => rfl⟩
  rcases ite_eq_cases hv with ⟨-, hv⟩ | ⟨hl, hv⟩; · exact Or.inl ⟨_, _, hv.symm, Near.rfl, fun _ => rfl⟩
  rcases ite_eq_cases hv with ⟨-, hv⟩ | ⟨-, hv⟩; · exact Or.inl ⟨_, _, hv.symm, Near.rfl, fun _ => rfl⟩
  have hc' : ∀ q ∈ constraints.keys, q ∈ s.outputs := by simpa using hc
  have hl' : ∀ q ∈ constraints.keys, lab s row q = none := by
    intro q hq
    cases hh : s.obs.has row with
    | false => exact lab_of_not_has hh q
    | true =>
      rw [hh] at hl
      simp only [Bool.true_and, Bool.not_eq_true, List.any_eq_false] at hl
      have := hl q hq
      rw [labels_has] at this
      simpa using this
  dsimp only at hv
  by_cases hb : (s.obs.has row && inputs.isEmpty) = true
  · have hh : s.obs.has row = true := by simp at hb; exact hb.1
    have hn := record_near hh
    have hr : ∀ r, (record s row ((inp s row).getD [])).obs.has r = s.obs.has r := fun r => by
      rw [record_has]
      by_cases e : r = row
      · subst e; simp [hh]
      · simp [e]
    rw [if_pos hb, if_pos hb] at hv
    split at hv
    · rename_i hs
      exact Or.inr ⟨_, _, hv.symm, hn, hr, hs, hc', hl'⟩
    · exact Or.inl ⟨_, _, hv.symm, hn, hr⟩
  · rw [if_neg hb, if_neg hb] at hv
    split at hv
    · rename_i hs
      exact Or.inr ⟨_, _, hv.symm, Near.rfl, fun _ => rfl, hs, hc', hl'⟩
    · exact Or.inl ⟨_, _, hv.symm, Near.rfl, fun _ => rfl⟩

theorem simulate_cases (hacc : Accepting P) (hinj : Function.Injective P.label) (h : Inv P s b)
    {targets : List Nat} {constraints inputs : Dict Nat V} {draw : Nat → V} (hwf : constraints.WF) :
    (∃ e s', simulate P s row targets constraints inputs draw = .err e s' ∧ Near s s' ∧
      (∀ r, s'.obs.has r = s.obs.has r) ∧
      validateSimulate P s row targets constraints inputs = .err e s') ∨
    ∃ s', simulate P s row targets constraints inputs draw
        = .ok (List.zipWith (fun q j => (q, draw j)) targets (List.range' 0 targets.length)) s' ∧
      Near s s' ∧ ∀ r, s'.obs.has r = (s.obs.has r || (decide (r = row) && !constraints.isEmpty)) := by
  unfold simulate
  rcases validateSimulate_cases P s row targets constraints inputs with
    ⟨e, s1, e1, n1, g1⟩ | ⟨ins, s1, e1, n1, g1, hs, hc, hl⟩
  · rw [e1]
    exact Or.inl ⟨e, s1, rfl, n1, g1, rfl⟩
  · rw [e1]
    simp only []
    have i1 := n1.inv h
    obtain ⟨a, ha, -⟩ := args_ok (ins := ins) (l := s1.inputs) fun i hi => by
      rw [n1.inputs] at hi
      exact (sameSet_iff.mp hs i).mpr hi
    obtain ⟨s2, c1, c2, c3, c4, c5, c6, c7, c8, c9, c10⟩ := observeAll_ok (row := row) hacc hinj hwf
      i1.used ha fun q hq => by rw [n1.outputs]; exact hc q hq
    rw [c1]
    simp only []
    obtain ⟨R, r1, r2, r3⟩ := predictAll_ok (row := row) (draw := draw) (ts := targets) (i := 0)
      (clock := s2.clock) (s := { s2 with clock := s2.clock + targets.length }) hinj
      (by rw [show VsCgpm.inputs { s2 with clock := s2.clock + targets.length } = s2.inputs from rfl, c3]
          exact ha)
      fun j _ => fresh hinj c5 (by omega)
    rw [r1]
    simp only []
    rw [← List.range_eq_range'] at r2 r3
    obtain ⟨R', t1, t2, t3⟩ := forgetLabels_ok
      (s := { s2 with clock := s2.clock + targets.length, ripl := R })
      (ls := (List.range targets.length).map fun i => P.label (s2.clock + i))
      (List.nodup_range.map fun x y e => by have := hinj e; omega)
      (fun l hl' => by
        obtain ⟨j, hj, rfl⟩ := List.mem_map.mp hl'
        exact r3 j hj)
    have hfr : ∀ l ∈ (List.range targets.length).map (fun i => P.label (s2.clock + i)),
        s2.ripl.get? l = none := fun l hl' => by
      obtain ⟨j, hj, rfl⟩ := List.mem_map.mp hl'
      exact fresh hinj c5 (by omega)
    have hR : ∀ l, R'.get? l = s2.ripl.get? l := fun l => by
      by_cases hm : l ∈ (List.range targets.length).map fun i => P.label (s2.clock + i)
      · rw [t3 l hm, hfr l hm]
      · rw [t2 l hm]
        exact r2 l fun j hj e => hm (e ▸ List.mem_map_of_mem hj)
    have hcell : ∀ q ∈ constraints.keys, ∀ l, lab s2 row q = some l →
        ∃ v i, s1.clock ≤ i ∧ l = P.label i ∧ s2.ripl.get? l = some ⟨row, q, a, some v⟩ := by
      intro q hq l hl'
      obtain ⟨v, hv⟩ := Dict.exists_of_mem_keys hq
      obtain ⟨i, hi, e2, e3⟩ := c9 q v hv
      rw [hl'] at e2
      cases e2
      exact ⟨v, i, hi, rfl, e3⟩
    obtain ⟨s5, d1, d2, d3, d4, d5, d6, d7, d8, d9, d10⟩ := forgetAll_ok (row := row)
      (s := { s2 with clock := s2.clock + targets.length, ripl := R' }) (qs := constraints.keys) hwf
      (fun q hq l hl' => by
        obtain ⟨v, i, -, -, e⟩ := hcell q hq l hl'
        show R'.get? l ≠ none
        rw [hR, e]; simp)
      (fun q hq q' hq' l h1 h2 => by
        obtain ⟨v, i, -, -, e⟩ := hcell q hq l h1
        obtain ⟨v', i', -, -, e'⟩ := hcell q' hq' l h2
        rw [e] at e'
        injection e' with e'
        injection e')
    refine Or.inr ⟨s5, ?_, ⟨d2.trans (c2.trans n1.outputs), d3.trans (c3.trans n1.inputs), ?_, ?_, ?_, ?_⟩,
      ?_⟩
    · rw [t1]
      show (match forgetAll row constraints.keys
        { s2 with clock := s2.clock + targets.length, ripl := R' } with
        | .err e s => Res.err e s
        | .ok s => Res.ok _ s) = _
      rw [d1]
    · rw [d4]
      have := n1.clock
      show s.clock ≤ s2.clock + targets.length
      omega
    · intro l
      rw [← n1.ripl]
      by_cases hm : ∃ q ∈ constraints.keys, lab s2 row q = some l
      · rw [d10 l hm]
        obtain ⟨q, hq, hl'⟩ := hm
        obtain ⟨v, i, hi, rfl, e⟩ := hcell q hq l hl'
        exact (fresh hinj i1.used hi).symm
      · rw [d9 l fun q hq e => hm ⟨q, hq, e⟩]
        show R'.get? l = _
        rw [hR]
        exact c10 l fun q hq e => hm ⟨q, hq, e⟩
    · intro r q
      by_cases hm : r = row ∧ q ∈ constraints.keys
      · obtain ⟨rfl, hq⟩ := hm
        rw [d8 q hq, hl q hq]
      · have hm' : r ≠ row ∨ q ∉ constraints.keys := by
          by_contra hx
          push Not at hx
          exact hm hx
        rw [d7 r q hm', ← n1.lab]
        exact c8 r q hm'
    · intro r
      have : inp s5 r = inp s1 r := (d5 r).trans (c6 r)
      rw [this]
      exact n1.inp r
    · intro r
      rw [d6]
      show (s2.obs.has r || _) = _
      rw [c7, g1]
      have : constraints.keys.isEmpty = constraints.isEmpty := by
        cases constraints <;> rfl
      rw [this]
      cases s.obs.has r <;> cases (decide (r = row) && !constraints.isEmpty) <;> rfl

theorem validateIncorporate_cases (P : Program V) (s : VsCgpm V) (row : Nat)
    (observation inputs : Dict Nat V) :
    (validateIncorporate P s row observation inputs = .err .valueError s) ∨
    ∃ known, validateIncorporate P s row observation inputs = .ok known (record s row known) ∧
      observation ≠ [] ∧
      (∀ q ∈ observation.keys, q ∈ s.outputs) ∧ (∀ q ∈ observation.keys, lab s row q = none) ∧
      ((s.obs.has row = true ∧ known = (inp s row).getD []) ∨
        (s.obs.has row = false ∧ known = inputs ∧ sameSet inputs.keys s.inputs = true)) := by
  unfold validateIncorporate
  split; · exact Or.inl rfl
  rename_i ho
  split; · exact Or.inl rfl
  rename_i hs
  split; · exact Or.inl rfl
  rename_i hc
  split; · exact Or.inl rfl
  split; · exact Or.inl rfl
  have ho' : observation ≠ [] := by simpa using ho
  have hc' : ∀ q ∈ observation.keys, q ∈ s.outputs := by simpa using hc
  split
  · rename_i hh
    split; · exact Or.inl rfl
    rename_i hl
    split; · exact Or.inl rfl
    refine Or.inr ⟨_, rfl, ho', hc', ?_, Or.inl ⟨hh, rfl⟩⟩
    intro q hq
    simp only [Bool.not_eq_true, List.any_eq_false] at hl
    have := hl q hq
    rw [labels_has] at this
    simpa using this
  · rename_i hh
    have hh' : s.obs.has row = false := by simpa using hh
    refine Or.inr ⟨_, rfl, ho', hc', fun q _ => lab_of_not_has hh' q, Or.inr ⟨hh', rfl, ?_⟩⟩
    rw [hh'] at hs
    simpa using hs

theorem incorporate_cases (hacc : Accepting P) (hinj : Function.Injective P.label) (h : Inv P s b)
    {observation inputs : Dict Nat V} (hwf : observation.WF) :
    (incorporate P s row observation inputs = .err .valueError s) ∨
    (∃ e s', incorporate P s row observation inputs = .err e s' ∧ Near s s' ∧
      (∀ r, s'.obs.has r = s.obs.has r) ∧ s.obs.has row = true ∧ ¬ b.Has row ∧ s.inputs ≠ []) ∨
    ∃ s', incorporate P s row observation inputs = .ok s' ∧
      Inv P s' (b.after (.incorporate row observation inputs) true) ∧
      (∀ r, s'.obs.has r = (s.obs.has r || decide (r = row))) ∧ observation ≠ [] ∧
      s'.inputs = s.inputs ∧
      (s.obs.has row = false → sameSet inputs.keys s.inputs = true) ∧
      (∀ r, inp s' r = if r = row then
        some (if s.obs.has row = true then (inp s row).getD [] else inputs) else inp s r) ∧
      (∀ l f, s'.ripl.get? l = some f → f.row = row ∨ s.ripl.get? l = some f) ∧
      (∀ l f, s.ripl.get? l = some f → s'.ripl.get? l = some f) ∧
      (s.obs.has row = true → ¬ b.Has row → s.inputs = []) := by
  unfold incorporate
  rcases validateIncorporate_cases P s row observation inputs with e1 | ⟨known, e1, ho, hc, hl, hk⟩
  · rw [e1]
    exact Or.inl rfl
  · rw [e1]
    simp only []
    have hknown : (∃ a, args known s.inputs = .ok a ∧
        a.map some = s.inputs.map ((b.after (.incorporate row observation inputs) true).given row) ∧
        (s.obs.has row = true → ¬ b.Has row → s.inputs = [])) ∨
        (args known s.inputs = .error .keyError ∧ s.obs.has row = true ∧ ¬ b.Has row ∧ s.inputs ≠ []) := by
      by_cases hb : b.Has row
      · obtain ⟨ins, a, f1, f2, f3⟩ := h.rows row hb
        rcases hk with ⟨hh, rfl⟩ | ⟨hh, -, -⟩
        · refine Or.inl ⟨a, by rw [f1]; exact f2, ?_, fun _ hn => absurd hb hn⟩
          rw [f3]
          simp [Book.after, hb]
        · rw [inp_of_not_has hh] at f1
          cases f1
      · rcases hk with ⟨hh, rfl⟩ | ⟨hh, rfl, hs⟩
        · have : (inp s row).getD [] = [] := by
            rcases h.idle row hb with e | e <;> rw [e] <;> rfl
          rw [this]
          cases hi : s.inputs with
          | nil => exact Or.inl ⟨[], rfl, rfl, fun _ _ => rfl⟩
          | cons i t => exact Or.inr ⟨rfl, hh, hb, by simp⟩
        · obtain ⟨a, f1, f2⟩ := args_ok (ins := known) (l := s.inputs) fun i hi =>
            (sameSet_iff.mp hs i).mpr hi
          refine Or.inl ⟨a, f1, ?_, (fun h' => by rw [hh] at h'; cases h')⟩
          rw [f2]
          simp [Book.after, hb]
    rcases hknown with ⟨a, ha, hg, hgh⟩ | ⟨herr, hh, hb, hi⟩
    · refine Or.inr (Or.inr ?_)
      obtain ⟨s2, c1, c2, c3, c4, c5, c6, c7, c8, c9, c10⟩ := observeAll_ok (row := row)
        (s := record s row known) hacc hinj hwf h.used ha hc
      refine ⟨s2, c1, ?_, ?_, ho, c3, ?_, fun r => ?_, ?_, ?_, hgh⟩
      · have hcell : ∀ q ∈ observation.keys, ∃ l v i, lab s2 row q = some l ∧ observation.get? q = some v ∧
            s.clock ≤ i ∧ l = P.label i ∧ s2.ripl.get? l = some ⟨row, q, a, some v⟩ := by
          intro q hq
          obtain ⟨v, hv⟩ := Dict.exists_of_mem_keys hq
          obtain ⟨i, hi, e2, e3⟩ := c9 q v hv
          exact ⟨_, v, i, e2, hv, hi, rfl, e3⟩
        have hcase : ∀ l, (∃ q v, q ∈ observation.keys ∧ observation.get? q = some v ∧
            lab s2 row q = some l ∧ s2.ripl.get? l = some ⟨row, q, a, some v⟩) ∨
            s2.ripl.get? l = s.ripl.get? l := by
          intro l
          by_cases hm : ∃ q ∈ observation.keys, lab s2 row q = some l
          · obtain ⟨q, hq, e⟩ := hm
            obtain ⟨l', v, i, f1, f2, -, -, f3⟩ := hcell q hq
            rw [e] at f1
            cases f1
            exact Or.inl ⟨q, v, hq, f2, e, f3⟩
          · exact Or.inr (c10 l fun q hq e => hm ⟨q, hq, e⟩)
        have hlab : ∀ r q, (r ≠ row ∨ q ∉ observation.keys) → lab s2 r q = lab s r q := fun r q hrq =>
          (c8 r q hrq).trans (record_lab known r q)
        have hold : ∀ r q, lab s r q ≠ none → r ≠ row ∨ q ∉ observation.keys := by
          intro r q hne
          by_contra hx
          push Not at hx
          obtain ⟨rfl, hq⟩ := hx
          exact hne (hl q hq)
        refine ⟨c5, ?_, ?_, ?_, by rw [c2]; exact h.nodup, ?_, ?_, ?_, ?_⟩
        · intro l f hf
          rcases hcase l with ⟨q, v, hq, hv, e2, e3⟩ | e
          · rw [hf] at e3
            cases e3
            exact e2
          · rw [e] at hf
            have h1 := h.link l f hf
            rw [hlab _ _ (hold _ _ (by rw [h1]; simp))]
            exact h1
        · intro r q l hr
          by_cases hm : r = row ∧ q ∈ observation.keys
          · obtain ⟨rfl, hq⟩ := hm
            obtain ⟨l', v, i, f1, f2, -, -, f3⟩ := hcell q hq
            rw [hr] at f1
            cases f1
            exact ⟨_, f3, rfl, rfl⟩
          · have hm' : r ≠ row ∨ q ∉ observation.keys := by
              by_contra hx
              push Not at hx
              exact hm hx
            rw [hlab r q hm'] at hr
            obtain ⟨f, hf, e1, e2⟩ := h.back r q l hr
            refine ⟨f, ?_, e1, e2⟩
            rw [c10 l fun q' hq' e => ?_]
            · exact hf
            · obtain ⟨l', v, i, f1, -, hi, f2, -⟩ := hcell q' hq'
              rw [e] at f1
              cases f1
              rw [f2, fresh hinj h.used hi] at hf
              cases hf
        · intro r q hr
          rw [c2]
          by_cases hm : r = row ∧ q ∈ observation.keys
          · exact hc q hm.2
          · have hm' : r ≠ row ∨ q ∉ observation.keys := by
              by_contra hx
              push Not at hx
              exact hm hx
            rw [hlab r q hm'] at hr
            exact h.outs r q hr
        · intro l f hf
          rw [c3]
          rcases hcase l with ⟨q, v, hq, hv, e2, e3⟩ | e
          · rw [hf] at e3
            cases e3
            refine ⟨by simp, ?_, hg⟩
            simp [Book.after, hv]
          · rw [e] at hf
            obtain ⟨f1, f2, f3⟩ := h.sound l f hf
            have h1 := h.link l f hf
            have h2 := hold _ _ (show lab s f.row f.col ≠ none by rw [h1]; simp)
            refine ⟨f1, ?_, ?_⟩
            · rw [← f2]
              simp only [Book.after]
              split
              · rename_i e'
                have : observation.get? f.col = none := by
                  rw [Dict.get?_eq_none_iff]
                  rcases h2 with h2 | h2
                  · exact absurd e' h2
                  · exact h2
                rw [this]
                rfl
              · rfl
            · show _ = s.inputs.map _
              rw [f3]
              simp only [Book.after]
              rw [if_neg]
              rintro ⟨e', hb⟩
              exact hb ⟨f.col, by rw [← e', f2]; exact f1⟩
        · intro r q hr
          by_cases hm : r = row ∧ q ∈ observation.keys
          · obtain ⟨rfl, hq⟩ := hm
            obtain ⟨l', v, i, f1, -⟩ := hcell q hq
            rw [f1]; simp
          · have hm' : r ≠ row ∨ q ∉ observation.keys := by
              by_contra hx
              push Not at hx
              exact hm hx
            rw [hlab r q hm']
            refine h.comp r q ?_
            simp only [Book.after] at hr
            split at hr
            · rename_i e'
              have : observation.get? q = none := by
                rw [Dict.get?_eq_none_iff]
                rcases hm' with h2 | h2
                · exact absurd e' h2
                · exact h2
              rw [this] at hr
              exact hr
            · exact hr
        · intro r hr
          rw [c3, c6, record_inp]
          by_cases e : r = row
          · subst e
            exact ⟨known, a, if_pos rfl, ha, hg⟩
          · rw [if_neg e]
            have : b.Has r := by
              obtain ⟨q, hq⟩ := hr
              simp only [Book.after, if_neg e] at hq
              exact ⟨q, hq⟩
            obtain ⟨ins, a', f1, f2, f3⟩ := h.rows r this
            refine ⟨ins, a', f1, f2, ?_⟩
            show _ = s.inputs.map _
            rw [f3]
            simp [Book.after, e]
        · intro r hr
          rw [c6, record_inp]
          have e : r ≠ row := by
            rintro rfl
            cases hob : observation with
            | nil => exact ho hob
            | cons p t =>
              refine hr ⟨p.1, ?_⟩
              obtain ⟨q, v⟩ := p
              simp [Book.after, hob, Dict.get?_cons]
          rw [if_neg e]
          refine h.idle r fun ⟨q, hq⟩ => hr ⟨q, ?_⟩
          simp only [Book.after, if_neg e]
          exact hq
      · intro r
        rw [c7, record_has]
        have : observation.isEmpty = false := by simpa using ho
        rw [this]
        cases s.obs.has r <;> cases decide (r = row) <;> rfl
      · intro hh
        rcases hk with ⟨h1, -⟩ | ⟨-, -, h3⟩
        · rw [hh] at h1; cases h1
        · exact h3
      · rw [c6, record_inp]
        rcases hk with ⟨h1, h2⟩ | ⟨h1, h2, h3⟩
        · simp only [h1, h2, if_true]
        · simp only [h1, h2, Bool.false_eq_true, if_false]
      · intro l f hf
        by_cases hm : ∃ q ∈ observation.keys, lab s2 row q = some l
        · obtain ⟨q, hq, e⟩ := hm
          obtain ⟨v, hv⟩ := Dict.exists_of_mem_keys hq
          obtain ⟨i, hi, e2, e3⟩ := c9 q v hv
          rw [e] at e2
          cases e2
          rw [hf] at e3
          cases e3
          exact Or.inl rfl
        · rw [c10 l fun q hq e => hm ⟨q, hq, e⟩] at hf
          exact Or.inr hf
      · intro l f hf
        rw [c10 l fun q hq e => ?_]
        · exact hf
        · obtain ⟨v, hv⟩ := Dict.exists_of_mem_keys hq
          obtain ⟨i, hi, e2, e3⟩ := c9 q v hv
          rw [e] at e2
          cases e2
          rw [fresh hinj h.used hi] at hf
          cases hf
    · refine Or.inr (Or.inl ?_)
      have hkn : known = (inp s row).getD [] := by
        rcases hk with ⟨-, e⟩ | ⟨e, -⟩
        · exact e
        · rw [hh] at e; cases e
      subst hkn
      refine ⟨.keyError, record s row ((inp s row).getD []), ?_, record_near hh, ?_, hh, hb, hi⟩
      · cases hob : observation with
        | nil => exact absurd hob ho
        | cons p t =>
          obtain ⟨q, v⟩ := p
          rw [observeAll]
          unfold observeCell
          rw [show (record s row ((inp s row).getD [])).inputs = s.inputs from rfl, herr]
          rfl
      · intro r
        rw [record_has]
        by_cases e : r = row
        · subst e; simp [hh]
        · simp [e]

theorem dict_empty {d : Dict Nat Nat} (h : ∀ q, d.get? q = none) : d.isEmpty = true := by
  cases d with
  | nil => rfl
  | cons p t =>
    obtain ⟨q, v⟩ := p
    have := h q
    rw [Dict.get?_cons, if_pos rfl] at this
    cases this

theorem unincorporate_cases (h : Inv P s b) :
    (s.obs.has row = false ∧ unincorporate s row = .err .valueError s) ∨
    (s.obs.has row = true ∧ ∃ s', unincorporate s row = .ok s' ∧
      Inv P s' (b.after (.unincorporate row) true) ∧
      (∀ r, s'.obs.has r = (s.obs.has r && decide (r ≠ row))) ∧ s'.inputs = s.inputs ∧
      (∀ r, inp s' r = if r = row then none else inp s r) ∧
      ∀ l f, s'.ripl.get? l = some f ↔ s.ripl.get? l = some f ∧ f.row ≠ row) := by
  unfold unincorporate
  cases hh : s.obs.has row with
  | false => exact Or.inl ⟨rfl, rfl⟩
  | true =>
    refine Or.inr ⟨rfl, ?_⟩
    obtain ⟨s2, d1, d2, d3, d4, d5, d6, d7, d8, d9, d10⟩ := forgetAll_ok (row := row) (s := s) h.nodup
      (fun q hq l hl => by
        obtain ⟨f, hf, -⟩ := h.back row q l hl
        rw [hf]; simp)
      (fun q hq q' hq' l h1 h2 => by
        obtain ⟨f, hf, -, e⟩ := h.back row q l h1
        obtain ⟨f', hf', -, e'⟩ := h.back row q' l h2
        rw [hf] at hf'
        cases hf'
        exact e.symm.trans e')
    have hnone : ∀ q, lab s2 row q = none := fun q => by
      by_cases hq : q ∈ s.outputs
      · exact d8 q hq
      · rw [d7 row q (Or.inr hq)]
        by_contra hne
        exact hq (h.outs row q hne)
    have hemp : (entry s2 row).labels.isEmpty = true := dict_empty hnone
    have hentry : ∀ r, entry { s2 with obs := s2.obs.erase row } r
        = if r = row then ⟨none, []⟩ else entry s2 r := fun r => by
      unfold entry
      rw [Dict.get?_erase]
      split <;> rfl
    have hlab : ∀ r q, lab { s2 with obs := s2.obs.erase row } r q
        = if r = row then none else lab s r q := fun r q => by
      unfold lab
      rw [hentry]
      split
      · rfl
      · rename_i e
        exact d7 r q (Or.inl e)
    have hinp : ∀ r, inp { s2 with obs := s2.obs.erase row } r
        = if r = row then none else inp s r := fun r => by
      unfold inp
      rw [hentry]
      split
      · rfl
      · exact d5 r
    have hripl : ∀ l f, s2.ripl.get? l = some f → s.ripl.get? l = some f ∧ f.row ≠ row := by
      intro l f hf
      by_cases hm : ∃ q ∈ s.outputs, lab s row q = some l
      · rw [d10 l hm] at hf; cases hf
      · rw [d9 l fun q hq e => hm ⟨q, hq, e⟩] at hf
        refine ⟨hf, fun e => hm ⟨f.col, ?_, ?_⟩⟩
        · exact h.outs f.row f.col (by rw [h.link l f hf]; simp)
        · rw [← e]; exact h.link l f hf
    refine ⟨{ s2 with obs := s2.obs.erase row }, ?_, ?_, ?_, d3, hinp, fun l f => ⟨hripl l f, fun ⟨hf, hr⟩ => ?_⟩⟩
    · simp only [Bool.not_true, Bool.false_eq_true, if_false]
      rw [d1]
      show (if (entry s2 row).labels.isEmpty = true then _ else _) = _
      rw [if_pos hemp]
    · refine ⟨?_, ?_, ?_, ?_, by rw [show VsCgpm.outputs { s2 with obs := s2.obs.erase row } = s2.outputs from rfl, d2]; exact h.nodup, ?_, ?_, ?_, ?_⟩
      · intro l hl
        obtain ⟨f, hf⟩ := Option.ne_none_iff_exists'.mp hl
        obtain ⟨i, hi, e⟩ := h.used l (by rw [(hripl l f hf).1]; simp)
        exact ⟨i, by show i < s2.clock; rw [d4]; exact hi, e⟩
      · intro l f hf
        obtain ⟨h1, h2⟩ := hripl l f hf
        rw [hlab, if_neg h2]
        exact h.link l f h1
      · intro r q l hl
        rw [hlab] at hl
        split at hl
        · cases hl
        · rename_i e
          obtain ⟨f, hf, e1, e2⟩ := h.back r q l hl
          refine ⟨f, ?_, e1, e2⟩
          show s2.ripl.get? l = _
          rw [d9 l fun q' hq' e' => ?_]
          · exact hf
          · obtain ⟨f', hf', e3, -⟩ := h.back row q' l e'
            rw [hf] at hf'
            cases hf'
            exact e (e1.symm.trans e3)
      · intro r q hl
        rw [hlab] at hl
        split at hl
        · exact absurd rfl hl
        · show q ∈ s2.outputs
          rw [d2]
          exact h.outs r q hl
      · intro l f hf
        obtain ⟨h1, h2⟩ := hripl l f hf
        obtain ⟨f1, f2, f3⟩ := h.sound l f h1
        refine ⟨f1, ?_, ?_⟩
        · simp only [Book.after, if_neg h2]
          exact f2
        · show _ = s2.inputs.map _
          rw [d3]
          exact f3
      · intro r q hr
        simp only [Book.after] at hr
        split at hr
        · exact absurd rfl hr
        · rename_i e
          rw [hlab, if_neg e]
          exact h.comp r q hr
      · rintro r ⟨q, hq⟩
        simp only [Book.after] at hq
        split at hq
        · exact absurd rfl hq
        · rename_i e
          obtain ⟨ins, a, f1, f2, f3⟩ := h.rows r ⟨q, hq⟩
          refine ⟨ins, a, ?_, ?_, ?_⟩
          · rw [hinp, if_neg e]; exact f1
          · show args ins s2.inputs = _
            rw [d3]; exact f2
          · show _ = s2.inputs.map _
            rw [d3]; exact f3
      · intro r hr
        rw [hinp]
        split
        · exact Or.inl rfl
        · rename_i e
          refine h.idle r fun ⟨q, hq⟩ => hr ⟨q, ?_⟩
          simp only [Book.after, if_neg e]
          exact hq
    · intro r
      show (s2.obs.erase row).has r = _
      unfold Dict.has
      rw [Dict.get?_erase]
      split
      · rename_i e; subst e; simp
      · rename_i e
        have := d6 r
        unfold Dict.has at this
        rw [this]
        simp [e]
    · show s2.ripl.get? l = some f
      rw [d9 l fun q hq e => ?_]
      · exact hf
      · obtain ⟨f', hf', e', -⟩ := h.back row q l e
        rw [hf] at hf'
        cases hf'
        exact hr e'

/-- The rows of the object are those of the book, with their inputs. -/
structure Exact (s : VsCgpm V) (b : Book V) : Prop where
  has : ∀ r, s.obs.has r = true ↔ b.Has r
  given : ∀ r, b.Has r → ∃ ins, inp s r = some ins ∧ (∀ k, ins.get? k = b.given r k) ∧
    ∀ i, i ∈ ins.keys ↔ i ∈ s.inputs

theorem after_has {observation inputs : Dict Nat V} (ho : observation ≠ []) (r : Nat) :
    (b.after (.incorporate row observation inputs) true).Has r ↔ b.Has r ∨ r = row := by
  constructor
  · rintro ⟨q, hq⟩
    by_cases e : r = row
    · exact Or.inr e
    · simp only [Book.after, if_neg e] at hq
      exact Or.inl ⟨q, hq⟩
  · rintro (⟨q, hq⟩ | rfl)
    · refine ⟨q, ?_⟩
      simp only [Book.after]
      split
      · cases observation.get? q with
        | none => exact hq
        | some v => simp
      · exact hq
    · cases hob : observation with
      | nil => exact absurd hob ho
      | cons p t =>
        obtain ⟨q, v⟩ := p
        exact ⟨q, by simp [Book.after, Dict.get?_cons]⟩

theorem near_exact (h : Exact s b) (n : Near s s') (hh : ∀ r, s'.obs.has r = s.obs.has r) :
    Exact s' b where
  has := fun r => by rw [hh]; exact h.has r
  given := fun r hr => by
    obtain ⟨ins, h1, h2, h3⟩ := h.given r hr
    rcases n.inp r with e | ⟨e, -⟩
    · exact ⟨ins, e.trans h1, h2, by rw [n.inputs]; exact h3⟩
    · rw [h1] at e; cases e

theorem get?_map_vals {A B : Type} (f : A → B) (d : Dict Nat A) (k : Nat) :
    Dict.get? (d.map fun p => (p.1, f p.2)) k = (d.get? k).map f := by
  induction d with
  | nil => rfl
  | cons p t ih =>
    obtain ⟨q, v⟩ := p
    rw [List.map_cons, Dict.get?_cons, Dict.get?_cons, ih]
    split <;> rfl

theorem reload_has (r : Nat) : (reload s).obs.has r = s.obs.has r := by
  unfold Dict.has
  have hg : (reload s).obs.get? r
      = (s.obs.get? r).map fun e : Entry V => ⟨some (e.inputs.getD []), e.labels⟩ :=
    get?_map_vals (B := Entry V) (fun e : Entry V => ⟨some (e.inputs.getD []), e.labels⟩) s.obs r
  rw [hg]
  cases s.obs.get? r <;> rfl

theorem reload_near : Near s (reload s) := by
  have hg : ∀ r, (reload s).obs.get? r
      = (s.obs.get? r).map fun e : Entry V => ⟨some (e.inputs.getD []), e.labels⟩ :=
    fun r => get?_map_vals (B := Entry V) (fun e : Entry V => ⟨some (e.inputs.getD []), e.labels⟩) s.obs r
  refine ⟨rfl, rfl, Nat.le_refl _, fun _ => rfl, fun r q => ?_, fun r => ?_⟩
  · unfold lab entry
    rw [hg]
    cases s.obs.get? r <;> rfl
  · unfold inp entry
    rw [hg]
    cases s.obs.get? r with
    | none => exact Or.inl rfl
    | some e =>
      obtain ⟨i, l⟩ := e
      cases i with
      | none => exact Or.inr ⟨rfl, rfl⟩
      | some i => exact Or.inl rfl

theorem run_inv (hacc : Accepting P) (hinj : Function.Injective P.label) (h : Inv P s b) (op : Op V)
    (hwf : op.WF) : Inv P (op.run P s).2 (b.after op (op.run P s).1) := by
  cases op with
  | incorporate row observation inputs =>
    rcases incorporate_cases (row := row) (inputs := inputs) hacc hinj h hwf.1 with
      e | ⟨e, s', e1, n, -⟩ | ⟨s', e1, i, -⟩
    · simp only [Op.run, e]; exact h
    · simp only [Op.run, e1]; exact n.inv h
    · simp only [Op.run, e1]; exact i
  | unincorporate row =>
    rcases unincorporate_cases (row := row) h with ⟨-, e⟩ | ⟨-, s', e1, i, -⟩
    · simp only [Op.run, e]; exact h
    · simp only [Op.run, e1]; exact i
  | simulate row targets constraints inputs draw =>
    rcases simulate_cases (row := row) (targets := targets) (inputs := inputs) (draw := draw) hacc hinj h
      hwf.1 with ⟨e, s', e1, n, -⟩ | ⟨s', e1, n, -⟩
    · simp only [Op.run, e1]; exact n.inv h
    · simp only [Op.run, e1]; exact n.inv h
  | reload => exact reload_near.inv h

theorem run_exact (hacc : Accepting P) (hinj : Function.Injective P.label) (h : Inv P s b)
    (hx : Exact s b) (op : Op V) (hwf : op.WF) (hst : op.Settled b) :
    Exact (op.run P s).2 (b.after op (op.run P s).1) := by
  cases op with
  | incorporate row observation inputs =>
    rcases incorporate_cases (row := row) (inputs := inputs) hacc hinj h hwf.1 with
      e | ⟨e, s', e1, n, hh, -⟩ | ⟨s', e1, -, hh, ho, hi, hs, hp, -⟩
    · simp only [Op.run, e]; exact hx
    · simp only [Op.run, e1]; exact near_exact hx n hh
    · simp only [Op.run, e1]
      constructor
      · intro r
        rw [after_has ho, hh, ← hx.has r]
        simp
      · intro r hr
        rw [after_has ho] at hr
        rw [hp, hi]
        by_cases e : r = row
        · subst e
          rw [if_pos rfl]
          by_cases hb : b.Has r
          · obtain ⟨ins, h1, h2, h3⟩ := hx.given r hb
            rw [if_pos ((hx.has r).mpr hb), h1]
            refine ⟨ins, rfl, fun k => ?_, h3⟩
            simp only [Book.after, hb, not_true, and_false, if_false]
            exact h2 k
          · have hf : s.obs.has r = false := by
              cases hq : s.obs.has r
              · rfl
              · exact absurd ((hx.has r).mp hq) hb
            rw [hf]
            refine ⟨inputs, by simp, fun k => ?_, sameSet_iff.mp (hs hf)⟩
            simp [Book.after, hb]
        · rw [if_neg e]
          obtain ⟨ins, h1, h2, h3⟩ := hx.given r (hr.resolve_right e)
          refine ⟨ins, h1, fun k => ?_, h3⟩
          simp only [Book.after, e, false_and, if_false]
          exact h2 k
  | unincorporate row =>
    rcases unincorporate_cases (row := row) h with ⟨-, e⟩ | ⟨-, s', e1, -, hh, hi, hp, -⟩
    · simp only [Op.run, e]; exact hx
    · simp only [Op.run, e1]
      have key : ∀ r, (b.after (.unincorporate row) true).Has r ↔ b.Has r ∧ r ≠ row := by
        intro r
        constructor
        · rintro ⟨q, hq⟩
          simp only [Book.after] at hq
          split at hq
          · exact absurd rfl hq
          · rename_i e
            exact ⟨⟨q, hq⟩, e⟩
        · rintro ⟨⟨q, hq⟩, e⟩
          exact ⟨q, by simp only [Book.after, if_neg e]; exact hq⟩
      constructor
      · intro r
        rw [key, hh, ← hx.has r]
        simp
      · intro r hr
        obtain ⟨hb, e⟩ := (key r).mp hr
        rw [hp, if_neg e, hi]
        exact hx.given r hb
  | simulate row targets constraints inputs draw =>
    rcases simulate_cases (row := row) (targets := targets) (inputs := inputs) (draw := draw) hacc hinj h
      hwf.1 with ⟨e, s', e1, n, hh, -⟩ | ⟨s', e1, n, hh⟩
    · simp only [Op.run, e1]; exact near_exact hx n hh
    · simp only [Op.run, e1]
      refine near_exact hx n fun r => ?_
      rw [hh]
      rcases hst with rfl | hb
      · simp
      · by_cases e : r = row
        · subst e
          rw [(hx.has r).mpr hb]
          rfl
        · simp [e]
  | reload => exact near_exact hx reload_near reload_has

theorem history_inv (hacc : Accepting P) (hinj : Function.Injective P.label) (ops : List (Op V))
    (hwf : ∀ op ∈ ops, op.WF) (h : Inv P s b) : Inv P (history P ops s b).1 (history P ops s b).2 := by
  induction ops generalizing s b with
  | nil => exact h
  | cons op t ih =>
    exact ih (fun o ho => hwf o (List.mem_cons_of_mem _ ho))
      (run_inv hacc hinj h op (hwf op List.mem_cons_self))

theorem history_exact (hacc : Accepting P) (hinj : Function.Injective P.label) (ops : List (Op V))
    (hwf : ∀ op ∈ ops, op.WF) (h : Inv P s b) (hx : Exact s b) (hst : SettledHistory P ops s b) :
    Exact (history P ops s b).1 (history P ops s b).2 := by
  induction ops generalizing s b with
  | nil => exact hx
  | cons op t ih =>
    exact ih (fun o ho => hwf o (List.mem_cons_of_mem _ ho))
      (run_inv hacc hinj h op (hwf op List.mem_cons_self))
      (run_exact hacc hinj h hx op (hwf op List.mem_cons_self) hst.1) hst.2

theorem sameDict_iff {x y : Dict Nat V} : sameDict x y = true ↔ ∀ k, x.get? k = y.get? k := by
  unfold sameDict
  simp only [List.all_eq_true, beq_iff_eq]
  constructor
  · intro h k
    by_cases hk : k ∈ x.keys ++ y.keys
    · exact h k hk
    · rw [List.mem_append, not_or] at hk
      rw [(Dict.get?_eq_none_iff _ _).mpr hk.1, (Dict.get?_eq_none_iff _ _).mpr hk.2]
  · exact fun h k _ => h k

theorem matched_iff (hx : Exact s b) (hr : b.Has row) (inputs : Dict Nat V) :
    matched s row inputs = true ↔ ∀ k, inputs.get? k = b.given row k := by
  obtain ⟨ins, h1, h2, h3⟩ := hx.given row hr
  have : (s.obs.get? row).bind Entry.inputs = some ins := by
    unfold inp entry at h1
    cases hg : s.obs.get? row with
    | none => rw [hg] at h1; cases h1
    | some e => rw [hg] at h1; exact h1
  unfold matched
  rw [this]
  simp only [sameDict_iff, h2]

end Cgpm.Vs
