import Verif.Lemmas.VentureCalls

/-!
C79: the rows of a VsCGpm.
-/
namespace Cgpm.Props
open Cgpm.Vs
variable {V : Type} [DecidableEq V]

theorem vs_start {P : Program V} {outputs inputs : List Nat} {s : VsCgpm V}
    (h : construct outputs inputs = .ok s) : Inv P s Book.empty ∧ Exact s Book.empty := by
  unfold construct at h
  split at h
  · cases h
  rename_i hnd
  split at h
  · cases h
  split at h
  · cases h
  cases h
  have hno : ∀ r, ¬ (Book.empty : Book V).Has r := fun r ⟨q, hq⟩ => hq rfl
  refine ⟨⟨fun l hl => absurd rfl hl, (fun l f hf => by cases hf), (fun r q l hl => by cases hl),
    fun r q hl => absurd rfl hl, not_not.mp hnd, (fun l f hf => by cases hf), fun r q hb => absurd rfl hb,
    fun r hr => absurd hr (hno r), fun r _ => Or.inl rfl⟩, ⟨fun r => ?_, fun r hr => absurd hr (hno r)⟩⟩
  exact ⟨(fun h => by cases h), fun h => absurd h (hno r)⟩

/-- C79. Whatever is called on a VsCGpm, and whether the calls return or raise, the interpreter holds
exactly what was incorporated and not unincorporated: the value of every such cell, for the inputs of its
row, under one label, and nothing else, provided that labels do not repeat and that the observers of the
program accept the values. -/
theorem C79_history {P : Program V} (hlab : Function.Injective P.label)
    (hacc : ∀ row col a v, P.accepts row col a v = true) {outputs inputs : List Nat} {s : VsCgpm V}
    (hs : construct outputs inputs = .ok s) (ops : List (Op V)) (hops : ∀ op ∈ ops, op.WF) :
    Faithful (history P ops s Book.empty).1 (history P ops s Book.empty).2 :=
  (history_inv hacc hlab ops hops (vs_start hs).1).faithful

/-- C79. A simulation, whether it returns or raises, leaves the directives of the interpreter as they were;
if it returns, the result has a value for each target, in turn those drawn. -/
theorem C79_simulate {P : Program V} (hlab : Function.Injective P.label)
    (hacc : ∀ row col a v, P.accepts row col a v = true) {outputs inputs : List Nat} {s₀ s : VsCgpm V}
    {b : Book V} (hs : construct outputs inputs = .ok s₀) (ops : List (Op V)) (hops : ∀ op ∈ ops, op.WF)
    (hh : history P ops s₀ Book.empty = (s, b)) (row : Nat) (targets : List Nat)
    (constraints ins : Dict Nat V) (hwf : constraints.WF) (draw : Nat → V) :
    match simulate P s row targets constraints ins draw with
    | .ok sample s' => sample = targets.zip ((List.range targets.length).map draw) ∧
        ∀ l, s'.ripl.get? l = s.ripl.get? l
    | .err _ s' => ∀ l, s'.ripl.get? l = s.ripl.get? l := by
  have hi := history_inv hacc hlab ops hops (vs_start (P := P) hs).1
  rw [hh] at hi
  rcases simulate_cases (row := row) (targets := targets) (inputs := ins) (draw := draw) hacc hlab hi hwf
    with ⟨e, s', e1, n, -⟩ | ⟨s', e1, n, -⟩
  · rw [e1]; exact n.ripl
  · rw [e1]
    refine ⟨?_, n.ripl⟩
    rw [← List.range_eq_range', List.zip, List.zipWith_map_right]

/-- C79. If no values were given for rows without cells, `incorporate` returns exactly when a user expects
it to, and otherwise it raises ValueError and changes nothing. -/
theorem C79_incorporate {P : Program V} (hlab : Function.Injective P.label)
    (hacc : ∀ row col a v, P.accepts row col a v = true) {outputs inputs : List Nat} {s₀ s : VsCgpm V}
    {b : Book V} (hs : construct outputs inputs = .ok s₀) (ops : List (Op V)) (hops : ∀ op ∈ ops, op.WF)
    (hst : SettledHistory P ops s₀ Book.empty) (hh : history P ops s₀ Book.empty = (s, b))
    (row : Nat) (observation ins : Dict Nat V) (hwf : observation.WF) :
    (Incorporable P s b row observation ins →
      ∃ s', incorporate P s row observation ins = .ok s') ∧
    (¬ Incorporable P s b row observation ins →
      incorporate P s row observation ins = .err .valueError s) := by
  have hi := history_inv hacc hlab ops hops (vs_start (P := P) hs).1
  have hx := history_exact hacc hlab ops hops (vs_start (P := P) hs).1 (vs_start (P := P) hs).2 hst
  rw [hh] at hi hx
  have hhas : s.obs.has row = true ↔ b.Has row := hx.has row
  -- the call raises ValueError, or it returns
  have hout : incorporate P s row observation ins = .err .valueError s ∨
      ∃ s', incorporate P s row observation ins = .ok s' := by
    rcases incorporate_cases (row := row) (inputs := ins) hacc hlab hi hwf with
      e | ⟨e, s', e1, n, -, h1, h2, -⟩ | ⟨s', e1, -⟩
    · exact Or.inl e
    · exact absurd (hhas.mp h1) h2
    · exact Or.inr ⟨s', e1⟩
  have hlabels : ∀ q, (entry s row).labels.has q = true ↔ b.held row q ≠ none := fun q => by
    rw [labels_has, Option.isSome_iff_ne_none, Ne, hi.lab_iff]
  constructor
  · intro h
    rcases hout with e | e
    · exfalso
      unfold incorporate at e
      rw [show validateIncorporate P s row observation ins
        = .ok (if s.obs.has row then (entry s row).inputs.getD [] else ins)
          (record s row (if s.obs.has row then (entry s row).inputs.getD [] else ins)) from ?_] at e
      · -- after the checks no ValueError is raised
        have h1 : ∃ s', observeAll P row (if s.obs.has row then (entry s row).inputs.getD [] else ins)
            observation (record s row (if s.obs.has row then (entry s row).inputs.getD [] else ins))
            = .ok s' := by
          have ha : ∃ a, args (if s.obs.has row then (entry s row).inputs.getD [] else ins) s.inputs
              = .ok a := by
            by_cases hb : b.Has row
            · obtain ⟨known, k1, k2, k3⟩ := hx.given row hb
              rw [if_pos (hhas.mpr hb), show (entry s row).inputs = some known from k1]
              obtain ⟨a, ha, -⟩ := args_ok (ins := known) (l := s.inputs) fun i hi => (k3 i).mpr hi
              exact ⟨a, ha⟩
            · rw [if_neg (by rwa [hhas])]
              obtain ⟨a, ha, -⟩ := args_ok (ins := ins) (l := s.inputs) fun i hi => (h.new hb i).mpr hi
              exact ⟨a, ha⟩
          obtain ⟨a, ha⟩ := ha
          obtain ⟨s', f, -⟩ := observeAll_ok (row := row)
            (s := record s row (if s.obs.has row then (entry s row).inputs.getD [] else ins))
            (a := a) hacc hlab hwf hi.used ha h.outputs
          exact ⟨s', f⟩
        obtain ⟨s', f⟩ := h1
        dsimp only at e
        rw [f] at e
        cases e
      · unfold validateIncorporate
        rw [if_neg (by simpa using h.some_cell), if_neg, if_neg, if_neg, if_neg]
        · by_cases hb : b.Has row
          · rw [if_pos (hhas.mpr hb), if_neg, if_neg, if_pos (hhas.mpr hb)]
            · rfl
            · rcases (h.known hb).2 with e' | e'
              · simp [e']
              · simp [(matched_iff hx hb ins).mpr e']
            · simp only [Bool.not_eq_true, List.any_eq_false]
              intro q hq
              rw [← Bool.not_eq_true, hlabels]
              exact not_not.mpr ((h.known hb).1 q hq)
          · have hf : ¬ s.obs.has row = true := by rwa [hhas]
            rw [if_neg hf, if_neg hf]
            rfl
        · simp only [Bool.not_eq_true, List.any_eq_false]
          intro v hv
          simp [h.values v hv]
        · simp only [Bool.not_eq_true, List.any_eq_false]
          intro v hv
          simp [h.input_values v hv]
        · simpa using h.outputs
        · intro hc
          simp only [Bool.and_eq_true, Bool.not_eq_true'] at hc
          have hb : ¬ b.Has row := by rw [← hhas, hc.1]; simp
          rw [sameSet_iff.mpr (h.new hb)] at hc
          exact absurd hc.2 (by simp)
    · exact e
  · intro h
    rcases hout with e | ⟨s', e⟩
    · exact e
    · refine absurd ?_ h
      unfold incorporate at e
      generalize hv : validateIncorporate P s row observation ins = v at e
      unfold validateIncorporate at hv
      rcases ite_eq_cases hv with ⟨-, hv⟩ | ⟨c1, hv⟩; · subst hv; cases e
      rcases ite_eq_cases hv with ⟨-, hv⟩ | ⟨c2, hv⟩; · subst hv; cases e
      rcases ite_eq_cases hv with ⟨-, hv⟩ | ⟨c3, hv⟩; · subst hv; cases e
      rcases ite_eq_cases hv with ⟨-, hv⟩ | ⟨c4, hv⟩; · subst hv; cases e
      rcases ite_eq_cases hv with ⟨-, hv⟩ | ⟨c5, hv⟩; · subst hv; cases e
      refine ⟨by simpa using c1, by simpa using c3, ?_, ?_, ?_, ?_⟩
      · simpa using c5
      · simpa using c4
      · intro hb
        rw [if_pos (hhas.mpr hb)] at hv
        rcases ite_eq_cases hv with ⟨-, hv⟩ | ⟨c6, hv⟩; · subst hv; cases e
        rcases ite_eq_cases hv with ⟨-, hv⟩ | ⟨c7, hv⟩; · subst hv; cases e
        constructor
        · intro q hq
          simp only [Bool.not_eq_true, List.any_eq_false] at c6
          have := c6 q hq
          rw [← Bool.not_eq_true, hlabels] at this
          exact not_not.mp this
        · rw [← matched_iff hx hb ins]
          by_cases e' : ins = []
          · exact Or.inl e'
          · right
            simp only [Bool.and_eq_true, not_and, Bool.not_eq_true'] at c7
            have := c7 (by simpa using e')
            simpa using this
      · intro hb
        rw [← sameSet_iff]
        have hf : s.obs.has row = false := by
          cases hq : s.obs.has row
          · rfl
          · exact absurd (hhas.mp hq) hb
        rw [hf] at c2
        simpa using c2

/-- C79. If no values were given for rows without cells, `unincorporate` of a row with cells returns and
takes them all, and `unincorporate` of another row raises ValueError and changes nothing. -/
theorem C79_unincorporate {P : Program V} (hlab : Function.Injective P.label)
    (hacc : ∀ row col a v, P.accepts row col a v = true) {outputs inputs : List Nat} {s₀ s : VsCgpm V}
    {b : Book V} (hs : construct outputs inputs = .ok s₀) (ops : List (Op V)) (hops : ∀ op ∈ ops, op.WF)
    (hst : SettledHistory P ops s₀ Book.empty) (hh : history P ops s₀ Book.empty = (s, b)) (row : Nat) :
    (b.Has row → ∃ s', unincorporate s row = .ok s' ∧ s'.obs.has row = false ∧
      ∀ l f, s'.ripl.get? l = some f ↔ s.ripl.get? l = some f ∧ f.row ≠ row) ∧
    (¬ b.Has row → unincorporate s row = .err .valueError s) := by
  have hi := history_inv hacc hlab ops hops (vs_start (P := P) hs).1
  have hx := history_exact hacc hlab ops hops (vs_start (P := P) hs).1 (vs_start (P := P) hs).2 hst
  rw [hh] at hi hx
  rcases unincorporate_cases (row := row) hi with ⟨h1, e⟩ | ⟨h1, s', e, i', h3, -, -, h4⟩
  · refine ⟨fun hb => ?_, fun _ => e⟩
    rw [(hx.has row).mpr hb] at h1
    cases h1
  · refine ⟨fun hb => ⟨s', e, by rw [h3]; simp, ?_⟩, fun hb => absurd ((hx.has row).mp h1) hb⟩
    exact h4

/-- C79. If no values were given for rows without cells, `simulate` returns exactly when a user expects it
to, and otherwise it raises ValueError and changes nothing. -/
theorem C79_simulable {P : Program V} (hlab : Function.Injective P.label)
    (hacc : ∀ row col a v, P.accepts row col a v = true) {outputs inputs : List Nat} {s₀ s : VsCgpm V}
    {b : Book V} (hs : construct outputs inputs = .ok s₀) (ops : List (Op V)) (hops : ∀ op ∈ ops, op.WF)
    (hst : SettledHistory P ops s₀ Book.empty) (hh : history P ops s₀ Book.empty = (s, b))
    (row : Nat) (targets : List Nat) (constraints ins : Dict Nat V) (hwf : constraints.WF)
    (draw : Nat → V) :
    (Simulable P s b row targets constraints ins →
      ∃ sample s', simulate P s row targets constraints ins draw = .ok sample s') ∧
    (¬ Simulable P s b row targets constraints ins →
      simulate P s row targets constraints ins draw = .err .valueError s) := by
  have hi := history_inv hacc hlab ops hops (vs_start (P := P) hs).1
  have hx := history_exact hacc hlab ops hops (vs_start (P := P) hs).1 (vs_start (P := P) hs).2 hst
  rw [hh] at hi hx
  have hhas : s.obs.has row = true ↔ b.Has row := hx.has row
  have hlabels : ∀ q, (entry s row).labels.has q = true ↔ b.held row q ≠ none := fun q => by
    rw [labels_has, Option.isSome_iff_ne_none, Ne, hi.lab_iff]
  have hsim := simulate_cases (row := row) (targets := targets) (inputs := ins) (draw := draw) hacc hlab hi
    hwf
  generalize hv : validateSimulate P s row targets constraints ins = v
  have key : (v = .err .valueError s ∧ ¬ Simulable P s b row targets constraints ins) ∨
      (∃ i s', v = .ok i s') ∧ Simulable P s b row targets constraints ins := by
    unfold validateSimulate at hv
    rcases ite_eq_cases hv with ⟨c1, hv⟩ | ⟨c1, hv⟩
    · refine Or.inl ⟨hv.symm, fun h => ?_⟩
      simp only [Bool.and_eq_true, Bool.not_eq_true'] at c1
      have hb : ¬ b.Has row := by rw [← hhas, c1.1]; simp
      rw [sameSet_iff.mpr (h.new hb)] at c1
      exact absurd c1.2 (by simp)
    rcases ite_eq_cases hv with ⟨c2, hv⟩ | ⟨c2, hv⟩
    · refine Or.inl ⟨hv.symm, fun h => ?_⟩
      obtain ⟨v, h1, h2⟩ := List.any_eq_true.mp c2
      rw [h.input_values v h1] at h2; cases h2
    rcases ite_eq_cases hv with ⟨c3, hv⟩ | ⟨c3, hv⟩
    · refine Or.inl ⟨hv.symm, fun h => ?_⟩
      obtain ⟨v, h1, h2⟩ := List.any_eq_true.mp c3
      rw [h.values v h1] at h2; cases h2
    have hkn : b.Has row → ∀ i, b.given row i ≠ none → i ∈ s.inputs := by
      intro hb i hne
      obtain ⟨known, k1, k2, k3⟩ := hx.given row hb
      rw [← k2] at hne
      obtain ⟨w, hw⟩ := Option.ne_none_iff_exists'.mp hne
      exact (k3 i).mp (Dict.mem_keys_of_get? hw)
    rcases ite_eq_cases hv with ⟨c4, hv⟩ | ⟨c4, hv⟩
    · refine Or.inl ⟨hv.symm, fun h => ?_⟩
      refine absurd ?_ (by simpa using c4 : ¬ ∀ i ∈ ins.keys, i ∈ s.inputs)
      intro i hi'
      by_cases hb : b.Has row
      · rcases (h.known hb).2 with e | e
        · rw [e] at hi'; cases hi'
        · obtain ⟨w, hw⟩ := Dict.exists_of_mem_keys hi'
          exact hkn hb i (by rw [← e, hw]; simp)
      · exact (h.new hb i).mp hi'
    rcases ite_eq_cases hv with ⟨c5, hv⟩ | ⟨c5, hv⟩
    · refine Or.inl ⟨hv.symm, fun h => ?_⟩
      exact absurd h.constraints_out (by simpa using c5)
    rcases ite_eq_cases hv with ⟨c6, hv⟩ | ⟨c6, hv⟩
    · refine Or.inl ⟨hv.symm, fun h => ?_⟩
      exact absurd h.targets_out (by simpa using c6)
    rcases ite_eq_cases hv with ⟨c7, hv⟩ | ⟨c7, hv⟩
    · refine Or.inl ⟨hv.symm, fun h => ?_⟩
      obtain ⟨q, h1, h2⟩ := List.any_eq_true.mp c7
      exact h.disjoint q h1 (by simpa using h2)
    rcases ite_eq_cases hv with ⟨c8, hv⟩ | ⟨c8, hv⟩
    · refine Or.inl ⟨hv.symm, fun h => ?_⟩
      rw [Bool.and_eq_true] at c8
      obtain ⟨q, h1, h2⟩ := List.any_eq_true.mp c8.2
      exact (hlabels q).mp h2 ((h.known (hhas.mp c8.1)).1 q h1)
    rcases ite_eq_cases hv with ⟨c9, hv⟩ | ⟨c9, hv⟩
    · refine Or.inl ⟨hv.symm, fun h => ?_⟩
      simp only [Bool.and_eq_true, Bool.not_eq_true'] at c9
      obtain ⟨⟨h1, h2⟩, h3⟩ := c9
      have hb := hhas.mp h1
      rcases (h.known hb).2 with e | e
      · rw [e] at h2; cases h2
      · rw [(matched_iff hx hb ins).mpr e] at h3; cases h3
    have hknown : b.Has row → (∀ q ∈ constraints.keys, b.held row q = none) ∧
        (ins = [] ∨ ∀ i, ins.get? i = b.given row i) := by
      intro hb
      constructor
      · intro q hq
        by_contra hne
        refine c8 ?_
        rw [Bool.and_eq_true]
        exact ⟨hhas.mpr hb, List.any_eq_true.mpr ⟨q, hq, (hlabels q).mpr hne⟩⟩
      · rw [← matched_iff hx hb ins]
        by_cases e' : ins = []
        · exact Or.inl e'
        · right
          by_contra hm
          refine c9 ?_
          simp only [Bool.and_eq_true, Bool.not_eq_true']
          exact ⟨⟨hhas.mpr hb, by simpa using e'⟩, by simpa using hm⟩
    have hnew : ¬ b.Has row → ∀ i, i ∈ ins.keys ↔ i ∈ s.inputs := by
      intro hb
      rw [← sameSet_iff]
      have hf : s.obs.has row = false := by
        cases hq : s.obs.has row
        · rfl
        · exact absurd (hhas.mp hq) hb
      rw [hf] at c1
      simpa using c1
    refine Or.inr ⟨?_, ⟨by simpa using c6, by simpa using c5, ?_, by simpa using c3, by simpa using c2,
      hknown, hnew⟩⟩
    · dsimp only at hv
      rcases ite_eq_cases hv with ⟨-, hv⟩ | ⟨c10, hv⟩
      · exact ⟨_, _, hv.symm⟩
      · refine absurd ?_ c10
        rw [sameSet_iff]
        intro i
        by_cases hb : b.Has row
        · obtain ⟨known, k1, k2, k3⟩ := hx.given row hb
          rw [hhas.mpr hb, show (entry s row).inputs = some known from k1]
          by_cases e' : ins = []
          · rw [e']
            exact k3 i
          · have e2 : ins.isEmpty = false := by simpa using e'
            rw [e2]
            have := (hknown hb).2.resolve_left e'
            rw [← k3 i]
            show i ∈ ins.keys ↔ _
            rw [← not_iff_not, ← Dict.get?_eq_none_iff, ← Dict.get?_eq_none_iff, this, k2]
        · have hf : s.obs.has row = false := by
            cases hq : s.obs.has row
            · rfl
            · exact absurd (hhas.mp hq) hb
          rw [hf]
          exact hnew hb i
    · intro q h1 h2
      exact c7 (List.any_eq_true.mpr ⟨q, h1, by simpa using h2⟩)
  constructor
  · intro h
    rcases key with ⟨-, h'⟩ | ⟨⟨i, s1, e1⟩, -⟩
    · exact absurd h h'
    · rcases hsim with ⟨e, s', e2, -, -, e3⟩ | ⟨s', e2, -⟩
      · rw [hv, e1] at e3; cases e3
      · exact ⟨_, s', e2⟩
  · intro h
    rcases key with ⟨e, -⟩ | ⟨-, h'⟩
    · unfold simulate
      rw [hv, e]
    · exact absurd h' h

/-- C79. If no values were given for rows without cells, a new row that is incorporated can be
unincorporated, which leaves the directives as they were before. -/
theorem C79_roundtrip {P : Program V} (hlab : Function.Injective P.label)
    (hacc : ∀ row col a v, P.accepts row col a v = true) {outputs inputs : List Nat} {s₀ s s₁ : VsCgpm V}
    {b : Book V} (hs : construct outputs inputs = .ok s₀) (ops : List (Op V)) (hops : ∀ op ∈ ops, op.WF)
    (hst : SettledHistory P ops s₀ Book.empty) (hh : history P ops s₀ Book.empty = (s, b))
    {row : Nat} {observation ins : Dict Nat V} (hwf : observation.WF) (hnew : ¬ b.Has row)
    (h1 : incorporate P s row observation ins = .ok s₁) :
    ∃ s₂, unincorporate s₁ row = .ok s₂ ∧ (∀ l, s₂.ripl.get? l = s.ripl.get? l) ∧
      ∀ r, s₂.obs.has r = s.obs.has r := by
  have hi := history_inv hacc hlab ops hops (vs_start (P := P) hs).1
  have hx := history_exact hacc hlab ops hops (vs_start (P := P) hs).1 (vs_start (P := P) hs).2 hst
  rw [hh] at hi hx
  have hf : s.obs.has row = false := by
    cases hq : s.obs.has row
    · rfl
    · exact absurd ((hx.has row).mp hq) hnew
  rcases incorporate_cases (row := row) (inputs := ins) hacc hlab hi hwf with
    e | ⟨e, s', e1, -⟩ | ⟨s', e1, i', g1, -, -, -, -, g2, g3, -⟩
  · rw [e] at h1; cases h1
  · rw [e1] at h1; cases h1
  rw [e1] at h1
  cases h1
  rcases unincorporate_cases (row := row) i' with ⟨k, e⟩ | ⟨-, s₂, e, -, k3, -, -, k4⟩
  · rw [g1] at k; simp at k
  · refine ⟨s₂, e, fun l => ?_, fun r => ?_⟩
    · refine Option.ext fun f => ?_
      rw [k4]
      constructor
      · rintro ⟨q1, q2⟩
        exact (g2 l f q1).resolve_left q2
      · intro q
        refine ⟨g3 l f q, ?_⟩
        rintro e'
        have := hi.link l f q
        rw [e', lab_of_not_has hf] at this
        cases this
    · rw [k3, g1]
      by_cases e' : r = row
      · subst e'; simp [hf]
      · simp [e']

/-- C79 is violated when values are given for a row without cells: after such a simulation, which returns,
nothing has been incorporated, but the row cannot be incorporated, though all its inputs are given, and it
can be unincorporated. -/
theorem C79_constraint_violated {P : Program V} (hlab : Function.Injective P.label)
    (hacc : ∀ row col a v, P.accepts row col a v = true) (hnan : ∀ v, P.nan v = false)
    {outputs inputs : List Nat} {s : VsCgpm V} (hs : construct outputs inputs = .ok s)
    (hin : inputs ≠ []) {q : Nat} (hq : q ∈ outputs) (v : V) {targets : List Nat}
    (ht : ∀ t ∈ targets, t ∈ outputs ∧ t ≠ q) {ins : Dict Nat V} (hins : ∀ i, i ∈ ins.keys ↔ i ∈ inputs)
    (row : Nat) (draw : Nat → V) :
    ∃ sample s', simulate P s row targets [(q, v)] ins draw = .ok sample s' ∧
      Incorporable P s' Book.empty row [(q, v)] ins ∧
      (¬ ∃ s'', incorporate P s' row [(q, v)] ins = .ok s'') ∧
      ∃ s'', unincorporate s' row = .ok s'' := by
  obtain ⟨hi, hx⟩ := vs_start (P := P) hs
  have ho : s.outputs = outputs ∧ s.inputs = inputs := by
    unfold construct at hs
    split at hs; · cases hs
    split at hs; · cases hs
    split at hs; · cases hs
    cases hs
    exact ⟨rfl, rfl⟩
  have hno : ∀ r, ¬ (Book.empty : Book V).Has r := fun r ⟨q, hq⟩ => hq rfl
  have hwf : Dict.WF [(q, v)] := by simp [Dict.WF, Dict.keys]
  have h1 := (C79_simulable hlab hacc hs [] (by simp) trivial rfl row targets [(q, v)] ins hwf draw).1
    ⟨fun t h => by rw [ho.1]; exact (ht t h).1, (by simp [Dict.keys, ho.1, hq]),
      fun t h => by simpa [Dict.keys] using (ht t h).2, fun _ _ => hnan _, fun _ _ => hnan _,
      fun h => absurd h (hno row), fun _ i => by rw [ho.2]; exact hins i⟩
  rcases simulate_cases (row := row) (targets := targets) (inputs := ins) (draw := draw) hacc hlab hi hwf
    with ⟨e, s', e1, -⟩ | ⟨s', e1, n, hh⟩
  · obtain ⟨_, _, e2⟩ := h1
    rw [e1] at e2; cases e2
  have hrow : s'.obs.has row = true := by rw [hh]; simp
  have hi' := n.inv hi
  refine ⟨_, s', e1, ?_, ?_, ?_⟩
  · exact ⟨by simp, by simp [Dict.keys, n.outputs, ho.1, hq], fun _ _ => hnan _, fun _ _ => hnan _,
      fun h => absurd h (hno row), fun _ i => by rw [n.inputs, ho.2]; exact hins i⟩
  · rintro ⟨s'', e2⟩
    rcases incorporate_cases (row := row) (inputs := ins) hacc hlab hi' hwf with
      e | ⟨e, s3, e3, -⟩ | ⟨s3, e3, -, -, -, -, -, -, -, -, h5⟩
    · rw [e] at e2; cases e2
    · rw [e3] at e2; cases e2
    · have := h5 hrow (hno row)
      rw [n.inputs, ho.2] at this
      exact hin this
  · rcases unincorporate_cases (row := row) hi' with ⟨h, -⟩ | ⟨-, s3, e3, -⟩
    · rw [hrow] at h; cases h
    · exact ⟨s3, e3⟩

/-- C79 is violated when an observer of the program refuses a value: the call raises, but the values that
were observed before it stay, for `incorporate` and for the constraints of a `simulate`. -/
theorem C79_refused_violated {P : Program V} (hnan : ∀ v, P.nan v = false) {q₁ q₂ : Nat} (hq : q₁ ≠ q₂)
    {v₁ v₂ : V} {row : Nat} (h₁ : P.accepts row q₁ [] v₁ = true) (h₂ : P.accepts row q₂ [] v₂ = false)
    (draw : Nat → V) {s : VsCgpm V} (hs : construct [q₁, q₂] [] = .ok s) :
    (∃ s', incorporate P s row [(q₁, v₁), (q₂, v₂)] [] = .err .runtime s' ∧
      s'.ripl.get? (P.label 0) = some ⟨row, q₁, [], some v₁⟩) ∧
    ∃ s', simulate P s row [] [(q₁, v₁), (q₂, v₂)] [] draw = .err .runtime s' ∧
      s'.ripl.get? (P.label 0) = some ⟨row, q₁, [], some v₁⟩ := by
  have e : s = ⟨[q₁, q₂], [], [], [], 0⟩ := by
    unfold construct at hs
    split at hs; · cases hs
    split at hs; · cases hs
    split at hs; · cases hs
    cases hs
    rfl
  subst e
  constructor
  · simp [incorporate, validateIncorporate, observeAll, observeCell, args, Dict.keys, Dict.vals, hnan,
      sameSet, entry, Dict.has, Dict.get?, Dict.set, Out.bind, h₁, h₂, hq]
  · simp [simulate, validateSimulate, observeAll, observeCell, args, Dict.keys, Dict.vals, hnan,
      sameSet, entry, Dict.has, Dict.get?, Dict.set, Out.bind, h₁, h₂, hq]

/-! ### A case that meets the hypotheses -/

/-- Numbers; 9 is nan. -/
def vsExP : Program Nat := ⟨fun v => v == 9, fun _ _ _ _ => true, fun i => i⟩

def vsExS : VsCgpm Nat := ⟨[0, 1], [3], [], [], 0⟩

example : construct [0, 1] [3] = .ok vsExS := rfl

/-- Incorporations that return and that raise, a simulation, an unincorporation, a reload. -/
def vsExOps : List (Op Nat) :=
  [.incorporate 0 [(0, 5)] [(3, 7)], .incorporate 0 [(0, 6)] [], .incorporate 0 [(1, 9)] [],
   .simulate 0 [0] [(1, 4)] [] (fun i => i), .incorporate 0 [(1, 6)] [(3, 7)], .reload,
   .incorporate 1 [(1, 2)] [(3, 8)], .unincorporate 0, .unincorporate 0]

example : ∀ op ∈ vsExOps, op.WF := by
  intro op h
  simp only [vsExOps, List.mem_cons, List.not_mem_nil, or_false] at h
  rcases h with h | h | h | h | h | h | h | h | h <;> subst h <;> simp [Op.WF, Dict.WF, Dict.keys]

/-- Which calls return. -/
def vsExRun : List (Op Nat) → VsCgpm Nat → List Bool × VsCgpm Nat
  | [], s => ([], s)
  | op :: t, s => ((op.run vsExP s).1 :: (vsExRun t (op.run vsExP s).2).1, (vsExRun t (op.run vsExP s).2).2)

example : (vsExRun vsExOps vsExS).1 = [true, false, false, true, true, true, true, true, false] := by decide

example : (vsExRun vsExOps vsExS).2.ripl = [(4, ⟨1, 1, [8], some 2⟩)] := by decide

example : SettledHistory vsExP vsExOps vsExS Book.empty := by
  refine ⟨trivial, trivial, trivial, Or.inr ⟨0, ?_⟩, trivial, trivial, trivial, trivial, trivial, trivial⟩
  have h1 : (Op.run vsExP vsExS (.incorporate 0 [(0, 5)] [(3, 7)])).1 = true := by decide
  have h2 : (Op.run vsExP (Op.run vsExP vsExS (.incorporate 0 [(0, 5)] [(3, 7)])).2
    (.incorporate 0 [(0, 6)] [])).1 = false := by decide
  have h3 : (Op.run vsExP (Op.run vsExP (Op.run vsExP vsExS (.incorporate 0 [(0, 5)] [(3, 7)])).2
    (.incorporate 0 [(0, 6)] [])).2 (.incorporate 0 [(1, 9)] [])).1 = false := by decide
  rw [h1, h2, h3]
  simp [Book.after, Dict.get?]

end Cgpm.Props
