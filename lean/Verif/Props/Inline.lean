import Verif.Model.Inline
import Verif.Lemmas.Venture
import Verif.Lemmas.Schema

/-!
C85: an inline Venture model answers from its expression alone.
-/
namespace Cgpm.Props
open Cgpm Cgpm.Inline
open Cgpm.Schema (Str pySplit)

variable {V T : Type}

/-- SPEC. The texts of the inputs, in the order in which the object declares its inputs. -/
def InlineArgs (P : Interp V T) (s : InlineVs) (inputs : Dict Nat V) (a : List T) : Prop :=
  List.Forall₂ (fun i t => ∃ v, inputs.get? i = some v ∧ t = P.text v) s.inputs a

/-- SPEC. A query that the interface allows: all the inputs and no others, and no constraints. -/
structure InlineLegal (s : InlineVs) (constraints inputs : Dict Nat V) : Prop where
  inputs : ∀ i, i ∈ inputs.keys ↔ i ∈ s.inputs
  constraints : constraints = []

/-- SPEC. The interpreter does not raise while it answers the call. -/
def Answered (P : Interp V T) (s : InlineVs) : Call V T → Prop
  | .logpdf _ t c i => InlineLegal s c i → t.keys = s.outputs →
      ∀ a o v, InlineArgs P s i a → t = [(o, v)] → P.dens s.expression a v ≠ none
  | .simulate _ _ _ i ωs => ∀ a, InlineArgs P s i a → ∀ ω ∈ ωs, ω a ≠ none
  | _ => True

theorem inline_args {P : Interp V T} {s : InlineVs} {inputs : Dict Nat V}
    (h : ∀ i, i ∈ inputs.keys ↔ i ∈ s.inputs) :
    ∃ a, InlineArgs P s inputs a ∧ ∀ ls, retrieveArgs P { s with labels := ls } inputs = .ok a := by
  have : ∀ l : List Nat, (∀ i ∈ l, i ∈ inputs.keys) → ∃ a, Vs.args inputs l = .ok a ∧
      List.Forall₂ (fun i t => ∃ v, inputs.get? i = some v ∧ t = P.text v) l (a.map P.text) := by
    intro l
    induction l with
    | nil => exact fun _ => ⟨[], rfl, List.Forall₂.nil⟩
    | cons i l ih =>
      intro hl
      obtain ⟨v, hv⟩ := Dict.exists_of_mem_keys (hl i (by simp))
      obtain ⟨a, h1, h2⟩ := ih fun j hj => hl j (List.mem_cons_of_mem _ hj)
      refine ⟨v :: a, by simp only [Vs.args, hv, h1]; rfl, List.Forall₂.cons ⟨v, hv, rfl⟩ h2⟩
  obtain ⟨a, h1, h2⟩ := this s.inputs fun i hi => (h i).mpr hi
  exact ⟨a.map P.text, h2, fun ls => by simp only [retrieveArgs, h1]⟩

theorem inlineArgs_unique {P : Interp V T} {s : InlineVs} {inputs : Dict Nat V} {a b : List T}
    (ha : InlineArgs P s inputs a) (hb : InlineArgs P s inputs b) : a = b := by
  unfold InlineArgs at ha hb
  generalize s.inputs = l at ha hb
  induction ha generalizing b with
  | nil => cases hb; rfl
  | cons h1 _ ih =>
    cases hb with
    | cons h2 ht =>
      obtain ⟨v, hv, rfl⟩ := h1
      obtain ⟨w, hw, rfl⟩ := h2
      rw [hv] at hw; cases hw
      rw [ih ht]

theorem sameSet_legal {s : InlineVs} {inputs : Dict Nat V} :
    Vs.sameSet inputs.keys s.inputs = false ↔ ¬ ∀ i, i ∈ inputs.keys ↔ i ∈ s.inputs := by
  rw [← Vs.sameSet_iff]; simp

/-- The answer of `logpdf` when the label is free. -/
theorem inline_logpdf {P : Interp V T} {s : InlineVs} (hl : s.labels = []) {o : Nat}
    (ho : s.outputs = [o]) (targets constraints inputs : Dict Nat V) :
    (∀ a v, InlineLegal s constraints inputs → targets = [(o, v)] → InlineArgs P s inputs a →
      (∀ p, P.dens s.expression a v = some p →
        logpdf P s targets constraints inputs = .ok p s) ∧
      (P.dens s.expression a v = none → logpdf P s targets constraints inputs =
        .err .runtime { s with labels := [.exprAssume] })) ∧
    (¬ (InlineLegal s constraints inputs ∧ targets.keys = s.outputs) →
      logpdf P s targets constraints inputs = .err .assertion s) := by
  constructor
  · rintro a v ⟨h1, rfl⟩ rfl ha
    obtain ⟨b, hb, hr⟩ := inline_args (P := P) h1
    obtain rfl := inlineArgs_unique ha hb
    have hs : ¬ Vs.sameSet inputs.keys s.inputs = false := by rw [sameSet_legal]; simpa using h1
    obtain ⟨outs, ins, ex, ls⟩ := s
    simp only at hl ho
    subst hl; subst ho
    have hpre : logpdf P ⟨[o], ins, ex, []⟩ [(o, v)] [] inputs =
        match P.dens ex a v with
        | none => .err .runtime ⟨[o], ins, ex, [.exprAssume]⟩
        | some p => .ok p ⟨[o], ins, ex, []⟩ := by
      unfold logpdf
      rw [if_neg hs, if_neg (by simp [Dict.keys]), if_neg (by simp)]
      have := hr [.exprAssume]
      simp only at this
      simp only [addLabel, List.not_mem_nil, Bool.true_eq_false, or_self, if_false, this,
        List.head?_cons, Option.bind_eq_bind, Option.bind_some, Dict.get?_cons, if_true]
      cases P.dens ex a v with
      | none => rfl
      | some p => simp [forget]
    refine ⟨fun p hp => by rw [hpre, hp], fun hp => by rw [hpre, hp]⟩
  · intro hn
    unfold logpdf
    by_cases h1 : Vs.sameSet inputs.keys s.inputs = false
    · rw [if_pos h1]
    · rw [if_neg h1]
      by_cases h2 : targets.keys ≠ s.outputs
      · rw [if_pos h2]
      · rw [if_neg h2]
        by_cases h3 : constraints.isEmpty = false
        · rw [if_pos h3]
        · refine absurd ⟨⟨?_, ?_⟩, not_not.mp h2⟩ hn
          · by_contra hc; exact h1 (sameSet_legal.mpr hc)
          · simpa using h3

/-- The answer of `simulate` when the label is free. -/
theorem inline_simulate {P : Interp V T} {s : InlineVs} (hl : s.labels = []) {o : Nat}
    (ho : s.outputs = [o]) (targets : List Nat) (constraints inputs : Dict Nat V)
    (ω : List T → Option V) :
    (∀ a, InlineLegal s constraints inputs → targets = s.outputs → InlineArgs P s inputs a →
      (∀ x, ω a = some x → simulate P s targets constraints inputs ω = .ok [(o, x)] s) ∧
      (ω a = none → simulate P s targets constraints inputs ω =
        .err .runtime { s with labels := [.expr] })) ∧
    (¬ (InlineLegal s constraints inputs ∧ targets = s.outputs) →
      simulate P s targets constraints inputs ω = .err .assertion s) := by
  constructor
  · rintro a ⟨h1, rfl⟩ rfl ha
    obtain ⟨b, hb, hr⟩ := inline_args (P := P) h1
    obtain rfl := inlineArgs_unique ha hb
    have hs : ¬ Vs.sameSet inputs.keys s.inputs = false := by rw [sameSet_legal]; simpa using h1
    obtain ⟨outs, ins, ex, ls⟩ := s
    simp only at hl ho
    subst hl; subst ho
    have hpre : simulate P ⟨[o], ins, ex, []⟩ [o] [] inputs ω =
        match ω a with
        | none => .err .runtime ⟨[o], ins, ex, [.expr]⟩
        | some x => .ok [(o, x)] ⟨[o], ins, ex, []⟩ := by
      unfold simulate
      rw [if_neg hs, if_neg (by simp), if_neg (by simp)]
      have := hr [.expr]
      simp only at this
      simp only [addLabel, List.not_mem_nil, Bool.true_eq_false, or_self, if_false, this]
      cases ω a with
      | none => rfl
      | some p => simp [forget]
    refine ⟨fun p hp => by rw [hpre, hp], fun hp => by rw [hpre, hp]⟩
  · intro hn
    unfold simulate
    by_cases h1 : Vs.sameSet inputs.keys s.inputs = false
    · rw [if_pos h1]
    · rw [if_neg h1]
      by_cases h2 : targets ≠ s.outputs
      · rw [if_pos h2]
      · rw [if_neg h2]
        by_cases h3 : constraints.isEmpty = false
        · rw [if_pos h3]
        · refine absurd ⟨⟨?_, ?_⟩, not_not.mp h2⟩ hn
          · by_contra hc; exact h1 (sameSet_legal.mpr hc)
          · simpa using h3

/-- `N` samples when the label is free and the interpreter answers. -/
theorem inline_many {P : Interp V T} {s : InlineVs} (hl : s.labels = []) {o : Nat}
    (ho : s.outputs = [o]) {targets : List Nat} {constraints inputs : Dict Nat V} {a : List T}
    (hq : InlineLegal s constraints inputs) (ht : targets = s.outputs)
    (ha : InlineArgs P s inputs a) (ωs : List (List T → Option V)) (xs : List V)
    (hx : ωs.map (fun ω => ω a) = xs.map some) :
    simulateMany P targets constraints inputs ωs s = .ok (xs.map fun x => [(o, x)]) s := by
  induction ωs generalizing xs with
  | nil =>
    cases xs with
    | nil => rfl
    | cons x xs => simp at hx
  | cons ω ωs ih =>
    cases xs with
    | nil => simp at hx
    | cons x xs =>
      simp only [List.map_cons, List.cons.injEq] at hx
      unfold simulateMany
      rw [((inline_simulate hl ho targets constraints inputs ω).1 a hq ht ha).1 x hx.1]
      simp only [ih xs hx.2]
      rfl

theorem construct_shape {P : Interp V T} {outputs inputs : List Nat} {e : Option Str} {s : InlineVs}
    (h : construct P outputs inputs e = .ok s) :
    s.labels = [] ∧ ∃ o, s.outputs = [o] ∧ s.outputs = outputs ∧ s.inputs = inputs ∧
      e = some s.expression ∧ P.executes s.expression = true ∧ inputs.Nodup ∧ o ∉ inputs ∧
      countArgs s.expression = inputs.length := by
  unfold construct at h
  split at h; · cases h
  rename_i h1
  split at h; · cases h
  rename_i h2
  split at h; · cases h
  rename_i h3
  cases e with
  | none => cases h
  | some e =>
    simp only at h
    split at h; · cases h
    rename_i h4
    split at h; · cases h
    rename_i h5
    cases h
    obtain ⟨o, ho⟩ := List.length_eq_one_iff.mp (not_not.mp h1)
    refine ⟨rfl, o, ho, rfl, rfl, rfl, by simpa using h5, not_not.mp h2, ?_, not_not.mp h4⟩
    rw [ho] at h3
    simpa using h3

/-- C85, histories.  After any history of calls during which the interpreter has not raised (calls
with wrong arguments, which are refused, included), the object is what it was when it was made. -/
theorem C85_history {P : Interp V T} {outputs inputs : List Nat} {e : Option Str} {s : InlineVs}
    (h : construct P outputs inputs e = .ok s) (calls : List (Call V T))
    (hc : ∀ c ∈ calls, Answered P s c) : run P s calls = s := by
  obtain ⟨hl, o, ho, -⟩ := construct_shape h
  unfold run
  induction calls with
  | nil => rfl
  | cons c calls ih =>
    rw [List.foldl_cons]
    have hstep : apply P s c = s := by
      cases c with
      | incorporate => rfl
      | unincorporate => rfl
      | transition => rfl
      | logpdf r t cs i =>
        have hA := hc _ (List.mem_cons_self ..)
        simp only [Answered] at hA
        simp only [apply]
        by_cases hq : InlineLegal s cs i ∧ t.keys = s.outputs
        · obtain ⟨a, ha, -⟩ := inline_args (P := P) hq.1.inputs
          obtain ⟨v, rfl⟩ : ∃ v, t = [(o, v)] := by
            have := hq.2
            rw [ho] at this
            cases t with
            | nil => simp [Dict.keys] at this
            | cons p t =>
              obtain ⟨k, v⟩ := p
              simp [Dict.keys] at this
              exact ⟨v, by rw [this.1, this.2]⟩
          obtain ⟨p, hp⟩ := Option.ne_none_iff_exists'.mp (hA hq.1 hq.2 a o v ha rfl)
          rw [((inline_logpdf hl ho _ cs i).1 a v hq.1 rfl ha).1 p hp]; rfl
        · rw [(inline_logpdf hl ho t cs i).2 hq]; rfl
      | simulate r t cs i ωs =>
        have hA := hc _ (List.mem_cons_self ..)
        simp only [Answered] at hA
        simp only [apply]
        by_cases hq : InlineLegal s cs i ∧ t = s.outputs
        · obtain ⟨a, ha, -⟩ := inline_args (P := P) hq.1.inputs
          obtain ⟨xs, hxs⟩ : ∃ xs : List V, ωs.map (fun ω => ω a) = xs.map some := by
            have := hA a ha
            clear hA hc ih
            induction ωs with
            | nil => exact ⟨[], rfl⟩
            | cons ω ωs ih =>
              obtain ⟨xs, hxs⟩ := ih fun ω' h' => this ω' (List.mem_cons_of_mem _ h')
              obtain ⟨x, hx⟩ := Option.ne_none_iff_exists'.mp (this ω (by simp))
              exact ⟨x :: xs, by simp [hx, hxs]⟩
          rw [inline_many hl ho hq.1 hq.2 ha ωs xs hxs]; rfl
        · cases ωs with
          | nil => rfl
          | cons ω ωs =>
            unfold simulateMany
            rw [(inline_simulate hl ho t cs i ω).2 hq]; rfl
    rw [hstep]
    exact ih fun c' h' => hc c' (List.mem_cons_of_mem _ h')

/-- C85, densities.  After any such history, and for any row, `logpdf` is the log density of the
expression at the value, applied to the inputs in their declared order (whatever the order of the
dictionary), and leaves the object as it was; queries without all the inputs, with others, with
constraints or for other targets are refused. -/
theorem C85_logpdf {P : Interp V T} {outputs inputs : List Nat} {e : Option Str} {s : InlineVs}
    (h : construct P outputs inputs e = .ok s) (calls : List (Call V T))
    (hc : ∀ c ∈ calls, Answered P s c) (targets constraints ins : Dict Nat V) :
    (∀ a o v p, InlineLegal s constraints ins → outputs = [o] → targets = [(o, v)] →
      InlineArgs P s ins a → P.dens s.expression a v = some p →
      logpdf P (run P s calls) targets constraints ins = .ok p s) ∧
    (¬ (InlineLegal s constraints ins ∧ targets.keys = outputs) →
      logpdf P (run P s calls) targets constraints ins = .err .assertion s) := by
  obtain ⟨hl, o, ho, ho', -⟩ := construct_shape h
  rw [C85_history h calls hc]
  refine ⟨fun a o' v p hq h1 ht ha hp => ?_, fun hn => ?_⟩
  · rw [← ho', ho] at h1
    cases h1
    exact ((inline_logpdf hl ho targets constraints ins).1 a v hq ht ha).1 p hp
  · rw [← ho'] at hn
    exact (inline_logpdf hl ho targets constraints ins).2 hn

/-- C85, samples.  After any such history, and for any row, `simulate` returns the samples that the
interpreter draws from the expression, applied to the inputs in their declared order: one for each
of the `N` calls. -/
theorem C85_simulate {P : Interp V T} {outputs inputs : List Nat} {e : Option Str} {s : InlineVs}
    (h : construct P outputs inputs e = .ok s) (calls : List (Call V T))
    (hc : ∀ c ∈ calls, Answered P s c) {constraints ins : Dict Nat V}
    (hq : InlineLegal s constraints ins) {a : List T} (ha : InlineArgs P s ins a) {o : Nat}
    (ho : outputs = [o]) (ωs : List (List T → Option V)) (xs : List V)
    (hx : ωs.map (fun ω => ω a) = xs.map some) :
    simulateMany P outputs constraints ins ωs (run P s calls) =
      .ok (xs.map fun x => [(o, x)]) s := by
  obtain ⟨hl, o', ho', h1, -⟩ := construct_shape h
  rw [C85_history h calls hc]
  have : o' = o := by rw [h1, ho] at ho'; cases ho'; rfl
  subst this
  exact inline_many hl ho' hq h1.symm ha ωs xs hx

/-- C85, refused simulations: without all the inputs, with others, with constraints or for other
targets nothing is simulated (unless no sample is asked for) and nothing changes. -/
theorem C85_simulate_refused {P : Interp V T} {outputs inputs : List Nat} {e : Option Str}
    {s : InlineVs} (h : construct P outputs inputs e = .ok s) (calls : List (Call V T))
    (hc : ∀ c ∈ calls, Answered P s c) {targets : List Nat} {constraints ins : Dict Nat V}
    (hn : ¬ (InlineLegal s constraints ins ∧ targets = outputs)) {ωs : List (List T → Option V)}
    (hne : ωs ≠ []) :
    simulateMany P targets constraints ins ωs (run P s calls) = .err .assertion s := by
  obtain ⟨hl, o, ho, ho', -⟩ := construct_shape h
  rw [C85_history h calls hc]
  rw [← ho'] at hn
  obtain ⟨ω, ωs', rfl⟩ := List.exists_cons_of_ne_nil hne
  unfold simulateMany
  rw [(inline_simulate hl ho targets constraints ins ω).2 hn]

/-- C85, the metadata.  Restored from its metadata the object is the same. -/
theorem C85_metadata {P : Interp V T} {outputs inputs : List Nat} {e : Option Str} {s : InlineVs}
    (h : construct P outputs inputs e = .ok s) (calls : List (Call V T))
    (hc : ∀ c ∈ calls, Answered P s c) :
    fromMetadata P (toMetadata (run P s calls)) = .ok s := by
  rw [C85_history h calls hc]
  obtain ⟨-, o, -, h1, h2, h3, -⟩ := construct_shape h
  unfold fromMetadata toMetadata
  rw [h1, h2, ← h3]
  exact h

theorem addLabel_keeps {s s' : InlineVs} {l l' : Label} {fine : Bool} (h : l ∈ s.labels)
    (he : addLabel s l' fine = .ok s' ∨ ∃ x, addLabel s l' fine = .err x s') : l ∈ s'.labels := by
  unfold addLabel at he
  split at he
  · rcases he with he | ⟨x, he⟩ <;> cases he
    exact h
  · rcases he with he | ⟨x, he⟩ <;> cases he
    exact List.mem_cons_of_mem _ h

theorem forget_keeps {s s' : InlineVs} {l l' : Label} (hne : l ≠ l') (h : l ∈ s.labels)
    (he : forget s l' = .ok s' ∨ ∃ x, forget s l' = .err x s') : l ∈ s'.labels := by
  unfold forget at he
  split at he
  · rcases he with he | ⟨x, he⟩ <;> cases he
    exact (List.mem_erase_of_ne hne).mpr h
  · rcases he with he | ⟨x, he⟩ <;> cases he
    exact h

theorem logpdf_taken {P : Interp V T} {s : InlineVs} (h : Label.exprAssume ∈ s.labels)
    (t c i : Dict Nat V) : ∃ x, logpdf P s t c i = .err x s := by
  unfold logpdf
  split_ifs
  · exact ⟨_, rfl⟩
  · exact ⟨_, rfl⟩
  · exact ⟨_, rfl⟩
  · simp [addLabel, h]

theorem simulate_taken {P : Interp V T} {s : InlineVs} (h : Label.expr ∈ s.labels)
    (t : List Nat) (c i : Dict Nat V) (ω : List T → Option V) :
    ∃ x, simulate P s t c i ω = .err x s := by
  unfold simulate
  split_ifs
  · exact ⟨_, rfl⟩
  · exact ⟨_, rfl⟩
  · exact ⟨_, rfl⟩
  · simp [addLabel, h]

theorem logpdf_keeps {P : Interp V T} {s : InlineVs} (h : Label.expr ∈ s.labels)
    (t c i : Dict Nat V) : Label.expr ∈ (logpdf P s t c i).state.labels := by
  unfold logpdf
  split_ifs
  · exact h
  · exact h
  · exact h
  · cases h1 : addLabel s .exprAssume true with
    | err x s1 => exact addLabel_keeps h (Or.inr ⟨x, h1⟩)
    | ok s1 =>
      have k1 := addLabel_keeps h (Or.inl h1)
      simp only
      cases retrieveArgs P s1 i with
      | error x => exact k1
      | ok a =>
        simp only
        cases s1.outputs.head? >>= t.get? with
        | none => exact k1
        | some v =>
          simp only
          cases P.dens s1.expression a v with
          | none => exact k1
          | some p =>
            simp only
            cases h2 : addLabel s1 .exprObserve true with
            | err x s2 => exact addLabel_keeps k1 (Or.inr ⟨x, h2⟩)
            | ok s2 =>
              have k2 := addLabel_keeps k1 (Or.inl h2)
              simp only
              cases h3 : forget s2 .exprObserve with
              | err x s3 => exact forget_keeps (by decide) k2 (Or.inr ⟨x, h3⟩)
              | ok s3 =>
                have k3 := forget_keeps (by decide) k2 (Or.inl h3)
                simp only
                cases h4 : forget s3 .exprAssume with
                | err x s4 => exact forget_keeps (by decide) k3 (Or.inr ⟨x, h4⟩)
                | ok s4 => exact forget_keeps (by decide) k3 (Or.inl h4)

theorem simulate_keeps {P : Interp V T} {s : InlineVs} (h : Label.exprAssume ∈ s.labels)
    (t : List Nat) (c i : Dict Nat V) (ω : List T → Option V) :
    Label.exprAssume ∈ (simulate P s t c i ω).state.labels := by
  unfold simulate
  split_ifs
  · exact h
  · exact h
  · exact h
  · cases h1 : addLabel s .expr true with
    | err x s1 => exact addLabel_keeps h (Or.inr ⟨x, h1⟩)
    | ok s1 =>
      have k1 := addLabel_keeps h (Or.inl h1)
      simp only
      cases retrieveArgs P s1 i with
      | error x => exact k1
      | ok a =>
        simp only
        cases ω a with
        | none => exact k1
        | some v =>
          simp only
          cases h3 : forget s1 .expr with
          | err x s3 => exact forget_keeps (by decide) k1 (Or.inr ⟨x, h3⟩)
          | ok s3 =>
            have k3 := forget_keeps (by decide) k1 (Or.inl h3)
            simp only
            cases s3.outputs.head? with
            | none => exact k3
            | some o => exact k3

theorem simulateMany_keeps {P : Interp V T} {l : Label} (t : List Nat) (c i : Dict Nat V)
    (hk : ∀ s ω, l ∈ s.labels → l ∈ (simulate P s t c i ω).state.labels)
    (ωs : List (List T → Option V)) {s : InlineVs} (h : l ∈ s.labels) :
    l ∈ (simulateMany P t c i ωs s).state.labels := by
  induction ωs generalizing s with
  | nil => exact h
  | cons ω ωs ih =>
    unfold simulateMany
    have := hk s ω h
    cases h1 : simulate P s t c i ω with
    | err x s1 => rw [h1] at this; exact this
    | ok r s1 =>
      rw [h1] at this
      have h2 := ih (s := s1) this
      simp only
      cases h3 : simulateMany P t c i ωs s1 with
      | err x s2 => rw [h3] at h2; exact h2
      | ok rs s2 => rw [h3] at h2; exact h2

theorem run_keeps {P : Interp V T} {l : Label} (hl : l ≠ .exprObserve) (calls : List (Call V T))
    {s : InlineVs} (h : l ∈ s.labels) : l ∈ (run P s calls).labels := by
  unfold run
  induction calls generalizing s with
  | nil => exact h
  | cons c calls ih =>
    rw [List.foldl_cons]
    refine ih ?_
    cases c with
    | incorporate => exact h
    | unincorporate => exact h
    | transition => exact h
    | logpdf r t c i =>
      cases l with
      | exprObserve => exact absurd rfl hl
      | expr => exact logpdf_keeps h t c i
      | exprAssume =>
        obtain ⟨x, hx⟩ := logpdf_taken (P := P) h t c i
        simp only [apply, hx]; exact h
    | simulate r t c i ωs =>
      refine simulateMany_keeps t c i (fun s ω hs => ?_) ωs h
      cases l with
      | exprObserve => exact absurd rfl hl
      | exprAssume => exact simulate_keeps hs t c i ω
      | expr =>
        obtain ⟨x, hx⟩ := simulate_taken (P := P) hs t c i ω
        rw [hx]; exact hs

/-- C85, after an error.  Once the interpreter has raised during a `logpdf` (or a `simulate`), the
expression stays assumed under its label, and from then on every `logpdf` (every `simulate`) that
the interface allows raises, whatever its arguments and whatever is called in between. -/
theorem C85_error_violated {P : Interp V T} {outputs inputs : List Nat} {e : Option Str}
    {s : InlineVs} (h : construct P outputs inputs e = .ok s) {constraints ins : Dict Nat V}
    (hq : InlineLegal s constraints ins) {a : List T} (ha : InlineArgs P s ins a) {o : Nat}
    (ho : outputs = [o]) :
    (∀ v, P.dens s.expression a v = none → ∃ s1,
      logpdf P s [(o, v)] constraints ins = .err .runtime s1 ∧
      ∀ calls t c i, ∃ x s2, logpdf P (run P s1 calls) t c i = .err x s2) ∧
    (∀ ω : List T → Option V, ω a = none → ∃ s1,
      simulate P s outputs constraints ins ω = .err .runtime s1 ∧
      ∀ calls t c i ω', ∃ x s2, simulate P (run P s1 calls) t c i ω' = .err x s2) := by
  obtain ⟨hl, o', ho', h1, -⟩ := construct_shape h
  have : o' = o := by rw [h1, ho] at ho'; cases ho'; rfl
  subst this
  constructor
  · intro v hv
    refine ⟨_, ((inline_logpdf hl ho' [(o', v)] constraints ins).1 a v hq rfl ha).2 hv,
      fun calls t c i => ?_⟩
    obtain ⟨x, hx⟩ := logpdf_taken (P := P) (run_keeps (P := P) (l := .exprAssume) (by decide) calls
      (s := { s with labels := [.exprAssume] }) (by simp)) t c i
    exact ⟨x, _, hx⟩
  · intro ω hω
    refine ⟨_, ((inline_simulate hl ho' outputs constraints ins ω).1 a hq h1.symm ha).2 hω,
      fun calls t c i ω' => ?_⟩
    obtain ⟨x, hx⟩ := simulate_taken (P := P) (run_keeps (P := P) (l := .expr) (by decide) calls
      (s := { s with labels := [.expr] }) (by simp)) t c i ω'
    exact ⟨x, _, hx⟩

/-- SPEC. The text `(x, y, …) ~> body` of an expression; the spaces of the code are arbitrary. -/
def lambdaText (names : List Str) (body : Str) : Str :=
  '(' :: (",".toList.intercalate names ++ ')' :: '~' :: '>' :: body)

/-- SPEC. A name of an argument: not empty, and without the characters of the syntax. -/
def ArgName (s : Str) : Prop := s ≠ [] ∧ ∀ c ∈ s, c ∉ ['(', ')', ',', '~', '>'] ∧ isSpace c = false

theorem beforeArrow_of {pre : Str} (h : '~' ∉ pre) (rest : Str) :
    beforeArrow (pre ++ '~' :: '>' :: rest) = pre := by
  induction pre with
  | nil => simp [beforeArrow]
  | cons c pre ih =>
    have hc : c ≠ '~' := fun e => h (by rw [e]; simp)
    rw [List.cons_append]
    unfold beforeArrow
    split
    · rename_i heq
      simp only [List.cons.injEq] at heq
      exact absurd heq.1 hc
    · rename_i c' cs' _ heq
      simp only [List.cons.injEq] at heq
      obtain ⟨rfl, rfl⟩ := heq
      rw [ih fun hm => h (List.mem_cons_of_mem _ hm)]
    · rename_i heq; cases heq

theorem countArgs_of {e body : Str} {names : List Str} (hnames : ∀ s ∈ names, ArgName s)
    (he : e.filter (fun c => !isSpace c) = lambdaText names body) :
    countArgs e = names.length := by
  have hall : ∀ c ∈ ",".toList.intercalate names, c ∉ ['(', ')', '~'] := by
    intro c hc
    rcases Schema.mem_join hc with rfl | ⟨s, hs, hcs⟩
    · decide
    · have := ((hnames s hs).2 c hcs).1
      simp only [List.mem_cons, not_or] at this ⊢
      tauto
  have hb : beforeArrow (lambdaText names body) = '(' :: (",".toList.intercalate names ++ [')']) := by
    have : lambdaText names body =
        ('(' :: (",".toList.intercalate names ++ [')'])) ++ '~' :: '>' :: body := by
      simp [lambdaText]
    rw [this, beforeArrow_of]
    intro hm
    rcases List.mem_cons.mp hm with hm | hm
    · cases hm
    · rcases List.mem_append.mp hm with hm | hm
      · exact hall _ hm (by simp)
      · simp at hm
  have hfil : ('(' :: (",".toList.intercalate names ++ [')'])).filter
      (fun c => c ≠ '(' ∧ c ≠ ')') = ",".toList.intercalate names := by
    rw [List.filter_cons_of_neg (by simp), List.filter_append]
    rw [show ([')'] : Str).filter (fun c => c ≠ '(' ∧ c ≠ ')') = [] by decide, List.append_nil,
      List.filter_eq_self]
    intro c hc
    have := hall c hc
    simp only [List.mem_cons, not_or] at this
    simp [this.1, this.2.1]
  unfold countArgs
  rw [he, hb]
  dsimp only
  rw [hfil]
  cases names with
  | nil => rfl
  | cons s t =>
    rw [Schema.pySplit_join _ (by simp) fun s' hs' hm => ((hnames s' hs').2 _ hm).1 (by simp),
      List.filter_eq_self.mpr]
    intro s' hs'
    simpa using (hnames s' hs').1

/-- C85, the arguments of the expression.  An expression that, but for white space, is
`(x, y, …) ~> body` is accepted when the interpreter accepts it and it has as many arguments as the
object has inputs (one output, which is not an input, and inputs that differ); and it is refused
otherwise. -/
theorem C85_construct (P : Interp V T) {outputs inputs : List Nat} {e body : Str}
    {names : List Str} (hnames : ∀ s ∈ names, ArgName s)
    (he : e.filter (fun c => !isSpace c) = lambdaText names body) :
    (∃ s, construct P outputs inputs (some e) = .ok s) ↔
      (∃ o, outputs = [o] ∧ o ∉ inputs) ∧ inputs.Nodup ∧ names.length = inputs.length ∧
      P.executes e = true := by
  have hn := countArgs_of hnames he
  constructor
  · rintro ⟨s, hs⟩
    obtain ⟨-, o, h1, h2, h3, h4, h5, h6, h7, h8⟩ := construct_shape hs
    cases h4
    exact ⟨⟨o, h2 ▸ h1, h7⟩, h6, by rw [← hn, h8], h5⟩
  · rintro ⟨⟨o, rfl, h7⟩, h6, h8, h5⟩
    refine ⟨⟨[o], inputs, e, []⟩, ?_⟩
    unfold construct
    rw [if_neg (by simp), if_neg (by simpa using h6), if_neg (by simpa using h7)]
    simp only
    rw [if_neg (by rw [hn]; simpa using h8), if_neg (by simp [h5])]

/-! An interpreter with one expression, the bernoulli law of its second argument; values and texts
are numbers, and values above one are refused. -/

noncomputable def demoInterp : Interp ℕ ℕ where
  text v := v
  executes _ := true
  dens _ a v := if v ≤ 1 then some (((a.getD 1 0 : ℕ) : ℝ) : LogP) else none

def demoText : Str := "(x, y) ~> {bernoulli(y)}".toList

/-- The object can be made; its history may hold refused calls; a query that the interface allows,
with the inputs in another order. -/
example : ∃ s, construct demoInterp [7] [3, 4] (some demoText) = .ok s ∧
    (∀ c ∈ ([.transition, .logpdf 0 [(7, 1)] [(3, 1)] [(3, 1)],
      .logpdf 5 [(7, 0)] [] [(4, 2), (3, 1)], .simulate 1 [7] [] [(3, 1), (4, 2)]
        [fun a => a.head?, fun a => a.head?]] : List (Call ℕ ℕ)), Answered demoInterp s c) ∧
    InlineLegal s [] [(4, 2), (3, 1)] ∧ InlineArgs demoInterp s [(4, 2), (3, 1)] [1, 2] ∧
    demoInterp.dens s.expression [1, 2] 0 = some (((2 : ℕ) : ℝ) : LogP) ∧
    demoInterp.dens s.expression [1, 2] 9 = none := by
  obtain ⟨s, hs⟩ := (C85_construct demoInterp (outputs := [7]) (inputs := [3, 4]) (e := demoText)
    (names := ["x".toList, "y".toList]) (body := "{bernoulli(y)}".toList) (by
      intro s hs
      unfold ArgName
      fin_cases hs <;> decide) (by decide)).mpr ⟨⟨7, rfl, by decide⟩, by decide, rfl, rfl⟩
  obtain ⟨-, o, h1, h2, h3, -⟩ := construct_shape hs
  have hI : ∀ i : Dict ℕ ℕ, i.get? 3 = some 1 → i.get? 4 = some 2 →
      ∀ a, InlineArgs demoInterp s i a ↔ a = [1, 2] := by
    intro i h3' h4' a
    have h0 : InlineArgs demoInterp s i [1, 2] := by
      unfold InlineArgs
      rw [h3]
      exact List.Forall₂.cons ⟨1, h3', rfl⟩ (List.Forall₂.cons ⟨2, h4', rfl⟩ List.Forall₂.nil)
    exact ⟨fun h => inlineArgs_unique h h0, fun h => h ▸ h0⟩
  refine ⟨s, hs, ?_, ⟨?_, rfl⟩, (hI _ rfl rfl _).mpr rfl, by simp [demoInterp], by simp [demoInterp]⟩
  · intro c hc
    simp only [List.mem_cons, List.not_mem_nil, or_false] at hc
    rcases hc with rfl | rfl | rfl | rfl
    · trivial
    · intro hq; have := hq.constraints; simp at this
    · intro _ _ a o v _ ht
      simp only [List.cons.injEq, Prod.mk.injEq] at ht
      obtain ⟨⟨-, rfl⟩, -⟩ := ht
      simp [demoInterp]
    · intro a ha ω hω
      rw [(hI _ rfl rfl _).mp ha]
      simp only [List.mem_cons, List.not_mem_nil, or_false, or_self] at hω
      subst hω
      simp
  · intro i; rw [h3]; simp [Dict.keys]; tauto

end Cgpm.Props
