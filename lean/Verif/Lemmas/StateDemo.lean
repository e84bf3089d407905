import Verif.Lemmas.StatePlain
import Verif.Lemmas.StateSame

/-! A State with two columns and two rows, used to show that hypotheses can be met. -/
namespace Cgpm.Props
open Cgpm Cgpm.View Cgpm.State

/-- Two columns; the second misses its first value. -/
def stateDemoX (x : ℝ) : Dict Col (List libCat.Cell) :=
  [(0, [some x, some x]), (1, [none, some x])]

/-- Both columns have the same type. -/
def stateDemoSchema (p : Prim) (hy : p.H) : Col → ColSpec libCat :=
  fun _ => ⟨[], ⟨p, trivial⟩, ⟨p, hy⟩⟩

/-- The rows share a cluster in view `a`, and not in the other view. -/
def stateDemoRows (a : Nat) : Nat → ℝ × List Tab := fun v => (1, if v = a then [0, 0] else [0, 1])

theorem stateDemo_legal {p : Prim} {hy : p.H} {x : ℝ} (hx : remembered p x ≠ none)
    (hh : (libCat.F ⟨p, trivial⟩).hypOk ⟨p, hy⟩) {a b : Nat} (hab : a ≠ b) :
    LegalInit (stateDemoX x) 2 (stateDemoSchema p hy) 1 [(0, a), (1, b)] [a, b] (stateDemoRows a) := by
  obtain ⟨y, hy'⟩ := Option.ne_none_iff_exists'.mp hx
  have hp : (libCat.F ⟨p, trivial⟩).prep (x, []) = .ok (y, []) :=
    (C10_primitives_store _ _ _).mpr ⟨rfl, hy'⟩
  refine ⟨⟨by simp [stateDemoX, Dict.keys], by simp [stateDemoX]⟩, ?_, by norm_num, one_pos, ⟨by simp [Dict.keys], fun c => ?_⟩,
    ⟨by simpa using hab, fun v => ?_⟩, fun v _ => ⟨one_pos, ?_⟩, fun c _ => hh,
    fun c _ i hi => (by cases hi), fun c hc r hr => ?_⟩
  · intro c l h
    simp only [stateDemoX, Dict.get?_cons, Dict.get?_nil] at h
    split at h
    · cases h; rfl
    · split at h
      · cases h; rfl
      · cases h
  · simp [stateDemoX, Dict.keys]
  · simp only [List.mem_cons, List.not_mem_nil, or_false, Dict.get?_cons, Dict.get?_nil]
    constructor
    · rintro (rfl | rfl)
      · exact ⟨0, by simp⟩
      · exact ⟨1, by simp⟩
    · rintro ⟨c, h⟩
      split at h
      · cases h; exact Or.inl rfl
      · split at h
        · cases h; exact Or.inr rfl
        · cases h
  · unfold stateDemoRows; split <;> rfl
  · unfold admissible fileOf
    have hc' : c = 0 ∨ c = 1 := by simpa [stateDemoX, Dict.keys] using hc
    have hr' : r = 0 ∨ r = 1 := by
      rcases r with _ | _ | r
      · exact Or.inl rfl
      · exact Or.inr rfl
      · exact absurd hr (by show ¬ (r + 1 + 1 < 2); simp)
    rcases hc' with rfl | rfl <;> rcases hr' with rfl | rfl <;>
      simp [file, tblOf, stateDemoX, Dict.get?_cons, stateDemoSchema, Dim.new, hp]

/-- The State built from these data. -/
theorem stateDemo_init {p : Prim} {hy : p.H} {x : ℝ} (hx : remembered p x ≠ none)
    (hh : (libCat.F ⟨p, trivial⟩).hypOk ⟨p, hy⟩) {a b : Nat} (hab : a ≠ b) (Cd : Blocks)
    (Ci : Pairs) :
    ∃ s : State libCat, StateReachable plainCfg s ∧ State.Inv s ∧ s.X = stateDemoX x ∧
      s.outputs = [0, 1] ∧ s.nRows = 2 ∧ s.Zv 0 = some a ∧ s.Zv 1 = some b ∧
      s.views.keys = [a, b] ∧ s.Cd = Cd ∧ s.Ci = Ci ∧
      (∀ i v, s.views.get? i = some v → ∀ r, v.seat r = (stateDemoRows a i).2[r]?) ∧
      ∀ c d, s.dimFor c = .ok d → d.kind = ⟨p, trivial⟩ ∧ d.inputs = [] ∧ d.hyp = ⟨p, hy⟩ := by
  have hl := stateDemo_legal hx hh hab
  obtain ⟨s, h1, h2, h3, h4, h5, h6, h7, h8, h9, h10, h11⟩ := init_ok Cd Ci (initOk_of hl)
  refine ⟨s, StateReachable.of _ _ _ _ _ _ _ Cd Ci hl s h1 [] trivial, h2, h3, h4, h5, ?_, ?_, h8,
    h9, h10, fun i v hv => (h11 i v hv).2.1, fun c d hd => ?_⟩
  · rw [h7]; rfl
  · rw [h7]; rfl
  · obtain ⟨i, v, -, g2, g3⟩ := dimFor_ok hd
    have := (h11 i v g2).2.2 c d g3
    exact ⟨this.kind, this.inputs, this.hyp⟩

theorem stateDemoOne_legal {p : Prim} {hy : p.H} {x : ℝ} (hx : remembered p x ≠ none)
    (hh : (libCat.F ⟨p, trivial⟩).hypOk ⟨p, hy⟩) :
    LegalInit (stateDemoX x) 2 (stateDemoSchema p hy) 1 [(0, 0), (1, 0)] [0] (stateDemoRows 1) := by
  have h := stateDemo_legal hx hh (a := 1) (b := 0) (by decide)
  refine ⟨h.columns, h.length, h.pos, h.alpha, ⟨by simp [Dict.keys], fun c => ?_⟩,
    ⟨by simp, fun v => ?_⟩, fun v _ => ⟨one_pos, ?_⟩, h.hypers, h.inputs, h.values⟩
  · simp [stateDemoX, Dict.keys]
  · simp only [List.mem_cons, List.not_mem_nil, or_false, Dict.get?_cons, Dict.get?_nil]
    constructor
    · rintro rfl
      exact ⟨0, by simp⟩
    · rintro ⟨c, h⟩
      split at h
      · cases h; rfl
      · split at h
        · cases h; rfl
        · cases h
  · unfold stateDemoRows; split <;> rfl

/-- The same data, with both columns in one view and the rows in different clusters. -/
theorem stateDemoOne_init {p : Prim} {hy : p.H} {x : ℝ} (hx : remembered p x ≠ none)
    (hh : (libCat.F ⟨p, trivial⟩).hypOk ⟨p, hy⟩) :
    ∃ s : State libCat, StateReachable plainCfg s ∧ State.Inv s ∧ s.X = stateDemoX x ∧
      s.outputs = [0, 1] ∧ s.nRows = 2 ∧ s.Zv 0 = some 0 ∧ s.Zv 1 = some 0 ∧ s.views.keys = [0] ∧
      (∀ i v, s.views.get? i = some v → ∀ r, v.seat r = [0, 1][r]?) ∧
      ∀ c d, s.dimFor c = .ok d → d.kind = ⟨p, trivial⟩ ∧ d.inputs = [] ∧ d.hyp = ⟨p, hy⟩ := by
  have hl := stateDemoOne_legal hx hh
  obtain ⟨s, h1, h2, h3, h4, h5, h6, h7, h8, h9, h10, h11⟩ := init_ok [] [] (initOk_of hl)
  refine ⟨s, StateReachable.of _ _ _ _ _ _ _ [] [] hl s h1 [] trivial, h2, h3, h4, h5, ?_, ?_, h8,
    fun i v hv r => ?_, fun c d hd => ?_⟩
  · rw [h7]; rfl
  · rw [h7]; rfl
  · have hi : i ∈ s.views.keys := Dict.mem_keys_of_get? hv
    rw [h8] at hi
    obtain rfl : i = 0 := by simpa using hi
    rw [(h11 0 v hv).2.1]; rfl
  · obtain ⟨i, v, -, g2, g3⟩ := dimFor_ok hd
    have := (h11 i v g2).2.2 c d g3
    exact ⟨this.kind, this.inputs, this.hyp⟩

/-- Bernoulli columns accept 0 and 1. -/
theorem bernoulli_remembered_one : remembered .bernoulli 1 ≠ none := by simp [remembered, support]

theorem bernoulli_hyp : (libCat.F ⟨.bernoulli, trivial⟩).hypOk ⟨.bernoulli, ⟨1, 1⟩⟩ :=
  ⟨rfl, one_pos, one_pos⟩

/-- Normal columns accept every value. -/
theorem normal_remembered (x : ℝ) : remembered .normal x ≠ none := by simp [remembered, support]

theorem normal_hyp : (libCat.F ⟨.normal, trivial⟩).hypOk ⟨.normal, ⟨0, 1, 1, 1⟩⟩ :=
  ⟨rfl, one_pos, one_pos, one_pos⟩

end Cgpm.Props
