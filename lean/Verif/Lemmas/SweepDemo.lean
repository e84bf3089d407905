import Verif.Lemmas.StatePlain
import Verif.Lemmas.StateSame
import Verif.Lemmas.RowDemo
import Verif.Lemmas.StateConstraints
import Verif.Props.ColGibbs

/-! A State with three columns of a collapsed type and two rows, used to show that hypotheses can be
met. -/
namespace Cgpm.Props
open Cgpm Cgpm.View Cgpm.State

/-- Three columns; the second misses its first value. -/
noncomputable def sweepX : Dict Col (List colCat.Cell) :=
  [(0, [some (0 : ℝ), some (1 : ℝ)]), (1, [none, some (2 : ℝ)]), (2, [some (3 : ℝ), some (3 : ℝ)])]

/-- All columns are normal. -/
def sweepSchema : Col → ColSpec colCat :=
  fun _ => ⟨[], ⟨.normal, trivial⟩, ⟨.normal, ⟨0, 1, 1, 1⟩⟩⟩

/-- The rows share a cluster in view 0, and not in view 1. -/
def sweepRows : Nat → ℝ × List Tab := fun v => (1, if v = 0 then [0, 0] else [0, 1])

theorem sweep_legal :
    LegalInit sweepX 2 sweepSchema 1 [(0, 0), (1, 1), (2, 1)] [0, 1] sweepRows := by
  have hp : ∀ x : ℝ, (colCat.F ⟨.normal, trivial⟩).prep (x, []) = .ok (x, []) := fun x =>
    (C10_primitives_store .normal x (x, [])).mpr ⟨rfl, by simp [remembered, support]⟩
  refine ⟨⟨by simp [sweepX, Dict.keys], by simp [sweepX]⟩, ?_, by norm_num, one_pos,
    ⟨by simp [Dict.keys], fun c => ?_⟩, ⟨by simp, fun v => ?_⟩, fun v _ => ⟨one_pos, ?_⟩,
    fun c _ => ⟨rfl, one_pos, one_pos, one_pos⟩, fun c _ i hi => (by cases hi), fun c hc r hr => ?_⟩
  · intro c l h
    simp only [sweepX, Dict.get?_cons, Dict.get?_nil] at h
    split at h
    · cases h; rfl
    · split at h
      · cases h; rfl
      · split at h
        · cases h; rfl
        · cases h
  · simp [sweepX, Dict.keys]
  · simp only [List.mem_cons, List.not_mem_nil, or_false, Dict.get?_cons, Dict.get?_nil]
    constructor
    · rintro (rfl | rfl)
      · exact ⟨0, by simp⟩
      · exact ⟨1, by simp⟩
    · rintro ⟨c, h⟩
      split at h
      · cases h; exact Or.inl rfl
      · split at h
        · cases h; exact Or.inr rfl
        · split at h
          · cases h; exact Or.inr rfl
          · cases h
  · unfold sweepRows; split <;> rfl
  · unfold admissible fileOf
    have hc' : c = 0 ∨ c = 1 ∨ c = 2 := by simpa [sweepX, Dict.keys] using hc
    have hr' : r = 0 ∨ r = 1 := by
      rcases r with _ | _ | r
      · exact Or.inl rfl
      · exact Or.inr rfl
      · exact absurd hr (by show ¬ (r + 1 + 1 < 2); simp)
    rcases hc' with rfl | rfl | rfl <;> rcases hr' with rfl | rfl <;>
      simp [file, tblOf, sweepX, Dict.get?_cons, sweepSchema, Dim.new, hp]

/-- The State built from these data; columns 0 and 1 are declared independent, and all columns are normal. -/
theorem sweepDemoKinds : ∃ s : State colCat, StateReachable (libCfg _) s ∧ viewsSorted s ∧
    s.outputs = [0, 1, 2] ∧ s.nRows = 2 ∧ s.Ci = [(0, 1)] ∧ s.Cd = [] ∧
    s.anyConditional (libCfg _) = false ∧ (∀ c ∈ s.outputs, partnersExist s c) ∧
    (s.Zv 0 = some 0 ∧ s.Zv 1 = some 1 ∧ s.Zv 2 = some 1) ∧
    ∀ c d, s.dimFor c = .ok d → d.kind = ⟨.normal, trivial⟩ := by
  obtain ⟨s, h1, h2, h3, h4, h5, h6, h7, h8, h9, h10, h11⟩ :=
    init_ok [] [(0, 1)] (initOk_of sweep_legal)
  have ho : s.outputs = [0, 1, 2] := h4
  refine ⟨s, StateReachable.of _ _ _ _ _ _ _ [] [(0, 1)] sweep_legal s h1 [] trivial,
    by unfold viewsSorted; rw [h8]; simp, ho, h5, h10, h9, ?_, fun c _ a ha hm => ?_,
    ⟨by rw [h7]; rfl, by rw [h7]; rfl, by rw [h7]; rfl⟩, fun c d hd => ?_⟩
  · rw [Bool.eq_false_iff, ne_eq, anyConditional_iff]
    rintro ⟨c, hc, d, hd, hk⟩
    obtain ⟨i, v, -, g2, g3⟩ := dimFor_ok hd
    rw [((h11 i v g2).2.2 c d g3).kind] at hk
    cases hk
  · rw [h10] at hm
    rw [ho]
    simp at hm ⊢
    rcases hm with hm | hm
    · exact Or.inl hm.1
    · exact Or.inr (Or.inl hm.2)
  · obtain ⟨i, v, -, g2, g3⟩ := dimFor_ok hd
    exact ((h11 i v g2).2.2 c d g3).kind

/-- The State built from these data; columns 0 and 1 are declared independent. -/
theorem sweepDemo : ∃ s : State colCat, StateReachable (libCfg _) s ∧ viewsSorted s ∧
    s.outputs = [0, 1, 2] ∧ s.nRows = 2 ∧ s.Ci = [(0, 1)] ∧ s.Cd = [] ∧
    s.anyConditional (libCfg _) = false ∧ (∀ c ∈ s.outputs, partnersExist s c) ∧
    s.Zv 0 = some 0 ∧ s.Zv 1 = some 1 ∧ s.Zv 2 = some 1 := by
  obtain ⟨s, h1, h2, h3, h4, h5, h6, h7, h8, h9, -⟩ := sweepDemoKinds
  exact ⟨s, h1, h2, h3, h4, h5, h6, h7, h8, h9⟩

end Cgpm.Props
