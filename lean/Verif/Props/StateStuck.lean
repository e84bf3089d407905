import Verif.Lemmas.StateStuck
import Verif.Lemmas.StateSame
import Verif.Props.StateColumn
import Verif.Props.ColGibbs

/-!
C19, C21: column transitions that raise after they have taken the column out of its view.
-/
namespace Cgpm.Props
open Cgpm Cgpm.View Cgpm.State

variable {C : Cat}

/-- C19, no auxiliary view.  In every consistent State without dependence constraints or
conditional columns, the transition of a column with `m = 0` raises AssertionError, and it leaves
the column outside of its view: `dim_for` raises KeyError for it, although it is still an output.
Other columns stay. -/
theorem C19_no_auxiliary_violated (hL : C.Lawful) {cfg : Cfg C} {s : State C}
    (h : StateReachable cfg s) {c : Col} (hc : c ∈ s.outputs) (hCd : s.Cd = [])
    (hcond : s.anyConditional cfg = false) (aux : Nat → ℝ × (Row → Tab)) (u : ℝ) :
    (∃ d, s.dimFor c = .ok d) ∧
    ∃ s', s.gibbsTransitionDim cfg c 0 aux u = .err .assertion s' ∧ c ∈ s'.outputs ∧
      s'.dimFor c = .error .keyError ∧ ∀ b, b ≠ c → s'.dimFor b = s.dimFor b := by
  have hI := h.inv hL
  obtain ⟨-, -, d, -, -, -, hd, -⟩ := hI.dim hc
  have hg := (hI.gibbsDimScore_stuck (cfg := cfg) hd (m := 0) (aux := aux)).1 rfl
  refine ⟨⟨d, hd⟩, { s with views := dropCol c s.views }, ?_, hc, ?_, fun b hb => ?_⟩
  · unfold gibbsTransitionDim
    simp only [hcond, hCd, Bool.false_eq_true, if_false, ne_eq, not_true_eq_false, hg]
  · rw [dimFor_dropCol, if_pos rfl]
  · rw [dimFor_dropCol, if_neg hb]

/-- C21, removed columns.  `unincorporate_dim` keeps the independence constraints that mention the
column.  In every consistent State where `a` and `c` are declared independent, without dependence
constraints or conditional columns, `a` can be removed, and from then on every transition of
column `c` raises KeyError, and leaves `c` outside of its view: `dim_for` raises KeyError for it,
although it is still an output. -/
theorem C21_removed_column_violated (hL : C.Lawful) {cfg : Cfg C} {s : State C}
    (h : StateReachable cfg s) {a c : Col} (hac : a ≠ c) (ha : a ∈ s.outputs) (hc : c ∈ s.outputs)
    (hp : (a, c) ∈ s.Ci ∨ (c, a) ∈ s.Ci) (hCd : s.Cd = []) (hcond : s.anyConditional cfg = false)
    (hins : ∀ b d, s.dimFor b = .ok d → b ≠ a → a ∉ d.inputs) :
    ∃ s1, s.unincorporateDim a = .ok s1 ∧ StateReachable cfg s1 ∧
      (∃ d, s1.dimFor c = .ok d) ∧
      ∀ m aux u, 0 < m → goodDraws aux u →
        ∃ s2, s1.gibbsTransitionDim cfg c m aux u = .err .keyError s2 ∧ c ∈ s2.outputs ∧
          s2.dimFor c = .error .keyError := by
  have hI := h.inv hL
  have hlen : s.outputs.length ≠ 1 := fun e => by
    obtain ⟨x, hx⟩ := List.length_eq_one_iff.mp e
    rw [hx] at ha hc
    exact hac ((List.mem_singleton.mp ha).trans (List.mem_singleton.mp hc).symm)
  obtain ⟨s1, g1, g2, g3, g4, g5, g6, g7, g8, g9, g10⟩ := hI.unincorporateDim_ok ha hlen hins
  have hc1 : c ∈ s1.outputs := by rw [g4]; simp [hc, Ne.symm hac]
  have ha1 : a ∉ s1.outputs := by rw [g4]; simp
  obtain ⟨-, -, d, -, -, -, hd, -⟩ := g2.dim hc1
  have hcond1 : s1.anyConditional cfg = false := by
    refine anyConditional_false fun b d' hb => ?_
    obtain ⟨i, v', k1, k2, k3⟩ := dimFor_ok hb
    obtain ⟨v, k4, rfl⟩ := g10 i v' k2
    have hba : b ≠ a := by
      rintro rfl
      simp [drop] at k3
    have k5 : s.Zv b = some i := by rw [g6, upd_ne _ _ hba] at k1; exact k1
    have k6 : v.dims.get? b = some d' := by
      simp only [drop] at k3
      rwa [Dict.get?_erase_ne _ hba] at k3
    by_contra hne
    have : s.anyConditional cfg = true := anyConditional_iff.mpr
      ⟨b, (hI.cols b).mp (by rw [k5]; simp), d', by simp only [dimFor, k5, k4, k6],
        by simpa using hne⟩
    rw [hcond] at this; cases this
  have hav : a ∈ avoid s1.Ci c := by
    rw [g9]
    unfold avoid
    rw [List.mem_flatMap]
    rcases hp with hp | hp
    · exact ⟨(a, c), List.mem_filter.mpr ⟨hp, by simp⟩, by simp [hac]⟩
    · exact ⟨(c, a), List.mem_filter.mpr ⟨hp, by simp⟩, by simp [hac]⟩
  refine ⟨s1, g1, ?_, ⟨d, hd⟩, fun m aux u hm hg => ?_⟩
  · have := StateReachable.step h (op := .uncDim a) hins
    simp only [State.apply, g1] at this
    exact this
  · have hsc := (g2.gibbsDimScore_stuck (cfg := cfg) hd (m := m) (aux := aux)).2 hm hg.1 ⟨a, hav, ha1⟩
    refine ⟨{ s1 with views := dropCol c s1.views }, ?_, hc1, ?_⟩
    · unfold gibbsTransitionDim
      simp only [hcond1, g8, hCd, Bool.false_eq_true, if_false, ne_eq, not_true_eq_false, hsc]
    · rw [dimFor_dropCol, if_pos rfl]

/-- The demonstration State, with its columns declared independent, is an instance of both. -/
example : ∃ s : State libCat, StateReachable plainCfg s ∧ (0, 1) ∈ s.Ci ∧ 0 ∈ s.outputs ∧
    1 ∈ s.outputs ∧ s.Cd = [] ∧ s.anyConditional plainCfg = false ∧
    (∀ b d, s.dimFor b = .ok d → b ≠ 0 → 0 ∉ d.inputs) ∧
    goodDraws (fun _ => (1, fun r => r)) (1 / 2) := by
  obtain ⟨s, h1, h2, h3, h4, h5, h6, h7, h8, h9, h10, -, h12⟩ := stateDemo_init
    (normal_remembered 0) normal_hyp (a := 0) (b := 1) (by decide) [] [(0, 1)]
  exact ⟨s, h1, by rw [h10]; simp, by rw [h4]; simp, by rw [h4]; simp, h9,
    anyConditional_false fun _ _ _ => rfl, fun b d hd _ => by rw [(h12 b d hd).2.1]; simp,
    fun _ => one_pos, by norm_num, by norm_num⟩

end Cgpm.Props
