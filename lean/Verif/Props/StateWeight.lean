import Verif.Lemmas.StateWeight
import Verif.Lemmas.StateDemo

/-!
C52: the weights of a column transition.
-/
namespace Cgpm.Props
open Cgpm Cgpm.View Cgpm.State

variable {C : Cat}

/-- SPEC. Column `a` is declared independent of column `c`. -/
def declaredIndependent (s : State C) (c a : Col) : Prop :=
  a ≠ c ∧ ((a, c) ∈ s.Ci ∨ (c, a) ∈ s.Ci)

open Classical in
/-- SPEC. Column `c` would be alone in view `v`. -/
noncomputable def aloneIn (s : State C) (c : Col) (v : Nat) : Prop := ∀ a, a ≠ c → s.Zv a ≠ some v

open Classical in
/-- C52.  A column transition of a consistent State whose views are listed in increasing order
considers every view, and fresh ones.  A view that holds a column declared independent has weight
zero.  Every other candidate has as its log weight, up to a constant that is the same for all
candidates, the log probability of the column partition plus the log likelihood of the data, in the
State that results if that candidate is drawn; the `m` candidates in which the column would be
alone share their weight.  This holds for collapsed and uncollapsed types.

Missing: States whose views are listed in another order, for which weights are attributed to the
wrong views (`C21_order_violated`). -/
theorem C52_column_weights_partial (hL : C.Lawful) {cfg : Cfg C} {s : State C}
    (h : StateReachable cfg s) (hs : viewsSorted s) {c : Col} (hc : c ∈ s.outputs) {m : Nat}
    {aux : Nat → ℝ × (Row → Tab)} {u : ℝ} (hl : stateLegal cfg s (.column c m aux u)) :
    ∃ tables dims auxViews w s1 const,
      s.gibbsDimScore cfg c m aux = .ok (tables, dims, auxViews, w) s1 ∧
      (∀ v ∈ s.views.keys, v ∈ tables) ∧ tables.Nodup ∧ w.length = tables.length ∧
      ∀ (k new : Nat), tables[k]? = some new →
        ∃ s', s1.gibbsDimMove cfg c tables dims auxViews k = .ok s' ∧
          (∀ a, s'.Zv a = if a = c then some new else s.Zv a) ∧
          ((∃ a, declaredIndependent s c a ∧ s.Zv a = some new) → w[k]? = some ⊥) ∧
          ((¬ ∃ a, declaredIndependent s c a ∧ s.Zv a = some new) → w[k]? = some
            ((s'.crp.logpdfScore + s'.likelihood + const -
              (if aloneIn s c new then Real.log m else 0) : ℝ) : LogP)) := by
  have hI := h.inv hL
  obtain ⟨h1, h2, h3, h4⟩ := hl
  obtain ⟨-, -, d, -, -, -, hd, -⟩ := hI.dim hc
  obtain ⟨tables, dims, auxViews, w, s1, const, e1, e2, e3, e4⟩ :=
    hI.gibbsDimScore_value hL (cfg := cfg) hd h1 h2.1 (partners_of h3) hs
  have hav : ∀ new, (∃ a, declaredIndependent s c a ∧ s.Zv a = some new) ↔
      ∃ a ∈ avoid s.Ci c, s.Zv a = some new := fun new =>
    exists_congr fun a => and_congr_left fun _ => mem_avoid.symm
  refine ⟨tables, dims, auxViews, w, s1, const, e1, ?_, ?_, e3, fun k new hk => ?_⟩
  · intro v hv
    rw [e2]
    unfold candidates
    rw [hI.sorted_keys hs]
    exact List.mem_append_left _ hv
  · rw [e2]
    unfold candidates
    rw [hI.sorted_keys hs]
    refine List.Nodup.append hI.views.wf ?_ ?_
    · exact List.Nodup.map (fun a b hab => by simpa using hab) List.nodup_range
    · intro t ht ht'
      obtain ⟨i, -, rfl⟩ := List.mem_map.mp ht'
      refine mem_le_pyMax ht ?_
      rw [pyMax_perm hI.keys_perm]; omega
  · obtain ⟨s', f1, f2, f3, f4⟩ := e4 k new hk
    refine ⟨s', f1, fun a => by rw [f2]; rfl, fun hh => f3 ((hav new).mp hh), fun hh => ?_⟩
    exact f4 fun hh' => hh ((hav new).mpr hh')

open Classical in
/-- C52, with the number of auxiliary views that the library uses by default: the difference of the
log weights of two candidates that are not forbidden is the difference of the joint log
probabilities of the two States. -/
theorem C52_weight_differences_partial (hL : C.Lawful) {cfg : Cfg C} {s : State C}
    (h : StateReachable cfg s) (hs : viewsSorted s) {c : Col} (hc : c ∈ s.outputs)
    {aux : Nat → ℝ × (Row → Tab)} {u : ℝ} (hl : stateLegal cfg s (.column c 1 aux u)) :
    ∃ tables dims auxViews w s1,
      s.gibbsDimScore cfg c 1 aux = .ok (tables, dims, auxViews, w) s1 ∧
      ∀ (i j : Nat) (si sj : State C) (x y : ℝ),
        s1.gibbsDimMove cfg c tables dims auxViews i = .ok si →
        s1.gibbsDimMove cfg c tables dims auxViews j = .ok sj →
        w[i]? = some (x : LogP) → w[j]? = some (y : LogP) →
        x - y = (si.crp.logpdfScore + si.likelihood) - (sj.crp.logpdfScore + sj.likelihood) := by
  obtain ⟨tables, dims, auxViews, w, s1, const, e1, -, -, e2, e3⟩ :=
    C52_column_weights_partial hL h hs hc hl
  have key : ∀ (k : Nat) (sk : State C) (x : ℝ),
      s1.gibbsDimMove cfg c tables dims auxViews k = .ok sk → w[k]? = some (x : LogP) →
      x = sk.crp.logpdfScore + sk.likelihood + const := by
    intro k sk x hk hx
    have hlt : k < tables.length := by rw [← e2]; exact (List.getElem?_eq_some_iff.mp hx).1
    obtain ⟨s', f1, -, f3, f4⟩ := e3 k _ (List.getElem?_eq_getElem hlt)
    rw [hk] at f1
    cases f1
    by_cases hd : ∃ a, declaredIndependent s c a ∧ s.Zv a = some (tables[k]'hlt)
    · rw [f3 hd] at hx; cases hx
    · rw [f4 hd] at hx
      have := WithBot.coe_injective (Option.some.inj hx)
      rw [← this]
      simp
  refine ⟨tables, dims, auxViews, w, s1, e1, fun i j si sj x y hi hj hx hy => ?_⟩
  rw [key i si x hi hx, key j sj y hj hy]; ring

/-- The demonstration State, with views 0 and 1, is an instance: one auxiliary view, no
constraints. -/
example : ∃ s : State libCat, StateReachable plainCfg s ∧ viewsSorted s ∧ 0 ∈ s.outputs ∧
    stateLegal plainCfg s (.column 0 1 (fun _ => (1, fun r => r)) (1 / 2)) := by
  obtain ⟨s, h1, h2, h3, h4, h5, h6, h7, h8, h9, h10, -, h12⟩ := stateDemo_init
    (normal_remembered 0) normal_hyp (a := 0) (b := 1) (by decide) [] []
  refine ⟨s, h1, by unfold viewsSorted; rw [h8]; simp, by rw [h4]; simp, one_pos,
    ⟨fun _ => one_pos, by norm_num, by norm_num⟩, ?_, fun d hd => Or.inl ?_⟩
  · intro a _ hm; rw [h10] at hm; simp at hm
  · rw [(h12 0 d hd).1]; rfl

end Cgpm.Props
