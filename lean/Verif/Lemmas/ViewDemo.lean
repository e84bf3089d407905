import Verif.Props.View
import Verif.Spec.ViewQuery

/-!
A concrete view on which the hypotheses of the theorems about view queries are checked: one
bernoulli column named 0, whose cells all hold 1, with row 0 in cluster 0 and row 1 in cluster 5.
-/
namespace Cgpm.Props
open Cgpm Cgpm.View

variable {C : Cat}

theorem legalRun_append {s : C.Tbl × View C} {l l' : List (View.Op C)} (h : legalRun s l)
    (h' : legalRun (View.run s l) l') : legalRun s (l ++ l') := by
  induction l generalizing s with
  | nil => exact h'
  | cons o l ih => exact ⟨h.1, ih h.2 h'⟩

theorem Reachable.step {X : C.Tbl} {v : View C} (h : Reachable X v) {op : View.Op C}
    (hl : legal (X, v) op) : Reachable (View.apply (X, v) op).1 (View.apply (X, v) op).2.state := by
  cases h with
  | of X₀ a ha ops hr =>
    have := Reachable.of X₀ a ha (ops ++ [op]) (legalRun_append hr ⟨hl, trivial⟩)
    simpa only [View.run, List.foldl_append, List.foldl_cons, List.foldl_nil] using this

theorem demo_legal {v : View libCat} (h1 : OneCol v) (r : Row) (k : Option Tab) (t : Tab) :
    legal (onesTbl, v) (.inc r [(0, some (1 : ℝ))] k t) := by
  have hok : (libCat.F ⟨.bernoulli, trivial⟩).prep ((1 : ℝ), []) = .ok ((1 : ℝ), []) :=
    (C10_primitives_store _ _ _).mpr ⟨rfl, by simp [remembered, support]⟩
  intro _ c d hd
  obtain ⟨rfl, e1, e2, e3⟩ := h1 c d hd
  refine ⟨rfl, ?_⟩
  unfold admissible fileOf
  rw [e1, e2, e3]
  simp [file, onesTbl, hok]

theorem demo_step {v : View libCat} (hR : Reachable onesTbl v) (h1 : OneCol v) (r : Row)
    (hr : v.seat r = none) (k t : Tab) :
    ∃ v', Reachable onesTbl v' ∧ OneCol v' ∧ (∀ c, c ∈ v'.dims.keys ↔ c ∈ v.dims.keys) ∧
      ∀ r', v'.seat r' = if r' = r then some k else v.seat r' := by
  have hC := catOf_lawful fun _ => True
  have hl := demo_legal h1 r (some k) t
  have hI := hR.inv hC
  obtain ⟨v', g1, g2, g3⟩ := (C11_effect hC hR).2.1 r _ (some k) t hr hl
  obtain ⟨f1, f2⟩ := legal_of (s := (onesTbl, v)) hI hl hr
  obtain ⟨v'', e1, -, -, -, e5⟩ := incorporate_sampled_ok hC hI hr (some k) t f2 f1
  have : v'' = v' := by rw [g1] at e1; exact (Out.ok.inj e1).symm
  subst this
  refine ⟨v'', ?_, oneCol_same h1 e5, g3, g2⟩
  have := hR.step hl
  simpa only [View.apply, g1, Out.state_ok] using this

/-- The demonstration view exists. -/
theorem demo_view : ∃ v : View libCat, Reachable onesTbl v ∧ OneCol v ∧
    (∀ c, c ∈ v.dims.keys ↔ c = 0) ∧ ∀ r, v.seat r = if r = 1 then some 5 else
      if r = 0 then some 0 else none := by
  have hyp : (libCat.F ⟨.bernoulli, trivial⟩).hypOk ⟨.bernoulli, ⟨1, 1⟩⟩ :=
    ⟨rfl, one_pos, one_pos⟩
  have hR := Reachable.of (C := libCat) onesTbl 1 one_pos
    [.incDim 0 [] ⟨.bernoulli, trivial⟩ ⟨.bernoulli, ⟨1, 1⟩⟩] ⟨hyp, trivial⟩
  have hX : (View.run (onesTbl, View.empty 1)
    [.incDim 0 [] ⟨.bernoulli, trivial⟩ ⟨.bernoulli, ⟨1, 1⟩⟩]).1 = onesTbl := rfl
  rw [hX] at hR
  obtain ⟨v₁, hv₁⟩ : ∃ v₁, v₁ = (View.run (onesTbl, View.empty 1)
    [.incDim 0 [] ⟨.bernoulli, trivial⟩ ⟨.bernoulli, ⟨1, 1⟩⟩]).2 := ⟨_, rfl⟩
  rw [← hv₁] at hR
  have hseat : ∀ r, v₁.seat r = none := by intro r; rw [hv₁]; rfl
  have hkeys : v₁.dims.keys = [0] := by rw [hv₁]; rfl
  have hone : OneCol v₁ := by
    rw [hv₁]
    intro c d hd
    simp only [View.run, List.foldl, View.apply, incorporateDim, bulkIncorporate, View.empty,
      Crp.init, bulkFold, Dim.new, if_true, Out.state_ok, Dict.set, Dict.get?] at hd
    split at hd
    · rename_i e; cases hd; exact ⟨e.symm, rfl, rfl, rfl⟩
    · cases hd
  obtain ⟨v₂, r2, o2, k2, s2⟩ := demo_step hR hone 0 (hseat 0) 0 0
  obtain ⟨v₃, r3, o3, k3, s3⟩ := demo_step r2 o2 1 (by rw [s2]; simp [hseat]) 5 0
  refine ⟨v₃, r3, o3, fun c => ?_, fun r => ?_⟩
  · rw [k3, k2, hkeys]; simp
  · rw [s3, s2, hseat]

theorem demo_schema {v : View libCat} (h1 : OneCol v) (hk : ∀ c, c ∈ v.dims.keys ↔ c = 0) :
    Schema v 9 := by
  refine ⟨by rw [hk]; simp, fun c d hd => by rw [(h1 c d hd).2.2.2]; simp, fun c hc => ?_⟩
  obtain ⟨a, h⟩ : ∃ a, (∃ d, v.dims.get? c = some d ∧ a ∈ d.inputs) := by
    cases hc with
    | single h => exact ⟨_, h⟩
    | tail _ h => exact ⟨_, h⟩
  obtain ⟨d, hd, ha⟩ := h
  rw [(h1 c d hd).2.2.2] at ha
  cases ha

theorem demo_inputs {v : View libCat} (h1 : OneCol v) (D : Col → Option libCat.Cell) :
    InputsIn v D := by
  intro c d hd _ i hi
  rw [(h1 c d hd).2.2.2] at hi
  cases hi

theorem demo_rows {v : View libCat} (hs : ∀ r, v.seat r = if r = 1 then some 5 else
    if r = 0 then some 0 else none) : {r | v.seat r ≠ none}.ncard = 2 := by
  have : {r | v.seat r ≠ none} = {0, 1} := by
    ext r
    simp only [Set.mem_ofPred_eq, Set.mem_insert_iff, Set.mem_singleton_iff, hs]
    by_cases h : r = 1
    · simp [h]
    · by_cases h' : r = 0 <;> simp [h, h']
  rw [this, Set.ncard_pair (by decide)]

theorem demo_old {v : View libCat} (hs : ∀ r, v.seat r = if r = 1 then some 5 else
    if r = 0 then some 0 else none) (T E : Dict Col libCat.Cell)
    (hT : T.keys.Nodup) (hE : E.keys.Nodup) (hz : 9 ∉ T.keys ∧ 9 ∉ E.keys) :
    OldRowQuery v 9 1 T E :=
  ⟨⟨by rw [hs]; simp, by rw [demo_rows hs]; decide⟩, hT, hE, hz⟩

end Cgpm.Props
