import Verif.Lemmas.RowGibbs

/-! A view of a collapsed type, for the examples of C58 and C59: one bernoulli column named 0 holding
1, 1, 0 in rows 0, 1, 2, with rows 0 and 1 in cluster 0 and row 2 in cluster 5. -/
namespace Cgpm.Props
open Cgpm Cgpm.View Cgpm.Spec

/-- The catalogue of the collapsed primitives. -/
noncomputable abbrev colCat : Cat := catOf Prim.collapsed

/-- The value of a row. -/
noncomputable def rowDemoCell (r : Row) : ℝ := if r = 2 then 0 else 1

/-- The data. -/
noncomputable def rowDemoX : colCat.Tbl := fun _ r => some (rowDemoCell r)

/-- All columns are bernoulli. -/
def BernCol (v : View colCat) : Prop := ∀ c d, v.dims.get? c = some d →
  d.index = c ∧ d.inputs = [] ∧ d.kind = ⟨.bernoulli, trivial⟩

theorem rowDemo_legal {v : View colCat} (h1 : BernCol v) (r : Row) (k : Option Tab) (t : Tab) :
    legal (rowDemoX, v) (.inc r [(0, rowDemoX 0 r)] k t) ∨ ∃ c ∈ v.dims.keys, c ≠ 0 := by
  by_cases hc : ∃ c ∈ v.dims.keys, c ≠ 0
  · exact Or.inr hc
  · refine Or.inl fun _ c d hd => ?_
    obtain ⟨e1, e2, e3⟩ := h1 c d hd
    have : c = 0 := not_not.mp fun h => hc ⟨c, Dict.mem_keys_of_get? hd, h⟩
    subst this
    refine ⟨rfl, ?_⟩
    have hok : ∃ y, (colCat.F ⟨.bernoulli, trivial⟩).prep (rowDemoCell r, [])
        = .ok y := by
      obtain ⟨y, hy⟩ : ∃ y, (libCat.F ⟨.bernoulli, trivial⟩).prep
          (rowDemoCell r, []) = .ok y := by
        refine ⟨(rowDemoCell r, []), (C10_primitives_store _ _ _).mpr ⟨rfl, ?_⟩⟩
        by_cases h : r = 2 <;> simp [remembered, support, h, rowDemoCell]
      exact ⟨y, hy⟩
    obtain ⟨y, hy⟩ := hok
    rw [admissible_iff]
    intro o ho
    unfold obsOf inputsOf at ho
    rw [e1, e2] at ho
    have : o = (rowDemoCell r, []) := by
      have ho' : some ((rowDemoCell r, []) : ℝ × List ℝ) = some o := ho
      exact (Option.some.inj ho').symm
    subst this
    unfold Dim.fam
    rw [e3]
    exact ⟨y, hy⟩

theorem bernCol_same {v v' : View colCat} (h : BernCol v) (hs : Same v v') : BernCol v' := by
  intro c d hd
  have := hs c
  rw [hd] at this
  cases hv : v.dims.get? c with
  | none => rw [hv] at this; cases this
  | some d0 =>
    rw [hv] at this
    cases this with
    | some f =>
      obtain ⟨e1, e2, e3⟩ := h c d0 hv
      exact ⟨f.index.trans e1, f.inputs.trans e2, f.kind.trans e3⟩

theorem rowDemo_step {v : View colCat} (hR : Reachable rowDemoX v) (h1 : BernCol v)
    (hk : ∀ c ∈ v.dims.keys, c = 0) (r : Row) (hr : v.seat r = none) (k : Tab) :
    ∃ v', Reachable rowDemoX v' ∧ BernCol v' ∧ (∀ c, c ∈ v'.dims.keys ↔ c ∈ v.dims.keys) ∧
      v'.crp.alpha = v.crp.alpha ∧ ∀ r', v'.seat r' = if r' = r then some k else v.seat r' := by
  have hC := catOf_lawful Prim.collapsed
  have hl : legal (rowDemoX, v) (.inc r [(0, rowDemoX 0 r)] (some k) 0) :=
    (rowDemo_legal h1 r (some k) 0).resolve_right fun ⟨c, hc, hne⟩ => hne (hk c hc)
  have hI := hR.inv hC
  obtain ⟨v', g1, g2, g3⟩ := (C11_effect hC hR).2.1 r _ (some k) 0 hr hl
  obtain ⟨f1, f2⟩ := legal_of (s := (rowDemoX, v)) hI hl hr
  obtain ⟨v'', e1, -, -, e4, e5⟩ := incorporate_sampled_ok hC hI hr (some k) 0 f2 f1
  have : v'' = v' := by rw [g1] at e1; exact (Out.ok.inj e1).symm
  subst this
  refine ⟨v'', ?_, bernCol_same h1 e5, g3, e4, g2⟩
  have := hR.step hl
  simpa only [View.apply, g1, Out.state_ok] using this

/-- The view exists. -/
theorem rowDemo_view : ∃ v : View colCat, Reachable rowDemoX v ∧ IsRows {0, 1, 2} v ∧
    (∀ c, c ∈ v.dims.keys ↔ c = 0) ∧ v.seat 0 = some 0 ∧ v.seat 1 = some 0 ∧ v.seat 2 = some 5 := by
  have hyp : (colCat.F ⟨.bernoulli, trivial⟩).hypOk ⟨.bernoulli, ⟨1, 1⟩⟩ :=
    ⟨rfl, one_pos, one_pos⟩
  have hR := Reachable.of (C := colCat) rowDemoX 1 one_pos
    [.incDim 0 [] ⟨.bernoulli, trivial⟩ ⟨.bernoulli, ⟨1, 1⟩⟩] ⟨hyp, trivial⟩
  have hX : (View.run (rowDemoX, View.empty 1)
    [.incDim 0 [] ⟨.bernoulli, trivial⟩ ⟨.bernoulli, ⟨1, 1⟩⟩]).1 = rowDemoX := rfl
  rw [hX] at hR
  obtain ⟨v₁, hv₁⟩ : ∃ v₁, v₁ = (View.run (rowDemoX, View.empty 1)
    [.incDim 0 [] ⟨.bernoulli, trivial⟩ ⟨.bernoulli, ⟨1, 1⟩⟩]).2 := ⟨_, rfl⟩
  rw [← hv₁] at hR
  have hseat : ∀ r, v₁.seat r = none := by intro r; rw [hv₁]; rfl
  have hkeys : v₁.dims.keys = [0] := by rw [hv₁]; rfl
  have hone : BernCol v₁ := by
    rw [hv₁]
    intro c d hd
    simp only [View.run, List.foldl, View.apply, incorporateDim, bulkIncorporate, View.empty,
      Crp.init, bulkFold, Dim.new, if_true, Out.state_ok, Dict.set, Dict.get?] at hd
    split at hd
    · rename_i e; cases hd; exact ⟨e, rfl, rfl⟩
    · cases hd
  have hk1 : ∀ c ∈ v₁.dims.keys, c = 0 := by rw [hkeys]; simp
  obtain ⟨v₂, r2, o2, k2, -, s2⟩ := rowDemo_step hR hone hk1 0 (hseat 0) 0
  have hk2 : ∀ c ∈ v₂.dims.keys, c = 0 := fun c hc => hk1 c ((k2 c).mp hc)
  obtain ⟨v₃, r3, o3, k3, -, s3⟩ := rowDemo_step r2 o2 hk2 1 (by rw [s2]; simp [hseat]) 0
  have hk3 : ∀ c ∈ v₃.dims.keys, c = 0 := fun c hc => hk2 c ((k3 c).mp hc)
  obtain ⟨v₄, r4, o4, k4, -, s4⟩ := rowDemo_step r3 o3 hk3 2 (by rw [s3, s2]; simp [hseat]) 5
  refine ⟨v₄, r4, fun r => ?_, fun c => ?_, ?_, ?_, ?_⟩
  · rw [s4, s3, s2, hseat]
    simp only [Finset.mem_insert, Finset.mem_singleton]
    by_cases h2 : r = 2
    · simp [h2]
    · by_cases h1 : r = 1
      · simp [h1]
      · by_cases h0 : r = 0 <;> simp [h0, h1, h2]
  · rw [k4, k3, k2, hkeys]; simp
  · rw [s4, s3, s2]; simp
  · rw [s4, s3]; simp
  · rw [s4]; simp

end Cgpm.Props
