import Verif.Lemmas.StateIncDim

/-! Construction of a State. -/
namespace Cgpm
namespace State
variable {C : Cat}
open View

theorem seatCols_ok (Z : Dict Col Nat) {crp : Crp} (h : Crp.Inv crp) (hw : Z.WF)
    (hd : ∀ c ∈ Z.keys, crp.data.get? c = none) :
    ∃ crp', seatCols crp Z = .ok crp' ∧ Crp.Inv crp' ∧ crp'.alpha = crp.alpha ∧
      (∀ c, crp'.data.get? c = match Z.get? c with
        | some z => some z
        | none => crp.data.get? c) := by
  induction Z generalizing crp with
  | nil => exact ⟨crp, rfl, h, rfl, fun c => rfl⟩
  | cons p Z ih =>
    obtain ⟨c, z⟩ := p
    obtain ⟨hc, hw'⟩ := Dict.wf_cons.mp hw
    have hcn : crp.data.get? c = none := hd c (by simp [Dict.keys])
    obtain ⟨c1, h1, h2, h3, h4⟩ := Crp.inc_data h (r := c) z hcn
    have hne : ∀ c' ∈ Dict.keys Z, c' ≠ c := by
      rintro c' hc' rfl
      exact (Dict.get?_eq_none_iff _ _).mp hc hc'
    obtain ⟨c2, g1, g2, g3, g4⟩ := ih h2 hw' (fun c' hc' => by
      rw [h4, if_neg (hne c' hc')]
      exact hd c' (by simp [Dict.keys] at hc' ⊢; exact Or.inr hc'))
    refine ⟨c2, by simp only [seatCols, h1, g1], g2, g3.trans h3, fun c' => ?_⟩
    rw [g4, h4, Dict.get?_cons]
    by_cases e : c' = c
    · subst e; rw [hc]; simp
    · rw [if_neg e, if_neg (Ne.symm e)]

/-- What the schema of a column must satisfy. -/
structure ColOk (X : C.Tbl) (n : Nat) (cols : List Col) (schema : Col → ColSpec C) (c : Col) :
    Prop where
  hyp : (C.F (schema c).kind).hypOk (schema c).hyp
  ins : ∀ i ∈ (schema c).inputs, i ∈ cols
  acc : ∀ r, r < n → Accepts X (Dim.new c (schema c).inputs (schema c).kind (schema c).hyp) r

theorem addDims_ok {X : C.Tbl} {n : Nat} {cols : List Col} {schema : Col → ColSpec C}
    (cs : List Col) {v : View C} (h : View.Inv X v) (hr : ∀ r, v.seat r ≠ none ↔ r < n)
    (hok : ∀ c ∈ cs, ColOk X n cols schema c) :
    ∃ v', addDims X schema cs v = .ok v' ∧ View.Inv X v' ∧ v'.crp = v.crp ∧
      (∀ c, c ∈ v'.dims.keys ↔ c ∈ v.dims.keys ∨ c ∈ cs) ∧
      (∀ c d, v'.dims.get? c = some d → v.dims.get? c = some d ∨ c ∈ cs ∧
        Dim.Frame (Dim.new c (schema c).inputs (schema c).kind (schema c).hyp) d) := by
  induction cs generalizing v with
  | nil => exact ⟨v, rfl, h, rfl, by simp, fun c d hd => Or.inl hd⟩
  | cons c cs ih =>
    have hc := hok c (by simp)
    rcases incorporateDim_spec h (Dim.new c (schema c).inputs (schema c).kind (schema c).hyp)
      hc.hyp with ⟨d', h1, h2, h3, -⟩ | ⟨e, r, -, h2, h3⟩
    swap
    · exact absurd (hc.acc r ((hr r).mp h2)) h3
    have hix : (Dim.new (C := C) c (schema c).inputs (schema c).kind (schema c).hyp).index = c := rfl
    rw [hix] at h1 h3
    obtain ⟨v', g1, g2, g3, g4, g5⟩ := ih (v := { v with dims := v.dims.set c d' })
      (h.setDim h3) hr (fun c' hc' => hok c' (by simp [hc']))
    refine ⟨v', by simp only [addDims, h1, g1], g2, g3, fun c' => ?_, fun c' d hd => ?_⟩
    · rw [g4, Dict.mem_keys_set]
      simp only [List.mem_cons]; tauto
    · rcases g5 c' d hd with hg | ⟨hg1, hg2⟩
      · have hg' : (v.dims.set c d').get? c' = some d := hg
        rw [Dict.get?_set] at hg'
        split at hg'
        · rename_i e; subst e; cases hg'; exact Or.inr ⟨by simp, h2⟩
        · exact Or.inl hg'
      · exact Or.inr ⟨by simp [hg1], hg2⟩

theorem buildViews_ok {X : C.Tbl} {n : Nat} {schema : Col → ColSpec C} {outputs : List Col}
    {crp : Crp} {rows : Nat → ℝ × List Tab} (vs : List Nat) (hnd : vs.Nodup)
    (hrows : ∀ v ∈ vs, 0 < (rows v).1 ∧ (rows v).2.length = n)
    (hcols : ∀ c, crp.data.get? c ≠ none → c ∈ outputs)
    (hok : ∀ c ∈ outputs, ColOk X n outputs schema c) :
    ∃ views, buildViews X schema outputs crp rows vs = .ok views ∧ views.keys = vs ∧
      VInv X n (fun c => crp.data.get? c) (· ∈ outputs) views ∧
      ∀ i v, views.get? i = some v → v.crp.alpha = (rows i).1 ∧
        (∀ r, v.seat r = (rows i).2[r]?) ∧
        ∀ c d, v.dims.get? c = some d →
          Dim.Frame (Dim.new c (schema c).inputs (schema c).kind (schema c).hyp) d := by
  induction vs with
  | nil => exact ⟨[], rfl, rfl, ⟨Dict.wf_nil, fun i v hv => by simp at hv⟩, fun i v hv => by simp at hv⟩
  | cons v vs ih =>
    obtain ⟨hv, hnd'⟩ := List.nodup_cons.mp hnd
    obtain ⟨ha, hl⟩ := hrows v (by simp)
    obtain ⟨view, h1, h2, h3, h4, h5⟩ := newView_ok (C := C) ha (rows v).2 X
    have hr : ∀ r, view.seat r ≠ none ↔ r < n := by
      intro r
      rw [h5, ne_eq, List.getElem?_eq_none_iff, not_le, hl]
    obtain ⟨view', g1, g2, g3, g4, g5⟩ := addDims_ok (cols := outputs)
      (outputs.filter fun o => crp.data.get? o = some v) h2 hr
      (fun c hc => hok c (List.mem_of_mem_filter hc))
    obtain ⟨rest, f1, f2, f3, f4⟩ := ih hnd' (fun w hw => hrows w (by simp [hw]))
    have hframe : ∀ c d, view'.dims.get? c = some d →
        Dim.Frame (Dim.new c (schema c).inputs (schema c).kind (schema c).hyp) d := by
      intro c d hd
      rcases g5 c d hd with hg | ⟨-, hg⟩
      · rw [h3] at hg; cases hg
      · exact hg
    have hseat : view'.seat = view.seat := by unfold View.seat; rw [g3]
    have hVO : VOk X n (fun c => crp.data.get? c) (· ∈ outputs) v view' := by
      refine ⟨g2, by rw [hseat]; exact hr, fun c => ?_, fun q hq j hj => ?_⟩
      · rw [g4, h3]
        simp only [Dict.keys, List.map_nil, List.not_mem_nil, false_or, List.mem_filter,
          decide_eq_true_eq]
        exact ⟨fun h => h.2, fun h => ⟨hcols c (by rw [h]; simp), h⟩⟩
      · have hg := Dict.get?_of_mem (k := q.1) (v := q.2) g2.wf hq
        have hc : q.1 ∈ outputs := by
          have : q.1 ∈ view'.dims.keys := Dict.mem_keys_of_get? hg
          rw [g4, h3] at this
          simp only [Dict.keys, List.map_nil, List.not_mem_nil, false_or] at this
          exact List.mem_of_mem_filter this
        rw [(hframe q.1 q.2 hg).inputs] at hj
        exact (hok q.1 hc).ins j hj
    have hg : ∀ i w, Dict.get? ((v, view') :: rest) i = some w →
        (i = v ∧ w = view') ∨ rest.get? i = some w := by
      intro i w hw
      rw [Dict.get?_cons] at hw
      split at hw
      · rename_i e; cases hw; exact Or.inl ⟨e.symm, rfl⟩
      · exact Or.inr hw
    refine ⟨(v, view') :: rest, by simp only [buildViews, h1, g1, f1],
      by simp [Dict.keys] at f2 ⊢; exact f2, ⟨?_, ?_⟩, ?_⟩
    · refine Dict.wf_cons.mpr ⟨(Dict.get?_eq_none_iff _ _).mpr (by rw [f2]; exact hv), f3.wf⟩
    · intro i w hw
      rcases hg i w hw with ⟨rfl, rfl⟩ | hw
      · exact hVO
      · exact f3.view i w hw
    · intro i w hw
      rcases hg i w hw with ⟨rfl, rfl⟩ | hw
      · refine ⟨by rw [g3]; exact h4, fun r => ?_, hframe⟩
        rw [hseat, h5]
      · exact f4 i w hw

/-- What the arguments of the constructor must satisfy. -/
structure InitOk (X : Dict Col (List C.Cell)) (n : Nat) (schema : Col → ColSpec C) (alpha : ℝ)
    (Zv : Dict Col Nat) (order : List Nat) (rows : Nat → ℝ × List Tab) : Prop where
  data : Rect X X.keys n
  pos : 0 < n
  alpha : 0 < alpha
  wf : Zv.WF
  part : ∀ c, c ∈ Zv.keys ↔ c ∈ X.keys
  nodup : order.Nodup
  ids : ∀ v, v ∈ order ↔ ∃ c, Zv.get? c = some v
  rows : ∀ v ∈ order, 0 < (rows v).1 ∧ (rows v).2.length = n
  cols : ∀ c ∈ X.keys, ColOk (tblOf X) n X.keys schema c

theorem init_ok {X : Dict Col (List C.Cell)} {n : Nat} {schema : Col → ColSpec C} {alpha : ℝ}
    {Zv : Dict Col Nat} {order : List Nat} {rows : Nat → ℝ × List Tab} (Cd : Blocks) (Ci : Pairs)
    (h : InitOk X n schema alpha Zv order rows) :
    ∃ s : State C, init X schema alpha Zv order rows Cd Ci = .ok s ∧ Inv s ∧ s.X = X ∧
      s.outputs = X.keys ∧ s.nRows = n ∧ s.crp.alpha = alpha ∧ (∀ c, s.Zv c = Zv.get? c) ∧
      s.views.keys = order ∧ s.Cd = Cd ∧ s.Ci = Ci ∧
      ∀ i v, s.views.get? i = some v → v.crp.alpha = (rows i).1 ∧
        (∀ r, v.seat r = (rows i).2[r]?) ∧
        ∀ c d, v.dims.get? c = some d →
          Dim.Frame (Dim.new c (schema c).inputs (schema c).kind (schema c).hyp) d := by
  obtain ⟨crp, h1, h2, h3, h4⟩ := seatCols_ok Zv (Crp.inv_init alpha) h.wf (fun c _ => rfl)
  have hz : ∀ c, crp.data.get? c = Zv.get? c := by
    intro c
    rw [h4]
    cases Zv.get? c <;> rfl
  have hmem : ∀ c, crp.data.get? c ≠ none ↔ c ∈ X.keys := by
    intro c
    rw [hz, ← h.part, ne_eq, Dict.get?_eq_none_iff, not_not]
  obtain ⟨views, g1, g2, g3, g4⟩ := buildViews_ok (X := tblOf X) (n := n) (schema := schema)
    (outputs := X.keys) (crp := crp) (rows := rows) order h.nodup h.rows
    (fun c hc => (hmem c).mp hc) h.cols
  have hlen : crp.data.length = X.length := by
    have e1 : crp.data.length = crp.data.keys.length := by simp [Dict.keys]
    have e2 : X.length = X.keys.length := by simp [Dict.keys]
    rw [e1, e2]
    refine List.Perm.length_eq ((List.perm_ext_iff_of_nodup h2.wfData h.data.nodup).mpr fun c => ?_)
    rw [← hmem c, ne_eq, Dict.get?_eq_none_iff, not_not]
  refine ⟨⟨X, X.keys, crp, views, Cd, Ci⟩, ?_, Inv.of (n := n) h.data h.pos h2
    (by rw [h3]; exact h.alpha) hmem g3 ?_, rfl, rfl, h.data.nRows, h3, hz, g2, rfl, rfl, g4⟩
  · unfold init
    simp only [h1, hlen, ne_eq, not_true_eq_false, if_false, g1]
  · intro v
    show v ∈ views.keys ↔ ∃ c, crp.data.get? c = some v
    rw [g2, h.ids]
    simp only [hz]

end State
end Cgpm
