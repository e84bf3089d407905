import Verif.Props.MutualDraws

/-!
Property C80: estimates of mutual information over several views (src/crosscat/state.py:634-677).
-/
namespace Cgpm.Props
open Cgpm Cgpm.Net Cgpm.View MeasureTheory Cgpm.Batch Cgpm.Mutual ProbabilityTheory
open scoped ENNReal

variable {P : Prim → Prop} {Ω : Type} {close : ℝ → ℝ → Bool} {ord : PyOrder}
  {beh : ViewBehaviour (catOf P) Ω} {ωj ωm : Nat → Nat → Ω} {acc : Option Nat}
  {cfg : Cfg (catOf P)} {s : State (catOf P)} {col0 col1 : List Col} {E : Dict Col (catOf P).Cell}
  {scipy : Nat → (Nat → Nat → Bool) → List Nat}

/-- SPEC. The constraints of a query that gives values, and leaves no variable to be marginalised. -/
noncomputable def givenValues (E : Dict Col (catOf P).Cell) : Dict Col (Option (Val (catOf P))) :=
  E.map fun p => (p.1, some (.cell p.2))

/-- SPEC. The views with columns of both sets. -/
noncomputable def sharedViews (s : State (catOf P)) (col0 col1 : List Col) : List Nat :=
  s.views.keys.filter fun v => !(colsIn s v col0).isEmpty && !(colsIn s v col1).isEmpty

theorem givenValues_keys : (givenValues E).keys = E.keys := by
  simp [givenValues, Dict.keys, List.map_map, Function.comp_def]

theorem givenValues_onView (w : Nat) :
    (givenValues E).filter (fun p => decide (s.Zv p.1 = some w)) = givenValues (onView s w E) := by
  unfold givenValues onView
  rw [List.filter_map]
  rfl

theorem givenValues_equalities :
    ((equalities (givenValues E)).map fun p => (p.1, p.2.toCell)) = E := by
  induction E with
  | nil => rfl
  | cons p t ih => exact congrArg (p :: ·) ih

theorem givenValues_marginals : marginals (givenValues E) = [] := by
  induction E with
  | nil => rfl
  | cons p t ih => exact ih

/-- The blocks of a query are its parts in the views. -/
theorem blocks_views (hs : WeakLabels scipy) (hR : StateReachable cfg s)
    (hlt : ∀ c ∈ s.outputs, c < 10 ^ 7) (hE : E.keys.Nodup)
    (ho : ∀ c, c ∈ col0 ∨ c ∈ col1 ∨ c ∈ E.keys → c ∈ s.outputs) :
    ∃ (B : Dict Nat (Block (Val (catOf P)))) (w : Block (Val (catOf P)) → Nat),
      partitionQuery scipy (s.buildCgpms beh []) col0 col1 (givenValues E) = .ok B ∧
      (∀ b ∈ B.vals, b.col0 = colsIn s (w b) col0 ∧ b.col1 = colsIn s (w b) col1 ∧
        b.constraints = givenValues (onView s (w b) E)) ∧
      ((B.filter fun p => !p.2.col0.isEmpty && !p.2.col1.isEmpty).map fun p => w p.2).Perm
        (sharedViews s col0 col1) := by
  classical
  have hL := catOf_lawful P
  have h := hR.inv hL
  have hwf : WellFormed (s.buildCgpms beh []) := h.wellFormed beh id hlt (by simp [Dict.vals])
    (by simp [Dict.vals]) (by simp [Dict.vals]) (by simp [Dict.vals])
  have ho' : ∀ c, c ∈ col0 ∨ c ∈ col1 ∨ c ∈ (givenValues E).keys → c ∈ s.outputs := fun c hc =>
    ho c (by rwa [givenValues_keys] at hc)
  obtain ⟨B, hB, hBw, hsp⟩ := splits_of (constraints := givenValues E) (col0 := col0) (col1 := col1) hs
    hwf (by unfold Dict.WF; rw [givenValues_keys]; exact hE) fun v hv => by
      obtain ⟨i, _, a, _, h1, h2, -⟩ := (C47_views (beh := beh) hL hR hlt (ho' v hv) (ho' v hv)).2 rfl
      exact ⟨a, List.mem_of_getElem? h1, h2⟩
  have hblk : ∀ b ∈ B.vals, ∃ w, w ∈ s.views.keys ∧ b.col0 = colsIn s w col0 ∧
      b.col1 = colsIn s w col1 ∧ b.constraints = givenValues (onView s w E) ∧
      ∀ c, b.Has c → c ∈ s.outputs ∧ s.Zv c = some w := by
    intro b hb
    obtain ⟨u, hu, e0, e1, e2⟩ := hsp.block b hb
    have hout : ∀ c, b.Has c → c ∈ s.outputs := by
      intro c hc
      refine ho' c ?_
      rcases hc with hc | hc | hc
      · rw [e0] at hc; exact .inl (List.mem_of_mem_filter hc)
      · rw [e1] at hc; exact .inr (.inl (List.mem_of_mem_filter hc))
      · rw [e2] at hc
        obtain ⟨p, hp, rfl⟩ := List.mem_map.mp hc
        exact .inr (.inr (List.mem_map_of_mem (List.mem_of_mem_filter hp)))
    obtain ⟨w, hw⟩ := Option.ne_none_iff_exists'.mp ((h.cols u).mpr (hout u hu))
    have hcon : ∀ c ∈ s.outputs, Connected (s.buildCgpms beh []) u c ↔ s.Zv c = some w := by
      intro c hc
      rw [C47_views hL hR hlt (hout u hu) hc, hw]
      exact eq_comm
    have f0 : b.col0 = colsIn s w col0 := by
      rw [e0]
      exact List.filter_congr fun c hc => by rw [decide_eq_decide]; exact hcon c (ho' c (.inl hc))
    have f1 : b.col1 = colsIn s w col1 := by
      rw [e1]
      exact List.filter_congr fun c hc => by
        rw [decide_eq_decide]; exact hcon c (ho' c (.inr (.inl hc)))
    have f2 : b.constraints = givenValues (onView s w E) := by
      rw [e2, ← givenValues_onView]
      exact List.filter_congr fun p hp => by
        rw [decide_eq_decide]; exact hcon p.1 (ho' p.1 (.inr (.inr (List.mem_map_of_mem hp))))
    refine ⟨w, (h.occ w).mpr ⟨u, hw⟩, f0, f1, f2, fun c hc => ⟨hout c hc, ?_⟩⟩
    rcases hc with hc | hc | hc
    · rw [f0] at hc; simpa using (List.mem_filter.mp hc).2
    · rw [f1] at hc; simpa using (List.mem_filter.mp hc).2
    · rw [f2, givenValues_keys] at hc; exact (onView_keys.mp hc).2
  choose! w hw1 hw2 hw3 hw4 hw5 using hblk
  have hvals : ∀ p ∈ B, p.2 ∈ B.vals := fun p hp => List.mem_map_of_mem hp
  refine ⟨B, w, hB, fun b hb => ⟨hw2 b hb, hw3 b hb, hw4 b hb⟩, ?_⟩
  rw [List.perm_ext_iff_of_nodup]
  · intro v
    simp only [List.mem_map, List.mem_filter, sharedViews, Bool.and_eq_true, Bool.not_eq_true',
      List.isEmpty_eq_false_iff]
    constructor
    · rintro ⟨p, ⟨hp, h0, h1⟩, rfl⟩
      refine ⟨hw1 _ (hvals p hp), ?_, ?_⟩
      · rw [← hw2 _ (hvals p hp)]; exact h0
      · rw [← hw3 _ (hvals p hp)]; exact h1
    · rintro ⟨hv, h0, h1⟩
      obtain ⟨c, hc⟩ := List.exists_mem_of_ne_nil _ h0
      have hc' := List.mem_filter.mp hc
      obtain ⟨b, hb, hbc⟩ := hsp.every c (.inl hc'.1)
      have hv' : w b = v := by
        have := (hw5 b hb c hbc).2
        rw [show s.Zv c = some v by simpa using hc'.2] at this
        exact (Option.some.inj this).symm
      obtain ⟨p, hp, rfl⟩ := List.mem_map.mp hb
      refine ⟨p, ⟨hp, ?_, ?_⟩, hv'⟩
      · rw [hw2 _ hb, hv']; exact h0
      · rw [hw3 _ hb, hv']; exact h1
  · have hpw : (B.filter fun p => !p.2.col0.isEmpty && !p.2.col1.isEmpty).Pairwise
        fun p q => ∀ u v, p.2.Has u → q.2.Has v → ¬ Connected (s.buildCgpms beh []) u v :=
      (List.pairwise_map.mp hsp.apart).sublist List.filter_sublist
    refine List.pairwise_map.mpr (hpw.imp_of_mem fun {p q} hp hq hn he => ?_)
    obtain ⟨hp, hp0⟩ := List.mem_filter.mp hp
    obtain ⟨hq, hq0⟩ := List.mem_filter.mp hq
    simp only [Bool.and_eq_true, Bool.not_eq_true', List.isEmpty_eq_false_iff] at hp0 hq0
    obtain ⟨c, hc⟩ := List.exists_mem_of_ne_nil _ hp0.1
    obtain ⟨d, hd⟩ := List.exists_mem_of_ne_nil _ hq0.1
    have a := hw5 _ (hvals p hp) c (.inl hc)
    have b := hw5 _ (hvals q hq) d (.inl hd)
    exact hn c d (.inl hc) (.inl hd) ((C47_views hL hR hlt a.1 b.1).mpr (by rw [a.2, b.2, he]))
  · exact h.views.wf.filter _

/-- **C80.** For every reachable State without composed models, two disjoint sets of columns and all
possible values given to other columns: in each view with columns of both sets there is a mutual
information `I v`, the mean of the logarithm of the ratio of the joint density of the columns in the
view to the product of their densities, given the values in the view; it is finite and not negative.
The answer of `mutual_information` is a finite number with probability one, and there is a `B` such that
with `n` samples it is `ε` or more away from the sum of the `I v` with probability at most
`B / (n ε²)`. -/
theorem C80_query (hs : WeakLabels scipy) (hR : StateReachable cfg s) (hset : ∀ l, (ord.set l).Perm l)
    (hlt : ∀ c ∈ s.outputs, c < 10 ^ 7) (hq : StateSimOn s (col0 ++ col1) E)
    (hp : ProperCols s (col0 ++ col1)) (hpos : stateDensity s E.get? ≠ 0) (x₀ : Col → ℝ) :
    ∃ (I : Nat → ℝ) (B : ℝ),
      (∀ v ∈ sharedViews s col0 col1, ∃ (ν : Measure (Col → ℝ)) (h : (Col → ℝ) → ℝ),
        IsProbabilityMeasure ν ∧
        LawOf ν (fillIn x₀)
          (s.sample close none (colsIn s v col0 ++ colsIn s v col1) (onView s v E)) ∧
        (∀ᵐ x ∂ν, ∃ a b c : ℝ,
          s.logpdf close ord beh ωj ωm false [] none (valuesAt (colsIn s v col0 ++ colsIn s v col1) x)
            (onView s v E) [] acc = .ok (.fin a) ∧
          s.logpdf close ord beh ωj ωm false [] none (valuesAt (colsIn s v col0) x)
            (onView s v E) [] acc = .ok (.fin b) ∧
          s.logpdf close ord beh ωj ωm false [] none (valuesAt (colsIn s v col1) x)
            (onView s v E) [] acc = .ok (.fin c) ∧
          h x = a - b - c) ∧
        Integrable h ν ∧ I v = ∫ x, h x ∂ν ∧ 0 ≤ I v) ∧
      ∀ (T : Option Nat) (n : Nat), 0 < n →
        (s.mutualDraws scipy close ord beh ωj ωm acc col0 col1 (givenValues E) T (some n)).E
          (onNumber 1) = 1 ∧
        ∀ ε, 0 < ε → farFrom ((sharedViews s col0 col1).map I).sum ε
          (s.mutualDraws scipy close ord beh ωj ωm acc col0 col1 (givenValues E) T (some n))
            ≤ ENNReal.ofReal (B / (n * ε ^ 2)) := by
  have hI := hR.inv (catOf_lawful P)
  have hnd := List.nodup_append'.mp hq.targets
  obtain ⟨Bl, w, hBl, hw, hperm⟩ := blocks_views (scipy := scipy) (beh := beh) (col0 := col0)
    (col1 := col1) hs hR hlt hq.evidence fun c hc => (hq.columns c (by
      rcases hc with hc | hc | hc <;> simp [hc])).1
  have hview : ∀ v ∈ sharedViews s col0 col1, ∃ (ν : Measure (Col → ℝ)) (h : (Col → ℝ) → ℝ) (B : ℝ),
      IsProbabilityMeasure ν ∧
      LawOf ν (fillIn x₀)
        (s.sample close none (colsIn s v col0 ++ colsIn s v col1) (onView s v E)) ∧
      (∀ᵐ x ∂ν, ∃ a b c : ℝ,
        s.logpdf close ord beh ωj ωm false [] none (valuesAt (colsIn s v col0 ++ colsIn s v col1) x)
          (onView s v E) [] acc = .ok (.fin a) ∧
        s.logpdf close ord beh ωj ωm false [] none (valuesAt (colsIn s v col0) x)
          (onView s v E) [] acc = .ok (.fin b) ∧
        s.logpdf close ord beh ωj ωm false [] none (valuesAt (colsIn s v col1) x)
          (onView s v E) [] acc = .ok (.fin c) ∧
        h x = a - b - c) ∧
      Measurable h ∧ Integrable h ν ∧ 0 ≤ ∫ x, h x ∂ν ∧
      ∀ N, 0 < N →
        Estimates ν h N (s.miDraws close ord beh ωj ωm [] acc (colsIn s v col0) (colsIn s v col1)
          (onView s v E) N) ∧
        ∀ ε, 0 < ε → farFrom (∫ x, h x ∂ν) ε
          (s.miDraws close ord beh ωj ωm [] acc (colsIn s v col0) (colsIn s v col1)
            (onView s v E) N) ≤ ENNReal.ofReal (B / (N * ε ^ 2)) := by
    intro v hv
    obtain ⟨hv, hb⟩ := List.mem_filter.mp hv
    simp only [Bool.and_eq_true, Bool.not_eq_true', List.isEmpty_eq_false_iff] at hb
    obtain ⟨view, hview⟩ := Dict.exists_of_mem_keys hv
    have hsub : ∀ c ∈ colsIn s v col0 ++ colsIn s v col1, c ∈ col0 ++ col1 ∧ s.Zv c = some v := by
      intro c hc
      rcases List.mem_append.mp hc with hc | hc
      · exact ⟨List.mem_append_left _ (List.mem_filter.mp hc).1, by simpa using (List.mem_filter.mp hc).2⟩
      · exact ⟨List.mem_append_right _ (List.mem_filter.mp hc).1,
          by simpa using (List.mem_filter.mp hc).2⟩
    have hsq : StateQueryOn s [] E := ⟨by simp [Dict.keys], hq.evidence, fun c hc =>
      hq.columns c (List.mem_append_right _ (by simpa [Dict.keys] using hc))⟩
    refine C80_mi (v := v) (view := view) hR hset ⟨?_, ?_, ?_, fun c hc => ?_, fun c hc hc' => ?_⟩
      hb.1 hb.2 (fun c hc => hp c (hsub c hc).1) hview (fun c hc => (hsub c hc).2) ?_ x₀
    · simp [hb.1]
    · exact ((List.filter_sublist).append List.filter_sublist).nodup hq.targets
    · exact (List.Sublist.map _ List.filter_sublist).nodup hq.evidence
    · rcases List.mem_append.mp hc with hc | hc
      · exact hq.columns c (List.mem_append_left _ (hsub c hc).1)
      · exact hq.columns c (List.mem_append_right _ (onView_keys.mp hc).1)
    · exact hq.disjoint c (hsub c hc).1 (onView_keys.mp hc').1
    · have e := viewDensity_same hI hsq hview (D := (onView s v E).get?) fun c hc => by
        rw [onView_get?, if_pos hc]; simp [both]
      rw [← e]
      have := stateDensity_pos hpos _ (Dict.mem_of_get? hview)
      exact this
  choose! ν h B g1 g2 g3 g4 g5 g6 g7 using hview
  refine ⟨fun v => ∫ x, h v x ∂ν v, ((sharedViews s col0 col1).length + 1) ^ 2 *
    ((sharedViews s col0 col1).map fun v => |B v|).sum, fun v hv => ⟨ν v, h v, g1 v hv, g2 v hv, g3 v hv,
    g5 v hv, rfl, g6 v hv⟩, fun T n hn => ?_⟩
  let L := Bl.filter fun p => !p.2.col0.isEmpty && !p.2.col1.isEmpty
  have hLw : ∀ p ∈ L, w p.2 ∈ sharedViews s col0 col1 := fun p hp =>
    hperm.mem_iff.mp (List.mem_map.mpr ⟨p, hp, rfl⟩)
  have hf : ∀ p ∈ L, s.computeDraws close ord beh ωj ωm [] acc p.2 T (some n) =
      s.miDraws close ord beh ωj ωm [] acc (colsIn s (w p.2) col0) (colsIn s (w p.2) col1)
        (onView s (w p.2) E) n := by
    intro p hpL
    obtain ⟨e0, e1, e2⟩ := hw p.2 (List.mem_map_of_mem (List.mem_of_mem_filter hpL))
    have hb := (List.mem_filter.mp (hLw p hpL)).2
    simp only [Bool.and_eq_true, Bool.not_eq_true', List.isEmpty_eq_false_iff] at hb
    have hns : ¬ Mutual.sameSet (colsIn s (w p.2) col0) (colsIn s (w p.2) col1) = true := by
      rw [sameSet_iff]
      intro hall
      obtain ⟨c, hc⟩ := List.exists_mem_of_ne_nil _ hb.1
      exact hnd.2.2 (List.mem_of_mem_filter hc) (List.mem_of_mem_filter ((hall c).mp hc))
    have hN : Mutual.orHundred (some n) = n := by
      unfold Mutual.orHundred
      rw [Option.getD_some, if_neg (by omega)]
    unfold State.computeDraws
    dsimp only
    rw [e0, e1, e2, givenValues_marginals, givenValues_equalities, hN]
    simp only [List.isEmpty_nil, if_true]
    unfold State.estimatorDraws
    rw [if_pos hns]
  let μ : Nat × Block (Val (catOf P)) → Measure ℝ := fun p =>
    (Measure.pi fun _ : Fin n => ν (w p.2)).map fun x => (∑ i, h (w p.2) (x i)) / n
  have hmean : ∀ v ∈ sharedViews s col0 col1,
      Measurable fun x : Fin n → Col → ℝ => (∑ i, h v (x i)) / n := fun v hv =>
    (Finset.measurable_sum _ fun i _ => (g4 v hv).comp (measurable_pi_apply i)).div_const _
  have hlaw : ∀ p ∈ L, NumLaw (μ p) (s.computeDraws close ord beh ωj ωm [] acc p.2 T (some n)) := by
    intro p hpL g hg
    rw [hf p hpL, (g7 _ (hLw p hpL) n hn).1 g hg, lintegral_map hg (hmean _ (hLw p hpL))]
  obtain ⟨ρ, hρ, r1, r2⟩ := sum_law
    (fun p : Nat × Block (Val (catOf P)) => s.computeDraws close ord beh ωj ωm [] acc p.2 T (some n)) L
    (fun p => ∫ x, h (w p.2) x ∂ν (w p.2)) μ (fun p hpL => by
      have := g1 _ (hLw p hpL)
      exact Measure.isProbabilityMeasure_map (hmean _ (hLw p hpL)).aemeasurable) hlaw
  have hprog : ∀ g : ℝ → ℝ≥0∞, Measurable g →
      (s.mutualDraws scipy close ord beh ωj ωm acc col0 col1 (givenValues E) T (some n)).E (onNumber g)
        = ∫⁻ t, g t ∂ρ := by
    intro g hg
    have hc1 : ((col0 ++ col1).any fun c => (givenValues E).has c) = false := by
      rw [List.any_eq_false]
      intro c hc hh
      refine hq.disjoint c hc ?_
      rw [← givenValues_keys]
      exact (Dict.has_iff _ _).mp hh
    have hc2 : ((col0.any fun c => col1.contains c) && !Mutual.sameSet col0 col1) = false := by
      rw [Bool.and_eq_false_iff]
      left
      rw [List.any_eq_false]
      intro c hc hc'
      exact hnd.2.2 hc (by simpa using hc')
    unfold State.mutualDraws
    rw [if_neg (by rw [hc1]; simp), if_neg (by rw [hc2]; simp), hBl]
    dsimp only
    rw [Draws.E_bind]
    have := r1 g hg 0
    simp only [zero_add] at this
    exact this
  have hlen : L.length = (sharedViews s col0 col1).length := by
    rw [← hperm.length_eq, List.length_map]
  have hsum : ∀ f : Nat → ℝ, (L.map fun p => f (w p.2)).sum = ((sharedViews s col0 col1).map f).sum := by
    intro f
    rw [← (hperm.map f).sum_eq, List.map_map]
    rfl
  refine ⟨?_, fun ε hε => ?_⟩
  · rw [hprog 1 measurable_one]
    simp
  · unfold farFrom
    have hfar : ∀ a δ : ℝ, MeasurableSet {y : ℝ | δ ≤ |y - a|} := fun a δ =>
      measurableSet_le measurable_const (measurable_id.sub_const a).abs
    rw [hprog _ (measurable_one.indicator (hfar _ _)), lintegral_indicator_one (hfar _ _)]
    set k := (sharedViews s col0 col1).length
    have hk : (0 : ℝ) < k + 1 := by positivity
    have hδ : 0 < ε / (k + 1) := by positivity
    refine (measure_mono fun t ht => ?_).trans ((r2 (ε / (k + 1))).trans ?_)
    · show (L.length : ℝ) * (ε / (k + 1)) < |t - _|
      rw [hlen, hsum fun v => ∫ x, h v x ∂ν v]
      refine lt_of_lt_of_le ?_ ht
      rw [mul_div_assoc', div_lt_iff₀ hk]
      nlinarith
    · have hb : ∀ p ∈ L, μ p {a | ε / (k + 1) ≤ |a - ∫ x, h (w p.2) x ∂ν (w p.2)|} ≤
          ENNReal.ofReal (|B (w p.2)| / (n * (ε / (k + 1)) ^ 2)) := by
        intro p hpL
        have := (g7 _ (hLw p hpL) n hn).2 _ hδ
        rw [← hf p hpL] at this
        unfold farFrom at this
        rw [hlaw p hpL _ (measurable_one.indicator (hfar _ _)),
          lintegral_indicator_one (hfar _ _)] at this
        refine this.trans (ENNReal.ofReal_le_ofReal ?_)
        gcongr
        exact le_abs_self _
      have hle : (L.map fun p => μ p {a | ε / (k + 1) ≤ |a - ∫ x, h (w p.2) x ∂ν (w p.2)|}).sum ≤
          ENNReal.ofReal ((L.map fun p => |B (w p.2)| / (n * (ε / (k + 1)) ^ 2)).sum) := by
        clear_value L
        clear hperm hf hlaw r1 r2 hprog hlen hsum hLw
        induction L with
        | nil => simp
        | cons p t ih =>
          rw [List.map_cons, List.sum_cons, List.map_cons, List.sum_cons, ENNReal.ofReal_add]
          · exact add_le_add (hb p List.mem_cons_self) (ih fun q hq => hb q (List.mem_cons_of_mem _ hq))
          · positivity
          · refine List.sum_nonneg fun x hx => ?_
            obtain ⟨q, -, rfl⟩ := List.mem_map.mp hx
            positivity
      refine hle.trans (ENNReal.ofReal_le_ofReal (le_of_eq ?_))
      rw [hsum fun v => |B v| / (n * (ε / (k + 1)) ^ 2)]
      simp only [div_eq_mul_inv]
      rw [List.sum_map_mul_right]
      field_simp

/-! The hypotheses can be met. -/

/-- Two bernoulli columns in one view, in a State of one row. -/
example : ∃ s : State libCat, StateReachable plainCfg s ∧ (∀ l, (idOrder.set l).Perm l) ∧
    (∀ c ∈ s.outputs, c < 10 ^ 7) ∧ StateSimOn s ([0] ++ [1]) [] ∧ ProperCols s ([0] ++ [1]) ∧
    stateDensity s (Dict.get? ([] : Dict Col libCat.Cell)) ≠ 0 ∧ sharedViews s [0] [1] = [0] := by
  obtain ⟨s, h1, h2, h3, h4, h5, h6, h7, h8, h11, h12⟩ :=
    stateDemoOne_init bernoulli_remembered_one bernoulli_hyp
  refine ⟨s, h1, fun l => List.Perm.refl _, by rw [h4]; simp, ?_, ?_, ?_, ?_⟩
  · refine ⟨by simp, by decide, by simp [Dict.keys], fun c hc => ⟨?_, fun d hd => (h12 c d hd).2.1⟩,
      by simp [Dict.keys]⟩
    rw [h4]; simpa [Dict.keys] using hc
  · intro c _ d hd
    rw [(h12 c d hd).2.2]
    exact trivial
  · unfold stateDensity
    rw [Ne, List.prod_eq_zero_iff]
    intro h0
    obtain ⟨p, hp, e⟩ := List.mem_map.1 h0
    obtain ⟨c, d, x, g1, g2, -⟩ :=
      (inv_refusal (h2.views.view _ _ (Dict.get?_of_mem h2.views.wf hp)).inv _).mp e
    cases g2
  · unfold sharedViews colsIn
    rw [h8]
    simp [h6, h7]

end Cgpm.Props
