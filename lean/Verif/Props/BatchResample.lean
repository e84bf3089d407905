import Verif.Lemmas.BatchResample
import Verif.Props.BatchDraws

/-!
Property C78: the samples that an Engine draws from its states and resamples
(src/crosscat/engine.py:230-239, 373-389).
-/
namespace Cgpm.Props
open Cgpm MeasureTheory Cgpm.Batch
open scoped ENNReal

variable {X : Type} [MeasurableSpace X] {β : Type}

theorem mass_ne_top {a : Fl} (h : a ≠ .pinf) : mass a ≠ ⊤ := by
  cases a <;> simp_all [mass]

/-- The draw of a model. -/
theorem E_model {w : List Fl} (hfin : ∀ a ∈ w, a ≠ .nan ∧ a ≠ .pinf) (hpos : total w ≠ 0)
    (g : Nat → ℝ≥0∞) :
    (Draws.ofRand (Rand.logPflip w (List.range w.length))).E g
      = ∑ i ∈ Finset.range w.length, mass (w.getD i .ninf) / total w * g i := by
  have hmem : ∀ i ∈ List.range w.length, w.getD i .ninf ∈ w := fun i hi => by
    have := List.mem_range.mp hi
    simp [this]
  have hw : (List.range w.length).map (fun i => w.getD i .ninf) = w := by
    refine List.ext_getElem (by simp) fun i h1 h2 => ?_
    simp [h2]
  have htop : total w ≠ ⊤ := by
    unfold total
    have : ∀ l : List Fl, (∀ a ∈ l, a ≠ .nan ∧ a ≠ .pinf) → (l.map mass).sum ≠ ⊤ := by
      intro l hl
      induction l with
      | nil => simp
      | cons a t ih =>
        rw [List.map_cons, List.sum_cons]
        exact ENNReal.add_ne_top.mpr ⟨mass_ne_top (hl a List.mem_cons_self).2,
          ih fun b hb => hl b (List.mem_cons_of_mem _ hb)⟩
    exact this w hfin
  have hreal : ((List.range w.length).map fun i => (mass (w.getD i .ninf)).toReal).sum
      = (total w).toReal := by
    have : ∀ l : List Fl, (∀ a ∈ l, a ≠ .nan ∧ a ≠ .pinf) →
        (l.map fun a => (mass a).toReal).sum = (l.map mass).sum.toReal ∧ (l.map mass).sum ≠ ⊤ := by
      intro l hl
      induction l with
      | nil => simp
      | cons a t ih =>
        obtain ⟨i1, i2⟩ := ih fun b hb => hl b (List.mem_cons_of_mem _ hb)
        have ha := mass_ne_top (hl a List.mem_cons_self).2
        simp only [List.map_cons, List.sum_cons]
        exact ⟨by rw [ENNReal.toReal_add ha i2, i1], ENNReal.add_ne_top.mpr ⟨ha, i2⟩⟩
    have h := (this w hfin).1
    conv_lhs at h => rw [← hw, List.map_map]
    exact h
  have hp : 0 < (total w).toReal := ENNReal.toReal_pos hpos htop
  have hE := Draws.E_logPflip (l := List.range w.length) (a := fun i => w.getD i .ninf)
    (p := fun i => (mass (w.getD i .ninf)).toReal) (id : ℕ → ℕ) (fun _ _ => ENNReal.toReal_nonneg)
    (fun i hi => ⟨⟨(hfin _ (hmem i hi)).1,
      (ENNReal.ofReal_toReal (mass_ne_top (hfin _ (hmem i hi)).2)).symm⟩, (hfin _ (hmem i hi)).2⟩)
    (by rw [hreal]; exact hp) g
  rw [hw, List.map_id, hreal] at hE
  rw [hE]
  change _ = ((List.range w.length).map fun i => mass (w.getD i .ninf) / total w * g i).sum
  refine congrArg List.sum (List.map_congr_left fun i hi => ?_)
  rw [ENNReal.ofReal_div_of_pos hp, ENNReal.ofReal_toReal htop,
    ENNReal.ofReal_toReal (mass_ne_top (hfin _ (hmem i hi)).2)]
  rfl

theorem E_model_one {w : List Fl} (hfin : ∀ a ∈ w, a ≠ .nan ∧ a ≠ .pinf) (hpos : total w ≠ 0) :
    (∑ i ∈ Finset.range w.length, mass (w.getD i .ninf) / total w) = 1 ∧ total w ≠ ⊤ := by
  have htop : total w ≠ ⊤ := by
    unfold total
    have : ∀ l : List Fl, (∀ a ∈ l, a ≠ .nan ∧ a ≠ .pinf) → (l.map mass).sum ≠ ⊤ := by
      intro l hl
      induction l with
      | nil => simp
      | cons a t ih =>
        rw [List.map_cons, List.sum_cons]
        exact ENNReal.add_ne_top.mpr ⟨mass_ne_top (hl a List.mem_cons_self).2,
          ih fun b hb => hl b (List.mem_cons_of_mem _ hb)⟩
    exact this w hfin
  refine ⟨?_, htop⟩
  have hw : (List.range w.length).map (fun i => w.getD i .ninf) = w := by
    refine List.ext_getElem (by simp) fun i h1 h2 => ?_
    simp [h2]
  simp only [div_eq_mul_inv]
  rw [← Finset.sum_mul]
  have : ∑ i ∈ Finset.range w.length, mass (w.getD i .ninf) = total w := by
    change ((List.range w.length).map fun i => mass (w.getD i .ninf)).sum = _
    unfold total
    conv_rhs => rw [← hw, List.map_map]
    rfl
  rw [this]
  exact ENNReal.mul_inv_cancel hpos htop

/-- **C78.** If each state gives `N` samples that are, up to order, independent draws from its law, then
the resampled samples are, up to order, `N` independent draws from the mixture of the laws of the
states, the state `i` having the probability `exp w[i] / ∑ⱼ exp w[j]`. -/
theorem C78_resample {w : List Fl} {ms : List (Draws (List β))} {φ : β → X} {ν : Nat → Measure X}
    {N : Nat} (hne : ms ≠ []) (hlen : w.length = ms.length) (hfin : ∀ a ∈ w, a ≠ .nan ∧ a ≠ .pinf)
    (hpos : total w ≠ 0)
    (hm : ∀ i (hi : i < ms.length), IsProbabilityMeasure (ν i) ∧ IidUpToOrder N (ν i) φ ms[i] ∧
      ms[i].Always fun l => l.length = N) :
    IidUpToOrder N (∑ i ∈ Finset.range ms.length, (mass (w.getD i .ninf) / total w) • ν i) φ
      (Engine.simulateResample w ms) := by
  obtain ⟨h1, htop⟩ := E_model_one hfin hpos
  set K := Finset.range w.length with hK
  let q : Nat → ℝ≥0∞ := fun i => mass (w.getD i .ninf) / total w
  have hq : ∀ k ∈ K, q k ≠ ⊤ := fun k hk => by
    have : w.getD k .ninf ∈ w := by
      have := Finset.mem_range.mp hk
      simp [this]
    exact ENNReal.div_ne_top (mass_ne_top (hfin _ this).2) hpos
  rw [← hlen]
  -- laws beyond the states play no part
  let ν' : Nat → Measure X := fun i => if i < ms.length then ν i else 0
  have hν' : ∀ i < ms.length, ν' i = ν i := fun i hi => if_pos hi
  have hν's : ∀ i, SFinite (ν' i) := fun i => by
    by_cases hi : i < ms.length
    · rw [hν' i hi]
      have := (hm i hi).1
      infer_instance
    · have : ν' i = 0 := if_neg hi
      rw [this]
      infer_instance
  have hmix : (∑ i ∈ K, (mass (w.getD i .ninf) / total w) • ν i) = ∑ k ∈ K, q k • ν' k :=
    Finset.sum_congr rfl fun k hk => by
      rw [hν' k (by rw [← hlen]; exact Finset.mem_range.mp hk)]
  rw [hmix]
  have hprob : IsProbabilityMeasure (∑ k ∈ K, q k • ν' k) := by
    refine ⟨?_⟩
    rw [Measure.finset_sum_apply]
    rw [← h1]
    refine Finset.sum_congr rfl fun k hk => ?_
    have hk' : k < ms.length := by rw [← hlen]; exact Finset.mem_range.mp hk
    have := (hm k hk').1
    rw [hν' k hk', Measure.smul_apply, measure_univ, smul_eq_mul, mul_one]
  refine seqLaw_iid fun F hs hF => ?_
  let νs := (List.range ms.length).map ν
  have hνs : νs.length = ms.length := by simp [νs]
  have hB : List.Forall₂ (Batched φ N) ms νs := by
    rw [List.forall₂_iff_get]
    refine ⟨hνs.symm, fun i hi hi' => ?_⟩
    obtain ⟨p1, p2, p3⟩ := hm i hi
    have e : νs.get ⟨i, hi'⟩ = ν i := by simp [νs]
    rw [e]
    exact ⟨p1, p3, fun F hs hF => by rw [seqE_pi _ _ hF]; exact p2 F hs hF⟩
  let ns : List Nat → List Nat := fun ks => if ∀ k ∈ ks, k < ms.length then
    (List.range ms.length).map fun k => ks.count k else N :: List.replicate (ms.length - 1) 0
  have hms : 0 < ms.length := List.length_pos_iff.mpr hne
  have hin : ∀ ks : List Nat, (∀ k ∈ ks, k ∈ K) → ∀ k ∈ ks, k < ms.length := fun ks h k hk => by
    rw [← hlen]; exact Finset.mem_range.mp (h k hk)
  have hblocks : ∀ ks : List Nat, (∀ k ∈ ks, k < ms.length) →
      (blocks νs ((List.range ms.length).map fun k => ks.count k)).Perm (ks.map ν) := by
    intro ks h
    have e := blocks_range νs (fun k => ks.count k) ν 0 fun i hi => by simp [νs]
    rw [hνs, ← List.range_eq_range'] at e
    rw [e]
    have := (flatMap_count_perm (L := List.range ms.length) List.nodup_range
      fun k hk => List.mem_range.mpr (h k hk)).map ν
    rw [List.map_flatMap] at this
    simpa only [List.map_replicate] using this
  have hsum : ∀ ks : List Nat, ks.length = N → (ns ks).sum = N ∧ (ns ks).length = ms.length ∧
      ∀ j ∈ ns ks, j ≤ N := by
    intro ks hks
    by_cases h : ∀ k ∈ ks, k < ms.length
    · have e : ns ks = (List.range ms.length).map fun k => ks.count k := if_pos h
      rw [e]
      refine ⟨?_, by simp, fun j hj => ?_⟩
      · rw [← blocks_length (νs := νs) (by simp [hνs]), (hblocks ks h).length_eq, List.length_map, hks]
      · obtain ⟨k, -, rfl⟩ := List.mem_map.mp hj
        rw [← hks]
        exact List.count_le_length
    · have e : ns ks = N :: List.replicate (ms.length - 1) 0 := if_neg h
      rw [e]
      refine ⟨by simp, by simp; omega, fun j hj => ?_⟩
      rcases List.mem_cons.mp hj with rfl | hj
      · exact le_refl _
      · rw [List.eq_of_mem_replicate hj]; exact Nat.zero_le _
  have hlaw := sampleAll_law hB hq (n := N) (ns := ns) (fun ks hks => (hsum ks hks).2)
    (G := fun _ => F) fun ks hks => by rw [(hsum ks hks).1]; exact hF
  rw [seqE_mixture K q hq ν' hν's N hF]
  unfold Engine.simulateResample
  rw [Draws.E_bind]
  refine (E_congr_always (sampleAll_always hB) fun ls hls => ?_).trans (hlaw.trans ?_)
  · cases ls with
    | nil => simp at hls; omega
    | cons s0 rest =>
      have hs0 : s0.length = N := hls.2 _ List.mem_cons_self
      unfold Engine.resampleDraws
      dsimp only
      rw [if_neg, Draws.E_bind, hs0, many_labE (K := K) (w := q) (E_model hfin hpos)]
      · refine labE_congr fun ks hks hkK => ?_
        have hlt := hin ks hkK
        obtain ⟨j, hj⟩ := bincount_pad hlt
        have e : ns ks = (List.range ms.length).map fun k => ks.count k := if_pos hlt
        rw [choose_gather, e, hj, gathE_zeros]
        · intro n hn
          have : n ∈ ns ks := by rw [e, hj]; exact List.mem_append_left _ hn
          exact (hsum ks hks).2.2 n this
        · exact hls.2
        · have := congrArg List.length hj
          rw [List.length_append, List.length_map, List.length_range] at this
          rw [hls.1]
          omega
      · simp only [List.any_eq_true, bne_iff_ne, not_exists, not_and, not_not]
        intro s hsm
        rw [hls.2 s (List.mem_cons_of_mem _ hsm), hs0]
  · refine labE_congr fun ks hks hkK => ?_
    have hlt := hin ks hkK
    have e : ns ks = (List.range ms.length).map fun k => ks.count k := if_pos hlt
    rw [e]
    have hmap : ks.map ν' = ks.map ν := List.map_congr_left fun k hk => hν' k (hlt k hk)
    rw [hmap]
    refine seqE_perm (hblocks ks hlt) (fun μ hμ => ?_) hs ?_
    · obtain ⟨i, hi, rfl⟩ := List.getElem_of_mem (mem_blocks hμ)
      rw [hνs] at hi
      have := (hm i hi).1
      simp only [νs, List.getElem_map, List.getElem_range]
      infer_instance
    · rw [(hblocks ks hlt).length_eq, List.length_map, hks]
      exact hF

/-! ### The states of an Engine -/

section
variable {P : Prim → Prop} {Ω : Type} {close : ℝ → ℝ → Bool} {ord : PyOrder}
  {rowid : Option Row} {T : List Col} {E : Dict Col (catOf P).Cell}
  {logpdf : State (catOf P) → Dict Col (catOf P).Cell → Except Exn Fl}

theorem stateDensity_nothing {C : Cat} {s : State C} (h : State.Inv s) :
    stateDensity s (Dict.get? ([] : Dict Col C.Cell)) = 1 := by
  unfold stateDensity
  refine List.prod_eq_one fun x hx => ?_
  obtain ⟨p, hp, rfl⟩ := List.mem_map.mp hx
  have hI := (h.views.view _ _ (Dict.get?_of_mem h.views.wf hp)).inv
  unfold viewDensity
  rw [← prior_sum hI]
  congr 1
  funext k
  exact rowDensity_empty _ _

theorem stateDensity_finite {C : Cat} (s : State C) (D : Col → Option C.Cell) :
    stateDensity s D ≠ ⊤ := list_prod_ne_top _ fun x hx => by
  obtain ⟨p, -, rfl⟩ := List.mem_map.1 hx
  exact viewDensity_top _ _

theorem simulateStates_eq {ss : List (State (catOf P))} {w : List Fl}
    (hw : Engine.stateWeights logpdf ss E = .ok w) (N : Nat) :
    Engine.simulateStates close ord logpdf ss rowid T E N
      = Engine.simulateResample w (ss.map fun s => s.sampleMany close ord rowid T E N) := by
  unfold Engine.simulateStates Engine.simulateResample
  rw [hw]
  rfl

/-- What the weights of the states are. -/
theorem stateWeights_mass {ss : List (State (catOf P))} {dens : State (catOf P) → ℝ≥0∞}
    (h0 : E = [] → ∀ s ∈ ss, dens s = 1)
    (h1 : ∀ s ∈ ss, ∃ r, logpdf s E = .ok r ∧ r ≠ .nan ∧ r ≠ .pinf ∧ mass r = dens s) :
    ∃ w, Engine.stateWeights logpdf ss E = .ok w ∧ (∀ a ∈ w, a ≠ .nan ∧ a ≠ .pinf) ∧
      w.map mass = ss.map dens := by
  unfold Engine.stateWeights
  by_cases he : E = []
  · subst he
    refine ⟨_, if_pos rfl, fun a ha => ?_, ?_⟩
    · rw [List.eq_of_mem_replicate ha]; simp
    · rw [List.map_replicate, show mass (.fin 0) = 1 by simp [mass]]
      refine (List.eq_replicate_iff.mpr ⟨by simp, fun x hx => ?_⟩).symm
      obtain ⟨s, hs, rfl⟩ := List.mem_map.mp hx
      exact h0 rfl s hs
  · rw [if_neg (by simpa using he)]
    clear h0
    induction ss with
    | nil => exact ⟨[], rfl, by simp, rfl⟩
    | cons s t ih =>
      obtain ⟨r, r1, r2, r3, r4⟩ := h1 s List.mem_cons_self
      obtain ⟨w, w1, w2, w3⟩ := ih fun s hs => h1 s (List.mem_cons_of_mem _ hs)
      refine ⟨r :: w, ?_, fun a ha => ?_, by rw [List.map_cons, List.map_cons, r4, w3]⟩
      · rw [Net.collect, r1]
        simp only [w1]
        rfl
      · rcases List.mem_cons.mp ha with rfl | ha
        exacts [⟨r2, r3⟩, w2 a ha]

theorem weights_total {ss : List (State (catOf P))} {dens : State (catOf P) → ℝ≥0∞} {w : List Fl}
    (h : w.map mass = ss.map dens) :
    w.length = ss.length ∧ total w = (ss.map dens).sum ∧
      ∀ i (hi : i < ss.length), mass (w.getD i .ninf) = dens ss[i] := by
  have hl : w.length = ss.length := by simpa using congrArg List.length h
  refine ⟨hl, congrArg List.sum h, fun i hi => ?_⟩
  have := List.getElem_of_eq h (i := i) (by simpa [hl] using hi)
  rw [List.getElem_map, List.getElem_map] at this
  rw [← this, List.getD_eq_getElem?_getD, List.getElem?_eq_getElem (by rw [hl]; exact hi)]
  rfl

/-- **C78.** `N` samples of a new row, given values for some columns, from all states of an Engine: if the
target columns are in one view of each state, the resampled samples are, up to order, `N` independent
draws from the mixture of the laws of the states, in which the weight of a state is the density of the
given values in that state, divided by the sum of these densities. -/
theorem C78_states {ss : List (State (catOf P))} (hne : ss ≠ [])
    (hR : ∀ s ∈ ss, ∃ cfg, StateReachable cfg s) (hr : ∀ s ∈ ss, NewRowId s rowid)
    (hset : ∀ l, (ord.set l).Perm l) (hq : ∀ s ∈ ss, StateSimOn s T E)
    (hp : ∀ s ∈ ss, ProperCols s T)
    (hT : ∀ s ∈ ss, ∃ v, ∀ c ∈ T, s.Zv c = some v)
    (hpos : ∀ s ∈ ss, ∀ v view, s.views.get? v = some view → AskedCols s T v →
      viewDensity view E.get? ≠ 0)
    (hsome : ∃ s ∈ ss, stateDensity s E.get? ≠ 0)
    {beh : ViewBehaviour (catOf P) Ω} {ωj ωm : Nat → Nat → Ω}
    {hooked : Dict Nat (NetCgpm (Option Row) (Val (catOf P)) Ω)} {acc : Option Nat}
    (x₀ : Col → ℝ) :
    ∃ ν : Nat → Measure (Col → ℝ),
      (∀ i (hi : i < ss.length), IsProbabilityMeasure (ν i) ∧
        LawOf (ν i) (fillIn x₀) (ss[i].sample close rowid T E)) ∧
      ∀ N, IidUpToOrder N
        (∑ i : Fin ss.length,
          (stateDensity ss[i] E.get? / (ss.map fun s => stateDensity s E.get?).sum) • ν i) (fillIn x₀)
        (Engine.simulateStates close ord
          (fun s D => s.logpdf close ord beh ωj ωm false hooked rowid D [] [] acc) ss rowid T E N) := by
  obtain ⟨w, w1, w2, w3⟩ := stateWeights_mass (ss := ss) (E := E)
    (logpdf := fun s D => s.logpdf close ord beh ωj ωm false hooked rowid D [] [] acc)
    (dens := fun s => stateDensity s E.get?)
    (fun he s hs => by
      obtain ⟨cfg, h⟩ := hR s hs
      rw [he]
      exact stateDensity_nothing (h.inv (catOf_lawful P)))
    (fun s hs => by
      obtain ⟨cfg, h⟩ := hR s hs
      have h1 := stateDensity_nothing (h.inv (catOf_lawful P))
      obtain ⟨r, r1, r2, r3⟩ := C16_state_density (close := close) (ord := ord) (beh := beh)
        (ωj := ωj) (ωm := ωm) (hooked := hooked) (acc := acc) (T := E) (E := []) (catOf_lawful P) h
        (hr s hs) ⟨(hq s hs).evidence, by simp [Dict.keys], fun c hc => (hq s hs).columns c
          (List.mem_append_right _ (by simpa [Dict.keys] using hc))⟩
        (by simp [Dict.keys]) (by rw [h1]; exact one_ne_zero)
      rw [h1, div_one] at r3
      have e : both E ([] : Dict Col (catOf P).Cell) = E.get? := funext fun c => by
        unfold both
        show (E.get? c).or none = _
        simp
      rw [e] at r3
      exact ⟨r, r1, r2, ne_pinf_of_mass (by rw [r3]; exact stateDensity_finite _ _), r3⟩)
  obtain ⟨l1, l2, l3⟩ := weights_total w3
  have hν : ∀ i, ∃ ν : Measure (Col → ℝ), ∀ hi : i < ss.length, IsProbabilityMeasure ν ∧
      LawOf ν (fillIn x₀) (ss[i].sample close rowid T E) ∧
      ∀ N, IidUpToOrder N ν (fillIn x₀) (ss[i].sampleMany close ord rowid T E N) := by
    intro i
    by_cases hi : i < ss.length
    · have hm : ss[i] ∈ ss := List.getElem_mem hi
      obtain ⟨cfg, h⟩ := hR _ hm
      have hI := h.inv (catOf_lawful P)
      obtain ⟨v, hv⟩ := hT _ hm
      obtain ⟨c, hc⟩ := List.exists_mem_of_ne_nil T (hq _ hm).nonempty
      obtain ⟨view, hview⟩ := Dict.exists_of_mem_keys ((hI.occ v).mpr ⟨c, hv c hc⟩)
      obtain ⟨ν, h1⟩ := C77_one_view (close := close) h (hr _ hm) hset (hq _ hm) (hp _ hm) hview hv
        (hpos _ hm v view hview ⟨c, hc, hv c hc⟩) x₀
      exact ⟨ν, fun _ => h1⟩
    · exact ⟨0, fun h => absurd h hi⟩
  choose ν hν using hν
  refine ⟨ν, fun i hi => ⟨(hν i hi).1, (hν i hi).2.1⟩, fun N => ?_⟩
  rw [simulateStates_eq w1 N]
  have key := C78_resample (w := w) (ms := ss.map fun s => s.sampleMany close ord rowid T E N)
    (φ := fillIn x₀) (ν := ν) (N := N) (by simpa using hne) (by simpa using l1) w2 (by
      rw [l2, Ne, List.sum_eq_zero_iff]
      intro h
      obtain ⟨s, hs, h0⟩ := hsome
      exact h0 (h _ (List.mem_map_of_mem hs))) (fun i hi => by
      have hi' : i < ss.length := by simpa using hi
      have hm : ss[i] ∈ ss := List.getElem_mem hi'
      obtain ⟨cfg, h⟩ := hR _ hm
      rw [List.getElem_map]
      exact ⟨(hν i hi').1, (hν i hi').2.2 N, always_imp (C77_columns (close := close) h (hr _ hm) hset
        (hq _ hm) (hp _ hm) (hpos _ hm) N) fun _ h => h.1⟩)
  rw [List.length_map, Finset.sum_range, l2] at key
  refine Eq.mp (congrArg (fun μ => IidUpToOrder N μ _ _) ?_) key
  exact Finset.sum_congr rfl fun i _ => by rw [l3 i i.2]; rfl

/-- **C78.** The same for a row of the states: now the target columns may be in several views. -/
theorem C78_row {ss : List (State (catOf P))} {r : Row} (hne : ss ≠ [])
    (hR : ∀ s ∈ ss, ∃ cfg, StateReachable cfg s) (hr : ∀ s ∈ ss, r < s.nRows)
    (hq : ∀ s ∈ ss, StateSimOn s T E) (hp : ∀ s ∈ ss, ProperCols s T)
    (ha : ∀ s ∈ ss, StateAgrees close s r E) {w : List Fl} (hwl : w.length = ss.length)
    (hw : Engine.stateWeights logpdf ss E = .ok w)
    (hfin : ∀ a ∈ w, a ≠ .nan ∧ a ≠ .pinf) (hpos : total w ≠ 0) (x₀ : Col → ℝ) :
    ∃ ν : Nat → Measure (Col → ℝ),
      (∀ i (hi : i < ss.length), IsProbabilityMeasure (ν i) ∧
        LawOf (ν i) (fillIn x₀) (ss[i].sample close (some r) T E)) ∧
      ∀ N, IidUpToOrder N
        (∑ i ∈ Finset.range ss.length, (mass (w.getD i .ninf) / total w) • ν i) (fillIn x₀)
        (Engine.simulateStates close ord logpdf ss (some r) T E N) := by
  have hν : ∀ i, ∃ ν : Measure (Col → ℝ), ∀ hi : i < ss.length, IsProbabilityMeasure ν ∧
      LawOf ν (fillIn x₀) (ss[i].sample close (some r) T E) ∧
      ∀ N, Iid N ν (fillIn x₀) (ss[i].sampleMany close ord (some r) T E N) := by
    intro i
    by_cases hi : i < ss.length
    · have hm : ss[i] ∈ ss := List.getElem_mem hi
      obtain ⟨cfg, h⟩ := hR _ hm
      obtain ⟨ν, h1⟩ := C77_row (close := close) (ord := ord) h (hr _ hm) (hq _ hm) (hp _ hm)
        (ha _ hm) x₀
      exact ⟨ν, fun _ => h1⟩
    · exact ⟨0, fun h => absurd h hi⟩
  choose ν hν using hν
  refine ⟨ν, fun i hi => ⟨(hν i hi).1, (hν i hi).2.1⟩, fun N => ?_⟩
  rw [simulateStates_eq hw N]
  have key := C78_resample (w := w)
    (ms := ss.map fun s => s.sampleMany close ord (some r) T E N)
    (φ := fillIn x₀) (ν := ν) (N := N) (by simpa using hne) (by simpa using hwl) hfin hpos
    (fun i hi => by
      have hi' : i < ss.length := by simpa using hi
      have hm : ss[i] ∈ ss := List.getElem_mem hi'
      obtain ⟨cfg, h⟩ := hR _ hm
      rw [List.getElem_map]
      refine ⟨(hν i hi').1, fun F _ hF => (hν i hi').2.2 N F hF, ?_⟩
      exact always_imp (C77_row_columns (close := close) h (hr _ hm) (hq _ hm) (hp _ hm) (ha _ hm) N)
        fun _ h => h.1)
  rwa [List.length_map] at key

end

/-! The hypotheses can be met. -/

theorem bernoulli_possible {s : State libCat} (h : State.Inv s)
    (hk : ∀ c d, s.dimFor c = .ok d → d.kind = ⟨.bernoulli, trivial⟩ ∧ d.inputs = []) {v : Nat}
    {view : View libCat} (hv : s.views.get? v = some view) :
    viewDensity view (Dict.get? [(1, some (0 : ℝ))]) ≠ 0 := by
  intro h0
  obtain ⟨c, d, x, g1, g2, -, g3⟩ := (inv_refusal (h.views.view v view hv).inv _).mp h0
  rw [(hk c d (h.dimFor_of_view hv g1)).1] at g3
  rw [Dict.get?_cons] at g2
  split at g2
  · cases g2; exact g3 (Or.inl rfl)
  · cases g2

/-- An Engine of two states, one with its two columns in one view and one with them in different views:
the first column given the second. -/
example : ∃ s s' : State libCat, s ≠ s' ∧ (∀ t ∈ [s, s'], ∃ cfg, StateReachable cfg t) ∧
    (∀ t ∈ [s, s'], NewRowId t none) ∧ (∀ l, (idOrder.set l).Perm l) ∧
    (∀ t ∈ [s, s'], StateSimOn t [0] [(1, some (0 : ℝ))]) ∧ (∀ t ∈ [s, s'], ProperCols t [0]) ∧
    (∀ t ∈ [s, s'], ∃ v, ∀ c ∈ [0], t.Zv c = some v) ∧
    (∀ t ∈ [s, s'], ∀ v view, t.views.get? v = some view → AskedCols t [0] v →
      viewDensity view (Dict.get? [(1, some (0 : ℝ))]) ≠ 0) ∧
    ∃ t ∈ [s, s'], stateDensity t (Dict.get? [(1, some (0 : ℝ))]) ≠ 0 := by
  obtain ⟨s, h1, h2, h3, h4, h5, h6, h7, h8, h11, h12⟩ :=
    stateDemoOne_init bernoulli_remembered_one bernoulli_hyp
  obtain ⟨s', k1, k2, k3, k4, k5, k6, k7, k8, -, -, k11, k12⟩ :=
    stateDemo_init bernoulli_remembered_one bernoulli_hyp (a := 0) (b := 1)
      (by decide) [] []
  have hsim : ∀ t : State libCat, t.outputs = [0, 1] → (∀ c d, t.dimFor c = .ok d → d.inputs = []) →
      StateSimOn t [0] [(1, some (0 : ℝ))] := fun t ht hd =>
    ⟨by simp, by decide, by simp [Dict.keys], fun c hc => ⟨by
      rw [ht]; simpa [Dict.keys] using hc, hd c⟩, by simp [Dict.keys]⟩
  have two : ∀ {p : State libCat → Prop}, p s → p s' → ∀ t ∈ [s, s'], p t := by
    intro p a b t ht
    simp only [List.mem_cons, List.not_mem_nil, or_false] at ht
    rcases ht with rfl | rfl
    exacts [a, b]
  refine ⟨s, s', ?_, two ⟨_, h1⟩ ⟨_, k1⟩, (fun t _ r e => by cases e), fun l => List.Perm.refl _,
    two (hsim s h4 fun c d hd => (h12 c d hd).2.1) (hsim s' k4 fun c d hd => (k12 c d hd).2.1),
    two ?_ ?_, two ⟨0, ?_⟩ ⟨0, ?_⟩, two ?_ ?_, s, by simp, ?_⟩
  · rintro rfl
    rw [h7] at k7
    cases k7
  · intro c _ d hd
    rw [(h12 c d hd).2.2]
    exact trivial
  · intro c _ d hd
    rw [(k12 c d hd).2.2]
    exact trivial
  · simpa using h6
  · simpa using k6
  · exact fun v view hv _ =>
      bernoulli_possible h2 (fun c d hd => ⟨(h12 c d hd).1, (h12 c d hd).2.1⟩) hv
  · exact fun v view hv _ =>
      bernoulli_possible k2 (fun c d hd => ⟨(k12 c d hd).1, (k12 c d hd).2.1⟩) hv
  · unfold stateDensity
    rw [Ne, List.prod_eq_zero_iff]
    intro h0
    obtain ⟨p, hp, e⟩ := List.mem_map.mp h0
    exact bernoulli_possible h2 (fun c d hd => ⟨(h12 c d hd).1, (h12 c d hd).2.1⟩)
      (Dict.get?_of_mem h2.views.wf hp) e

/-- `C78_row` without given values, for an Engine of one state. -/
example : ∃ s : State libCat, (∃ cfg, StateReachable cfg s) ∧ 0 < s.nRows ∧ StateSimOn s [0, 1] [] ∧
    ProperCols s [0, 1] ∧ StateAgrees (fun _ _ => false) s 0 ([] : Dict Col libCat.Cell) ∧
    Engine.stateWeights (V := libCat.Cell) (fun _ _ => .error .valueError) [s] [] = .ok [.fin 0] ∧
    total [.fin 0] ≠ 0 := by
  obtain ⟨s, h1, h2, h3, h4, h5, h6, h7, h8, h11, h12⟩ :=
    stateDemoOne_init bernoulli_remembered_one bernoulli_hyp
  refine ⟨s, ⟨_, h1⟩, by rw [h5]; decide, ⟨by simp, by decide, by simp [Dict.keys], fun c hc =>
    ⟨?_, fun d hd => (h12 c d hd).2.1⟩, by simp [Dict.keys]⟩, ?_, ?_, rfl, by simp [total, mass]⟩
  · rw [h4]; simpa [Dict.keys] using hc
  · intro c _ d hd
    rw [(h12 c d hd).2.2]
    exact trivial
  · intro c x hx
    cases hx

end Cgpm.Props
