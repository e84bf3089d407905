import Verif.Lemmas.StateDraws
import Verif.Props.MutualState

/-!
Property C70: a simulated row has, jointly, the density that `logpdf` reports
(src/crosscat/state.py:407-417, src/crosscat/sampling.py:52-67, 85-99, 110-116).

`(s.sample close rowid T E).E g` is the expected value of `g` of what `simulate` returns.  The
integral `∫⋯∫⁻_T, f ∂colBase s` runs over the values of the columns `T`, counting measure being used
for the types with whole values (Mathlib's `lmarginal`); the other columns keep the values `x₀`, which
do not matter.
-/
namespace Cgpm.Props
open Cgpm Cgpm.View MeasureTheory
open scoped ENNReal

variable {P : Prim → Prop} {Ω : Type} {close : ℝ → ℝ → Bool} {ord : PyOrder}
  {beh : ViewBehaviour (catOf P) Ω} {ωj ωm : Nat → Nat → Ω} {cfg : Cfg (catOf P)}
  {s : State (catOf P)} {hooked : Dict Nat (NetCgpm (Option Row) (Val (catOf P)) Ω)}
  {rowid : Option Row} {T : List Col} {E : Dict Col (catOf P).Cell} {acc : Option Nat}

theorem valuesAt_keys (T : List Col) (x : Col → ℝ) :
    (valuesAt T x : Dict Col (catOf P).Cell).keys = T := by
  simp [valuesAt, Dict.keys, Function.comp_def]

theorem get?_pairs {W : Type} (T : List Col) (f : Col → W) (c : Col) :
    Dict.get? (T.map fun c => (c, f c)) c = if c ∈ T then some (f c) else none := by
  induction T with
  | nil => rfl
  | cons b t ih =>
    rw [List.map_cons, Dict.get?_cons, ih]
    by_cases h : b = c
    · subst h; simp
    · have : ¬ c = b := fun e => h e.symm
      simp [h, this]

theorem get?_pairs_group {W : Type} {T G : List Col} {p : Col → Prop} [DecidablePred p]
    (hG : ∀ c, c ∈ G ↔ c ∈ T ∧ p c) (f : Col → W) (c : Col) :
    Dict.get? (G.map fun c => (c, f c)) c
      = if p c then Dict.get? (T.map fun c => (c, f c)) c else none := by
  rw [get?_pairs, get?_pairs]
  by_cases h1 : c ∈ T <;> by_cases h2 : p c <;> simp [hG, h1, h2]

theorem simOn_query (hq : StateSimOn s T E) (x : Col → ℝ) : StateQueryOn s (valuesAt T x) E where
  targets := by rw [valuesAt_keys]; exact hq.targets
  evidence := hq.evidence
  columns := by rw [valuesAt_keys]; exact hq.columns

theorem asked_valuesAt (x : Col → ℝ) (v : Nat) :
    Asked s (valuesAt T x) v ↔ AskedCols s T v := by
  unfold Asked AskedCols
  rw [valuesAt_keys]

/-- The columns of one view. -/
theorem group_valuesAt (hq : StateSimOn s T E) {v : Nat} {G : List Col} (hn : G.Nodup)
    (hG : ∀ c, c ∈ G ↔ c ∈ T ∧ s.Zv c = some v) (x : Col → ℝ) :
    GroupOf s (valuesAt T x) v (valuesAt G x) where
  wf := by unfold Dict.WF; rw [valuesAt_keys]; exact hn
  get c := get?_pairs_group (p := fun c => s.Zv c = some v) hG _ c

theorem drawable (h : State.Inv s) (hq : StateSimOn s T E) (hp : ProperCols s T) {v : Nat}
    {view : View (catOf P)} (hv : s.views.get? v = some view) {G : List Col}
    (hG : ∀ c, c ∈ G ↔ c ∈ T ∧ s.Zv c = some v) : Drawable (colBase s) view G := by
  intro c hc
  obtain ⟨hT, hz⟩ := (hG c).mp hc
  obtain ⟨d, hd⟩ := Dict.exists_of_mem_keys (((h.views.view v view hv).dims c).mpr hz)
  have hf := h.dimFor_of_view hv hd
  refine ⟨d, hd, (hq.columns c (List.mem_append_left _ hT)).2 d hf, hp c hT d hf, ?_⟩
  unfold colBase
  rw [hf]

/-- The law of the views, put together. -/
theorem joint_law (h : State.Inv s) (hq : StateSimOn s T E)
    (hval : s.validateQuery close rowid true T E = .ok ())
    {D : Nat → (Col → ℝ) → ℝ≥0∞} {oE : Dict Nat (Dict Col (catOf P).Cell)}
    (he : partitionDict s.crp.data E = .ok oE)
    (hl : ∀ v view G, s.views.get? v = some view → AskedCols s T v → G.Nodup →
      (∀ c, c ∈ G ↔ c ∈ T ∧ s.Zv c = some v) → ViewLaw s rowid oE (colBase s) D (v, G)) :
    ∃ keys : List Nat, keys.Nodup ∧ (∀ v, v ∈ keys ↔ AskedCols s T v) ∧
      ∀ g : (Col → ℝ) → ℝ≥0∞, Measurable g → ∀ x₀,
        (s.sample close rowid T E).E (fun row => g (fillIn x₀ row))
          = (∫⋯∫⁻_T.toFinset, (fun x => g x * (keys.map fun v => D v x).prod) ∂colBase s) x₀ := by
  obtain ⟨oT, t1, t2, t3, t4, t5⟩ := partition_cols h hq
  refine ⟨oT.keys, t2, t4, fun g hg x₀ => ?_⟩
  have hs : s.sample close rowid T E = s.sampleViews rowid oE oT := by
    unfold State.sample
    rw [hval]
    simp only [partitionQueryEvidence, he, t1]
    rw [if_neg (by simpa using t3)]
  rw [hs, sampleViews_law (D := D) (μ := colBase s) (fun p hp => by
      obtain ⟨view, hv, hnd, hne, hdim, hm⟩ := t5 p hp
      exact hl p.1 view p.2 hv ((t4 p.1).mp (List.mem_map_of_mem hp)) hnd hm) ?_ hg]
  · have hset : (oT.flatMap Prod.snd).toFinset = T.toFinset := by
      ext c
      rw [List.mem_toFinset, List.mem_toFinset, List.mem_flatMap]
      constructor
      · rintro ⟨p, hp, hc⟩
        obtain ⟨view, hv, hnd, hne, hdim, hm⟩ := t5 p hp
        exact ((hm c).mp hc).1
      · intro hc
        obtain ⟨v, hv⟩ := Option.ne_none_iff_exists'.mp ((h.cols c).mpr
          (hq.columns c (List.mem_append_left _ hc)).1)
        obtain ⟨G, hG⟩ := Dict.exists_of_mem_keys ((t4 v).mpr ⟨c, hc, hv⟩)
        have hp := Dict.mem_of_get? hG
        obtain ⟨-, -, -, -, -, hm⟩ := t5 _ hp
        exact ⟨_, hp, (hm c).mpr ⟨hc, hv⟩⟩
    rw [hset]
    refine congrFun (congrArg _ (funext fun y => ?_)) x₀
    rw [mul_comm]
    unfold Dict.keys
    rw [List.map_map]
    rfl
  · have hk : oT.Pairwise fun p q => p.1 ≠ q.1 := List.pairwise_map.mp t2
    refine hk.imp_of_mem fun {p q} hp hq' hne c hc hc' => ?_
    obtain ⟨-, -, -, -, -, hm⟩ := t5 p hp
    obtain ⟨-, -, -, -, -, hm'⟩ := t5 q hq'
    have := ((hm c).mp hc).2
    rw [((hm' c).mp hc').2] at this
    exact hne (Option.some.inj this).symm

theorem measurable_mixture (v : View (catOf P)) (a : Tab → ℝ≥0∞) {f : Tab → (Col → ℝ) → ℝ≥0∞}
    (hf : ∀ k, Measurable (f k)) : Measurable fun y => mixture v fun k => f k y * a k := by
  unfold mixture
  exact (Finset.measurable_fun_sum _ fun k _ => ((hf k).mul_const _).const_mul _).add
    (((hf _).mul_const _).const_mul _)

open Classical in
/-- **C70.** For every reachable State and all values given to some columns: what `simulate` returns
for a new row has, jointly over all target columns, the density that `logpdf` reports. -/
theorem C70_law (hR : StateReachable cfg s) (hr : NewRowId s rowid) (hq : StateSimOn s T E)
    (hp : ProperCols s T)
    (hpos : ∀ v view, s.views.get? v = some view → AskedCols s T v →
      viewDensity view E.get? ≠ 0) :
    ∃ r : (Col → ℝ) → Fl, (∀ x, s.logpdf close ord beh ωj ωm false hooked rowid (valuesAt T x) E []
        acc = .ok (r x)) ∧
      ∀ g : (Col → ℝ) → ℝ≥0∞, Measurable g → ∀ x₀,
        (s.sample close rowid T E).E (fun row => g (fillIn x₀ row))
          = (∫⋯∫⁻_T.toFinset, (fun x => g x * mass (r x)) ∂colBase s) x₀ := by
  have hL := catOf_lawful P
  have h := hR.inv hL
  have hd : ∀ x : Col → ℝ, ∀ c ∈ (valuesAt T x : Dict Col (catOf P).Cell).keys, c ∉ E.keys := by
    intro x; rw [valuesAt_keys]; exact hq.disjoint
  have hlp := fun x => (C16_state (close := close) (ord := ord) (beh := beh) (ωj := ωj) (ωm := ωm)
    (hooked := hooked) (acc := acc) hL hR hr (simOn_query hq x) (hd x)).1
    fun v view hv ha => hpos v view hv ((asked_valuesAt x v).mp ha)
  choose r r1 r2 r3 using hlp
  refine ⟨r, r1, ?_⟩
  obtain ⟨oE, e1, e2, e3, e4, e5⟩ := partition_groups h hq.evidence fun c hc =>
    (hq.columns c (List.mem_append_right _ hc)).1
  have hqE : ∀ c ∈ E.keys, c ∈ s.outputs ∧ ∀ d, s.dimFor c = .ok d → d.inputs = [] :=
    fun c hc => hq.columns c (List.mem_append_right _ hc)
  let D : Nat → (Col → ℝ) → ℝ≥0∞ := fun v x => match s.views.get? v with
    | some view => viewDensity view (both (valuesAt T x) E) / viewDensity view E.get?
    | none => 1
  have hD : ∀ v view, s.views.get? v = some view → ∀ x,
      D v x = viewDensity view (both (valuesAt T x) E) / viewDensity view E.get? := by
    intro v view hv x
    simp only [D, hv]
  obtain ⟨keys, k1, k2, k3⟩ := joint_law (D := D) h hq (validate_sim_new (close := close) hr hq) e1
    fun v view G hv ha hn hG => by
      have hdr := drawable h hq hp hv hG
      have hI := (h.views.view v view hv).inv
      have hD' : D v = fun y => (mixture view fun k =>
          rowDensity view k (valuesAt G y : Dict Col (catOf P).Cell).get? *
            rowDensity view k ((oE.get? v).getD []).get?) /
          mixture view fun k => rowDensity view k ((oE.get? v).getD []).get? := by
        funext y
        rw [hD v view hv, viewDensity_both h (simOn_query hq y) (hd y) hv]
        unfold viewDensity
        simp only [groupOf_density h hqE hv (e4 v), groupOf_density h (fun c hc =>
          (simOn_query hq y).columns c (List.mem_append_left _ hc)) hv (group_valuesAt hq hn hG y)]
      have h0 : mixture view (fun k => rowDensity view k ((oE.get? v).getD []).get?) ≠ 0 := by
        simp only [groupOf_density h hqE hv (e4 v)]
        exact hpos v view hv ha
      refine ⟨⟨view, hv, fun F hF x => ?_⟩, hn, ?_, ?_⟩
      · rw [hD']
        exact view_sample_law hI (stateInv_seat h hv)
          ((stateInv_hyp h hv rowid).trans (state_hyp_new hr)) (e4 v).wf
          (groupOf_plain h hqE hv (e4 v)) h0 hn hdr hF x
      · rw [hD']
        refine Measurable.div_const (measurable_mixture view _ fun k => ?_) _
        simp only [rowDensity_valuesAt hI k hn hdr]
        exact measurable_colProd hI k hdr
      · intro w z hwz
        have : (valuesAt G w : Dict Col (catOf P).Cell) = valuesAt G z := by
          unfold valuesAt
          exact List.map_congr_left fun c hc => by rw [hwz c hc]
        simp only [hD', this]
  intro g hg x₀
  rw [k3 g hg x₀]
  refine congrFun (congrArg _ (funext fun x => ?_)) x₀
  rw [r3 x, prod_asked (T := valuesAt T x) h k1 (fun v => (k2 v).trans (asked_valuesAt x v).symm)
    (fun _ view => viewDensity view (both (valuesAt T x) E) / viewDensity view E.get?)
    (fun v => D v x) fun v view hv => hD v view hv x]

/-- What is simulated for a new row, view by view. -/
theorem sample_new (hR : StateReachable cfg s) (hr : NewRowId s rowid) (hq : StateSimOn s T E)
    (hp : ProperCols s T) :
    ∃ oT oE, s.sample close rowid T E = s.sampleViews rowid oE oT ∧
      (∀ v, v ∈ oT.keys ↔ AskedCols s T v) ∧
      ∀ p ∈ oT, ∃ view, s.views.get? p.1 = some view ∧
        (viewDensity view E.get? ≠ 0 →
          (view.sample rowid p.2 ((oE.get? p.1).getD [])).E (fun _ => 1) = 1) ∧
        (viewDensity view E.get? = 0 →
          view.sample rowid p.2 ((oE.get? p.1).getD []) = .raise .valueError) := by
  have h := hR.inv (catOf_lawful P)
  obtain ⟨oT, t1, t2, t3, t4, t5⟩ := partition_cols h hq
  obtain ⟨oE, e1, e2, e3, e4, e5⟩ := partition_groups h hq.evidence fun c hc =>
    (hq.columns c (List.mem_append_right _ hc)).1
  have hqE : ∀ c ∈ E.keys, c ∈ s.outputs ∧ ∀ d, s.dimFor c = .ok d → d.inputs = [] :=
    fun c hc => hq.columns c (List.mem_append_right _ hc)
  refine ⟨oT, oE, ?_, t4, fun p hpm => ?_⟩
  · have hval : s.validateQuery close rowid true T E = .ok () := validate_sim_new hr hq
    unfold State.sample
    rw [hval]
    simp only [partitionQueryEvidence, e1, t1]
    rw [if_neg (by simpa using t3)]
  · obtain ⟨view, hv, hnd, hne, hdim, hm⟩ := t5 p hpm
    have hI := (h.views.view _ _ hv).inv
    have hh := (stateInv_hyp h hv rowid).trans (state_hyp_new hr)
    have hd : viewDensity view E.get?
        = mixture view fun k => rowDensity view k ((oE.get? p.1).getD []).get? := by
      unfold viewDensity
      simp only [groupOf_density h hqE hv (e4 p.1)]
    refine ⟨view, hv, fun h0 => ?_, fun h0 => ?_⟩
    · exact view_sample_total hI (stateInv_seat h hv) hh (e4 p.1).wf (groupOf_plain h hqE hv (e4 p.1))
        (hd ▸ h0) (drawable h hq hp hv hm)
    · exact (view_sample_E hI (stateInv_seat h hv) hh (e4 p.1).wf
        (groupOf_plain h hqE hv (e4 p.1)) p.2 fun _ => 0).2 (hd ▸ h0)

/-- **C70.** A simulation of a new row returns an answer with probability one. -/
theorem C70_returns (hR : StateReachable cfg s) (hr : NewRowId s rowid) (hq : StateSimOn s T E)
    (hp : ProperCols s T)
    (hpos : ∀ v view, s.views.get? v = some view → AskedCols s T v →
      viewDensity view E.get? ≠ 0) :
    (s.sample close rowid T E).E (fun _ => 1) = 1 := by
  obtain ⟨oT, oE, h1, h2, h3⟩ := sample_new (close := close) hR hr hq hp
  rw [h1]
  refine sampleViews_total fun p hpm => ?_
  obtain ⟨view, hv, h4, -⟩ := h3 p hpm
  exact ⟨view, hv, h4 (hpos _ _ hv ((h2 p.1).mp (List.mem_map_of_mem hpm)))⟩

/-- **C70.** The joint density that `logpdf` reports for any set of columns, given any possible values
of others, integrates to one. -/
theorem C70_normalised (hR : StateReachable cfg s) (hr : NewRowId s rowid) (hq : StateSimOn s T E)
    (hp : ProperCols s T)
    (hpos : ∀ v view, s.views.get? v = some view → AskedCols s T v →
      viewDensity view E.get? ≠ 0)
    (r : (Col → ℝ) → Fl) (hlp : ∀ x, s.logpdf close ord beh ωj ωm false hooked rowid (valuesAt T x) E
      [] acc = .ok (r x)) (x₀ : Col → ℝ) :
    (∫⋯∫⁻_T.toFinset, (fun x => mass (r x)) ∂colBase s) x₀ = 1 := by
  obtain ⟨r', h1, h2⟩ := C70_law (close := close) (ord := ord) (beh := beh) (ωj := ωj) (ωm := ωm)
    (hooked := hooked) (acc := acc) hR hr hq hp hpos
  have : r' = r := funext fun x => Except.ok.inj ((h1 x).symm.trans (hlp x))
  subst this
  have := h2 (fun _ => 1) measurable_const x₀
  rw [C70_returns hR hr hq hp hpos] at this
  simp only [one_mul] at this
  exact this.symm

/-- **C70.** Whatever is drawn, the row that is returned has exactly the target columns, each once and
each with a value. -/
theorem C70_columns (hR : StateReachable cfg s) (hq : StateSimOn s T E) :
    (s.sample close rowid T E).Always fun row => row.keys.Nodup ∧ (∀ c, c ∈ row.keys ↔ c ∈ T) ∧
      ∀ p ∈ row, p.2 ≠ none := by
  have hI := hR.inv (catOf_lawful P)
  unfold State.sample
  split
  · trivial
  split
  · trivial
  rename_i oT oE hpart
  split
  · trivial
  obtain ⟨oT', t1, t2, t3, t4, t5⟩ := partition_cols hI hq
  have : oT = oT' := by
    unfold partitionQueryEvidence at hpart
    rw [t1] at hpart
    simp only at hpart
    split at hpart
    · cases hpart
    · cases hpart; rfl
  subst this
  have := sampleViews_always s rowid oE oT fun p hp => (t5 p hp).choose_spec.2.1
  refine always_imp this fun row hr => ⟨hr.1, fun c => ?_, hr.2.1⟩
  rw [hr.2.2]
  constructor
  · rintro ⟨p, hp, hc⟩
    obtain ⟨-, -, -, -, -, hm⟩ := t5 p hp
    exact ((hm c).mp hc).1
  · intro hc
    obtain ⟨v, hv⟩ := Option.ne_none_iff_exists'.mp ((hI.cols c).mpr
      (hq.columns c (List.mem_append_left _ hc)).1)
    obtain ⟨G, hG⟩ := Dict.exists_of_mem_keys ((t4 v).mpr ⟨c, hc, hv⟩)
    have hp := Dict.mem_of_get? hG
    obtain ⟨-, -, -, -, -, hm⟩ := t5 _ hp
    exact ⟨_, hp, (hm c).mpr ⟨hc, hv⟩⟩

/-- **C70.** If the given values have density zero in a view with targets, there is never an answer,
whatever is drawn, and `simulate` raises ValueError with probability one. -/
theorem C70_impossible (hR : StateReachable cfg s) (hr : NewRowId s rowid) (hq : StateSimOn s T E)
    (hp : ProperCols s T) {v : Nat} {view : View (catOf P)} (hv : s.views.get? v = some view)
    (ha : AskedCols s T v) (h0 : viewDensity view E.get? = 0) :
    (s.sample close rowid T E).Always (fun _ => False) ∧
      1 ≤ (s.sample close rowid T E).fails .valueError := by
  obtain ⟨oT, oE, h1, h2, h3⟩ := sample_new (close := close) hR hr hq hp
  rw [h1]
  obtain ⟨G, hG⟩ := Dict.exists_of_mem_keys ((h2 v).mpr ha)
  have hm := Dict.mem_of_get? hG
  obtain ⟨view', hv', -, h4⟩ := h3 _ hm
  rw [hv] at hv'
  cases hv'
  refine sampleDraws_refused (fun p hpm => ?_) ⟨_, hm, view, hv, h4 h0⟩
  obtain ⟨w, hw, w1, w2⟩ := h3 p hpm
  refine ⟨w, hw, ?_⟩
  by_cases hz : viewDensity w E.get? = 0
  · exact Or.inl (w2 hz)
  · exact Or.inr (w1 hz)

/-- **C70.** A simulation for a row of the State: the targets that are not observed have, jointly, the
density that `logpdf` reports for that row. -/
theorem C70_row (hR : StateReachable cfg s) {r : Row} (hr : r < s.nRows) (hq : StateSimOn s T E)
    (hp : ProperCols s T) (ha : StateAgrees close s r E) (ho : ∀ c ∈ T, s.tbl c r = none) :
    ∃ a : (Col → ℝ) → Fl, (∀ x, s.logpdf close ord beh ωj ωm false hooked (some r) (valuesAt T x) E []
        acc = .ok (a x)) ∧
      ∀ g : (Col → ℝ) → ℝ≥0∞, Measurable g → ∀ x₀,
        (s.sample close (some r) T E).E (fun row => g (fillIn x₀ row))
          = (∫⋯∫⁻_T.toFinset, (fun x => g x * mass (a x)) ∂colBase s) x₀ := by
  classical
  have hL := catOf_lawful P
  have h := hR.inv hL
  have hlp := fun x => C45_state_row (close := close) (ord := ord) (beh := beh) (ωj := ωj) (ωm := ωm)
    (hooked := hooked) (acc := acc) hL hR hr (simOn_query hq x)
    (by rw [valuesAt_keys]; exact hq.disjoint) (by rw [valuesAt_keys]; exact ho) ha
  obtain ⟨ks, hks, -⟩ := hlp 0
  have hlp' : ∀ x, ∃ a, s.logpdf close ord beh ωj ωm false hooked (some r) (valuesAt T x) E [] acc
      = .ok a ∧ mass a = (s.views.map fun p =>
        rowDensity p.2 (ks p.1) (valuesAt T x : Dict Col (catOf P).Cell).get?).prod := by
    intro x
    obtain ⟨ks', hks', a, a1, -, a2⟩ := hlp x
    refine ⟨a, a1, a2.trans (congrArg _ (List.map_congr_left fun p hp => ?_))⟩
    have hv := Dict.get?_of_mem h.views.wf hp
    rw [Option.some.inj ((hks' p.1 p.2 hv).symm.trans (hks p.1 p.2 hv))]
  choose a a1 a2 using hlp'
  refine ⟨a, a1, ?_⟩
  obtain ⟨oE, e1, e2, e3, e4, e5⟩ := partition_groups h hq.evidence fun c hc =>
    (hq.columns c (List.mem_append_right _ hc)).1
  let D : Nat → (Col → ℝ) → ℝ≥0∞ := fun v x => match s.views.get? v with
    | some view => rowDensity view (ks v) (valuesAt T x : Dict Col (catOf P).Cell).get?
    | none => 1
  have hD : ∀ v view, s.views.get? v = some view → ∀ x,
      D v x = rowDensity view (ks v) (valuesAt T x : Dict Col (catOf P).Cell).get? := by
    intro v view hv x
    simp only [D, hv]
  have hqT : ∀ y : Col → ℝ, ∀ c ∈ (valuesAt T y : Dict Col (catOf P).Cell).keys, c ∈ s.outputs ∧
      ∀ d, s.dimFor c = .ok d → d.inputs = [] := fun y c hc =>
    (simOn_query hq y).columns c (List.mem_append_left _ hc)
  obtain ⟨keys, k1, k2, k3⟩ := joint_law (D := D) h hq (validate_sim_old (close := close) hr hq ha) e1
    fun v view G hv _ hn hG => by
      have hdr := drawable h hq hp hv hG
      have hI := (h.views.view v view hv).inv
      have hD' : D v = fun y => (G.map fun c => colDensity view (ks v) c (y c)).prod := by
        funext y
        rw [hD v view hv, ← rowDensity_valuesAt hI (ks v) hn hdr,
          groupOf_density h (hqT y) hv (group_valuesAt hq hn hG y)]
      refine ⟨⟨view, hv, fun F hF x => ?_⟩, hn, ?_, ?_⟩
      · rw [hD']
        unfold View.sample
        rw [stateInv_hyp h hv, state_hyp_old hr]
        simp only [hks v view hv]
        rw [sampleRow_law hI (ks v) hn hdr hF]
        simp only [mul_comm]
      · rw [hD']
        exact measurable_colProd hI _ hdr
      · intro w z hwz
        rw [hD']
        exact congrArg _ (List.map_congr_left fun c hc => by rw [hwz c hc])
  intro g hg x₀
  rw [k3 g hg x₀]
  refine congrFun (congrArg _ (funext fun x => ?_)) x₀
  rw [a2 x, prod_asked (T := valuesAt T x) h k1 (fun v => (k2 v).trans (asked_valuesAt x v).symm)
    (fun v view => rowDensity view (ks v) (valuesAt T x : Dict Col (catOf P).Cell).get?)
    (fun v => D v x) fun v view hv => hD v view hv x]
  refine congrArg _ (congrArg _ (List.map_congr_left fun p hp => ?_))
  split
  · rfl
  · rename_i hna
    have hv := Dict.get?_of_mem h.views.wf hp
    have hg : GroupOf s (valuesAt T x) p.1 [] := ⟨Dict.wf_nil, fun c => by
      rw [Dict.get?_nil]
      split
      · rename_i hz
        exact ((Dict.get?_eq_none_iff _ _).mpr fun hc => hna ⟨c, hc, hz⟩).symm
      · rfl⟩
    rw [← groupOf_density h (hqT x) hv hg]
    exact (rowDensity_valuesAt (G := []) (h.views.view _ _ hv).inv _ List.nodup_nil
      (μ := colBase s) (fun c hc => by cases hc) x).symm

theorem both_assoc {T U : List Col} (hdisj : ∀ c ∈ T, c ∉ U) (hT : ∀ c ∈ T, c ∉ E.keys)
    (hU : ∀ c ∈ U, c ∉ E.keys) {x x₀ : Col → ℝ} (hx : ∀ c ∈ T, x c = x₀ c) :
    both (valuesAt U x) (E ++ valuesAt T x₀ : Dict Col (catOf P).Cell)
        = both (valuesAt (T ++ U) x) E ∧
      (E ++ valuesAt T x₀ : Dict Col (catOf P).Cell).get? = both (valuesAt T x₀) E := by
  have hval : (valuesAt T x₀ : Dict Col (catOf P).Cell) = valuesAt T x := by
    unfold valuesAt
    exact List.map_congr_left fun c hc => by rw [hx c hc]
  have happ : (valuesAt (T ++ U) x : Dict Col (catOf P).Cell) = valuesAt T x ++ valuesAt U x :=
    List.map_append
  have hk : ∀ (G : List Col) (y : Col → ℝ) (c : Col), c ∉ G →
      (valuesAt G y : Dict Col (catOf P).Cell).get? c = none := fun G y c hc =>
    (Dict.get?_eq_none_iff _ _).mpr (by rw [valuesAt_keys]; exact hc)
  have hE : ∀ c, c ∉ E.keys → E.get? c = none := fun c hc => (Dict.get?_eq_none_iff _ _).mpr hc
  constructor
  · funext c
    unfold both
    rw [Dict.get?_append, happ, Dict.get?_append, hval]
    by_cases h1 : c ∈ T
    · rw [hk U x c (hdisj c h1), hE c (hT c h1)]
      simp
    · rw [hk T x c h1]
      simp
  · funext c
    unfold both
    rw [Dict.get?_append]
    by_cases h1 : c ∈ T
    · rw [hE c (hT c h1)]
      simp
    · rw [hk T x₀ c h1]
      simp

open Classical in
/-- **C70.** Marginalisation: integrating the joint density that `logpdf` reports for the columns `T`
and `U` over the values of `U` gives the density that it reports for `T`. -/
theorem C70_marginal (hR : StateReachable cfg s) (hr : NewRowId s rowid) {U : List Col} (hT : T ≠ [])
    (hq : StateSimOn s (T ++ U) E) (hp : ProperCols s U)
    (hpos : ∀ v view, s.views.get? v = some view → AskedCols s (T ++ U) v →
      viewDensity view E.get? ≠ 0)
    (a b : (Col → ℝ) → Fl)
    (ha : ∀ x, s.logpdf close ord beh ωj ωm false hooked rowid (valuesAt (T ++ U) x) E [] acc
      = .ok (a x))
    (hb : ∀ x, s.logpdf close ord beh ωj ωm false hooked rowid (valuesAt T x) E [] acc = .ok (b x))
    (x₀ : Col → ℝ) :
    (∫⋯∫⁻_U.toFinset, (fun x => mass (a x)) ∂colBase s) x₀ = mass (b x₀) := by
  have hL := catOf_lawful P
  have h := hR.inv hL
  by_cases hU : U = []
  · subst hU
    rw [List.toFinset_nil, lmarginal_empty]
    have := ha x₀
    rw [List.append_nil, hb x₀] at this
    rw [Except.ok.inj this]
  have hnd := List.nodup_append.mp hq.targets
  have hTU : ∀ c ∈ T, c ∉ U := fun c hc hc' => hnd.2.2 c hc c hc' rfl
  have hTE : ∀ c ∈ T, c ∉ E.keys := fun c hc => hq.disjoint c (List.mem_append_left _ hc)
  have hUE : ∀ c ∈ U, c ∉ E.keys := fun c hc => hq.disjoint c (List.mem_append_right _ hc)
  have hqT : StateSimOn s T E := ⟨hT, hnd.1, hq.evidence, fun c hc => hq.columns c (by
    rcases List.mem_append.mp hc with hc | hc <;> simp [hc]), hTE⟩
  have hk' : (E ++ valuesAt T x₀ : Dict Col (catOf P).Cell).keys = E.keys ++ T := by
    have := valuesAt_keys (P := P) T x₀
    unfold Dict.keys at this ⊢
    rw [List.map_append, this]
  have hqU : StateSimOn s U (E ++ valuesAt T x₀) := by
    refine ⟨hU, hnd.2.1, ?_, fun c hc => hq.columns c ?_, fun c hc => ?_⟩
    · rw [hk', List.nodup_append]
      exact ⟨hq.evidence, hnd.1, fun c hc c' hc' e => hTE c' hc' (e ▸ hc)⟩
    · rw [hk'] at hc
      simp only [List.mem_append] at hc ⊢
      tauto
    · rw [hk', List.mem_append]
      rintro (h1 | h1)
      · exact hUE c hc h1
      · exact hTU c h1 hc
  have hA := fun x => (C16_state (close := close) (ord := ord) (beh := beh) (ωj := ωj) (ωm := ωm)
    (hooked := hooked) (acc := acc) hL hR hr (simOn_query hq x)
    (by rw [valuesAt_keys]; exact hq.disjoint)).1
    fun v view hv ha => hpos v view hv ((asked_valuesAt x v).mp ha)
  have hposT : ∀ v view, s.views.get? v = some view → AskedCols s T v →
      viewDensity view E.get? ≠ 0 := fun v view hv ⟨c, hc, hz⟩ =>
    hpos v view hv ⟨c, List.mem_append_left _ hc, hz⟩
  have hposU : ∀ v view, s.views.get? v = some view → AskedCols s U v →
      viewDensity view E.get? ≠ 0 := fun v view hv ⟨c, hc, hz⟩ =>
    hpos v view hv ⟨c, List.mem_append_right _ hc, hz⟩
  have hB := (C16_state (close := close) (ord := ord) (beh := beh) (ωj := ωj) (ωm := ωm)
    (hooked := hooked) (acc := acc) hL hR hr (simOn_query hqT x₀)
    (by rw [valuesAt_keys]; exact hqT.disjoint)).1
    fun v view hv ha => hposT v view hv ((asked_valuesAt x₀ v).mp ha)
  have hA' : ∀ x, mass (a x) = (s.views.map fun p => if AskedCols s (T ++ U) p.1 then
      viewDensity p.2 (both (valuesAt (T ++ U) x) E) / viewDensity p.2 E.get? else 1).prod := by
    intro x
    obtain ⟨r, r1, -, r3⟩ := hA x
    rw [Except.ok.inj ((ha x).symm.trans r1), r3]
    simp only [asked_valuesAt]
  have hB' : mass (b x₀) = (s.views.map fun p => if AskedCols s T p.1 then
      viewDensity p.2 (both (valuesAt T x₀) E) / viewDensity p.2 E.get? else 1).prod := by
    obtain ⟨r, r1, -, r3⟩ := hB
    rw [Except.ok.inj ((hb x₀).symm.trans r1), r3]
    simp only [asked_valuesAt]
  have hBt : mass (b x₀) ≠ ⊤ := by
    rw [hB']
    refine list_prod_ne_top _ fun x hx => ?_
    obtain ⟨p, hpm, rfl⟩ := List.mem_map.mp hx
    split
    · rename_i hak
      exact ENNReal.div_ne_top (viewDensity_top _ _)
        (hposT p.1 p.2 (Dict.get?_of_mem h.views.wf hpm) hak)
    · exact ENNReal.one_ne_top
  have hcond : ∀ view : View (catOf P), viewDensity view
      (E ++ valuesAt T x₀ : Dict Col (catOf P).Cell).get?
      = viewDensity view (both (valuesAt T x₀) E) := fun view => by
    rw [(both_assoc hTU hTE hUE (x := x₀) (x₀ := x₀) fun _ _ => rfl).2]
  have hsame : ∀ y : U.toFinset → ℝ, ∀ c ∈ T, Function.updateFinset x₀ U.toFinset y c = x₀ c := by
    intro y c hc
    have : c ∉ U.toFinset := by simpa using hTU c hc
    simp [Function.updateFinset, this]
  unfold lmarginal
  by_cases hz : ∃ v view, s.views.get? v = some view ∧ AskedCols s U v ∧
      viewDensity view (both (valuesAt T x₀) E) = 0
  · obtain ⟨v, view, hv, hau, h0⟩ := hz
    have hak : AskedCols s T v := by
      by_contra hna
      rw [viewDensity_unasked h (simOn_query hqT x₀) hv (by rw [asked_valuesAt]; exact hna)] at h0
      exact hposU v view hv hau h0
    have hb0 : mass (b x₀) = 0 := by
      rw [hB', List.prod_eq_zero_iff]
      refine List.mem_map.mpr ⟨(v, view), Dict.mem_of_get? hv, ?_⟩
      rw [if_pos hak, h0, ENNReal.zero_div]
    rw [hb0, lintegral_eq_zero_of_ae_eq_zero]
    refine Filter.Eventually.of_forall fun y => ?_
    show mass (a _) = 0
    rw [hA', List.prod_eq_zero_iff]
    refine List.mem_map.mpr ⟨(v, view), Dict.mem_of_get? hv, ?_⟩
    have hak' : AskedCols s (T ++ U) v := hak.imp fun c hc => ⟨List.mem_append_left _ hc.1, hc.2⟩
    rw [if_pos hak']
    have hN : viewDensity view (both (valuesAt (T ++ U) (Function.updateFinset x₀ U.toFinset y)) E)
        = 0 := by
      by_contra hne
      refine viewDensity_mono (both_plain h (simOn_query hq _) hv) (fun c => ?_) hne h0
      obtain ⟨e1, e2⟩ := both_assoc hTU hTE hUE (x₀ := x₀) (hsame y)
      rw [← e1, ← e2]
      by_cases hc : (E ++ valuesAt T x₀ : Dict Col (catOf P).Cell).get? c = none
      · exact Or.inl hc
      · right
        unfold both
        rw [(Dict.get?_eq_none_iff (valuesAt U _) c).mpr, Option.none_or]
        rw [valuesAt_keys]
        intro hcU
        refine hc ((Dict.get?_eq_none_iff _ _).mpr ?_)
        exact hqU.disjoint c hcU
    rw [hN, ENNReal.zero_div]
  · push Not at hz
    have hposE : ∀ v view, s.views.get? v = some view → AskedCols s U v → viewDensity view
        (E ++ valuesAt T x₀ : Dict Col (catOf P).Cell).get? ≠ 0 := by
      intro v view hv hau
      rw [hcond]
      exact hz v view hv hau
    have hC := fun x => (C16_state (close := close) (ord := ord) (beh := beh) (ωj := ωj) (ωm := ωm)
      (hooked := hooked) (acc := acc) hL hR hr (simOn_query hqU x)
      (by rw [valuesAt_keys]; exact hqU.disjoint)).1
      fun v view hv ha => hposE v view hv ((asked_valuesAt x v).mp ha)
    choose r r1 r2 r3 using hC
    have hone := C70_normalised hR hr hqU hp hposE r r1 x₀
    unfold lmarginal at hone
    have hmul : ∀ y : U.toFinset → ℝ, mass (a (Function.updateFinset x₀ U.toFinset y))
        = mass (b x₀) * mass (r (Function.updateFinset x₀ U.toFinset y)) := by
      intro y
      obtain ⟨e1, e2⟩ := both_assoc hTU hTE hUE (x₀ := x₀) (hsame y)
      rw [hA', hB', r3, ← List.prod_map_mul]
      congr 1
      refine List.map_congr_left fun p hpm => ?_
      have hv := Dict.get?_of_mem h.views.wf hpm
      simp only [asked_valuesAt]
      rw [e1, hcond]
      have hor : AskedCols s (T ++ U) p.1 ↔ AskedCols s T p.1 ∨ AskedCols s U p.1 := by
        unfold AskedCols
        simp only [List.mem_append, or_and_right, exists_or]
      by_cases hat : AskedCols s T p.1 <;> by_cases hau : AskedCols s U p.1
      · have hM := hz p.1 p.2 hv hau
        rw [if_pos (hor.mpr (Or.inl hat)), if_pos hat, if_pos hau]
        rw [div_eq_mul_inv, div_eq_mul_inv, div_eq_mul_inv, mul_comm _ (viewDensity p.2 E.get?)⁻¹,
          mul_comm _ (viewDensity p.2 E.get?)⁻¹, mul_assoc, mul_comm (viewDensity p.2 (both
            (valuesAt (T ++ U) _) E)), ← mul_assoc (viewDensity p.2 (both (valuesAt T x₀) E)),
          ENNReal.mul_inv_cancel hM (viewDensity_top _ _), one_mul]
      · rw [if_pos (hor.mpr (Or.inl hat)), if_pos hat, if_neg hau, mul_one, ← e1,
          viewDensity_unasked h (simOn_query hqU _) hv (by rw [asked_valuesAt]; exact hau), hcond]
      · rw [if_pos (hor.mpr (Or.inr hau)), if_neg hat, if_pos hau, one_mul,
          viewDensity_unasked h (simOn_query hqT x₀) hv (by rw [asked_valuesAt]; exact hat)]
      · rw [if_neg (by rw [hor]; tauto), if_neg hat, if_neg hau, one_mul]
    rw [lintegral_congr hmul, lintegral_const_mul' _ _ hBt, hone, mul_one]

/-- **C70.** Values are possible in the sense of the theorems above when each is in the support of the
type of its column, whatever the State has seen; and only then, for the views with targets. -/
theorem C70_possible (hR : StateReachable cfg s) (hq : StateSimOn s T E) :
    (∀ v view, s.views.get? v = some view → AskedCols s T v → viewDensity view E.get? ≠ 0) ↔
      ∀ c (x : ℝ), E.get? c = some (some x) → ∀ v, s.Zv c = some v → AskedCols s T v →
        ∀ d, s.dimFor c = .ok d → support d.kind.1 x := by
  have h := hR.inv (catOf_lawful P)
  constructor
  · intro hpos c x hx v hz ha d hd
    obtain ⟨view, hv⟩ := Dict.exists_of_mem_keys ((h.occ v).mpr ⟨c, hz⟩)
    obtain ⟨d', hd'⟩ := Dict.exists_of_mem_keys (((h.views.view v view hv).dims c).mpr hz)
    have e := h.dimFor_of_view hv hd'
    rw [hd] at e
    cases e
    by_contra hns
    refine hpos v view hv ha ((inv_refusal (h.views.view v view hv).inv _).mpr
      ⟨c, d, x, hd', hx, ?_, hns⟩)
    rw [(hq.columns c (List.mem_append_right _ (Dict.mem_keys_of_get? hx))).2 d hd]
    intro i hi
    cases hi
  · intro hs v view hv ha h0
    obtain ⟨c, d, x, g1, g2, -, g3⟩ := (inv_refusal (h.views.view v view hv).inv _).mp h0
    exact g3 (hs c x g2 v (((h.views.view v view hv).dims c).mp (Dict.mem_keys_of_get? g1)) ha d
      (h.dimFor_of_view hv g1))

/-! The hypotheses can be met. -/

open Classical in
/-- Two normal columns in different views: both are simulated; one given the other; and the
unobserved cell of the first row given the observed one. -/
example : ∃ s : State libCat, StateReachable plainCfg s ∧ NewRowId s none ∧ 0 < s.nRows ∧
    StateSimOn s [0] [(1, some (3 : ℝ))] ∧ StateSimOn s ([0] ++ [1]) [] ∧ ProperCols s [0, 1] ∧
    (∀ v view, s.views.get? v = some view → viewDensity view (Dict.get? [(1, some (3 : ℝ))]) ≠ 0) ∧
    StateSimOn s [1] [(0, some (2 : ℝ))] ∧
    StateAgrees (fun x y : ℝ => decide (x = y)) s 0 [(0, some (2 : ℝ))] ∧ s.tbl 1 0 = none := by
  obtain ⟨s, h1, h2, h3, h4, h5, h6, h7, h8, -, -, h11, h12⟩ :=
    stateDemo_init (normal_remembered 2) normal_hyp (a := 0) (b := 1) (by decide) [] []
  have hcol : ∀ (G : List Col) (D : Dict Col libCat.Cell), G ≠ [] → G.Nodup → D.keys.Nodup →
      (∀ c ∈ G ++ D.keys, c = 0 ∨ c = 1) → (∀ c ∈ G, c ∉ D.keys) → StateSimOn s G D := by
    intro G D g1 g2 g3 g4 g5
    refine ⟨g1, g2, g3, fun c hc => ⟨?_, fun d hd => (h12 c d hd).2.1⟩, g5⟩
    rw [h4]
    simpa using g4 c hc
  refine ⟨s, h1, (fun r e => by cases e), by rw [h5]; decide,
    hcol _ _ (by simp) (by decide) (by simp [Dict.keys]) (by simp [Dict.keys]) (by simp [Dict.keys]),
    hcol _ _ (by simp) (by decide) (by simp [Dict.keys]) (by simp [Dict.keys]) (by simp [Dict.keys]),
    ?_, ?_,
    hcol _ _ (by simp) (by decide) (by simp [Dict.keys]) (by simp [Dict.keys]) (by simp [Dict.keys]),
    ?_, ?_⟩
  · intro c _ d hd
    rw [(h12 c d hd).2.2]
    exact trivial
  · intro v view hv h0
    obtain ⟨c, d, x, g1, g2, -, g3⟩ := (inv_refusal (h2.views.view v view hv).inv _).mp h0
    rw [(h12 c d (h2.dimFor_of_view hv g1)).1] at g3
    exact g3 trivial
  · intro c x hx hc y hy
    have htbl : s.tbl 0 0 = some (2 : ℝ) := by
      unfold State.tbl State.tblOf
      rw [h3]
      rfl
    simp only [Dict.get?_cons, Dict.get?_nil] at hx
    split at hx
    · rename_i e
      subst e
      rw [htbl] at hy
      have e1 : (2 : ℝ) = y := Option.some.inj hy
      subst e1
      exact ⟨(2 : ℝ), (Option.some.inj hx).symm, by simp⟩
    · cases hx
  · simp [State.tbl, State.tblOf, h3, stateDemoX, Dict.get?_cons]

/-- Two bernoulli columns in one view: 2 is impossible for the one that is given. -/
example : ∃ (s : State libCat) (view : View libCat), StateReachable plainCfg s ∧ NewRowId s none ∧
    StateSimOn s [0] [(1, some (2 : ℝ))] ∧ ProperCols s [0] ∧ s.views.get? 0 = some view ∧
    AskedCols s [0] 0 ∧ viewDensity view (Dict.get? [(1, some (2 : ℝ))]) = 0 := by
  obtain ⟨s, h1, h2, h3, h4, h5, h6, h7, h8, h11, h12⟩ :=
    stateDemoOne_init bernoulli_remembered_one bernoulli_hyp
  obtain ⟨view, hv⟩ := Dict.exists_of_mem_keys (by rw [h8]; simp : 0 ∈ s.views.keys)
  refine ⟨s, view, h1, (fun r e => by cases e), ?_, ?_, hv, ⟨0, by simp, h6⟩, ?_⟩
  · refine ⟨by simp, by decide, by simp [Dict.keys], fun c hc => ⟨?_, fun d hd => (h12 c d hd).2.1⟩,
      by simp [Dict.keys]⟩
    rw [h4]; simpa [Dict.keys] using hc
  · intro c _ d hd
    rw [(h12 c d hd).2.2]
    exact trivial
  · obtain ⟨d, hd⟩ := Dict.exists_of_mem_keys (((h2.views.view 0 view hv).dims 1).mpr h7)
    have hk := h12 1 d (h2.dimFor_of_view hv hd)
    refine (inv_refusal (h2.views.view 0 view hv).inv _).mpr ⟨1, d, 2, hd, rfl, ?_, ?_⟩
    · rw [hk.2.1]; intro i hi; cases hi
    · rw [hk.1]
      show ¬ ((2 : ℝ) = 0 ∨ (2 : ℝ) = 1)
      norm_num

end Cgpm.Props
