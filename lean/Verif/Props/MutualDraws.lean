import Verif.Lemmas.MutualDraws
import Verif.Props.BatchDraws
import Verif.Props.MutualState

/-!
Property C80: estimates of mutual information and entropy converge
(src/crosscat/state.py:653-706).
-/
namespace Cgpm.Props
open Cgpm Cgpm.View MeasureTheory Cgpm.Batch Cgpm.Mutual ProbabilityTheory
open scoped ENNReal

variable {P : Prim → Prop} {Ω : Type} {close : ℝ → ℝ → Bool} {ord : PyOrder}
  {beh : ViewBehaviour (catOf P) Ω} {ωj ωm : Nat → Nat → Ω}
  {hooked : Dict Nat (NetCgpm (Option Row) (Val (catOf P)) Ω)} {acc : Option Nat}
  {cfg : Cfg (catOf P)} {s : State (catOf P)} {v : Nat} {view : View (catOf P)}
  {T col0 col1 : List Col} {E : Dict Col (catOf P).Cell}

/-- Density of the values `x` of columns of a view. -/
noncomputable def densAt (view : View (catOf P)) (E : Dict Col (catOf P).Cell) (T : List Col)
    (x : Col → ℝ) : ℝ≥0∞ :=
  (mixture view fun k => (T.map fun c => colDensity view k c (x c)).prod * rowDensity view k E.get?)
    / viewDensity view E.get?

theorem fin_log {r : Fl} {p : ℝ≥0∞} (hr : r ≠ .nan) (hm : mass r = p) (h0 : p ≠ 0) (ht : p ≠ ⊤) :
    r = .fin (Real.log p.toReal) := by
  subst hm
  obtain ⟨a, rfl⟩ := mass_fin_of hr h0 ht
  simp only [mass]
  rw [ENNReal.toReal_ofReal (Real.exp_pos _).le, Real.log_exp]

theorem asked_one (hT : ∀ c ∈ T, s.Zv c = some v) (hn : T ≠ []) (u : Nat) :
    AskedCols s T u ↔ u = v := by
  constructor
  · rintro ⟨c, hc, hz⟩
    rw [hT c hc] at hz
    exact (Option.some.inj hz).symm
  · rintro rfl
    obtain ⟨c, hc⟩ := List.exists_mem_of_ne_nil T hn
    exact ⟨c, hc, hT c hc⟩

theorem logpdf_densAt (hR : StateReachable cfg s) (hq : StateSimOn s T E) (hp : ProperCols s T)
    (hv : s.views.get? v = some view) (hT : ∀ c ∈ T, s.Zv c = some v)
    (hpos : viewDensity view E.get? ≠ 0) (x : Col → ℝ) {t : Dict Col (catOf P).Cell} (ht : t.WF)
    (hg : ∀ c, t.get? c = if c ∈ T then some (some (x c)) else none) :
    ∃ r, s.logpdf close ord beh ωj ωm false hooked none t E [] acc = .ok r ∧ r ≠ .nan ∧
      mass r = densAt view E T x ∧ densAt view E T x ≠ ⊤ := by
  classical
  have hL := catOf_lawful P
  have h := hR.inv hL
  have hk : ∀ c, c ∈ t.keys ↔ c ∈ T := by
    intro c
    constructor
    · intro hc
      obtain ⟨y, hy⟩ := Dict.exists_of_mem_keys hc
      rw [hg] at hy
      by_contra hn
      rw [if_neg hn] at hy
      cases hy
    · intro hc
      have := hg c
      rw [if_pos hc] at this
      exact Dict.mem_keys_of_get? this
  have hqt : StateQueryOn s t E := ⟨ht, hq.evidence, fun c hc => hq.columns c (by
    rcases List.mem_append.mp hc with hc | hc
    · exact List.mem_append_left _ ((hk c).mp hc)
    · exact List.mem_append_right _ hc)⟩
  have hask : ∀ u, Asked s t u ↔ u = v := by
    intro u
    rw [← asked_one hT hq.nonempty u]
    unfold Asked AskedCols
    simp only [hk]
  have hgv : (valuesAt T x : Dict Col (catOf P).Cell).get? = t.get? := by
    funext c
    rw [hg]
    exact get?_pairs T (fun c => (some (x c) : (catOf P).Cell)) c
  have hqE : ∀ c ∈ E.keys, c ∈ s.outputs ∧ ∀ d, s.dimFor c = .ok d → d.inputs = [] :=
    fun c hc => hq.columns c (List.mem_append_right _ hc)
  have hG : ∀ c, c ∈ T ↔ c ∈ T ∧ s.Zv c = some v := fun c => ⟨fun hc => ⟨hc, hT c hc⟩, fun hc => hc.1⟩
  have hdr := drawable h hq hp hv hG
  have hI := (h.views.view v view hv).inv
  obtain ⟨r, r1, r2, r3⟩ := (C16_state (close := close) (ord := ord) (beh := beh) (ωj := ωj)
    (ωm := ωm) (hooked := hooked) (acc := acc) (rowid := none) hL hR (fun r hr => by cases hr) hqt
    fun c hc => hq.disjoint c ((hk c).mp hc)).1 fun u w hu ha => by
      rw [(hask u).mp ha, hv] at hu
      cases hu
      exact hpos
  have hd : densAt view E T x = viewDensity view (both t E) / viewDensity view E.get? := by
    unfold densAt
    congr 1
    rw [viewDensity_both h hqt (fun c hc => hq.disjoint c ((hk c).mp hc)) hv]
    congr 1
    funext k
    rw [← hgv, rowDensity_valuesAt hI k hq.targets hdr]
  refine ⟨r, r1, r2, ?_, by rw [hd]; exact ENNReal.div_ne_top (viewDensity_top _ _) hpos⟩
  rw [r3, hd, ← prod_asked (T := t) h (keys := [v]) (by simp) (fun u => by rw [hask]; simp)
    (fun _ w => viewDensity w (both t E) / viewDensity w E.get?)
    (fun u => match s.views.get? u with
      | some w => viewDensity w (both t E) / viewDensity w E.get?
      | none => 1) (fun u w hu => by simp only [hu])]
  simp only [List.map_cons, List.map_nil, List.prod_cons, List.prod_nil, mul_one, hv]

/-! ### The density of a pair -/

theorem mixture_mul_le (view : View (catOf P)) (f g e : Tab → ℝ≥0∞) (he : ∀ k, e k ≠ ⊤) :
    (mixture view fun k => f k * g k * e k) ≤
      ((∑ k ∈ occupied view, (prior view k * e k)⁻¹ * if prior view k * e k = 0 then 0 else 1) +
        (prior view (freshTab view) * e (freshTab view))⁻¹ *
          if prior view (freshTab view) * e (freshTab view) = 0 then 0 else 1) *
      ((mixture view fun k => f k * e k) * mixture view fun k => g k * e k) := by
  have hk : ∀ k, k ∈ occupied view ∨ k = freshTab view → ∀ a : Tab → ℝ≥0∞,
      prior view k * (a k * e k) ≤ mixture view fun k => a k * e k := by
    intro k hk a
    unfold mixture
    rcases hk with hk | rfl
    · exact (Finset.single_le_sum (f := fun k => prior view k * (a k * e k))
        (fun _ _ => zero_le) hk).trans le_self_add
    · exact le_add_self
  have hone : ∀ k, k ∈ occupied view ∨ k = freshTab view →
      prior view k * (f k * g k * e k) ≤ (prior view k * e k)⁻¹ *
        (if prior view k * e k = 0 then 0 else 1) *
        ((mixture view fun k => f k * e k) * mixture view fun k => g k * e k) := by
    intro k h
    by_cases h0 : prior view k * e k = 0
    · have : prior view k * (f k * g k * e k) = f k * g k * (prior view k * e k) := by ring
      rw [this, h0, mul_zero]
      exact zero_le
    · rw [if_neg h0, mul_one]
      have ht : prior view k * e k ≠ ⊤ := ENNReal.mul_ne_top ENNReal.ofReal_ne_top (he k)
      calc prior view k * (f k * g k * e k)
          = (prior view k * e k)⁻¹ * ((prior view k * (f k * e k)) * (prior view k * (g k * e k))) := by
            have : (prior view k * e k)⁻¹ * ((prior view k * (f k * e k)) * (prior view k * (g k * e k)))
              = ((prior view k * e k)⁻¹ * (prior view k * e k)) * (prior view k * (f k * g k * e k)) := by
              ring
            rw [this, ENNReal.inv_mul_cancel h0 ht, one_mul]
        _ ≤ _ := by
            gcongr
            · exact hk k h f
            · exact hk k h g
  rw [add_mul, Finset.sum_mul]
  exact add_le_add (Finset.sum_le_sum fun k h => hone k (.inl h)) (hone _ (.inr rfl))

theorem densAt_append_le (hpos : viewDensity view E.get? ≠ 0) :
    ∃ B : ℝ, 0 < B ∧ ∀ x, densAt view E (col0 ++ col1) x
      ≤ ENNReal.ofReal B * (densAt view E col0 x * densAt view E col1 x) := by
  have ht := viewDensity_top view E.get?
  have hle := fun x : Col → ℝ => mixture_mul_le view
    (fun k => (col0.map fun c => colDensity view k c (x c)).prod)
    (fun k => (col1.map fun c => colDensity view k c (x c)).prod)
    (fun k => rowDensity view k E.get?) fun k => rowDensity_fin view k E.get?
  generalize hb : ((∑ k ∈ occupied view, (prior view k * rowDensity view k E.get?)⁻¹ *
      if prior view k * rowDensity view k E.get? = 0 then (0 : ℝ≥0∞) else 1) +
      (prior view (freshTab view) * rowDensity view (freshTab view) E.get?)⁻¹ *
      if prior view (freshTab view) * rowDensity view (freshTab view) E.get? = 0 then 0 else 1) = b
    at hle
  have hone : ∀ k, (prior view k * rowDensity view k E.get?)⁻¹ *
      (if prior view k * rowDensity view k E.get? = 0 then (0 : ℝ≥0∞) else 1) ≠ ⊤ := by
    intro k
    by_cases h0 : prior view k * rowDensity view k E.get? = 0
    · rw [if_pos h0, mul_zero]; exact ENNReal.zero_ne_top
    · rw [if_neg h0, mul_one]; exact ENNReal.inv_ne_top.mpr h0
  have hbt : b ≠ ⊤ := by
    rw [← hb]
    exact ENNReal.add_ne_top.mpr ⟨ENNReal.sum_ne_top.mpr fun k _ => hone k, hone _⟩
  have hbz : b * viewDensity view E.get? ≠ ⊤ := ENNReal.mul_ne_top hbt ht
  refine ⟨(b * viewDensity view E.get?).toReal + 1, by positivity, fun x => ?_⟩
  refine le_trans ?_ (mul_le_mul_left (a := densAt view E col0 x * densAt view E col1 x)
    (b := b * viewDensity view E.get?) ?_)
  · have h1 : densAt view E (col0 ++ col1) x ≤ b * ((mixture view fun k =>
        (col0.map fun c => colDensity view k c (x c)).prod * rowDensity view k E.get?) *
        mixture view fun k => (col1.map fun c => colDensity view k c (x c)).prod *
          rowDensity view k E.get?) / viewDensity view E.get? := by
      unfold densAt
      refine ENNReal.div_le_div_right ?_ _
      simp only [List.map_append, List.prod_append]
      exact hle x
    refine h1.trans (le_of_eq ?_)
    unfold densAt
    simp only [div_eq_mul_inv]
    generalize mixture view (fun k => (col0.map fun c => colDensity view k c (x c)).prod *
      rowDensity view k E.get?) = m0
    generalize mixture view (fun k => (col1.map fun c => colDensity view k c (x c)).prod *
      rowDensity view k E.get?) = m1
    generalize viewDensity view E.get? = z at *
    calc b * (m0 * m1) * z⁻¹ = b * (m0 * m1) * z⁻¹ * (z * z⁻¹) := by
          rw [ENNReal.mul_inv_cancel hpos ht, mul_one]
      _ = _ := by ring
  · rw [← ENNReal.ofReal_toReal hbz]
    apply ENNReal.ofReal_le_ofReal
    rw [ENNReal.toReal_ofReal ENNReal.toReal_nonneg]
    linarith

theorem measurable_densAt (h : State.Inv s) (hq : StateSimOn s T E) (hp : ProperCols s T)
    (hv : s.views.get? v = some view) (hT : ∀ c ∈ T, s.Zv c = some v) :
    Measurable (densAt view E T) := by
  have hG : ∀ c, c ∈ T ↔ c ∈ T ∧ s.Zv c = some v := fun c => ⟨fun hc => ⟨hc, hT c hc⟩, fun hc => hc.1⟩
  exact Measurable.div_const (measurable_mixture view _ fun k =>
    measurable_colProd (h.views.view v view hv).inv k (drawable h hq hp hv hG)) _

theorem densAt_congr {x z : Col → ℝ} (h : ∀ c ∈ T, x c = z c) :
    densAt view E T x = densAt view E T z := by
  unfold densAt
  congr 2
  funext k
  congr 2
  exact List.map_congr_left fun c hc => by rw [h c hc]

theorem densAt_viewDensity (h : State.Inv s) (hq : StateSimOn s T E) (hp : ProperCols s T)
    (hv : s.views.get? v = some view) (hT : ∀ c ∈ T, s.Zv c = some v) (x : Col → ℝ) :
    densAt view E T x = viewDensity view (both (valuesAt T x) E) / viewDensity view E.get? := by
  have hG : ∀ c, c ∈ T ↔ c ∈ T ∧ s.Zv c = some v := fun c => ⟨fun hc => ⟨hc, hT c hc⟩, fun hc => hc.1⟩
  unfold densAt
  congr 1
  rw [viewDensity_both h (simOn_query hq x) (by rw [valuesAt_keys]; exact hq.disjoint) hv]
  congr 1
  funext k
  rw [rowDensity_valuesAt (h.views.view v view hv).inv k hq.targets (drawable h hq hp hv hG)]

/-- The law of a simulated row, by `densAt`. -/
theorem law_densAt (hR : StateReachable cfg s) (hq : StateSimOn s T E) (hp : ProperCols s T)
    (hv : s.views.get? v = some view) (hT : ∀ c ∈ T, s.Zv c = some v)
    (hpos : viewDensity view E.get? ≠ 0) {g : (Col → ℝ) → ℝ≥0∞} (hg : Measurable g) (x₀ : Col → ℝ) :
    (s.sample close none T E).E (fun row => g (fillIn x₀ row))
      = (∫⋯∫⁻_T.toFinset, (fun x => g x * densAt view E T x) ∂colBase s) x₀ := by
  obtain ⟨r, h1, h2⟩ := C70_law (close := close) (ord := ⟨fun _ _ => [], id⟩)
    (beh := (⟨fun _ _ _ _ _ => .error .keyError, fun _ _ _ _ _ _ _ => .error .keyError⟩ :
      ViewBehaviour (catOf P) Unit)) (ωj := fun _ _ => ()) (ωm := fun _ _ => ())
    (hooked := []) (acc := none) (rowid := none) hR (fun r hr => by cases hr) hq hp
    fun u w hu ha => by
      rw [(asked_one hT hq.nonempty u).mp ha, hv] at hu
      cases hu
      exact hpos
  rw [h2 g hg x₀]
  refine congrFun (congrArg _ (funext fun x => ?_)) x₀
  obtain ⟨r', h3, -, h4, -⟩ := logpdf_densAt (close := close) (ord := ⟨fun _ _ => [], id⟩)
    (beh := (⟨fun _ _ _ _ _ => .error .keyError, fun _ _ _ _ _ _ _ => .error .keyError⟩ :
      ViewBehaviour (catOf P) Unit)) (ωj := fun _ _ => ()) (ωm := fun _ _ => ())
    (hooked := []) (acc := none) hR hq hp hv hT hpos x (t := valuesAt T x)
    (by unfold Dict.WF; rw [valuesAt_keys]; exact hq.targets)
    (fun c => get?_pairs T (fun c => (some (x c) : (catOf P).Cell)) c)
  rw [h1 x] at h3
  cases h3
  rw [h4]

theorem simOn_part {U : List Col} (hq : StateSimOn s T E) (hs : U.Sublist T) (hn : U ≠ []) :
    StateSimOn s U E where
  nonempty := hn
  targets := hs.nodup hq.targets
  evidence := hq.evidence
  columns c hc := by
    rcases List.mem_append.mp hc with hc | hc
    · exact hq.columns c (List.mem_append_left _ (hs.subset hc))
    · exact hq.columns c (List.mem_append_right _ hc)
  disjoint c hc := hq.disjoint c (hs.subset hc)

theorem row_get? {x₀ : Col → ℝ} {row : Dict Col (catOf P).Cell} (hw : row.keys.Nodup)
    (hk : ∀ c, c ∈ row.keys ↔ c ∈ T) (hn : ∀ p ∈ row, p.2 ≠ none) (c : Col) :
    row.get? c = if c ∈ T then some (some (fillIn x₀ row c)) else none := by
  by_cases hc : c ∈ T
  · rw [if_pos hc]
    obtain ⟨y, hy⟩ := Dict.exists_of_mem_keys ((hk c).mpr hc)
    have := hn _ (Dict.mem_of_get? hy)
    obtain ⟨z, hz⟩ := Option.ne_none_iff_exists'.mp this
    have hy' : row.get? c = some (some z) := hy.trans (congrArg some hz)
    rw [hy']
    congr 2
    unfold fillIn
    rw [hy']
  · rw [if_neg hc]
    exact (Dict.get?_eq_none_iff row c).mpr fun h => hc ((hk c).mp h)

theorem measurable_logDens (h : State.Inv s) (hq : StateSimOn s T E) (hp : ProperCols s T)
    (hv : s.views.get? v = some view) (hT : ∀ c ∈ T, s.Zv c = some v) :
    Measurable fun x => Real.log (densAt view E T x).toReal :=
  (measurable_densAt h hq hp hv hT).ennreal_toReal.log

/-- The rows of a batch have a positive density. -/
theorem densAt_pos (hR : StateReachable cfg s) (hq : StateSimOn s T E) (hp : ProperCols s T)
    (hv : s.views.get? v = some view) (hT : ∀ c ∈ T, s.Zv c = some v)
    (hpos : viewDensity view E.get? ≠ 0) {x₀ : Col → ℝ} {ν : Measure (Col → ℝ)}
    (hν : LawOf ν (fillIn x₀) (s.sample close none T E)) :
    ∀ᵐ x ∂ν, densAt view E T x ≠ 0 := by
  have hm := measurable_densAt (hR.inv (catOf_lawful P)) hq hp hv hT
  have hS : MeasurableSet {x | densAt view E T x = 0} := hm (measurableSet_singleton 0)
  rw [ae_iff]
  simp only [not_not]
  rw [← lintegral_indicator_one hS, ← hν _ (measurable_one.indicator hS),
    law_densAt hR hq hp hv hT hpos (measurable_one.indicator hS)]
  have : (fun x => Set.indicator {x | densAt view E T x = 0} (1 : (Col → ℝ) → ℝ≥0∞) x
      * densAt view E T x) = fun _ => 0 := by
    funext x
    by_cases h0 : densAt view E T x = 0
    · rw [h0, mul_zero]
    · rw [Set.indicator_of_notMem (by simpa using h0), zero_mul]
  rw [this]
  simp [lmarginal]

/-- The product of the densities of the two sets of columns integrates to one. -/
theorem densAt_prod (hR : StateReachable cfg s) (hq : StateSimOn s (col0 ++ col1) E)
    (h0 : col0 ≠ []) (h1 : col1 ≠ [])
    (hp : ProperCols s (col0 ++ col1)) (hv : s.views.get? v = some view)
    (hT : ∀ c ∈ col0 ++ col1, s.Zv c = some v) (hpos : viewDensity view E.get? ≠ 0)
    (x₀ : Col → ℝ) :
    (∫⋯∫⁻_(col0 ++ col1).toFinset, (fun x => densAt view E col0 x * densAt view E col1 x)
      ∂colBase s) x₀ = 1 := by
  have hI := hR.inv (catOf_lawful P)
  have hq0 := simOn_part hq (List.sublist_append_left col0 col1) h0
  have hq1 := simOn_part hq (List.sublist_append_right col0 col1) h1
  have hp0 : ProperCols s col0 := fun c hc => hp c (List.mem_append_left _ hc)
  have hp1 : ProperCols s col1 := fun c hc => hp c (List.mem_append_right _ hc)
  have hT0 : ∀ c ∈ col0, s.Zv c = some v := fun c hc => hT c (List.mem_append_left _ hc)
  have hT1 : ∀ c ∈ col1, s.Zv c = some v := fun c hc => hT c (List.mem_append_right _ hc)
  have hm0 := measurable_densAt hI hq0 hp0 hv hT0
  have hm1 := measurable_densAt hI hq1 hp1 hv hT1
  have htot : ∀ {U : List Col}, StateSimOn s U E → ProperCols s U → (∀ c ∈ U, s.Zv c = some v) →
      ∀ z, (∫⋯∫⁻_U.toFinset, densAt view E U ∂colBase s) z = 1 := by
    intro U hU hpU hTU z
    have e := law_densAt (close := fun _ _ => true) hR hU hpU hv hTU hpos
      (g := fun _ => 1) measurable_const z
    rw [C70_returns hR (fun r hr => by cases hr) hU hpU fun u w hu ha => by
      rw [(asked_one hTU hU.nonempty u).mp ha, hv] at hu
      cases hu
      exact hpos] at e
    simp only [one_mul] at e
    exact e.symm
  have hd : Disjoint col0.toFinset col1.toFinset := by
    rw [Finset.disjoint_left]
    intro c hc hc'
    exact (List.nodup_append'.mp hq.targets).2.2 (List.mem_toFinset.mp hc) (List.mem_toFinset.mp hc')
  rw [List.toFinset_append, lmarginal_union _ (fun x => densAt view E col0 x * densAt view E col1 x)
    (hm0.mul hm1) hd]
  have : (∫⋯∫⁻_col1.toFinset, (fun x => densAt view E col0 x * densAt view E col1 x) ∂colBase s)
      = densAt view E col0 := by
    funext z
    rw [lmarginal_pull _ hm1 z fun w hw => densAt_congr fun c hc =>
      hw c (Finset.disjoint_left.mp hd (List.mem_toFinset.mpr hc)), htot hq1 hp1 hT1, mul_one]
  rw [this, htot hq0 hp0 hT0]

/-- **C80.** For every reachable State, two disjoint sets of columns of one view and all possible values
given to other columns: there is a law `ν` of a simulated row, and the logarithm `h` of the ratio of the
joint density of the two sets of columns to the product of their densities, as `logpdf` reports them;
the mean of `h` is finite and not negative (it is the mutual information); the estimate from `N` samples
is distributed as the mean of `N` independent copies of `h`; and there is a `B` such that the estimate
is off by `ε` or more with probability at most `B / (N ε²)`. -/
theorem C80_mi (hR : StateReachable cfg s) (hset : ∀ l, (ord.set l).Perm l)
    (hq : StateSimOn s (col0 ++ col1) E) (h0 : col0 ≠ []) (h1 : col1 ≠ [])
    (hp : ProperCols s (col0 ++ col1)) (hv : s.views.get? v = some view)
    (hT : ∀ c ∈ col0 ++ col1, s.Zv c = some v) (hpos : viewDensity view E.get? ≠ 0)
    (x₀ : Col → ℝ) :
    ∃ (ν : Measure (Col → ℝ)) (h : (Col → ℝ) → ℝ) (B : ℝ), IsProbabilityMeasure ν ∧
      LawOf ν (fillIn x₀) (s.sample close none (col0 ++ col1) E) ∧
      (∀ᵐ x ∂ν, ∃ a b c : ℝ,
        s.logpdf close ord beh ωj ωm false hooked none (valuesAt (col0 ++ col1) x) E [] acc
          = .ok (.fin a) ∧
        s.logpdf close ord beh ωj ωm false hooked none (valuesAt col0 x) E [] acc = .ok (.fin b) ∧
        s.logpdf close ord beh ωj ωm false hooked none (valuesAt col1 x) E [] acc = .ok (.fin c) ∧
        h x = a - b - c) ∧
      Measurable h ∧ Integrable h ν ∧ 0 ≤ ∫ x, h x ∂ν ∧
      ∀ N, 0 < N →
        Estimates ν h N (s.miDraws close ord beh ωj ωm hooked acc col0 col1 E N) ∧
        ∀ ε, 0 < ε → farFrom (∫ x, h x ∂ν) ε
          (s.miDraws close ord beh ωj ωm hooked acc col0 col1 E N) ≤ ENNReal.ofReal (B / (N * ε ^ 2)) := by
  have hI := hR.inv (catOf_lawful P)
  have hq0 := simOn_part hq (List.sublist_append_left col0 col1) h0
  have hq1 := simOn_part hq (List.sublist_append_right col0 col1) h1
  have hp0 : ProperCols s col0 := fun c hc => hp c (List.mem_append_left _ hc)
  have hp1 : ProperCols s col1 := fun c hc => hp c (List.mem_append_right _ hc)
  have hT0 : ∀ c ∈ col0, s.Zv c = some v := fun c hc => hT c (List.mem_append_left _ hc)
  have hT1 : ∀ c ∈ col1, s.Zv c = some v := fun c hc => hT c (List.mem_append_right _ hc)
  have hm := measurable_densAt hI hq hp hv hT
  have hm0 := measurable_densAt hI hq0 hp0 hv hT0
  have hm1 := measurable_densAt hI hq1 hp1 hv hT1
  have hn : NewRowId s none := fun r hr => by cases hr
  obtain ⟨ν, hν, l1, l2⟩ := C77_one_view (close := close) (ord := ord) hR hn hset hq hp hv hT hpos x₀
  obtain ⟨B, hB, hle⟩ := densAt_append_le (col0 := col0) (col1 := col1) hpos
  have hlp := fun x t => logpdf_densAt (close := close) (ord := ord) (beh := beh) (ωj := ωj) (ωm := ωm)
    (hooked := hooked) (acc := acc) hR hq hp hv hT hpos x (t := t)
  have hlp0 := fun x t => logpdf_densAt (close := close) (ord := ord) (beh := beh) (ωj := ωj) (ωm := ωm)
    (hooked := hooked) (acc := acc) hR hq0 hp0 hv hT0 hpos x (t := t)
  have hlp1 := fun x t => logpdf_densAt (close := close) (ord := ord) (beh := beh) (ωj := ωj) (ωm := ωm)
    (hooked := hooked) (acc := acc) hR hq1 hp1 hv hT1 hpos x (t := t)
  have hva : ∀ {U : List Col}, StateSimOn s U E → ∀ x : Col → ℝ,
      (valuesAt U x : Dict Col (catOf P).Cell).WF ∧ ∀ c,
        (valuesAt U x : Dict Col (catOf P).Cell).get? c = if c ∈ U then some (some (x c)) else none :=
    fun {U} hU x => ⟨by unfold Dict.WF; rw [valuesAt_keys]; exact hU.targets,
      fun c => get?_pairs U (fun c => (some (x c) : (catOf P).Cell)) c⟩
  have ht : ∀ x, densAt view E (col0 ++ col1) x ≠ ⊤ := fun x =>
    (hlp x _ (hva hq x).1 (hva hq x).2).choose_spec.2.2.2
  have ht0 : ∀ x, densAt view E col0 x ≠ ⊤ := fun x =>
    (hlp0 x _ (hva hq0 x).1 (hva hq0 x).2).choose_spec.2.2.2
  have ht1 : ∀ x, densAt view E col1 x ≠ ⊤ := fun x =>
    (hlp1 x _ (hva hq1 x).1 (hva hq1 x).2).choose_spec.2.2.2
  have hnz : ∀ᵐ x ∂ν, densAt view E (col0 ++ col1) x ≠ 0 := densAt_pos hR hq hp hv hT hpos l1
  have hparts : ∀ x, densAt view E (col0 ++ col1) x ≠ 0 →
      densAt view E col0 x ≠ 0 ∧ densAt view E col1 x ≠ 0 := by
    intro x hx
    refine mul_ne_zero_iff.mp fun e => hx (le_antisymm ?_ zero_le)
    have := hle x
    rwa [e, mul_zero] at this
  have hint : ∫⁻ x, densAt view E col0 x * densAt view E col1 x / densAt view E (col0 ++ col1) x ∂ν
      ≤ 1 := by
    have hmr : Measurable fun x => densAt view E col0 x * densAt view E col1 x /
        densAt view E (col0 ++ col1) x := (hm0.mul hm1).div hm
    rw [← l1 _ hmr, law_densAt hR hq hp hv hT hpos hmr, ← densAt_prod hR hq h0 h1 hp hv hT hpos x₀]
    exact lmarginal_mono (fun x => by rw [mul_comm]; exact ENNReal.mul_div_le) x₀
  obtain ⟨hL, hnn⟩ := log_ratio hm hm0 hm1 ht ht0 ht1 hB hle hnz hint
  have hmh : Measurable fun x => Real.log (densAt view E (col0 ++ col1) x).toReal -
      Real.log (densAt view E col0 x).toReal - Real.log (densAt view E col1 x).toReal :=
    (hm.ennreal_toReal.log.sub hm0.ennreal_toReal.log).sub hm1.ennreal_toReal.log
  refine ⟨ν, fun x => Real.log (densAt view E (col0 ++ col1) x).toReal -
    Real.log (densAt view E col0 x).toReal - Real.log (densAt view E col1 x).toReal,
    Var[fun x => Real.log (densAt view E (col0 ++ col1) x).toReal -
      Real.log (densAt view E col0 x).toReal - Real.log (densAt view E col1 x).toReal; ν],
    hν, l1, ?_, hmh, hL.integrable one_le_two, hnn, fun N hN => ?_⟩
  · filter_upwards [hnz] with x hx
    obtain ⟨hx0, hx1⟩ := hparts x hx
    obtain ⟨r, a1, a2, a3, -⟩ := hlp x _ (hva hq x).1 (hva hq x).2
    obtain ⟨r0, b1, b2, b3, -⟩ := hlp0 x _ (hva hq0 x).1 (hva hq0 x).2
    obtain ⟨r1, c1, c2, c3, -⟩ := hlp1 x _ (hva hq1 x).1 (hva hq1 x).2
    rw [fin_log a2 a3 hx (ht x)] at a1
    rw [fin_log b2 b3 hx0 (ht0 x)] at b1
    rw [fin_log c2 c3 hx1 (ht1 x)] at c1
    exact ⟨_, _, _, a1, b1, c1, rfl⟩
  have hest : Estimates ν (fun x => Real.log (densAt view E (col0 ++ col1) x).toReal -
      Real.log (densAt view E col0 x).toReal - Real.log (densAt view E col1 x).toReal) N
      (s.miDraws close ord beh ωj ωm hooked acc col0 col1 E N) := by
    have hcols := C77_columns (close := close) (ord := ord) hR hn hset hq hp (fun u w hu ha => by
      rw [(asked_one hT hq.nonempty u).mp ha, hv] at hu
      cases hu
      exact hpos) N
    refine estimates_of (l2 N) hcols hmh
      (G := {x | densAt view E (col0 ++ col1) x ≠ 0})
      (hm (measurableSet_singleton 0).compl) hnz fun rows hrows hgood => ?_
    obtain ⟨hlen, hrow⟩ := hrows
    subst hlen
    have hmem : ∀ i : Fin rows.length, rows.get i ∈ rows := fun i => List.get_mem rows i
    have hg := fun i : Fin rows.length => row_get? (x₀ := x₀) (hrow _ (hmem i)).1
      (hrow _ (hmem i)).2.1 (hrow _ (hmem i)).2.2
    have e := C47_mi_estimate (m := s.answering close ord beh ωj ωm hooked acc rows)
      (site := ⟨0, none⟩) (col0 := col0) (col1 := col1) (E := E) (row := rows.get)
      (pxy := fun i => Real.log (densAt view E (col0 ++ col1) (fillIn x₀ (rows.get i))).toReal)
      (px := fun i => Real.log (densAt view E col0 (fillIn x₀ (rows.get i))).toReal)
      (py := fun i => Real.log (densAt view E col1 (fillIn x₀ (rows.get i))).toReal)
      (by rw [List.ofFn_get]; rfl)
      (fun i c hc => ((hrow _ (hmem i)).2.1 c).mpr hc)
      (fun i => by
        have hx := hgood _ (hmem i)
        obtain ⟨r, a1, a2, a3, -⟩ := hlp (fillIn x₀ (rows.get i)) _ (hrow _ (hmem i)).1 (hg i)
        rw [fin_log a2 a3 hx (ht _)] at a1
        exact a1)
      (fun i t hw htg => by
        have hx := (hparts _ (hgood _ (hmem i))).1
        obtain ⟨r, a1, a2, a3, -⟩ := hlp0 (fillIn x₀ (rows.get i)) _ hw fun c => by
          rw [htg c]
          by_cases hc : c ∈ col0
          · rw [if_pos hc, if_pos hc, hg i c, if_pos (List.mem_append_left _ hc)]
          · rw [if_neg hc, if_neg hc]; rfl
        rw [fin_log a2 a3 hx (ht0 _)] at a1
        exact a1)
      (fun i t hw htg => by
        have hx := (hparts _ (hgood _ (hmem i))).2
        obtain ⟨r, a1, a2, a3, -⟩ := hlp1 (fillIn x₀ (rows.get i)) _ hw fun c => by
          rw [htg c]
          by_cases hc : c ∈ col1
          · rw [if_pos hc, if_pos hc, hg i c, if_pos (List.mem_append_right _ hc)]
          · rw [if_neg hc, if_neg hc]; rfl
        rw [fin_log a2 a3 hx (ht1 _)] at a1
        exact a1)
    rw [e]
    congr 3
    rw [List.map_map]
    conv_rhs => rw [← List.ofFn_get rows, List.map_ofFn, List.sum_ofFn]
    rfl
  exact ⟨hest, fun ε hε => estimates_error hN hest hL hε⟩

/-- The estimate of the entropy, by `densAt`. -/
theorem entropy_core (hR : StateReachable cfg s) (hset : ∀ l, (ord.set l).Perm l)
    (hq : StateSimOn s T E) (hp : ProperCols s T) (hv : s.views.get? v = some view)
    (hT : ∀ c ∈ T, s.Zv c = some v) (hpos : viewDensity view E.get? ≠ 0)
    (hsame : ∀ c, c ∈ T ↔ c ∈ col1) (x₀ : Col → ℝ) :
    ∃ ν : Measure (Col → ℝ), IsProbabilityMeasure ν ∧
      LawOf ν (fillIn x₀) (s.sample close none T E) ∧ (∀ᵐ x ∂ν, densAt view E T x ≠ 0) ∧
      (∀ x, densAt view E T x ≠ 0 →
        s.logpdf close ord beh ωj ωm false hooked none (valuesAt T x) E [] acc
          = .ok (.fin (Real.log (densAt view E T x).toReal))) ∧
      ∀ N, Estimates ν (fun x => - Real.log (densAt view E T x).toReal) N
        (s.entropyDraws close ord beh ωj ωm hooked acc T col1 E N) := by
  have hI := hR.inv (catOf_lawful P)
  have hm := measurable_densAt hI hq hp hv hT
  have hn : NewRowId s none := fun r hr => by cases hr
  obtain ⟨ν, hν, l1, l2⟩ := C77_one_view (close := close) (ord := ord) hR hn hset hq hp hv hT hpos x₀
  have hlp := fun x t => logpdf_densAt (close := close) (ord := ord) (beh := beh) (ωj := ωj) (ωm := ωm)
    (hooked := hooked) (acc := acc) hR hq hp hv hT hpos x (t := t)
  have hva : ∀ x : Col → ℝ, (valuesAt T x : Dict Col (catOf P).Cell).WF ∧ ∀ c,
        (valuesAt T x : Dict Col (catOf P).Cell).get? c = if c ∈ T then some (some (x c)) else none :=
    fun x => ⟨by unfold Dict.WF; rw [valuesAt_keys]; exact hq.targets,
      fun c => get?_pairs T (fun c => (some (x c) : (catOf P).Cell)) c⟩
  have ht : ∀ x, densAt view E T x ≠ ⊤ := fun x =>
    (hlp x _ (hva x).1 (hva x).2).choose_spec.2.2.2
  have hnz : ∀ᵐ x ∂ν, densAt view E T x ≠ 0 := densAt_pos hR hq hp hv hT hpos l1
  have hest : ∀ N, Estimates ν (fun x => - Real.log (densAt view E T x).toReal) N
      (s.entropyDraws close ord beh ωj ωm hooked acc T col1 E N) := by
    intro N
    have hcols := C77_columns (close := close) (ord := ord) hR hn hset hq hp (fun u w hu ha => by
      rw [(asked_one hT hq.nonempty u).mp ha, hv] at hu
      cases hu
      exact hpos) N
    unfold State.entropyDraws
    rw [if_neg (by rw [not_not]; exact (sameSet_iff _ _).2 hsame)]
    refine estimates_of (l2 N) hcols hm.ennreal_toReal.log.neg
      (G := {x | densAt view E T x ≠ 0})
      (hm (measurableSet_singleton 0).compl) hnz fun rows hrows hgood => ?_
    obtain ⟨hlen, hrow⟩ := hrows
    subst hlen
    have hmem : ∀ i : Fin rows.length, rows.get i ∈ rows := fun i => List.get_mem rows i
    have hg := fun i : Fin rows.length => row_get? (x₀ := x₀) (hrow _ (hmem i)).1
      (hrow _ (hmem i)).2.1 (hrow _ (hmem i)).2.2
    have e := C47_entropy_estimate (m := s.answering close ord beh ωj ωm hooked acc rows)
      (site := ⟨0, none⟩) (col0 := T) (col1 := col1) (E := E) hsame (row := rows.get)
      (px := fun i => Real.log (densAt view E T (fillIn x₀ (rows.get i))).toReal)
      (by rw [List.ofFn_get]; rfl)
      (fun i c hc => ((hrow _ (hmem i)).2.1 c).mpr hc)
      (fun i t hw htg => by
        have hx := hgood _ (hmem i)
        obtain ⟨r, a1, a2, a3, -⟩ := hlp (fillIn x₀ (rows.get i)) _ hw fun c => by
          rw [htg c]
          by_cases hc : c ∈ T
          · rw [if_pos hc, if_pos hc, hg i c, if_pos hc]
          · rw [if_neg hc, if_neg hc]; rfl
        rw [fin_log a2 a3 hx (ht _)] at a1
        exact a1)
    rw [e]
    congr 3
    rw [List.map_map]
    conv_rhs => rw [← List.ofFn_get rows, List.map_ofFn, List.sum_ofFn]
    rw [← Finset.sum_neg_distrib]
    rfl
  refine ⟨ν, hν, l1, hnz, fun x hx => ?_, hest⟩
  obtain ⟨r, a1, a2, a3, -⟩ := hlp x _ (hva x).1 (hva x).2
  rw [fin_log a2 a3 hx (ht x)] at a1
  exact a1

/-- **C80.** For every reachable State, a set of columns of one view and all possible values given to
other columns: the estimate of the entropy from `N` samples is distributed as the mean of `N` independent
copies of minus the logarithm of the density, as `logpdf` reports it, of a simulated row; if this has a
second moment, the estimate is off by `ε` or more with probability at most `B / (N ε²)`. -/
theorem C80_entropy (hR : StateReachable cfg s) (hset : ∀ l, (ord.set l).Perm l)
    (hq : StateSimOn s T E) (hp : ProperCols s T) (hv : s.views.get? v = some view)
    (hT : ∀ c ∈ T, s.Zv c = some v) (hpos : viewDensity view E.get? ≠ 0)
    (hsame : ∀ c, c ∈ T ↔ c ∈ col1) (x₀ : Col → ℝ) :
    ∃ (ν : Measure (Col → ℝ)) (h : (Col → ℝ) → ℝ), IsProbabilityMeasure ν ∧
      LawOf ν (fillIn x₀) (s.sample close none T E) ∧
      (∀ᵐ x ∂ν, s.logpdf close ord beh ωj ωm false hooked none (valuesAt T x) E [] acc
          = .ok (.fin (- h x))) ∧
      (∀ N, 0 < N → Estimates ν h N (s.entropyDraws close ord beh ωj ωm hooked acc T col1 E N)) ∧
      (MemLp h 2 ν → ∃ B : ℝ, ∀ N, 0 < N → ∀ ε, 0 < ε → farFrom (∫ x, h x ∂ν) ε
          (s.entropyDraws close ord beh ωj ωm hooked acc T col1 E N)
            ≤ ENNReal.ofReal (B / (N * ε ^ 2))) := by
  obtain ⟨ν, hν, h1, h2, h3, h4⟩ := entropy_core (close := close) (ord := ord) (beh := beh)
    (ωj := ωj) (ωm := ωm) (hooked := hooked) (acc := acc) hR hset hq hp hv hT hpos hsame x₀
  refine ⟨ν, fun x => - Real.log (densAt view E T x).toReal, hν, h1, ?_, fun N _ => h4 N, fun hL =>
    ⟨Var[fun x => - Real.log (densAt view E T x).toReal; ν], fun N hN ε hε =>
      estimates_error hN (h4 N) hL hε⟩⟩
  filter_upwards [h2] with x hx
  rw [neg_neg]
  exact h3 x hx

/-- **C80.** If moreover the columns have only finitely many possible values, the entropy is finite and
the estimates of it converge: they are off by `ε` or more with probability at most `B / (N ε²)`. -/
theorem C80_entropy_finite (hR : StateReachable cfg s) (hset : ∀ l, (ord.set l).Perm l)
    (hq : StateSimOn s T E) (hp : ProperCols s T) (hv : s.views.get? v = some view)
    (hT : ∀ c ∈ T, s.Zv c = some v) (hpos : viewDensity view E.get? ≠ 0)
    (hsame : ∀ c, c ∈ T ↔ c ∈ col1) (x₀ : Col → ℝ) (F : Col → Finset ℝ)
    (hF : ∀ x : Col → ℝ, (∃ c ∈ T, x c ∉ F c) →
      s.logpdf close ord beh ωj ωm false hooked none (valuesAt T x) E [] acc = .ok .ninf) :
    ∃ (ν : Measure (Col → ℝ)) (h : (Col → ℝ) → ℝ) (B : ℝ), IsProbabilityMeasure ν ∧
      LawOf ν (fillIn x₀) (s.sample close none T E) ∧
      (∀ᵐ x ∂ν, s.logpdf close ord beh ωj ωm false hooked none (valuesAt T x) E [] acc
          = .ok (.fin (- h x))) ∧
      Integrable h ν ∧
      ∀ N, 0 < N → Estimates ν h N (s.entropyDraws close ord beh ωj ωm hooked acc T col1 E N) ∧
        ∀ ε, 0 < ε → farFrom (∫ x, h x ∂ν) ε
          (s.entropyDraws close ord beh ωj ωm hooked acc T col1 E N)
            ≤ ENNReal.ofReal (B / (N * ε ^ 2)) := by
  obtain ⟨ν, hν, h1, h2, h3, h4⟩ := entropy_core (close := close) (ord := ord) (beh := beh)
    (ωj := ωj) (ωm := ωm) (hooked := hooked) (acc := acc) hR hset hq hp hv hT hpos hsame x₀
  have hm := measurable_densAt (hR.inv (catOf_lawful P)) hq hp hv hT
  have hfin : (Set.univ.pi fun c : T.toFinset => (F c : Set ℝ)).Finite :=
    Set.Finite.pi fun c => (F c).finite_toSet
  let ext : (T.toFinset → ℝ) → Col → ℝ := fun y c => if hc : c ∈ T.toFinset then y ⟨c, hc⟩ else 0
  obtain ⟨M, hM⟩ := (hfin.image fun y => |Real.log (densAt view E T (ext y)).toReal|).bddAbove
  have hb : ∀ᵐ x ∂ν, ‖- Real.log (densAt view E T x).toReal‖ ≤ M := by
    filter_upwards [h2] with x hx
    have hin : ∀ c ∈ T, x c ∈ F c := by
      intro c hc
      by_contra hn
      have := hF x ⟨c, hc, hn⟩
      rw [h3 x hx] at this
      cases this
    rw [norm_neg, Real.norm_eq_abs]
    refine hM ⟨fun c => x c, fun c _ => hin c (List.mem_toFinset.mp c.2), ?_⟩
    simp only
    rw [densAt_congr (z := x)]
    intro c hc
    simp only [ext]
    rw [dif_pos (List.mem_toFinset.mpr hc)]
  have hL : MemLp (fun x => - Real.log (densAt view E T x).toReal) 2 ν :=
    MemLp.of_bound hm.ennreal_toReal.log.neg.aestronglyMeasurable M hb
  refine ⟨ν, fun x => - Real.log (densAt view E T x).toReal,
    Var[fun x => - Real.log (densAt view E T x).toReal; ν], hν, h1, ?_, hL.integrable one_le_two,
    fun N hN => ⟨h4 N, fun ε hε => estimates_error hN (h4 N) hL hε⟩⟩
  filter_upwards [h2] with x hx
  rw [neg_neg]
  exact h3 x hx

/-! The hypotheses can be met. -/

/-- Two bernoulli columns in one view, in a State of one row: their mutual information can be estimated,
and their joint entropy, the possible values being 0 and 1. -/
example (beh : ViewBehaviour libCat Ω) : ∃ (s : State libCat) (view : View libCat),
    StateReachable plainCfg s ∧
    (∀ l, (idOrder.set l).Perm l) ∧ StateSimOn s ([0] ++ [1]) [] ∧ ProperCols s ([0] ++ [1]) ∧
    s.views.get? 0 = some view ∧ (∀ c ∈ [0] ++ [1], s.Zv c = some 0) ∧
    viewDensity view (Dict.get? ([] : Dict Col libCat.Cell)) ≠ 0 ∧
    ∀ x : Col → ℝ, (∃ c ∈ [0] ++ [1], x c ∉ ({0, 1} : Finset ℝ)) →
      s.logpdf close ord beh ωj ωm false [] none
        (valuesAt ([0] ++ [1]) x) [] [] acc = .ok .ninf := by
  obtain ⟨s, h1, h2, h3, h4, h5, h6, h7, h8, h11, h12⟩ :=
    stateDemoOne_init bernoulli_remembered_one bernoulli_hyp
  obtain ⟨view, hv⟩ := Dict.exists_of_mem_keys (by rw [h8]; simp : 0 ∈ s.views.keys)
  have hq : StateSimOn s ([0] ++ [1]) [] := by
    refine ⟨by simp, by decide, by simp [Dict.keys], fun c hc => ⟨?_, fun d hd => (h12 c d hd).2.1⟩,
      by simp [Dict.keys]⟩
    rw [h4]; simpa [Dict.keys] using hc
  have hp : ProperCols s ([0] ++ [1]) := by
    intro c _ d hd
    rw [(h12 c d hd).2.2]
    exact trivial
  have hT : ∀ c ∈ [0] ++ [1], s.Zv c = some 0 := by
    intro c hc
    simp only [List.cons_append, List.nil_append, List.mem_cons, List.not_mem_nil, or_false] at hc
    rcases hc with rfl | rfl
    exacts [h6, h7]
  have hpos : viewDensity view (Dict.get? ([] : Dict Col libCat.Cell)) ≠ 0 := by
    intro h0
    obtain ⟨c, d, x, g1, g2, -⟩ := (inv_refusal (h2.views.view 0 view hv).inv _).mp h0
    cases g2
  refine ⟨s, view, h1, fun l => List.Perm.refl _, hq, hp, hv, hT, hpos, fun x hx => ?_⟩
  obtain ⟨c, hc, hxc⟩ := hx
  have hz : densAt view [] ([0] ++ [1]) x = 0 := by
    rw [densAt_viewDensity h2 hq hp hv hT]
    obtain ⟨d, hd⟩ := Dict.exists_of_mem_keys (((h2.views.view 0 view hv).dims c).mpr (hT c hc))
    have hk := h12 c d (h2.dimFor_of_view hv hd)
    have : viewDensity view (both (valuesAt ([0] ++ [1]) x) []) = 0 := by
      refine (inv_refusal (h2.views.view 0 view hv).inv _).mpr ⟨c, d, x c, hd, ?_, ?_, ?_⟩
      · unfold both
        have := get?_pairs ([0] ++ [1]) (fun c => (some (x c) : libCat.Cell)) c
        rw [if_pos hc] at this
        unfold valuesAt
        rw [this]; rfl
      · rw [hk.2.1]; intro i hi; cases hi
      · rw [hk.1]
        show ¬ (x c = 0 ∨ x c = 1)
        simpa using hxc
    rw [this, ENNReal.zero_div]
  obtain ⟨r, r1, r2, r3, -⟩ := logpdf_densAt (close := close) (ord := ord) (beh := beh) (ωj := ωj)
    (ωm := ωm) (hooked := []) (acc := acc) h1 hq hp hv hT hpos x (t := valuesAt ([0] ++ [1]) x)
    (by unfold Dict.WF; rw [valuesAt_keys]; exact hq.targets)
    (fun c => get?_pairs ([0] ++ [1]) (fun c => (some (x c) : libCat.Cell)) c)
  rw [r1]
  rw [hz] at r3
  cases r with
  | nan => exact absurd rfl r2
  | ninf => rfl
  | fin a => exact absurd r3 (by simp [mass, ENNReal.ofReal_eq_zero, Real.exp_pos])
  | pinf => exact absurd r3 (by simp [mass])

end Cgpm.Props
