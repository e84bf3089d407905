import Verif.Spec.StateDraws
import Verif.Props.PrimSimulate
import Verif.Props.StateSimulate

/-! The joint law of a simulated row. -/
namespace Cgpm.Props
open Cgpm MeasureTheory
open scoped ENNReal

variable {P : Prim → Prop} {α β : Type}

theorem always_bind {Q : α → Prop} {R : β → Prop} {m : Cgpm.Draws α} {f : α → Cgpm.Draws β}
    (h : m.Always Q) (hf : ∀ a, Q a → (f a).Always R) : (m.bind f).Always R := by
  induction m with
  | pure a => exact hf a h
  | raise e => trivial
  | draw law k ih => exact fun x => ih x (h x)

theorem always_true (m : Cgpm.Draws α) : m.Always fun _ => True := by
  induction m with
  | pure a => trivial
  | raise e => trivial
  | draw law k ih => exact fun x => ih x

theorem always_imp {Q R : α → Prop} {m : Cgpm.Draws α} (h : m.Always Q) (hi : ∀ a, Q a → R a) :
    m.Always R := by
  induction m with
  | pure a => exact hi a h
  | raise e => trivial
  | draw law k ih => exact fun x => ih x (h x)

theorem E_congr_always {Q : α → Prop} {m : Cgpm.Draws α} (h : m.Always Q) {f g : α → ℝ≥0∞}
    (hfg : ∀ a, Q a → f a = g a) : m.E f = m.E g := by
  induction m with
  | pure a => exact hfg a h
  | raise e => rfl
  | draw law k ih =>
    simp only [Draws.E]
    exact lintegral_congr fun x => ih x (h x)

/-! ### base measures -/

instance sigmaFinite_nat : SigmaFinite (Measure.sum fun n : ℕ => Measure.dirac (n : ℝ)) := by
  refine ⟨⟨⟨fun n => Set.Iio (n : ℝ), fun _ => trivial, fun n => ?_, ?_⟩⟩⟩
  · rw [Measure.sum_apply _ measurableSet_Iio]
    have : ∀ k : ℕ, Measure.dirac (k : ℝ) (Set.Iio (n : ℝ)) = if k < n then 1 else 0 := by
      intro k
      rw [Measure.dirac_apply' _ measurableSet_Iio, Set.indicator_apply]
      simp
    simp only [this]
    rw [tsum_eq_sum (s := Finset.range n)]
    · exact ENNReal.sum_lt_top.mpr fun k _ => by split <;> simp
    · intro k hk
      rw [if_neg (by simpa using hk)]
  · rw [Set.eq_univ_iff_forall]
    intro x
    obtain ⟨n, hn⟩ := exists_nat_gt x
    exact Set.mem_iUnion.mpr ⟨n, hn⟩

instance sigmaFinite_base (p : Prim) : SigmaFinite p.base := by
  cases p <;> unfold Prim.base <;> infer_instance

instance sigmaFinite_colBase (s : State (catOf P)) (c : Col) : SigmaFinite (colBase s c) := by
  unfold colBase
  split <;> infer_instance

/-! ### measurability of the densities -/

theorem measurable_of_nat {f : ℝ → ℝ≥0∞} (h : ∀ x, f x ≠ 0 → ∃ n : ℕ, x = n) : Measurable f := by
  refine (measurable_const (a := (0 : ℝ≥0∞))).measurable_of_countable_ne ?_
  refine (Set.countable_range (fun n : ℕ => (n : ℝ))).mono ?_
  intro x hx
  obtain ⟨n, rfl⟩ := h x (Ne.symm hx)
  exact ⟨n, rfl⟩

theorem measurable_normalPredictive (N : ℤ) (a b m r s nu : ℝ) :
    Measurable fun x => normalPredictive x N a b m r s nu := by
  unfold normalPredictive normalPosterior normalLogZ
  simp only
  have hs : Measurable fun x : ℝ => (if s + (b + x * x) + r * m * m -
      (r + ((N + 1 : ℤ) : ℝ)) * ((r * m + (a + x)) / (r + ((N + 1 : ℤ) : ℝ)))
        * ((r * m + (a + x)) / (r + ((N + 1 : ℤ) : ℝ))) = 0 then s else
      s + (b + x * x) + r * m * m -
      (r + ((N + 1 : ℤ) : ℝ)) * ((r * m + (a + x)) / (r + ((N + 1 : ℤ) : ℝ)))
        * ((r * m + (a + x)) / (r + ((N + 1 : ℤ) : ℝ)))) := by
    refine Measurable.ite (measurableSet_eq_fun (by fun_prop) measurable_const) measurable_const
      (by fun_prop)
  have := hs.log
  fun_prop

theorem measurable_vmI : Measurable vmI := by
  refine Continuous.measurable ?_
  unfold vmI
  exact intervalIntegral.continuous_parametric_intervalIntegral_of_continuous' (by fun_prop) _ _

theorem nat_of_isInt {x : ℝ} (h : isInt x) (h0 : 0 ≤ x) : ∃ n : ℕ, x = n := by
  obtain ⟨n, rfl⟩ := h
  have : 0 ≤ n := by exact_mod_cast h0
  exact ⟨n.toNat, by rw [← Int.cast_natCast, Int.toNat_of_nonneg this]⟩

theorem prim_measurable (p : Prim) (h : p.H) (hp : p.Proper h) (s : p.S) :
    Measurable fun x => ENNReal.ofReal (pr (p.fam.logpdf h s x)) := by
  cases p with
  | bernoulli => 
    refine measurable_of_nat fun x hx => ?_
    simp only [Prim.fam, Cgpm.bernoulli] at hx
    split at hx
    · rename_i hx'
      rcases hx' with rfl | rfl
      · exact ⟨0, by simp⟩
      · exact ⟨1, by simp⟩
    · simp at hx
  | categorical k => 
    refine measurable_of_nat fun x hx => ?_
    simp only [Prim.fam, Cgpm.categorical] at hx
    split at hx
    · rename_i hx'
      exact nat_of_isInt hx'.1 hx'.2.1
    · simp at hx
  | exponential =>
    simp only [Prim.fam, Cgpm.exponential, ofReal_pr_ite']
    refine Measurable.ite measurableSet_Iio measurable_const ?_
    unfold exponentialPredictive gammaLogZ
    fun_prop
  | geometric => 
    refine measurable_of_nat fun x hx => ?_
    simp only [Prim.fam, Cgpm.geometric] at hx
    split at hx
    · rename_i hx'
      exact nat_of_isInt hx'.1 hx'.2
    · simp at hx
  | poisson =>
    refine measurable_of_nat fun x hx => ?_
    simp only [Prim.fam, Cgpm.poisson] at hx
    split at hx
    · rename_i hx'
      exact nat_of_isInt hx'.1 hx'.2
    · simp at hx
  | normal =>
    simp only [Prim.fam, Cgpm.normal, pr_coe]
    have := measurable_normalPredictive (NormalS.N s) (NormalS.sum_x s) (NormalS.sum_x_sq s)
      (NormalH.m h) (NormalH.r h) (NormalH.s h) (NormalH.nu h)
    exact this.exp.ennreal_ofReal
  | lognormal =>
    simp only [Prim.fam, Cgpm.lognormal, ofReal_pr_ite']
    refine Measurable.ite measurableSet_Iic measurable_const ?_
    have := (measurable_normalPredictive (LognormalS.N s) (LognormalS.sum_log_x s)
      (LognormalS.sum_log_x_sq s) (NormalH.m h) (NormalH.r h) (NormalH.s h) (NormalH.nu h)).comp
      Real.measurable_log
    exact (Real.measurable_log.neg.add this).exp.ennreal_ofReal
  | vonmises f =>
    simp only [Prim.fam, Cgpm.vonmises, ofReal_pr_ite]
    refine Measurable.ite measurableSet_Icc ?_ measurable_const
    have hf : Measurable f := by
      have : f = fun z => Real.log (vmI z / (2 * Real.pi)) := by
        funext z
        exact hp.1 z
      rw [this]
      exact (measurable_vmI.div_const _).log
    unfold vonmisesPredictive vonmisesAn
    simp only
    fun_prop
  | normalTrunc l u z q => exact hp.elim
  | beta q =>
    simp only [Prim.fam, Cgpm.beta, ofReal_pr_ite]
    refine Measurable.ite measurableSet_Ioo ?_ measurable_const
    unfold betaPredictive
    fun_prop

/-! ### one value -/

theorem follows_of_support (p : Prim) (h : p.H) (hk : p.fam.hypOk h) (hp : p.Proper h) (l : List ℝ)
    (hs : ∀ x ∈ l, support p x) : Follows p h (p.fam.statOf l) := by
  cases p with
  | bernoulli => exact follows_bernoulli _ hk _ hs
  | categorical k => exact follows_categorical k hp _ hk _ hs
  | exponential => exact follows_exponential _ hk _ hs
  | geometric => exact follows_geometric _ hk _ hs
  | poisson => exact follows_poisson _ hk _ hs
  | normal => exact follows_normal _ hk _
  | lognormal => exact follows_lognormal _ hk _
  | vonmises f => exact follows_vonmises f _ hk hp _
  | normalTrunc l h z q => exact hp.elim
  | beta q => exact follows_beta q _ hp _

theorem run_support (p : Prim) (hb : notBeta p) (h : p.H) (l : List ℝ) (hs : ∀ x ∈ l, support p x) :
    ∃ ops, ((Comp.init p.fam h).run p.fam ops).hyp = h ∧
      ((Comp.init p.fam h).run p.fam ops).stat = p.fam.statOf l ∧
      ∀ r ∈ ((Comp.init p.fam h).run p.fam ops).data.keys, r < l.length := by
  induction l using List.reverseRecOn with
  | nil => exact ⟨[], rfl, rfl, by simp [Comp.run, Comp.init, Dict.keys]⟩
  | append_singleton l x ih =>
    obtain ⟨ops, h1, h2, h3⟩ := ih fun y hy => hs y (List.mem_append_left _ hy)
    have hrun : (Comp.init p.fam h).run p.fam (ops ++ [.inc l.length x]) =
        { (Comp.init p.fam h).run p.fam ops with
          data := ((Comp.init p.fam h).run p.fam ops).data.set l.length x
          stat := p.fam.add ((Comp.init p.fam h).run p.fam ops).stat x } := by
      unfold Comp.run at *
      rw [List.foldl_append]
      simp only [List.foldl_cons, List.foldl_nil, Comp.apply]
      unfold Comp.incorporate
      rw [if_neg, Prim.prep_ok hb (hs x (by simp))]
      · rfl
      · rw [Bool.not_eq_true]
        exact (Dict.has_false_iff _ _).mpr ((Dict.get?_eq_none_iff _ _).mpr fun h' =>
          absurd (h3 _ h') (lt_irrefl _))
    refine ⟨ops ++ [.inc l.length x], ?_, ?_, ?_⟩
    · rw [hrun]; exact h1
    · rw [hrun, Family.statOf_append, ← h2]
    · rw [hrun]
      intro r hr
      rw [List.length_append, List.length_singleton]
      rcases (Dict.mem_keys_set ..).mp hr with e | e
      · exact e ▸ Nat.lt_succ_self _
      · exact Nat.lt_succ_of_lt (h3 r e)

theorem normalised_of_support (p : Prim) (h : p.H) (hk : p.fam.hypOk h) (hp : p.Proper h)
    (l : List ℝ) (hs : ∀ x ∈ l, support p x) :
    ∫⁻ x, ENNReal.ofReal (pr (p.fam.logpdf h (p.fam.statOf l) x)) ∂p.base = 1 := by
  by_cases hb : notBeta p
  · obtain ⟨ops, h1, h2, -⟩ := run_support p hb h l hs
    have := C69_normalised p h hk ops (by rw [h1]; exact hp)
    simp only [h1, h2] at this
    exact this
  · cases p with
    | beta q => exact C69_normalised (.beta q) h hk [] hp
    | _ => simp [notBeta] at hb

theorem clusterOr_mk {X : (catOf P).Tbl} {v : View (catOf P)} (hI : View.Inv X v)
    {c : Col} {d : Dim (catOf P)} (hd : v.dims.get? c = some d) (hi : d.inputs = []) (k : Tab) :
    ∃ (y : d.kind.1.H) (l : List ℝ), d.hyp = ⟨d.kind.1, y⟩ ∧ d.kind.1.fam.hypOk y ∧
      (∀ x ∈ l, support d.kind.1 x) ∧
      (d.clusterOr k).hyp = ⟨d.kind.1, y⟩ ∧
      (d.clusterOr k).stat = ⟨d.kind.1, d.kind.1.fam.statOf l⟩ ∧
      ∀ x : ℝ, cellDensity d k (some x) [] =
        ENNReal.ofReal (pr (d.kind.1.fam.logpdf y (d.kind.1.fam.statOf l) x)) := by
  have hok := hI.dim (c, d) (Dict.mem_of_get? hd)
  obtain ⟨e, hy⟩ := hok.hyp
  have hyp : d.hyp = ⟨d.kind.1, e ▸ d.hyp.2⟩ := by
    generalize d.hyp = y at e
    obtain ⟨q, y⟩ := y
    simp only at e
    generalize d.kind.1 = p at *
    subst e
    rfl
  set y : d.kind.1.H := e ▸ d.hyp.2
  unfold Dim.clusterOr cellDensity
  simp only [List.any_nil, List.reduceOption_nil]
  cases hk : d.clusters.get? k with
  | none =>
    refine ⟨y, [], hyp, hy, by simp, ?_, ?_, fun x => ?_⟩
    · rw [Option.getD_none, hok.shared.aux, hyp]
    · rw [Option.getD_none]
      exact (Dim.holds_empty_stat hok.core.aux).2.trans (Prim.lift_statOf d.kind.1 [])
    · rw [hyp]
      simp only
      rw [mass_eq_pr]
      exact congrArg _ (congrArg _ (Prim.lift_logpdf_mk _ _ _ _))
  | some cl =>
    have hst : cl.stat = d.kind.1.lift.statOf cl.data.vals := (hok.core.cl k cl hk).stat
    replace hst := hst.trans (Prim.lift_statOf d.kind.1 _)
    have hh := hok.shared.cl k cl hk
    refine ⟨y, cl.data.vals.map Prod.fst, hyp, hy, ?_, ?_, ?_, fun x => ?_⟩
    · intro x hx
      obtain ⟨o, ho, rfl⟩ := List.mem_map.mp hx
      exact lib_cells_support hI hd hi hk o ho
    · rw [Option.getD_some, hh, hyp]
    · rw [Option.getD_some]; exact hst
    · simp only
      rw [hh, hyp, hst, mass_eq_pr]
      exact congrArg _ (congrArg _ (Prim.lift_logpdf_mk _ _ _ _))

open Classical in
theorem sampleIn_mk {p : Prim} {h : Σ q : Prim, q.H} {s : Σ q : Prim, q.S} {y : p.H} {t : p.S}
    (h1 : h = ⟨p, y⟩) (h2 : s = ⟨p, t⟩) :
    (if e : h.1 = p ∧ s.1 = p then p.sample (e.1 ▸ h.2) (e.2 ▸ s.2) else .raise .typeError)
      = p.sample y t := by
  subst h1 h2
  simp

theorem sampleIn_law {X : (catOf P).Tbl} {v : View (catOf P)} (hI : View.Inv X v)
    {c : Col} {d : Dim (catOf P)} (hd : v.dims.get? c = some d) (hi : d.inputs = [])
    (hp : d.hyp.1.Proper d.hyp.2) (k : Tab) :
    (Measurable fun x : ℝ => cellDensity d k (some x) []) ∧
    ∀ g : ℝ → ℝ≥0∞, Measurable g →
      (d.sampleIn k).E g = ∫⁻ x, g x * cellDensity d k (some x) [] ∂d.kind.1.base := by
  obtain ⟨y, l, h1, h2, h3, h4, h5, h6⟩ := clusterOr_mk hI hd hi k
  rw [h1] at hp
  simp only [h6]
  refine ⟨prim_measurable _ _ hp _, fun g hg => ?_⟩
  have : d.sampleIn k = d.kind.1.sample y (d.kind.1.fam.statOf l) := by
    unfold Dim.sampleIn
    exact sampleIn_mk h4 h5
  rw [this]
  exact follows_of_support _ y h2 hp l h3 g hg

theorem sampleIn_total {X : (catOf P).Tbl} {v : View (catOf P)} (hI : View.Inv X v)
    {c : Col} {d : Dim (catOf P)} (hd : v.dims.get? c = some d) (hi : d.inputs = [])
    (hp : d.hyp.1.Proper d.hyp.2) (k : Tab) : (d.sampleIn k).E (fun _ => 1) = 1 := by
  rw [(sampleIn_law hI hd hi hp k).2 _ measurable_const]
  obtain ⟨y, l, h1, h2, h3, h4, h5, h6⟩ := clusterOr_mk hI hd hi k
  rw [h1] at hp
  simp only [h6, one_mul]
  exact normalised_of_support _ y h2 hp l h3

/-! ### one view -/

theorem lmarginal_pull {μ : Col → Measure ℝ} [∀ c, SigmaFinite (μ c)] (s : Finset Col)
    {D f : (Col → ℝ) → ℝ≥0∞} (hf : Measurable f) (z : Col → ℝ)
    (h : ∀ w : Col → ℝ, (∀ c ∉ s, w c = z c) → D w = D z) :
    (∫⋯∫⁻_s, (fun y => D y * f y) ∂μ) z = D z * (∫⋯∫⁻_s, f ∂μ) z := by
  have hm : Measurable fun y : s → ℝ => f (Function.updateFinset z s y) :=
    hf.comp measurable_updateFinset
  refine Eq.trans ?_ (lintegral_const_mul _ hm)
  refine lintegral_congr fun y => ?_
  show D _ * f _ = _
  rw [h _ fun c hc => by simp [Function.updateFinset, hc]]

/-- Density of the value `x` of column `c` in cluster `k`. -/
noncomputable def colDensity (v : View (catOf P)) (k : Tab) (c : Col) (x : ℝ) : ℝ≥0∞ :=
  match v.dims.get? c with
  | none => 1
  | some d => cellDensity d k (some x) []

/-- Columns that can be simulated. -/
def Drawable (μ : Col → Measure ℝ) (v : View (catOf P)) (G : List Col) : Prop :=
  ∀ c ∈ G, ∃ d, v.dims.get? c = some d ∧ d.inputs = [] ∧ d.hyp.1.Proper d.hyp.2 ∧
    μ c = d.kind.1.base

theorem rowDensity_valuesAt {X : (catOf P).Tbl} {v : View (catOf P)} (hI : View.Inv X v) (k : Tab)
    {μ : Col → Measure ℝ} {G : List Col} (hn : G.Nodup) (hG : Drawable μ v G) (y : Col → ℝ) :
    rowDensity v k (valuesAt G y : Dict Col (catOf P).Cell).get?
      = (G.map fun c => colDensity v k c (y c)).prod := by
  have hk : (valuesAt G y : Dict Col (catOf P).Cell).keys = G := by
    simp [valuesAt, Dict.keys, Function.comp_def]
  rw [rowDensity_plain hI k (by unfold Dict.WF; rw [hk]; exact hn)
    (by intro c hc; rw [hk] at hc; obtain ⟨d, h1, h2, -⟩ := hG c hc; exact ⟨d, h1, h2⟩)]
  unfold valuesAt
  rw [List.map_map]
  refine congrArg _ (List.map_congr_left fun c _ => ?_)
  unfold colDensity
  simp only [Function.comp]
  cases v.dims.get? c <;> rfl

theorem measurable_colDensity {X : (catOf P).Tbl} {v : View (catOf P)} (hI : View.Inv X v) (k : Tab)
    {μ : Col → Measure ℝ} {G : List Col} (hG : Drawable μ v G) {c : Col} (hc : c ∈ G) :
    Measurable (colDensity v k c) := by
  obtain ⟨d, h1, h2, h3, -⟩ := hG c hc
  unfold colDensity
  rw [h1]
  exact (sampleIn_law hI h1 h2 h3 k).1

theorem measurable_colProd {X : (catOf P).Tbl} {v : View (catOf P)} (hI : View.Inv X v) (k : Tab)
    {μ : Col → Measure ℝ} {G : List Col} (hG : Drawable μ v G) :
    Measurable fun y : Col → ℝ => (G.map fun c => colDensity v k c (y c)).prod := by
  induction G with
  | nil => exact measurable_const
  | cons c t ih =>
    simp only [List.map_cons, List.prod_cons]
    exact ((measurable_colDensity hI k hG List.mem_cons_self).comp (measurable_pi_apply c)).mul
      (ih fun c' hc' => hG c' (List.mem_cons_of_mem _ hc'))

theorem sampleRow_always (v : View (catOf P)) (k : Tab) (G : List Col) :
    (v.sampleRow k G).Always fun row => row.keys = G ∧ ∀ p ∈ row, p.2 ≠ none := by
  induction G with
  | nil => exact ⟨rfl, by simp⟩
  | cons c t ih =>
    unfold View.sampleRow
    split
    · trivial
    · refine always_bind (always_true _) fun x _ => always_bind ih fun row hr => ?_
      refine ⟨by simp [Dict.keys] at hr ⊢; exact hr.1, ?_⟩
      intro p hp
      rcases List.mem_cons.mp hp with rfl | hp
      · simp
      · exact hr.2 p hp

theorem fillIn_cons {row : Dict Col (catOf P).Cell} {c : Col} (hc : c ∉ row.keys) (x : Col → ℝ)
    (a : ℝ) : fillIn x ((c, some a) :: row : Dict Col (catOf P).Cell)
      = fillIn (Function.update x c a) row := by
  funext i
  unfold fillIn
  rw [Dict.get?_cons]
  by_cases h : c = i
  · subst h
    have : row.get? c = none := (Dict.get?_eq_none_iff _ _).mpr hc
    simp [this]
  · simp only [h, if_false]
    cases row.get? i with
    | none => simp [Function.update, Ne.symm h]
    | some z =>
      cases z with
      | none => simp [Function.update, Ne.symm h]
      | some z => rfl

theorem sampleRow_law {X : (catOf P).Tbl} {v : View (catOf P)} (hI : View.Inv X v) (k : Tab)
    {μ : Col → Measure ℝ} [∀ c, SigmaFinite (μ c)] {G : List Col} (hn : G.Nodup)
    (hG : Drawable μ v G) {F : (Col → ℝ) → ℝ≥0∞} (hF : Measurable F) (x : Col → ℝ) :
    (v.sampleRow k G).E (fun row => F (fillIn x row))
      = (∫⋯∫⁻_G.toFinset, (fun y => F y * (G.map fun c => colDensity v k c (y c)).prod) ∂μ) x := by
  induction G generalizing x with
  | nil =>
    simp only [View.sampleRow, Draws.E, List.toFinset_nil, lmarginal_empty, List.map_nil,
      List.prod_nil, mul_one]
    rfl
  | cons c t ih =>
    have hG' : Drawable μ v t := fun c' hc' => hG c' (List.mem_cons_of_mem _ hc')
    have hct : c ∉ t := (List.nodup_cons.mp hn).1
    obtain ⟨d, h1, h2, h3, h4⟩ := hG c List.mem_cons_self
    have hm : Measurable fun y => F y * (t.map fun c => colDensity v k c (y c)).prod :=
      hF.mul (measurable_colProd hI k hG')
    have hm' : Measurable fun y => F y * ((c :: t).map fun c => colDensity v k c (y c)).prod :=
      hF.mul (measurable_colProd hI k hG)
    simp only [View.sampleRow, h1]
    rw [Draws.E_bind]
    have e1 : ∀ a, ((v.sampleRow k t).bind fun row => Draws.pure ((c, some a) :: row)).E
        (fun row => F (fillIn x row))
        = (∫⋯∫⁻_t.toFinset, (fun y => F y * (t.map fun c => colDensity v k c (y c)).prod) ∂μ)
          (Function.update x c a) := by
      intro a
      rw [Draws.E_bind, ← ih (List.nodup_cons.mp hn).2 hG']
      refine E_congr_always (sampleRow_always v k t) fun row hr => ?_
      exact congrArg F (fillIn_cons (by rw [hr.1]; exact hct) x a)
    refine (E_congr_always (always_true _) fun a _ => e1 a).trans ?_
    have hlm : Measurable fun a : ℝ => (∫⋯∫⁻_t.toFinset,
        (fun y => F y * (t.map fun c => colDensity v k c (y c)).prod) ∂μ) (Function.update x c a) :=
      (Measurable.lmarginal μ hm).comp (measurable_update x)
    refine ((sampleIn_law hI h1 h2 h3 k).2 _ hlm).trans ?_
    rw [← h4, List.toFinset_cons, lmarginal_insert _ hm' (by simpa using hct)]
    refine lintegral_congr fun a => ?_
    rw [mul_comm]
    have : (fun y : Col → ℝ => F y * (List.map (fun c => colDensity v k c (y c)) (c :: t)).prod)
        = fun y => colDensity v k c (y c) *
          (F y * (t.map fun c => colDensity v k c (y c)).prod) := by
      funext y
      simp only [List.map_cons, List.prod_cons]
      ring
    rw [this, lmarginal_pull _ hm]
    · simp only [Function.update_self, colDensity, h1]
    · intro w hw
      rw [hw c (by simpa using hct)]

theorem lmarginal_add' {μ : Col → Measure ℝ} [∀ c, SigmaFinite (μ c)] (s : Finset Col)
    {f g : (Col → ℝ) → ℝ≥0∞} (hf : Measurable f) (x : Col → ℝ) :
    (∫⋯∫⁻_s, (fun y => f y + g y) ∂μ) x = (∫⋯∫⁻_s, f ∂μ) x + (∫⋯∫⁻_s, g ∂μ) x := by
  have hm : Measurable fun y : s → ℝ => f (Function.updateFinset x s y) :=
    hf.comp measurable_updateFinset
  exact lintegral_add_left hm _

theorem lmarginal_sum' {ι : Type} {μ : Col → Measure ℝ} [∀ c, SigmaFinite (μ c)] (s : Finset Col)
    (t : Finset ι) {f : ι → (Col → ℝ) → ℝ≥0∞} (hf : ∀ i, Measurable (f i)) (x : Col → ℝ) :
    (∫⋯∫⁻_s, (fun y => ∑ i ∈ t, f i y) ∂μ) x = ∑ i ∈ t, (∫⋯∫⁻_s, f i ∂μ) x := by
  have hm : ∀ i ∈ t, Measurable fun y : s → ℝ => f i (Function.updateFinset x s y) :=
    fun i _ => (hf i).comp measurable_updateFinset
  exact lintegral_finsetSum t hm

theorem mixture_lmarginal {μ : Col → Measure ℝ} [∀ c, SigmaFinite (μ c)] (v : View (catOf P))
    (s : Finset Col) (a : Tab → ℝ≥0∞) {f : Tab → (Col → ℝ) → ℝ≥0∞} (hf : ∀ k, Measurable (f k))
    (x : Col → ℝ) :
    mixture v (fun k => a k * (∫⋯∫⁻_s, f k ∂μ) x)
      = (∫⋯∫⁻_s, (fun y => mixture v fun k => a k * f k y) ∂μ) x := by
  have hc : ∀ k, prior v k * (a k * (∫⋯∫⁻_s, f k ∂μ) x)
      = (∫⋯∫⁻_s, (fun y => prior v k * (a k * f k y)) ∂μ) x := by
    intro k
    rw [lmarginal_pull (D := fun _ => prior v k) s ((hf k).const_mul _) x fun _ _ => rfl,
      lmarginal_pull (D := fun _ => a k) s (hf k) x fun _ _ => rfl]
  have hm : ∀ k, Measurable fun y => prior v k * (a k * f k y) :=
    fun k => ((hf k).const_mul _).const_mul _
  unfold mixture
  simp only [hc]
  rw [lmarginal_add' _ (Finset.measurable_fun_sum _ fun k _ => hm k), lmarginal_sum' _ _ hm]

theorem sampleRow_total {X : (catOf P).Tbl} {v : View (catOf P)} (hI : View.Inv X v) (k : Tab)
    {μ : Col → Measure ℝ} {G : List Col} (hG : Drawable μ v G) :
    (v.sampleRow k G).E (fun _ => 1) = 1 := by
  induction G with
  | nil => rfl
  | cons c t ih =>
    obtain ⟨d, h1, h2, h3, h4⟩ := hG c List.mem_cons_self
    simp only [View.sampleRow, h1]
    rw [Draws.E_bind]
    refine Eq.trans ?_ (sampleIn_total hI h1 h2 h3 k)
    refine E_congr_always (always_true _) fun a _ => ?_
    rw [Draws.E_bind]
    exact ih fun c' hc' => hG c' (List.mem_cons_of_mem _ hc')

theorem view_sample_E {X : (catOf P).Tbl} {v : View (catOf P)} (hI : View.Inv X v)
    (hne : ∃ r, v.seat r ≠ none) {rowid : Option Row} (hh : v.hypothetical rowid = true)
    {E : Dict Col (catOf P).Cell} (hEw : E.WF) (hE : Plain v E) (G : List Col)
    (g : Dict Col (catOf P).Cell → ℝ≥0∞) :
    (mixture v (fun k => rowDensity v k E.get?) ≠ 0 →
      (∀ k k', k ∉ occupied v → k' ∉ occupied v →
        (v.sampleRow k G).E g = (v.sampleRow k' G).E g) →
      (v.sample rowid G E).E g = mixture v fun k => rowDensity v k E.get? /
        (mixture v fun k => rowDensity v k E.get?) * (v.sampleRow k G).E g) ∧
    (mixture v (fun k => rowDensity v k E.get?) = 0 → v.sample rowid G E = .raise .valueError) := by
  obtain ⟨K, fresh, lc, u, hK, hnd, hmem, hf, c1, hudef, hu, hufin, hsum, hbot⟩ :=
    fast_weights hI hne hEw hE
  constructor
  swap
  · intro h0
    unfold View.sample
    rw [hh]
    cases rowid <;> simp only [hK, c1] <;> rw [if_pos (hbot.mpr h0)]
  intro h0 hfr
  have hnot : ¬ (lc.all fun w => w == (⊥ : LogP)) = true := fun h => h0 (hbot.mp h)
  have heq : v.sample rowid G E = (Draws.ofRand (Rand.logPflip u (K ++ [fresh]))).bind fun k =>
      v.sampleRow k G := by
    unfold View.sample
    rw [hh]
    cases rowid <;> simp only [hK, c1, hudef] <;> rw [if_neg hnot]
  set Z := mixture v fun k => rowDensity v k E.get? with hZ
  have hZt : Z ≠ ⊤ := mixture_top v _
  set L : List (Tab × Fl) := (K ++ [fresh]).zip u with hL
  have hlen := hu.length_eq
  have hLf : L.map Prod.fst = K ++ [fresh] := List.map_fst_zip hlen.le
  have hLs : L.map Prod.snd = u := List.map_snd_zip hlen.ge
  have hLm : ∀ i ∈ L, (i.2 ≠ .nan ∧ i.2 ≠ .pinf) ∧
      mass i.2 = prior v i.1 * rowDensity v i.1 E.get? := by
    intro i hi
    exact List.forall₂_iff_zip.mp hu |>.2 hi
  have hfin : ∀ i ∈ L, mass i.2 ≠ ⊤ := by
    intro i hi
    have := (hLm i hi).1
    cases h : i.2 with
    | nan => exact absurd h this.1
    | pinf => exact absurd h this.2
    | ninf => simp [mass]
    | fin r => simp [mass]
  have hsumL : (L.map fun i => mass i.2).sum = Z := by
    rw [← hsum, ← hLs]
    unfold total
    rw [List.map_map]
    rfl
  have hreal : ENNReal.ofReal (L.map fun i => (mass i.2).toReal).sum = Z := by
    rw [← hsumL]
    clear_value L
    clear hsumL hLs hLf hL
    induction L with
    | nil => simp
    | cons i t ih =>
      simp only [List.map_cons, List.sum_cons]
      rw [ENNReal.ofReal_add ENNReal.toReal_nonneg (List.sum_nonneg (by
          intro a ha
          obtain ⟨b, -, rfl⟩ := List.mem_map.mp ha
          exact ENNReal.toReal_nonneg)),
        ENNReal.ofReal_toReal (hfin i List.mem_cons_self),
        ih (fun i hi => hLm i (List.mem_cons_of_mem _ hi)) fun i hi =>
          hfin i (List.mem_cons_of_mem _ hi)]
  have hpos : 0 < (L.map fun i => (mass i.2).toReal).sum := by
    by_contra hc
    rw [ENNReal.ofReal_of_nonpos (not_lt.mp hc)] at hreal
    exact h0 hreal.symm
  have hE1 := Draws.E_logPflip (l := L) (a := Prod.snd) (p := fun i => (mass i.2).toReal)
    Prod.fst (fun _ _ => ENNReal.toReal_nonneg)
    (fun i hi => ⟨⟨(hLm i hi).1.1, (ENNReal.ofReal_toReal (hfin i hi)).symm⟩, (hLm i hi).1.2⟩) hpos
    (fun k => (v.sampleRow k G).E g)
  rw [hLf, hLs] at hE1
  rw [heq, Draws.E_bind, hE1]
  have hterm : ∀ i ∈ L, ENNReal.ofReal ((mass i.2).toReal /
        (L.map fun i => (mass i.2).toReal).sum) * (v.sampleRow i.1 G).E g
      = prior v i.1 * (rowDensity v i.1 E.get? / Z * (v.sampleRow i.1 G).E g) := by
    intro i hi
    rw [ENNReal.ofReal_div_of_pos hpos, hreal, ENNReal.ofReal_toReal (hfin i hi), (hLm i hi).2]
    simp only [div_eq_mul_inv]
    ring
  rw [List.map_congr_left hterm]
  have h2 : (L.map fun i => prior v i.1 * (rowDensity v i.1 E.get? / Z *
        (v.sampleRow i.1 G).E g)).sum
      = ((K ++ [fresh]).map fun k => prior v k * (rowDensity v k E.get? / Z *
        (v.sampleRow k G).E g)).sum := by
    rw [← hLf, List.map_map]
    rfl
  rw [h2, tables_sum hnd hmem hf fun k k' hk hk' => by
    simp only [rowDensity_fresh hI _ hk hk', hfr k k' hk hk']]

theorem view_sample_total {X : (catOf P).Tbl} {v : View (catOf P)} (hI : View.Inv X v)
    (hne : ∃ r, v.seat r ≠ none) {rowid : Option Row} (hh : v.hypothetical rowid = true)
    {E : Dict Col (catOf P).Cell} (hEw : E.WF) (hE : Plain v E)
    (h0 : mixture v (fun k => rowDensity v k E.get?) ≠ 0)
    {μ : Col → Measure ℝ} {G : List Col} (hG : Drawable μ v G) :
    (v.sample rowid G E).E (fun _ => 1) = 1 := by
  rw [(view_sample_E hI hne hh hEw hE G _).1 h0 fun k k' _ _ => by
    rw [sampleRow_total hI k hG, sampleRow_total hI k' hG]]
  simp only [sampleRow_total hI _ hG, mul_one]
  have hZt := mixture_top v E.get?
  set Z := mixture v fun k => rowDensity v k E.get? with hZ
  have : (mixture v fun k => rowDensity v k E.get? / Z) = Z / Z := by
    conv_rhs => rw [hZ]
    unfold mixture
    simp only [div_eq_mul_inv]
    rw [add_mul, Finset.sum_mul]
    simp only [mul_assoc]
    rfl
  rw [this, ENNReal.div_self h0 hZt]

theorem view_sample_law {X : (catOf P).Tbl} {v : View (catOf P)} (hI : View.Inv X v)
    (hne : ∃ r, v.seat r ≠ none) {rowid : Option Row} (hh : v.hypothetical rowid = true)
    {E : Dict Col (catOf P).Cell} (hEw : E.WF) (hE : Plain v E)
    (h0 : mixture v (fun k => rowDensity v k E.get?) ≠ 0)
    {μ : Col → Measure ℝ} [∀ c, SigmaFinite (μ c)] {G : List Col} (hn : G.Nodup)
    (hG : Drawable μ v G) {F : (Col → ℝ) → ℝ≥0∞} (hF : Measurable F) (x : Col → ℝ) :
    (v.sample rowid G E).E (fun row => F (fillIn x row))
      = (∫⋯∫⁻_G.toFinset, (fun y => ((mixture v fun k =>
          rowDensity v k (valuesAt G y : Dict Col (catOf P).Cell).get? * rowDensity v k E.get?) /
          mixture v fun k => rowDensity v k E.get?) * F y) ∂μ) x := by
  have hrow : ∀ k, (v.sampleRow k G).E (fun row => F (fillIn x row))
      = (∫⋯∫⁻_G.toFinset, (fun y => F y *
          rowDensity v k (valuesAt G y : Dict Col (catOf P).Cell).get?) ∂μ) x := by
    intro k
    rw [sampleRow_law hI k hn hG hF]
    simp only [rowDensity_valuesAt hI k hn hG]
  have hmk : ∀ k, Measurable fun y : Col → ℝ => F y *
      rowDensity v k (valuesAt G y : Dict Col (catOf P).Cell).get? := by
    intro k
    simp only [rowDensity_valuesAt hI k hn hG]
    exact hF.mul (measurable_colProd hI k hG)
  rw [(view_sample_E hI hne hh hEw hE G _).1 h0 fun k k' hk hk' => by
    rw [hrow, hrow]; simp only [rowDensity_fresh hI _ hk hk']]
  simp only [hrow]
  rw [mixture_lmarginal v _ _ hmk]
  refine congrFun (congrArg _ (funext fun y => ?_)) x
  unfold mixture
  rw [div_eq_mul_inv, add_mul, add_mul, Finset.sum_mul, Finset.sum_mul]
  congr 1
  · refine Finset.sum_congr rfl fun k _ => ?_
    beta_reduce
    rw [div_eq_mul_inv]; ring
  · beta_reduce
    rw [div_eq_mul_inv]; ring

/-! ### all views -/

theorem fillIn_update {row rest : Dict Col (catOf P).Cell} (hw : rest.WF)
    (h : ∀ p ∈ rest, p.2 ≠ none) (x : Col → ℝ) :
    fillIn x (row.update rest) = fillIn (fillIn x row) rest := by
  funext i
  unfold fillIn
  rw [Dict.get?_update _ _ hw]
  cases hr : rest.get? i with
  | none => rfl
  | some z =>
    cases z with
    | none => exact absurd rfl (h _ (Dict.mem_of_get? hr))
    | some z => rfl

theorem view_sample_always (v : View (catOf P)) (rowid : Option Row) (G : List Col)
    (E : Dict Col (catOf P).Cell) :
    (v.sample rowid G E).Always fun row => row.keys = G ∧ ∀ p ∈ row, p.2 ≠ none := by
  unfold View.sample
  split
  · split
    · trivial
    · exact sampleRow_always _ _ _
  · split
    · trivial
    · simp only
      split
      · trivial
      · split
        · trivial
        · exact always_bind (always_true _) fun k _ => sampleRow_always _ _ _

/-- What a view contributes. -/
structure ViewLaw (s : State (catOf P)) (rowid : Option Row) (Ev : Dict Nat (Dict Col (catOf P).Cell))
    (μ : Col → Measure ℝ) (D : Nat → (Col → ℝ) → ℝ≥0∞) (p : Nat × List Col) : Prop where
  view : ∃ view, s.views.get? p.1 = some view ∧ ∀ F : (Col → ℝ) → ℝ≥0∞, Measurable F → ∀ x,
    (view.sample rowid p.2 ((Ev.get? p.1).getD [])).E (fun row => F (fillIn x row))
      = (∫⋯∫⁻_p.2.toFinset, (fun y => D p.1 y * F y) ∂μ) x
  nodup : p.2.Nodup
  meas : Measurable (D p.1)
  loc : ∀ w z : Col → ℝ, (∀ c ∈ p.2, w c = z c) → D p.1 w = D p.1 z

theorem sampleViews_always (s : State (catOf P)) (rowid : Option Row)
    (Ev : Dict Nat (Dict Col (catOf P).Cell)) (l : Dict Nat (List Col))
    (hn : ∀ p ∈ l, p.2.Nodup) :
    (s.sampleViews rowid Ev l).Always fun row => row.WF ∧ (∀ p ∈ row, p.2 ≠ none) ∧
      ∀ c, c ∈ row.keys ↔ ∃ p ∈ l, c ∈ p.2 := by
  induction l with
  | nil => exact ⟨Dict.wf_nil, by simp, by simp [Dict.keys]⟩
  | cons p t ih =>
    obtain ⟨v, G⟩ := p
    unfold State.sampleViews
    split
    · trivial
    rename_i view hv
    refine always_bind (view_sample_always view rowid G _) fun row hr =>
      always_bind (ih fun p hp => hn p (List.mem_cons_of_mem _ hp)) fun rest hs => ?_
    have hrw : row.WF := by unfold Dict.WF; rw [hr.1]; exact hn _ List.mem_cons_self
    have hw := Dict.wf_update hrw rest
    refine ⟨hw, ?_, ?_⟩
    · intro q hq h0
      have hg := Dict.get?_of_mem hw hq
      rw [Dict.get?_update _ _ hs.1, h0] at hg
      cases hc : rest.get? q.1 with
      | some z =>
        rw [hc] at hg
        cases hg
        exact hs.2.1 _ (Dict.mem_of_get? hc) rfl
      | none =>
        rw [hc] at hg
        exact hr.2 _ (Dict.mem_of_get? hg) rfl
    · intro c
      rw [Dict.mem_keys_update, hr.1, hs.2.2]
      simp only [List.mem_cons, exists_eq_or_imp]

theorem sampleViews_law {s : State (catOf P)} {rowid : Option Row}
    {Ev : Dict Nat (Dict Col (catOf P).Cell)} {μ : Col → Measure ℝ} [∀ c, SigmaFinite (μ c)]
    {D : Nat → (Col → ℝ) → ℝ≥0∞} {l : Dict Nat (List Col)}
    (hl : ∀ p ∈ l, ViewLaw s rowid Ev μ D p)
    (hd : l.Pairwise fun p q => ∀ c ∈ p.2, c ∉ q.2)
    {F : (Col → ℝ) → ℝ≥0∞} (hF : Measurable F) (x : Col → ℝ) :
    (s.sampleViews rowid Ev l).E (fun row => F (fillIn x row))
      = (∫⋯∫⁻_(l.flatMap Prod.snd).toFinset,
          (fun y => (l.map fun p => D p.1 y).prod * F y) ∂μ) x := by
  induction l generalizing x with
  | nil =>
    simp only [State.sampleViews, Draws.E, List.flatMap_nil, List.toFinset_nil, lmarginal_empty,
      List.map_nil, List.prod_nil, one_mul]
    rfl
  | cons p t ih =>
    obtain ⟨⟨view, hv, hlaw⟩, hnd, hmeas, hloc⟩ := hl p List.mem_cons_self
    have ht : ∀ p ∈ t, ViewLaw s rowid Ev μ D p := fun p hp => hl p (List.mem_cons_of_mem _ hp)
    rw [List.pairwise_cons] at hd
    have hprod : ∀ t : Dict Nat (List Col), (∀ p ∈ t, ViewLaw s rowid Ev μ D p) →
        Measurable fun y => (t.map fun p => D p.1 y).prod := by
      intro t ht
      induction t with
      | nil => exact measurable_const
      | cons q t ih =>
        simp only [List.map_cons, List.prod_cons]
        exact (ht q List.mem_cons_self).meas.mul (ih fun p hp => ht p (List.mem_cons_of_mem _ hp))
    have hm : Measurable fun y => (t.map fun p => D p.1 y).prod * F y := (hprod t ht).mul hF
    have hm' : Measurable fun y => ((p :: t).map fun p => D p.1 y).prod * F y :=
      (hprod _ hl).mul hF
    obtain ⟨v, G⟩ := p
    simp only [State.sampleViews, hv]
    rw [Draws.E_bind]
    have e1 : ∀ row : Dict Col (catOf P).Cell,
        ((s.sampleViews rowid Ev t).bind fun rest => Draws.pure (row.update rest)).E
          (fun row => F (fillIn x row))
        = (∫⋯∫⁻_(t.flatMap Prod.snd).toFinset,
          (fun y => (t.map fun p => D p.1 y).prod * F y) ∂μ) (fillIn x row) := by
      intro row
      rw [Draws.E_bind, ← ih ht hd.2]
      exact E_congr_always (sampleViews_always s rowid Ev t fun p hp => (ht p hp).nodup)
        fun rest hr => congrArg F (fillIn_update hr.1 hr.2.1 x)
    refine (E_congr_always (always_true _) fun row _ => e1 row).trans ?_
    refine (hlaw _ (Measurable.lmarginal μ hm) x).trans ?_
    rw [List.flatMap_cons, List.toFinset_append]
    have hdis : Disjoint G.toFinset (t.flatMap Prod.snd).toFinset := by
      rw [Finset.disjoint_left]
      intro c hc hc'
      rw [List.mem_toFinset] at hc hc'
      obtain ⟨q, hq, hcq⟩ := List.mem_flatMap.mp hc'
      exact hd.1 q hq c hc hcq
    rw [lmarginal_union _ _ hm' hdis]
    refine congrFun (congrArg _ (funext fun y => ?_)) x
    rw [← lmarginal_pull (D := D v) _ hm y fun w hw => hloc w y fun c hc => hw c fun hc' =>
      (Finset.disjoint_left.mp hdis) (List.mem_toFinset.mpr hc) hc']
    refine congrFun (congrArg _ (funext fun z => ?_)) y
    simp only [List.map_cons, List.prod_cons]
    ring

theorem sampleViews_total {s : State (catOf P)} {rowid : Option Row}
    {Ev : Dict Nat (Dict Col (catOf P).Cell)} {l : Dict Nat (List Col)}
    (hl : ∀ p ∈ l, ∃ view, s.views.get? p.1 = some view ∧
      (view.sample rowid p.2 ((Ev.get? p.1).getD [])).E (fun _ => 1) = 1) :
    (s.sampleViews rowid Ev l).E (fun _ => 1) = 1 := by
  induction l with
  | nil => rfl
  | cons p t ih =>
    obtain ⟨view, hv, h1⟩ := hl p List.mem_cons_self
    obtain ⟨v, G⟩ := p
    simp only [State.sampleViews, hv]
    rw [Draws.E_bind]
    refine Eq.trans ?_ h1
    refine E_congr_always (always_true _) fun row _ => ?_
    rw [Draws.E_bind]
    exact ih fun p hp => hl p (List.mem_cons_of_mem _ hp)

theorem fails_bind_le {m : Cgpm.Draws α} {f : α → Cgpm.Draws β} {e : Exn}
    (hf : ∀ a, 1 ≤ (f a).fails e) : m.E (fun _ => 1) ≤ (m.bind f).fails e := by
  induction m with
  | pure a => exact hf a
  | raise e' => exact zero_le
  | draw law k ih => exact lintegral_mono fun x => ih x

theorem always_false_bind {m : Cgpm.Draws α} {f : α → Cgpm.Draws β}
    (hf : ∀ a, (f a).Always fun _ => False) : (m.bind f).Always fun _ => False := by
  induction m with
  | pure a => exact hf a
  | raise e' => trivial
  | draw law k ih => exact fun x => ih x

theorem sampleDraws_refused {s : State (catOf P)} {rowid : Option Row}
    {Ev : Dict Nat (Dict Col (catOf P).Cell)} {l : Dict Nat (List Col)}
    (hl : ∀ p ∈ l, ∃ view, s.views.get? p.1 = some view ∧
      (view.sample rowid p.2 ((Ev.get? p.1).getD []) = .raise .valueError ∨
        (view.sample rowid p.2 ((Ev.get? p.1).getD [])).E (fun _ => 1) = 1))
    (h : ∃ p ∈ l, ∃ view, s.views.get? p.1 = some view ∧
      view.sample rowid p.2 ((Ev.get? p.1).getD []) = .raise .valueError) :
    (s.sampleViews rowid Ev l).Always (fun _ => False) ∧
      1 ≤ (s.sampleViews rowid Ev l).fails .valueError := by
  induction l with
  | nil => obtain ⟨p, hp, -⟩ := h; cases hp
  | cons p t ih =>
    obtain ⟨view, hv, h1⟩ := hl p List.mem_cons_self
    obtain ⟨v, G⟩ := p
    simp only [State.sampleViews, hv]
    simp only at h1
    rcases h1 with h1 | h1
    · rw [h1]
      exact ⟨trivial, by simp [Draws.bind, Draws.fails]⟩
    · have hin : ∃ p ∈ t, ∃ view, s.views.get? p.1 = some view ∧
          view.sample rowid p.2 ((Ev.get? p.1).getD []) = .raise .valueError := by
        obtain ⟨q, hq, w, hw, h2⟩ := h
        rcases List.mem_cons.mp hq with rfl | hq
        · rw [hv] at hw
          cases hw
          simp only at h2
          rw [h2] at h1
          simp [Draws.E] at h1
        · exact ⟨q, hq, w, hw, h2⟩
      obtain ⟨i1, i2⟩ := ih (fun p hp => hl p (List.mem_cons_of_mem _ hp)) hin
      refine ⟨always_false_bind fun row => always_bind i1 fun _ h => h.elim, ?_⟩
      rw [← h1]
      refine fails_bind_le fun row => ?_
      rw [Draws.fails_bind_pure]
      exact i2

end Cgpm.Props
