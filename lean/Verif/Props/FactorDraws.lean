import Verif.Lemmas.MvnLaw
import Verif.Props.Factor
import Verif.Lemmas.NetBehaves
import Verif.Lemmas.ViewBehavesAll

/-!
Property C74 for factor analysis.
-/
namespace Cgpm.Props
open Cgpm Cgpm.Net Cgpm.Spec.Factor Matrix MeasureTheory
open scoped ENNReal

variable {f : Factor} {factor : Root}

/-- The draws of `simulate`. -/
theorem factor_draws (hV : Valid f) (hR : FullRows f)
    (r : Option Row) {T : List Col} {C Ev : Dict Col ℝ} (hT : T.Nodup)
    (hk : ∀ q ∈ T, q ∈ f.outputs) (hne : T ≠ []) (hC : Assigns f C) (hd : ∀ q ∈ T, q ∉ C.keys)
    (hE : Evidence f r T C Ev) :
    ∃ (m : Fin T.length → ℝ) (S : Matrix (Fin T.length) (Fin T.length) ℝ), S.PosDef ∧
      (∀ x : Fin T.length → ℝ,
        gauss x m S = density f (T.zip (List.ofFn x) ++ Ev) / density f Ev) ∧
      f.simulateDraws factor r T C []
        = (npMultivariateNormal factor m S).bind fun w => .pure (T.zip (List.ofFn w)) := by
  obtain ⟨cs, tr, er, g, h1, h2, h3, h4, hlen, hpd, hg, hget⟩ :=
    factor_parameters hV hR r hT hk hne hC hd hE
  have hs : f.simulateDraws factor r T C []
      = (npMultivariateNormal factor g.1 g.2).bind fun w => .pure (T.zip (List.ofFn w)) := by
    unfold Factor.simulateDraws
    simp only [h1, h2, h3, h4, hget]
  clear h2 h4 hget
  obtain ⟨m, S⟩ := g
  rw [hs]
  clear hs
  simp only at hpd hg ⊢
  generalize tr.length = n at *
  subst hlen
  exact ⟨m, S, hpd, hg, rfl⟩

/-- **C74.** What `simulate` draws for its targets has the density that `logpdf` reports for them: their
joint normal density given the constraints and the cells of the row (C48). -/
theorem C74_factor_simulate (hf : factor.Good) (hV : Valid f) (hR : FullRows f)
    (r : Option Row) {T : List Col} {C Ev : Dict Col ℝ} (hT : T.Nodup)
    (hk : ∀ q ∈ T, q ∈ f.outputs) (hne : T ≠ []) (hC : Assigns f C) (hd : ∀ q ∈ T, q ∉ C.keys)
    (hE : Evidence f r T C Ev) {G : Dict Col ℝ → ℝ≥0∞}
    (hG : Measurable fun w : Fin T.length → ℝ => G (T.zip (List.ofFn w))) :
    (f.simulateDraws factor r T C []).E G
      = ∫⁻ w : Fin T.length → ℝ, G (T.zip (List.ofFn w)) *
          ENNReal.ofReal (density f (T.zip (List.ofFn w) ++ Ev) / density f Ev) := by
  obtain ⟨m, S, hS, hg, hs⟩ := factor_draws (factor := factor) hV hR r hT hk hne hC hd hE
  rw [hs, Draws.E_bind]
  refine (E_npMultivariateNormal hf m hS (F := fun w => G (T.zip (List.ofFn w))) hG).trans ?_
  refine lintegral_congr fun w => ?_
  rw [hg, mul_comm]

/-- Integrating variables out, as an integral over the vectors of their values. -/
theorem lmarginal_list {μ : Nat → Measure ℝ} [∀ v, SigmaFinite (μ v)] {ts : List Nat} (hn : ts.Nodup)
    (hμ : ∀ t ∈ ts, μ t = volume) (F : (Nat → ℝ) → ℝ≥0∞) (x : Nat → ℝ) :
    (∫⋯∫⁻_ts.toFinset, F ∂μ) x
      = ∫⁻ w : Fin ts.length → ℝ, F (fillWith x (ts.zip (List.ofFn w))) := by
  let e : Fin ts.length ≃ ts.toFinset :=
    (hn.getEquiv ts).trans (Equiv.subtypeEquivRight fun v => by simp)
  have he : ∀ i, (e i : Nat) = ts[i] := fun i => rfl
  have hmp := measurePreserving_piCongrLeft (fun i : ts.toFinset => μ i) e
  have hvol : (Measure.pi fun i : Fin ts.length => μ (e i)) = volume := by
    have : (fun i : Fin ts.length => μ (e i)) = fun _ => volume := by
      funext i
      rw [he]
      exact hμ _ (List.getElem_mem _)
    rw [volume_pi]
    congr 1
  rw [hvol] at hmp
  unfold lmarginal
  rw [← hmp.lintegral_comp_emb (MeasurableEquiv.measurableEmbedding _)]
  refine lintegral_congr fun w => ?_
  congr 1
  funext v
  unfold Function.updateFinset fillWith
  by_cases hv : v ∈ ts
  · have hv' : v ∈ ts.toFinset := by simpa using hv
    rw [dif_pos hv']
    obtain ⟨i, hi⟩ := e.surjective ⟨v, hv'⟩
    rw [← hi, MeasurableEquiv.coe_piCongrLeft, Equiv.piCongrLeft_apply_apply]
    have hg : Dict.get? (ts.zip (List.ofFn w)) v = some (w i) := by
      have hvi : v = ts[i] := by rw [← he, hi]
      refine Dict.get?_of_mem ?_ ?_
      · unfold Dict.WF Dict.keys
        rw [List.map_fst_zip (by simp)]
        exact hn
      · rw [hvi, List.mem_iff_getElem]
        exact ⟨i, by simp, by simp⟩
    rw [hg]; rfl
  · rw [dif_neg (by simpa using hv)]
    have : Dict.get? (ts.zip (List.ofFn w)) v = none := by
      rw [Dict.get?_eq_none_iff]
      unfold Dict.keys
      rw [List.map_fst_zip (by simp)]
      exact hv
    rw [this]; rfl

/-- The values that `x` gives to the variables of a list. -/
theorem at_keys (l : List Nat) (x : Nat → ℝ) : Dict.keys (l.map fun v => (v, x v)) = l := by
  simp [Dict.keys, Function.comp_def]

theorem at_assigns {l : List Nat} (hn : l.Nodup) (hk : ∀ v ∈ l, v ∈ f.outputs) (x : Nat → ℝ) :
    Assigns f (l.map fun v => (v, x v)) :=
  ⟨by rw [at_keys]; exact hn, by rw [at_keys]; exact hk⟩

theorem factor_density_measurable (f : Factor) (l : List Nat) :
    Measurable fun x : Nat → ℝ => density f (l.map fun v => (v, x v)) := by
  have h : (fun x : Nat → ℝ => density f (l.map fun v => (v, x v)))
      = fun x => gauss (fun i : Fin l.length => x l[i]) (fun i => mean f l[i])
          (of fun i j => covar f l[i] l[j]) := by
    funext x
    unfold density
    rw [← gauss_equiv (finCongr (List.length_map _).symm :
      Fin l.length ≃ Fin (l.map fun v => (v, x v)).length)]
    congr 1
    · funext i; simp
    · funext i; simp
    · funext i j; simp
  rw [h]
  exact (gauss_continuous _ _).measurable.comp
    (measurable_pi_iff.mpr fun i => measurable_pi_apply _)

/-- Integrating one variable out. -/
theorem factor_density_lintegral (hV : Valid f) {d : Dict Col ℝ} (hd : Assigns f d) {v : Col}
    (hv : v ∈ f.outputs) (hvd : v ∉ d.keys) :
    ∫⁻ t, ENNReal.ofReal (density f ((v, t) :: d)) = ENNReal.ofReal (density f d) := by
  have h1 := density_integral hV hd hv hvd
  have hA : ∀ t, Assigns f ((v, t) :: d) := fun t => by
    constructor
    · simp only [Dict.keys, List.map_cons, List.nodup_cons]
      exact ⟨hvd, hd.nodup⟩
    · intro q hq
      simp only [Dict.keys, List.map_cons, List.mem_cons] at hq
      exact hq.elim (fun e => e ▸ hv) (hd.known q)
  have hint : Integrable fun t => density f ((v, t) :: d) := by
    by_contra hn
    rw [integral_undef hn] at h1
    exact (Factor.density_pos hV hd).ne h1
  rw [← ofReal_integral_eq_lintegral_ofReal hint (Filter.Eventually.of_forall fun t =>
    (Factor.density_pos hV (hA t)).le), h1]

/-- Integrating some variables out of a density leaves the density of the others. -/
theorem factor_density_lmarginal {μ : Nat → Measure ℝ} [∀ v, SigmaFinite (μ v)] (hV : Valid f)
    (hμ : ∀ v ∈ f.outputs, μ v = volume) (L : List Nat) : ∀ M : List Nat, (L ++ M).Nodup →
      (∀ v ∈ L ++ M, v ∈ f.outputs) → ∀ x : Nat → ℝ,
      (∫⋯∫⁻_L.toFinset, (fun y => ENNReal.ofReal (density f ((L ++ M).map fun v => (v, y v)))) ∂μ) x
        = ENNReal.ofReal (density f (M.map fun v => (v, x v))) := by
  induction L with
  | nil => intro M _ _ x; simp
  | cons a L ih =>
    intro M hn hk x
    have hp : (a :: L ++ M).Perm (L ++ a :: M) := List.perm_middle.symm
    have hn' : (L ++ a :: M).Nodup := hp.nodup_iff.mp hn
    have hk' : ∀ v ∈ L ++ a :: M, v ∈ f.outputs := fun v hv => hk v (hp.mem_iff.mpr hv)
    have e : (fun y : Nat → ℝ => ENNReal.ofReal (density f ((a :: L ++ M).map fun v => (v, y v))))
        = fun y => ENNReal.ofReal (density f ((L ++ a :: M).map fun v => (v, y v))) := by
      funext y
      rw [Factor.density_perm (by rw [at_keys]; exact hn) (hp.map _)]
    have haL : a ∉ L.toFinset := by
      have : a ∉ L ++ M := (List.nodup_cons.mp hn).1
      rw [List.mem_append, not_or] at this
      simpa using this.1
    have haM : a ∉ M := by
      have : a ∉ L ++ M := (List.nodup_cons.mp hn).1
      rw [List.mem_append, not_or] at this
      exact this.2
    have hM : M.Nodup := (List.nodup_append.mp hn).2.1
    rw [e, List.toFinset_cons, lmarginal_insert _ (factor_density_measurable f _).ennreal_ofReal haL]
    simp only [ih (a :: M) hn' hk']
    have ha : a ∈ f.outputs := hk a (by simp)
    rw [hμ a ha]
    have hx : ∀ t, (a :: M).map (fun v => (v, Function.update x a t v))
        = (a, t) :: M.map fun v => (v, x v) := by
      intro t
      rw [List.map_cons, Function.update_self]
      congr 1
      refine List.map_congr_left fun v hv => ?_
      rw [Function.update_of_ne]
      rintro rfl
      exact haM hv
    simp only [hx]
    exact factor_density_lintegral hV (at_assigns hM (fun v hv => hk v (by simp [hv])) x) ha
      (by rw [at_keys]; exact haM)

/-- The density of some of the variables. -/
theorem factor_outDensity {μ : Nat → Measure ℝ} [∀ v, SigmaFinite (μ v)] (hV : Valid f)
    (hμ : ∀ v ∈ f.outputs, μ v = volume) (S : Finset Nat) {M : List Nat} (hM : M.Nodup)
    (hS : ∀ v, v ∈ M ↔ v ∈ f.outputs ∧ v ∈ S) (x : Nat → ℝ) :
    outDensity μ f.outputs (outputDensity f) S x
      = ENNReal.ofReal (density f (M.map fun v => (v, x v))) := by
  let L := f.outputs.filter fun v => decide (v ∉ S)
  have hL : L.toFinset = f.outputs.toFinset \ S := by
    ext v; simp [L]
  have hLn : L.Nodup := hV.nodup.filter _
  have hn : (L ++ M).Nodup := by
    refine List.nodup_append.mpr ⟨hLn, hM, ?_⟩
    rintro a ha b hb rfl
    have h1 := ((hS a).mp hb).2
    simp only [L, List.mem_filter, decide_eq_true_eq] at ha
    exact ha.2 h1
  have hp : f.outputs.Perm (L ++ M) := by
    rw [List.perm_ext_iff_of_nodup hV.nodup hn]
    intro v
    simp only [List.mem_append, hS, L, List.mem_filter, decide_eq_true_eq]
    tauto
  have e : outputDensity f
      = fun y => ENNReal.ofReal (density f ((L ++ M).map fun v => (v, y v))) := by
    funext y
    unfold outputDensity
    rw [Factor.density_perm (by rw [at_keys]; exact hV.nodup) (hp.map _)]
  unfold outDensity
  rw [← hL, e]
  exact factor_density_lmarginal hV hμ L M hn (fun v hv => hp.mem_iff.mpr hv) x

theorem lookDict_lookAt (vs : List Nat) (S : Finset Nat) (x : Nat → ℝ) :
    lookDict vs (lookAt S x) = (vs.filter fun v => decide (v ∈ S)).map fun v => (v, x v) := by
  unfold lookDict
  induction vs with
  | nil => rfl
  | cons a t ih =>
    rw [List.filterMap_cons, List.filter_cons, ih]
    by_cases h : a ∈ S <;> simp [lookAt, h]

theorem evidence_unobserved {r : Option Row} (hr : ∀ i ∈ r, f.data.get? i = none) {T : List Col}
    {C : Dict Col ℝ} (hC : Assigns f C) : Evidence f r T C C := by
  refine ⟨hC.nodup, fun q => ?_⟩
  have : cell f r q = none := by
    unfold cell
    cases r with
    | none => simp
    | some i => simp [hr i rfl]
  rw [this]
  cases C.get? q <;> simp

/-- **C74.** A factor analysis keeps the contract of a component of a network: the joint density of its
observables and its factors integrates to one, `logpdf` reports the density of any of them, and
`simulate` draws any of them from its conditional density given any others. -/
theorem C74_factor {μ : Nat → Measure ℝ} [∀ v, SigmaFinite (μ v)] (hf : factor.Good) (hV : Valid f)
    (hR : FullRows f) (loser : (n : Nat) → (Fin n → ℝ) → Matrix (Fin n) (Fin n) ℝ → Fl)
    {rowid : Option Row} (hr : ∀ r ∈ rowid, f.data.get? r = none)
    (hμ : ∀ v ∈ f.outputs, μ v = volume) :
    Behaves μ rowid (factorNet loser f) (factorDraws factor f) (outputDensity f) := by
  have hin : ∀ S : Finset Nat, ∀ v, v ∈ f.outputs.filter (fun v => decide (v ∈ S))
      ↔ v ∈ f.outputs ∧ v ∈ S := fun S v => by simp
  have hnf : ∀ S : Finset Nat, (f.outputs.filter fun v => decide (v ∈ S)).Nodup := fun S =>
    hV.nodup.filter _
  have hA : ∀ (S : Finset Nat) x, Assigns f (lookDict f.outputs (lookAt S x)) := fun S x => by
    rw [lookDict_lookAt]
    exact at_assigns (hnf S) (fun v hv => ((hin S v).mp hv).1) x
  have hod : ∀ (S : Finset Nat) x, outDensity μ f.outputs (outputDensity f) S x
      = ENNReal.ofReal (density f (lookDict f.outputs (lookAt S x))) := fun S x => by
    rw [lookDict_lookAt]
    exact factor_outDensity hV hμ S (hnf S) (hin S) x
  have hkeys : ∀ (S : Finset Nat) x, Dict.keys (lookDict f.outputs (lookAt S x))
      = f.outputs.filter fun v => decide (v ∈ S) := fun S x => by
    rw [lookDict_lookAt, at_keys]
  refine ⟨(factor_density_measurable f f.outputs).ennreal_ofReal, ?_, ?_, ?_, ?_⟩
  · intro x y h
    have : (f.outputs.map fun v => (v, x v)) = f.outputs.map fun v => (v, y v) :=
      List.map_congr_left fun v hv => by rw [h v (.inl hv)]
    unfold outputDensity
    rw [this]
  · intro x
    have := hod ∅ x
    unfold outDensity at this
    rw [Finset.sdiff_empty] at this
    show (∫⋯∫⁻_f.outputs.toFinset, outputDensity f ∂μ) x = 1
    rw [this]
    have e : lookDict f.outputs (lookAt ∅ x) = [] := by rw [lookDict_lookAt]; simp
    rw [e, Factor.density_nil, ENNReal.ofReal_one]
  · intro S hS hne x
    have hne' : lookDict f.outputs (lookAt S x) ≠ [] := by
      intro e
      obtain ⟨v, hv⟩ := hne
      have h1 := hkeys S x
      rw [e] at h1
      have h2 : v ∈ f.outputs.filter fun v => decide (v ∈ S) :=
        (hin S v).mpr ⟨List.mem_toFinset.mp (hS hv), hv⟩
      rw [← h1] at h2
      simp [Dict.keys] at h2
    have hC0 : Assigns f [] := ⟨by simp [Dict.keys], by simp [Dict.keys]⟩
    obtain ⟨p, h1, -, h2⟩ := C48_density hV hR loser rowid (hA S x) hne' hC0
      (by simp [Dict.keys]) (evidence_unobserved hr hC0)
    refine ⟨((p : ℝ) : LogP), ?_, ?_⟩
    · simp only [factorNet, h1]
    · rw [List.append_nil, Factor.density_nil, div_one] at h2
      show ENNReal.ofReal (Real.exp p) = outDensity μ f.outputs (outputDensity f) S x
      rw [h2, hod]
  · intro S ts hS hnd hne ht x _ g hg
    have hfilt : ∀ w : Fin ts.length → ℝ, Dict.keys (ts.zip (List.ofFn w)) = ts := fun w => by
      unfold Dict.keys
      rw [List.map_fst_zip (by simp)]
    have hmeasF : Measurable fun w : Fin ts.length → ℝ => fillWith x (ts.zip (List.ofFn w)) := by
      refine measurable_pi_iff.mpr fun v => ?_
      unfold fillWith
      by_cases hv : v ∈ ts
      · obtain ⟨i, hi, rfl⟩ := List.getElem_of_mem hv
        have : (fun w : Fin ts.length → ℝ => (Dict.get? (ts.zip (List.ofFn w)) ts[i]).getD (x ts[i]))
            = fun w => w ⟨i, hi⟩ := by
          funext w
          have hgw : Dict.get? (ts.zip (List.ofFn w)) ts[i] = some (w ⟨i, hi⟩) := by
            refine Dict.get?_of_mem ?_ ?_
            · unfold Dict.WF
              rw [hfilt]; exact hnd
            · rw [List.mem_iff_getElem]
              exact ⟨i, by simpa using hi, by simp⟩
          rw [hgw]; rfl
        rw [this]
        exact measurable_pi_apply _
      · have : (fun w : Fin ts.length → ℝ => (Dict.get? (ts.zip (List.ofFn w)) v).getD (x v))
            = fun _ => x v := by
          funext w
          have : Dict.get? (ts.zip (List.ofFn w)) v = none := by
            rw [Dict.get?_eq_none_iff, hfilt]; exact hv
          rw [this]; rfl
        rw [this]
        exact measurable_const
    set C := lookDict f.outputs (lookAt S x) with hCdef
    have hdis : ∀ q ∈ ts, q ∉ C.keys := fun q hq h => by
      rw [hkeys] at h
      exact (ht q hq).2 ((hin S q).mp h).2
    have hk : ∀ q ∈ ts, q ∈ f.outputs := fun q hq => (ht q hq).1
    have hval : ∀ w : Fin ts.length → ℝ, (Draws.ofExcept ((factorNet loser f).simulate
        (fun v => (Dict.get? (ts.zip (List.ofFn w)) v).getD 0) rowid ts (lookAt S x)
        (lookAt (factorNet loser f).inputs.toFinset x))).E (fun d => g (fillWith x d))
        = g (fillWith x (ts.zip (List.ofFn w))) := by
      intro w
      show g (fillWith x (ts.map fun t => (t, (Dict.get? (ts.zip (List.ofFn w)) t).getD 0))) = _
      rw [fillWith_map hnd (fun k => by rw [hfilt]) x]
    have hE := C74_factor_simulate hf hV hR rowid hnd hk hne (hA S x) hdis
      (evidence_unobserved hr (hA S x))
      (G := fun d => (Draws.ofExcept ((factorNet loser f).simulate
        (fun v => (d.get? v).getD 0) rowid ts (lookAt S x)
        (lookAt (factorNet loser f).inputs.toFinset x))).E fun d => g (fillWith x d)) (by
        simp only [hval]
        exact hg.comp hmeasF)
    have hdr : ((factorDraws factor f rowid ts (lookAt S x)
          (lookAt (factorNet loser f).inputs.toFinset x)).bind fun ω => Draws.ofExcept
          ((factorNet loser f).simulate ω rowid ts (lookAt S x)
            (lookAt (factorNet loser f).inputs.toFinset x))).E (fun d => g (fillWith x d))
        = (f.simulateDraws factor rowid ts C []).E fun d => (Draws.ofExcept
          ((factorNet loser f).simulate (fun v => (d.get? v).getD 0) rowid ts (lookAt S x)
            (lookAt (factorNet loser f).inputs.toFinset x))).E fun d => g (fillWith x d) := by
      unfold factorDraws
      rw [Draws.E_bind, Draws.E_bind]
      rfl
    have hpos := Factor.density_pos hV (hA S x)
    show _ * outDensity μ f.outputs (outputDensity f) S x
      = (∫⋯∫⁻_ts.toFinset, (fun y => g y *
          outDensity μ f.outputs (outputDensity f) (S ∪ ts.toFinset) y) ∂μ) x
    rw [hdr, hE, hod, lmarginal_list hnd (fun t h => hμ t (hk t h)),
      ← lintegral_mul_const' _ _ ENNReal.ofReal_ne_top]
    refine lintegral_congr fun w => ?_
    rw [hval, mul_assoc, ← ENNReal.ofReal_mul' hpos.le, div_mul_cancel₀ _ hpos.ne']
    congr 1
    -- the targets and the constraints, in the order of the call
    let F := f.outputs.filter fun v => decide (v ∈ S)
    have hn2 : (ts ++ F).Nodup := by
      refine List.nodup_append.mpr ⟨hnd, hnf S, ?_⟩
      rintro a ha b hb rfl
      exact (ht a ha).2 ((hin S a).mp hb).2
    rw [factor_outDensity hV hμ (S ∪ ts.toFinset) hn2 (fun v => by
      simp only [List.mem_append, F, hin, Finset.mem_union, List.mem_toFinset]
      constructor
      · rintro (h | h)
        · exact ⟨hk v h, .inr h⟩
        · exact ⟨h.1, .inl h.2⟩
      · rintro ⟨h1, h2 | h2⟩
        · exact .inr ⟨h1, h2⟩
        · exact .inl h2)]
    congr 2
    rw [List.map_append]
    congr 1
    · refine List.ext_getElem (by simp) fun i h1 h2 => ?_
      have hi : i < ts.length := by simpa using h2
      have hgw : Dict.get? (ts.zip (List.ofFn w)) ts[i] = some (w ⟨i, hi⟩) := by
        refine Dict.get?_of_mem ?_ ?_
        · unfold Dict.WF
          rw [hfilt]; exact hnd
        · rw [List.mem_iff_getElem]
          exact ⟨i, by simpa using hi, by simp⟩
      simp only [List.getElem_zip, List.getElem_ofFn, List.getElem_map]
      unfold fillWith
      rw [hgw]; rfl
    · rw [lookDict_lookAt]
      refine List.map_congr_left fun v hv => ?_
      have hvn : v ∉ ts := fun h => (ht v h).2 ((hin S v).mp hv).2
      unfold fillWith
      have : Dict.get? (ts.zip (List.ofFn w)) v = none := by
        rw [Dict.get?_eq_none_iff, hfilt]; exact hvn
      rw [this]; rfl

end Cgpm.Props
