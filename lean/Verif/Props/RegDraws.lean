import Verif.Lemmas.LinRegLaw
import Verif.Props.LinReg
import Verif.Lemmas.NetBehaves

/-!
Property C74: models that can be composed with a State keep the contract of a component.  Here: linear
regression.
-/
namespace Cgpm.Props
open Cgpm Cgpm.LinReg Cgpm.Spec.LinReg Cgpm.Net Matrix MeasureTheory
open scoped ENNReal

variable {out : Col} {inputs : List Col} {types : List InputType}
  {ops : List (Cgpm.RowOp (Vals × Option Vals))} {o : Obj} {factor : Root}

/-- The draws of `simulate` of a row that is not observed. -/
theorem linreg_draws (H : Reached out inputs types ops o) {R : List (ℝ × (Fin o.g.p → ℝ))}
    (hR : Lists (table out inputs types ops) R) {rowid : Option Row}
    (hr : ∀ r ∈ rowid, table out inputs types ops r = none) {ins : Option Vals}
    {l : List (Option ℝ)} (hc : Codes out inputs types ins l) {v : Fin o.g.p → ℝ}
    (hl : IsVec l v) :
    ∃ R' : List (ℝ × (Fin o.g.p → ℝ)), R'.Perm R ∧
      o.simulateDraws factor rowid [out] [] ins
        = ((Obj.parameterDraws factor (postHyp o.hyp R').a (postHyp o.hyp R').b (postHyp o.hyp R').mu
            (postHyp o.hyp R').V).bind fun q =>
              Draws.draw (npNormal (v ⬝ᵥ q.2) (Real.sqrt q.1)) fun x => .pure [(out, x)]) := by
  obtain ⟨R', hp, hx, hY, hN⟩ := linreg_rows H hR
  have hg : o.g.output = out := (linreg_schema H.schema).outp
  refine ⟨R', hp, ?_⟩
  unfold Obj.simulateDraws
  have hl' : l = List.ofFn fun j => some (v j) := hl
  have hn : (l.any Option.isNone) = false := by
    rw [hl']; simp [List.any_eq_false]
  have hsp : o.paramsDraws factor = Obj.parameterDraws factor (postHyp o.hyp R').a
      (postHyp o.hyp R').b (postHyp o.hyp R').mu (postHyp o.hyp R').V := by
    unfold Obj.paramsDraws
    rw [hx, hY, hN, posteriorHypers_rows H.hyp]
    simp only [inv_posDef (postPrec_posDef H.hyp R')]
    rfl
  have hy : (fun j : Fin o.g.p => (l.getD j none).getD 0) = v := by
    funext j
    rw [hl']; simp
  rw [hg, (linreg_absent H hr).2, linreg_preprocess_nil H hc, hsp]
  simp only [ne_eq, not_true_eq_false, if_false, List.isEmpty_nil, Bool.not_true,
    Bool.false_eq_true, hn, hy]

/-- **C74.** For a row that is observed, `simulate` returns its value, without drawing. -/
theorem C74_linreg_observed (H : Reached out inputs types ops o) {r : Row} {x : ℝ}
    {l : List (Option ℝ)} (hr : table out inputs types ops r = some (x, l)) (ins : Option Vals) :
    o.simulateDraws factor (some r) [out] [] ins = .pure [(out, x)] := by
  have hg : o.g.output = out := (linreg_schema H.schema).outp
  have h1 := ((linreg_inv H).1.holds r).1
  rw [hr] at h1
  have h2 : (some r).bind o.rows.x.get? = some x := h1
  unfold Obj.simulateDraws
  rw [hg, h2]
  simp

/-- **C74.** A linear regression draws from the density that it reports: the value that `simulate`
returns for a row that is not observed has the density whose logarithm is the answer of `logpdf`. -/
theorem C74_linreg_simulate (hf : factor.Good) (H : Reached out inputs types ops o)
    {R : List (ℝ × (Fin o.g.p → ℝ))} (hR : Lists (table out inputs types ops) R)
    {rowid : Option Row} (hr : ∀ r ∈ rowid, table out inputs types ops r = none) {ins : Option Vals}
    {l : List (Option ℝ)} (hc : Codes out inputs types ins l) {v : Fin o.g.p → ℝ}
    (hl : IsVec l v) :
    ∃ f : ℝ → ℝ, (∀ x, o.logpdf rowid [(out, some x)] [] ins = .ok (some (f x))) ∧
      ∀ G : Dict Col ℝ → ℝ≥0∞, (Measurable fun x => G [(out, x)]) →
        (o.simulateDraws factor rowid [out] [] ins).E G
          = ∫⁻ x, G [(out, x)] * ENNReal.ofReal (Real.exp (f x)) := by
  choose f h1 h2 h3 using fun x => C55_logpdf H hR hr (hc x) hl
  refine ⟨f, h1, fun G hG => ?_⟩
  obtain ⟨R', hp, hd⟩ := linreg_draws (factor := factor) H hR hr hc hl
  rw [hd]
  have := E_predictive hf (postHyp_valid H.hyp R') v hG
  rw [Draws.E_bind] at this ⊢
  simp only [Draws.E] at this ⊢
  rw [this]
  refine lintegral_congr fun x => ?_
  rw [h3, ← evidence_perm hp, ← evidence_perm (hp.cons (x, v)),
    ← evidence_perm (List.perm_append_singleton (x, v) R'), evidence_append H.hyp,
    mul_div_cancel_left₀ _ (evidence_pos H.hyp R').ne']

theorem lookVals_get? (vs : List Nat) (L : Look ℝ) (c : Nat) :
    Dict.get? (lookVals vs L) c = if c ∈ vs then (L c).map some else none := by
  unfold lookVals
  induction vs with
  | nil => rfl
  | cons a t ih =>
    rw [List.filterMap_cons]
    cases ha : L a with
    | none =>
      simp only [Option.map_none]
      rw [ih]
      by_cases hc : c = a
      · subst hc; simp [ha]
      · simp [hc]
    | some y =>
      simp only [Option.map_some, Dict.get?_cons, ih]
      by_cases hc : a = c
      · subst hc; simp [ha]
      · simp [hc, Ne.symm hc]

theorem lookVals_keys (vs : List Nat) (x : Nat → ℝ) :
    Dict.keys (lookVals vs (lookAt vs.toFinset x)) = vs := by
  have : lookVals vs (lookAt vs.toFinset x) = vs.map fun v => (v, some (x v)) := by
    unfold lookVals
    rw [← List.filterMap_eq_map]
    refine List.filterMap_congr fun v hv => ?_
    simp [lookAt, hv]
  rw [this]
  simp [Dict.keys, Function.comp_def]

theorem rowCode_numeric (levels : Nat → Option Nat) (hlev : ∀ i, levels i = none)
    (l : List (Option ℝ)) : rowCode levels l = l := by
  unfold rowCode
  have : (fun q : Option ℝ × ℕ => codeOf levels q.2 q.1) = fun q => [q.1] := by
    funext q; unfold codeOf; rw [hlev]
  rw [this, ← List.map_eq_flatMap, List.zipIdx_map_fst]

/-- Real inputs are coded as they are. -/
theorem linreg_codes_numeric (hnum : ∀ t ∈ types, t = .numeric) (x : Nat → ℝ) :
    Codes out inputs types (some (lookVals inputs (lookAt inputs.toFinset x)))
      (some 1 :: inputs.map fun i => some (x i)) := by
  have hlev : ∀ i, linregLevels types i = none := by
    intro i
    unfold linregLevels
    cases h : types[i]? with
    | none => rfl
    | some t => rw [hnum t (List.mem_of_getElem? h)]
  intro y
  unfold keeps linregKeeps
  have h1 : inputRow inputs (lookVals inputs (lookAt inputs.toFinset x))
      = inputs.map fun i => some (x i) := by
    unfold inputRow
    refine List.map_congr_left fun i hi => ?_
    rw [lookVals_get?, if_pos hi]
    simp [lookAt, hi]
  simp only [Dict.get?, if_true, h1, rowCode_numeric _ hlev]
  rw [if_pos]
  refine ⟨fun c => by rw [lookVals_keys], fun i v _ => ?_⟩
  unfold ValidCell
  rw [hlev]
  trivial

theorem linreg_isVec (H : Reached out inputs types ops o) (hnum : ∀ t ∈ types, t = .numeric)
    (x : Nat → ℝ) :
    IsVec (some 1 :: inputs.map fun i => some (x i)) (covariates (p := o.g.p) inputs x) := by
  have hlev : ∀ i, linregLevels types i = none := by
    intro i
    unfold linregLevels
    cases h : types[i]? with
    | none => rfl
    | some t => rw [hnum t (List.mem_of_getElem? h)]
  have hw := (linreg_schema H.schema).width
  have hp : o.g.p = inputs.length + 1 := by
    rw [hw]
    unfold rowWidth cellWidth
    simp [hlev]
  unfold IsVec covariates
  refine List.ext_getElem (by simp [hp]) fun j h1 h2 => ?_
  rw [List.getElem_ofFn]
  cases j with
  | zero => simp
  | succ j =>
    simp only [List.length_cons, List.length_map, Nat.add_lt_add_iff_right] at h1
    simp [h1]

/-- The density of a row is that of the predictive distribution. -/
theorem outputDensity_post {p : Nat} {h : Hyp p} (hv : ValidHyp h) (R : List (ℝ × (Fin p → ℝ)))
    (out : Col) (inputs : List Col) (x : Nat → ℝ) :
    outputDensity h R out inputs x
      = ENNReal.ofReal (evidence (postHyp h R) [(x out, covariates inputs x)]) := by
  unfold outputDensity
  rw [← evidence_perm (List.perm_append_singleton _ R), evidence_append hv,
    mul_div_cancel_left₀ _ (evidence_pos hv R).ne']

theorem outputDensity_measurable {p : Nat} {h : Hyp p} (hv : ValidHyp h) (R : List (ℝ × (Fin p → ℝ)))
    (out : Col) (inputs : List Col) : Measurable (outputDensity h R out inputs) := by
  have hc : Measurable fun x : Nat → ℝ => (covariates inputs x : Fin p → ℝ) := by
    refine measurable_pi_iff.mpr fun j => ?_
    unfold covariates
    rcases j with ⟨j, hj⟩
    cases j with
    | zero => simp
    | succ j =>
      by_cases hl : j < inputs.length
      · simpa [hl] using measurable_pi_apply (inputs[j])
      · simp [hl]
  have h1 : outputDensity h R out inputs = fun x => ENNReal.ofReal
      (evidence (postHyp h R) [(x out, covariates inputs x)]) :=
    funext fun x => outputDensity_post hv R out inputs x
  rw [h1]
  exact ((evidence_measurable (postHyp_valid hv R)).comp
    ((measurable_pi_apply out).prodMk hc)).ennreal_ofReal

/-- **C74.** A linear regression with numerical inputs keeps the contract of a component of a network:
its density integrates to one over its output, `logpdf` reports it, and `simulate` draws from it. -/
theorem C74_linreg {μ : Nat → Measure ℝ} [∀ v, SigmaFinite (μ v)] (hf : factor.Good)
    (H : Reached out inputs types ops o) (hnum : ∀ t ∈ types, t = .numeric)
    {R : List (ℝ × (Fin o.g.p → ℝ))} (hR : Lists (table out inputs types ops) R)
    {rowid : Option Row} (hr : ∀ r ∈ rowid, table out inputs types ops r = none)
    (hμ : μ out = volume) :
    Behaves μ rowid (linregNet o) (linregDraws factor o) (outputDensity o.hyp R out inputs) := by
  have hS := linreg_schema H.schema
  have hg : o.g.output = out := hS.outp
  have hi : o.g.inputs = inputs := hS.inp
  have hout : ∀ (x : Nat → ℝ) (t : ℝ), covariates (p := o.g.p) inputs (Function.update x out t)
      = covariates inputs x := by
    intro x t
    unfold covariates
    have : inputs.map (Function.update x out t) = inputs.map x :=
      List.map_congr_left fun i hi => by
        rw [Function.update_of_ne]
        rintro rfl
        exact hS.apart hi
    rw [this]
  have hvals : ∀ x : Nat → ℝ, lookVals [out] (lookAt {out} x) = [(out, some (x out))] := by
    intro x; simp [lookVals, lookAt]
  have hvals0 : ∀ x : Nat → ℝ, lookVals [out] (lookAt ∅ x) = [] := by
    intro x; simp [lookVals, lookAt]
  refine behaves_single (o := out) (by show [o.g.output] = _; rw [hg])
    (outputDensity_measurable H.hyp R out inputs) ?_ ?_ ?_ ?_
  · intro x y h
    have h1 : x out = y out := h out (.inl rfl)
    have h2 : inputs.map x = inputs.map y := List.map_congr_left fun i hm =>
      h i (.inr (by show i ∈ o.g.inputs; rw [hi]; exact hm))
    unfold outputDensity covariates
    rw [h1, h2]
  · intro x
    rw [hμ]
    simp only [outputDensity_post H.hyp, Function.update_self, hout]
    have h1 := integral_single (postHyp_valid H.hyp R) (covariates inputs x)
    have hint : Integrable fun y => evidence (postHyp o.hyp R) [(y, covariates inputs x)] := by
      by_contra hn
      rw [integral_undef hn] at h1
      exact zero_ne_one h1
    rw [← ofReal_integral_eq_lintegral_ofReal hint (Filter.Eventually.of_forall fun y =>
      (evidence_pos (postHyp_valid H.hyp R) _).le), h1, ENNReal.ofReal_one]
  · intro x
    obtain ⟨s, h1, -, h2⟩ := C55_logpdf H hR hr (linreg_codes_numeric hnum x (x out))
      (linreg_isVec H hnum x)
    refine ⟨((s : ℝ) : LogP), ?_, ?_⟩
    · have e1 : lookVals [o.g.output] (lookAt {out} x) = [(out, some (x out))] := by rw [hg, hvals]
      simp only [linregNet, e1, hi, h1]
    · unfold outputDensity
      rw [← h2]
      rfl
  · intro x g hm
    obtain ⟨f, h1, h2⟩ := C74_linreg_simulate hf H hR hr (linreg_codes_numeric hnum x)
      (linreg_isVec H hnum x)
    have hval : ∀ y, ENNReal.ofReal (Real.exp (f y))
        = outputDensity o.hyp R out inputs (Function.update x out y) := by
      intro y
      obtain ⟨s, g1, -, g2⟩ := C55_logpdf H hR hr (linreg_codes_numeric hnum x y)
        (linreg_isVec H hnum x)
      rw [h1 y] at g1
      cases g1
      unfold outputDensity
      rw [g2, Function.update_self, hout]
    have hd : linregDraws factor o rowid [out] (lookAt ∅ x)
        (lookAt (linregNet o).inputs.toFinset x)
        = (o.simulateDraws factor rowid [out] [] (some (lookVals inputs
            (lookAt inputs.toFinset x)))).bind fun d => .pure fun v => (d.get? v).getD 0 := by
      show (o.simulateDraws factor rowid [out] (lookVals [o.g.output] (lookAt ∅ x))
        (some (lookVals o.g.inputs (lookAt o.g.inputs.toFinset x)))).bind _ = _
      rw [hg, hi, hvals0]
    rw [hd, Draws.E_bind, Draws.E_bind, hμ]
    have hfill : ∀ y : ℝ, fillWith x [(out, (Dict.get? [(out, y)] out).getD 0)]
        = Function.update x out y := by
      intro y
      rw [fillWith_single]
      simp [Dict.get?]
    have hE := h2 (fun d => (Draws.ofExcept ((linregNet o).simulate
        (fun v => (d.get? v).getD 0) rowid [out] (lookAt ∅ x)
        (lookAt (linregNet o).inputs.toFinset x))).E fun d => g (fillWith x d)) (by
      show Measurable fun y => g (fillWith x [(out, (Dict.get? [(out, y)] out).getD 0)])
      simp only [hfill]
      exact hm.comp (measurable_update x))
    refine hE.trans ?_
    refine lintegral_congr fun y => ?_
    rw [hval]
    congr 1
    show g (fillWith x [(out, (Dict.get? [(out, y)] out).getD 0)]) = _
    rw [hfill]

end Cgpm.Props
