import Verif.Lemmas.LinRegQuery

/-!
C55. The queries of a linear regression are those of the conjugate Bayesian linear model: its score
is the logarithm of the marginal density of its rows, `logpdf` is the predictive density, and
`simulate` draws from the posterior.
-/
namespace Cgpm.Props
open Cgpm Cgpm.LinReg Cgpm.Spec.LinReg Matrix MeasureTheory

variable {out : Col} {inputs : List Col} {types : List InputType}
  {ops : List (RowOp (Vals × Option Vals))} {o : Obj}

theorem linreg_inv (H : Reached out inputs types ops o) :
    RegInv o.rows (table out inputs types ops) ∧ o.rows.x.keys = o.rows.Y.keys := by
  rw [H.rows]
  exact ⟨reg_run _ _ (linreg_prep (linreg_schema H.schema)) ops, aligned_run _ ops⟩

theorem linreg_rows (H : Reached out inputs types ops o) {R : List (ℝ × (Fin o.g.p → ℝ))}
    (hR : Lists (table out inputs types ops) R) :
    ∃ R' : List (ℝ × (Fin o.g.p → ℝ)), R'.Perm R ∧ o.rows.x.vals = R'.map Prod.fst ∧
      o.rows.Y.vals = covLists R' ∧ o.rows.N = (R'.length : ℤ) :=
  rows_of_table (linreg_inv H).1 (linreg_inv H).2 hR

theorem linreg_absent (H : Reached out inputs types ops o) {rowid : Option Row}
    (hr : ∀ r ∈ rowid, table out inputs types ops r = none) :
    rowid.any o.rows.x.has = false ∧ rowid.bind o.rows.x.get? = none := by
  cases rowid with
  | none => exact ⟨rfl, rfl⟩
  | some r =>
    have h1 := ((linreg_inv H).1.holds r).1
    rw [hr r rfl] at h1
    exact ⟨(Dict.has_false_iff _ _).mpr h1, h1⟩

theorem linreg_preprocess (H : Reached out inputs types ops o) {t : Vals} {ins : Option Vals}
    {x : ℝ} {l : List (Option ℝ)} (hk : keeps out inputs types (t, ins) = some (x, l)) :
    preprocess o.g t ins = .ok (some x, l) := by
  have hp := (linreg_prep (linreg_schema H.schema) (t, ins) (x, l)).mpr hk
  unfold prep at hp
  split at hp
  · cases hp
  · split at hp
    · cases hp
    · rename_i h1
      simp only [Except.ok.injEq, Prod.mk.injEq] at hp
      obtain ⟨rfl, rfl⟩ := hp
      exact h1
    · cases hp

/-- **C55** The score of a linear regression is the logarithm of the marginal density of its rows,
in whatever order they are listed. -/
theorem C55_score (H : Reached out inputs types ops o) {R : List (ℝ × (Fin o.g.p → ℝ))}
    (hR : Lists (table out inputs types ops) R) :
    ∃ s, o.logpdfScore = .ok (some s) ∧ Real.exp s = evidence o.hyp R := by
  obtain ⟨R', hp, hx, hY, hN⟩ := linreg_rows H hR
  refine ⟨logEv o.hyp R', ?_, ?_⟩
  · unfold Obj.logpdfScore
    rw [hx, hY, hN, marginal_rows H.hyp]
  · rw [← evidence_eq H.hyp, evidence_perm hp]

/-- **C55** The density of a row is the ratio of the marginal densities with and without it. -/
theorem C55_logpdf (H : Reached out inputs types ops o) {R : List (ℝ × (Fin o.g.p → ℝ))}
    (hR : Lists (table out inputs types ops) R) {rowid : Option Row}
    (hr : ∀ r ∈ rowid, table out inputs types ops r = none) {t : Vals} {ins : Option Vals}
    {x : ℝ} {l : List (Option ℝ)} (hk : keeps out inputs types (t, ins) = some (x, l))
    {v : Fin o.g.p → ℝ} (hl : IsVec l v) :
    ∃ s, o.logpdf rowid t [] ins = .ok (some s) ∧ 0 < evidence o.hyp R ∧
      Real.exp s = evidence o.hyp ((x, v) :: R) / evidence o.hyp R := by
  obtain ⟨R', hp, hx, hY, hN⟩ := linreg_rows H hR
  refine ⟨logEv o.hyp (R' ++ [(x, v)]) - logEv o.hyp R', ?_, evidence_pos H.hyp R, ?_⟩
  · unfold Obj.logpdf
    rw [(linreg_absent H hr).1, linreg_preprocess H hk]
    have hl' : l = List.ofFn fun j => some (v j) := hl
    simp only [Bool.false_eq_true, if_false, List.isEmpty_nil, Bool.not_true, hx, hY, hN]
    rw [hl', predictive_rows H.hyp]
  · rw [Real.exp_sub, ← evidence_eq H.hyp, ← evidence_eq H.hyp, evidence_perm hp,
      evidence_perm ((List.perm_append_singleton _ _).trans (hp.cons _))]

/-- **C55** The density of a row integrates to one over its values. -/
theorem C55_normalised (H : Reached out inputs types ops o) {R : List (ℝ × (Fin o.g.p → ℝ))}
    (hR : Lists (table out inputs types ops) R) {rowid : Option Row}
    (hr : ∀ r ∈ rowid, table out inputs types ops r = none) {ins : Option Vals}
    {l : List (Option ℝ)} (hc : Codes out inputs types ins l) {v : Fin o.g.p → ℝ}
    (hl : IsVec l v) :
    ∃ f : ℝ → ℝ, (∀ x, o.logpdf rowid [(out, some x)] [] ins = .ok (some (f x))) ∧
      ∫ x, Real.exp (f x) = 1 := by
  choose f h1 h2 h3 using fun x => C55_logpdf H hR hr (hc x) hl
  refine ⟨f, h1, ?_⟩
  rw [← integral_predictive H.hyp R v]
  refine integral_congr_ae (Filter.Eventually.of_forall fun x => ?_)
  show Real.exp (f x) = evidence o.hyp (R ++ [(x, v)]) / evidence o.hyp R
  rw [h3, evidence_perm (List.perm_append_singleton _ _)]

theorem linreg_step_inc (H : Reached out inputs types ops o) (r : Row) (obs : Vals)
    (ins : Option Vals) {o' : Obj} (ho : (o.incorporate r obs ins).state = o') :
    ∃ rows, o' = { o with rows } ∧ Reached out inputs types (ops ++ [.inc r (obs, ins)]) o' := by
  have hst : (o.incorporate r obs ins).state
      = { o with rows := (o.rows.incorporate r (prep o.g obs ins)).state } := by
    unfold Obj.incorporate
    cases o.rows.incorporate r (prep o.g obs ins) <;> rfl
  rw [hst] at ho
  subst ho
  refine ⟨_, rfl, H.schema, ?_, H.hyp⟩
  show (o.rows.incorporate r (prep o.g obs ins)).state = LinReg.run o.g _
  unfold LinReg.run
  rw [runRows_snoc]
  simp only
  rw [H.rows]
  rfl

theorem linreg_step_unc (H : Reached out inputs types ops o) (r : Row) {o' : Obj}
    (ho : (o.unincorporate r).state = o') :
    ∃ rows, o' = { o with rows } ∧ Reached out inputs types (ops ++ [.unc r]) o' := by
  have hst : (o.unincorporate r).state
      = { o with rows := (o.rows.unincorporate r).state } := by
    unfold Obj.unincorporate
    cases o.rows.unincorporate r <;> rfl
  rw [hst] at ho
  subst ho
  refine ⟨_, rfl, H.schema, ?_, H.hyp⟩
  show (o.rows.unincorporate r).state = LinReg.run o.g _
  unfold LinReg.run
  rw [runRows_snoc]
  simp only
  rw [H.rows]
  rfl

theorem linreg_step_hyp (H : Reached out inputs types ops o) (a b : ℝ) :
    Reached out inputs types ops (o.setHypers a b).state := by
  unfold Obj.setHypers
  by_cases ha : 0 < a
  · by_cases hb : 0 < b
    · rw [if_neg (not_not.mpr ha), if_neg (not_not.mpr hb)]
      exact ⟨H.schema, H.rows, ⟨ha, hb, H.hyp.V⟩⟩
    · rw [if_neg (not_not.mpr ha), if_pos hb]
      exact H
  · rw [if_pos ha]
    exact H

/-- **C55** Every history of calls, refused ones included, leads to a linear regression with the
rows of the history and a proper prior: the theorems below and above apply to it. -/
theorem C55_history {hypers : (p : Nat) → Hyp p} (hh : ∀ p, ValidHyp (hypers p)) {o₀ : Obj}
    (hn : Obj.new out inputs types hypers = .ok o₀) (calls : List Obj.Op) :
    Reached out inputs types (rowCalls calls) (o₀.run calls) := by
  induction calls using List.reverseRecOn with
  | nil =>
    unfold Obj.new at hn
    split at hn
    · cases hn
    · rename_i g hg
      cases hn
      exact ⟨hg, rfl, hh _⟩
  | append_singleton calls op ih =>
    have hrun : o₀.run (calls ++ [op]) = ((o₀.run calls).apply op).state := by
      unfold Obj.run
      rw [List.foldl_append]
      rfl
    have hrc : rowCalls (calls ++ [op]) = rowCalls calls ++ rowCalls [op] := by
      unfold rowCalls
      rw [List.filterMap_append]
    rw [hrun, hrc]
    cases op with
    | inc r obs ins =>
      obtain ⟨_, _, h⟩ := linreg_step_inc ih r obs ins rfl
      exact h
    | unc r =>
      obtain ⟨_, _, h⟩ := linreg_step_unc ih r rfl
      exact h
    | hyp a b =>
      have : rowCalls [.hyp a b] = [] := rfl
      rw [this, List.append_nil]
      exact linreg_step_hyp ih a b

/-- **C55** `set_hypers` accepts exactly positive values; it replaces `a` and `b` and nothing else. A
refused call changes nothing. -/
theorem C55_set_hypers (o : Obj) (a b : ℝ) :
    (0 < a → 0 < b → o.setHypers a b = .ok ⟨o.g, o.rows, ⟨a, b, o.hyp.mu, o.hyp.V⟩⟩) ∧
    (¬ (0 < a ∧ 0 < b) → o.setHypers a b = .err .assertion o) := by
  unfold Obj.setHypers
  refine ⟨fun ha hb => ?_, fun h => ?_⟩
  · rw [if_neg (not_not.mpr ha), if_neg (not_not.mpr hb)]
  · by_cases ha : 0 < a
    · rw [if_neg (not_not.mpr ha), if_pos fun hb => h ⟨ha, hb⟩]
    · rw [if_pos ha]

theorem lists_cons {p : Nat} {m : Row → Option (ℝ × List (Option ℝ))}
    {R : List (ℝ × (Fin p → ℝ))} (hR : Lists m R) {r : Row} (hr : m r = none) {x : ℝ}
    {l : List (Option ℝ)} {v : Fin p → ℝ} (hl : IsVec l v) :
    Lists (fun r' => if r' = r ∧ m r = none then some (x, l) else m r') ((x, v) :: R) := by
  obtain ⟨rs, h1, h2, h3⟩ := hR
  have hn : r ∉ rs := fun h => (h2 r).mp h hr
  refine ⟨r :: rs, List.nodup_cons.mpr ⟨hn, h1⟩, fun r' => ?_, List.Forall₂.cons ?_ ?_⟩
  · rw [List.mem_cons, h2]
    by_cases e : r' = r
    · simp [e, hr]
    · simp [e]
  · exact ⟨l, by simp [hr], hl⟩
  · have : ∀ r' ∈ rs, (if r' = r ∧ m r = none then some (x, l) else m r') = m r' := by
      intro r' hr'
      rw [if_neg]
      rintro ⟨rfl, -⟩
      exact hn hr'
    clear h1 h2 hn
    induction h3 with
    | nil => exact .nil
    | cons hq _ ih =>
      refine .cons ?_ (ih fun r' hr' => this r' (List.mem_cons_of_mem _ hr'))
      simp only [this _ List.mem_cons_self]
      exact hq

/-- **C55** Chain rule: observing a row adds its log density to the score. -/
theorem C55_chain (H : Reached out inputs types ops o) {R : List (ℝ × (Fin o.g.p → ℝ))}
    (hR : Lists (table out inputs types ops) R) {r : Row} {obs : Vals} {ins : Option Vals}
    {x : ℝ} {l : List (Option ℝ)} (hk : keeps out inputs types (obs, ins) = some (x, l))
    {v : Fin o.g.p → ℝ} (hl : IsVec l v) {o' : Obj} (ho : o.incorporate r obs ins = .ok o') :
    ∃ s d, o.logpdfScore = .ok (some s) ∧ o.logpdf (some r) obs [] ins = .ok (some d) ∧
      o'.logpdfScore = .ok (some (s + d)) := by
  have hr : table out inputs types ops r = none := by
    by_contra hr
    have := ((reg_has (linreg_inv H).1 r).1).mpr hr
    unfold Obj.incorporate RegRows.incorporate at ho
    rw [if_pos this] at ho
    cases ho
  obtain ⟨rows, rfl, H'⟩ := linreg_step_inc H r obs ins (o' := o') (by rw [ho]; rfl)
  have ht : table out inputs types (ops ++ [.inc r (obs, ins)])
      = fun r' => if r' = r ∧ table out inputs types ops r = none then some (x, l)
          else table out inputs types ops r' := by
    unfold table
    rw [kept_snoc]
    simp only [hk]
  obtain ⟨s, hs, es⟩ := C55_score H hR
  obtain ⟨d, hd, hpos, ed⟩ := C55_logpdf H hR (rowid := some r) (by rintro _ ⟨⟩; exact hr) hk hl
  have hR' : Lists (table out inputs types (ops ++ [.inc r (obs, ins)])) ((x, v) :: R) := by
    rw [ht]; exact lists_cons hR hr hl
  obtain ⟨s', hs', es'⟩ := C55_score H' hR'
  refine ⟨s, d, hs, hd, ?_⟩
  rw [hs']
  congr 2
  rw [← Real.exp_eq_exp, es', Real.exp_add, es, ed, mul_div_cancel₀ _ hpos.ne']

/-- **C55** The answers depend on the rows and the prior only, not on the history: two histories that
keep the same rows give the same scores and densities. -/
theorem C55_order (H : Reached out inputs types ops o) {R : List (ℝ × (Fin o.g.p → ℝ))}
    (hR : Lists (table out inputs types ops) R) {ops' : List (RowOp (Vals × Option Vals))}
    {rows' : RegRows ℝ} (H' : Reached out inputs types ops' { o with rows := rows' })
    (ht : table out inputs types ops' = table out inputs types ops) :
    Obj.logpdfScore { o with rows := rows' } = o.logpdfScore ∧
    ∀ (rowid : Option Row) (t : Vals) (ins : Option Vals) (x : ℝ) (l : List (Option ℝ))
      (v : Fin o.g.p → ℝ), (∀ r ∈ rowid, table out inputs types ops r = none) →
      keeps out inputs types (t, ins) = some (x, l) → IsVec l v →
      Obj.logpdf { o with rows := rows' } rowid t [] ins = o.logpdf rowid t [] ins := by
  have hR' : Lists (table out inputs types ops') R := by rw [ht]; exact hR
  refine ⟨?_, fun rowid t ins x l v hr hk hl => ?_⟩
  · obtain ⟨s, hs, es⟩ := C55_score H hR
    obtain ⟨s', hs', es'⟩ := C55_score H' hR'
    rw [hs, hs', show s' = s by rw [← Real.exp_eq_exp, es, es']]
  · obtain ⟨s, hs, -, es⟩ := C55_logpdf H hR hr hk hl
    obtain ⟨s', hs', -, es'⟩ := C55_logpdf H' hR' (by rw [ht]; exact hr) hk hl
    rw [hs, hs', show s' = s by rw [← Real.exp_eq_exp, es, es']]

/-- **C55** The parameters are drawn from their posterior given the rows: the precision from a gamma
distribution, the coefficients from a normal distribution, the product of whose densities is the
prior times the likelihood of the rows, divided by the evidence. -/
theorem C55_posterior (H : Reached out inputs types ops o) {R : List (ℝ × (Fin o.g.p → ℝ))}
    (hR : Lists (table out inputs types ops) R) :
    ∃ n : Hyp o.g.p, ValidHyp n ∧
      (∀ rng : Obj.Rng, ∃ τ w, τ = rng.gamma n.a (1 / n.b) ∧ w = rng.mvn _ n.mu ((1 / τ) • n.V) ∧
        o.simulateParams rng = .ok (some (1 / τ, w))) ∧
      ∀ τ, 0 < τ → ∀ w, prior n τ w
        = prior o.hyp τ w * likelihood R τ w / evidence o.hyp R := by
  obtain ⟨R', hp, hx, hY, hN⟩ := linreg_rows H hR
  refine ⟨postHyp o.hyp R', postHyp_valid H.hyp R', fun rng => ⟨_, _, rfl, rfl, ?_⟩,
    fun τ hτ w => ?_⟩
  · unfold Obj.simulateParams
    rw [hx, hY, hN, posteriorHypers_rows H.hyp]
    simp only [inv_posDef (postPrec_posDef H.hyp R')]
    rfl
  · rw [← evidence_perm hp, ← likelihood_perm hp, bayes H.hyp R' hτ, ← evidence_eq H.hyp,
      mul_div_cancel_left₀ _ (evidence_pos H.hyp R').ne']

theorem linreg_preprocess_nil (H : Reached out inputs types ops o) {ins : Option Vals}
    {l : List (Option ℝ)} (hc : Codes out inputs types ins l) :
    preprocess o.g [] ins = .ok (none, l) := by
  have h := linreg_preprocess H (hc 0)
  have hg : o.g.output = out := (linreg_schema H.schema).outp
  unfold preprocess at h ⊢
  cases ins with
  | none => cases h
  | some ins =>
    simp only at h ⊢
    split at h
    · cases h
    · rename_i h1
      rw [if_neg h1]
      simp only [List.isEmpty_cons, Bool.false_eq_true, if_false, hg, Dict.get?, if_true,
        List.isEmpty_nil] at h ⊢
      split at h
      · cases h
      · rename_i h2
        rw [if_neg h2]
        split at h
        · cases h
        · rename_i y hy
          split at h
          · cases h
          · rename_i h3
            rw [if_neg h3]
            simp only [Except.ok.injEq, Prod.mk.injEq, true_and] at h ⊢
            exact h

/-- **C55** A row that is not observed is simulated from the predictive distribution: the parameters
are drawn from the posterior `n`, then the value from a normal distribution.  The density of the
value drawn in this way is what `logpdf` reports. -/
theorem C55_simulate (H : Reached out inputs types ops o) {R : List (ℝ × (Fin o.g.p → ℝ))}
    (hR : Lists (table out inputs types ops) R) {rowid : Option Row}
    (hr : ∀ r ∈ rowid, table out inputs types ops r = none) {ins : Option Vals}
    {l : List (Option ℝ)} (hc : Codes out inputs types ins l) {v : Fin o.g.p → ℝ}
    (hl : IsVec l v) :
    ∃ n : Hyp o.g.p, ValidHyp n ∧
      (∀ rng : Obj.Rng, ∃ τ w x, τ = rng.gamma n.a (1 / n.b) ∧
        w = rng.mvn _ n.mu ((1 / τ) • n.V) ∧ x = rng.normal (w ⬝ᵥ v) (Real.sqrt (1 / τ)) ∧
        o.simulate rng rowid [out] [] ins = .ok (some [(out, x)])) ∧
      ∀ x, ∃ s, o.logpdf rowid [(out, some x)] [] ins = .ok (some s) ∧
        Real.exp s = ∫ τ in Set.Ioi 0, ∫ w, prior n τ w * normalPdf (w ⬝ᵥ v) τ⁻¹ x := by
  obtain ⟨R', hp, hx, hY, hN⟩ := linreg_rows H hR
  have hg : o.g.output = out := (linreg_schema H.schema).outp
  refine ⟨postHyp o.hyp R', postHyp_valid H.hyp R', fun rng => ⟨_, _, _, rfl, rfl, rfl, ?_⟩,
    fun x => ?_⟩
  · unfold Obj.simulate
    have hl' : l = List.ofFn fun j => some (v j) := hl
    have hn : (l.any Option.isNone) = false := by
      rw [hl']; simp [List.any_eq_false]
    have hsp : o.simulateParams rng = .ok (some (Obj.sampleParameters rng (postHyp o.hyp R').a
        (postHyp o.hyp R').b (postHyp o.hyp R').mu (postHyp o.hyp R').V)) := by
      unfold Obj.simulateParams
      rw [hx, hY, hN, posteriorHypers_rows H.hyp]
      simp only [inv_posDef (postPrec_posDef H.hyp R')]
      rfl
    have hy : (fun j : Fin o.g.p => (l.getD j none).getD 0) = v := by
      funext j
      rw [hl']; simp
    rw [hg, (linreg_absent H hr).2, linreg_preprocess_nil H hc, hsp]
    simp only [ne_eq, not_true_eq_false, if_false, List.isEmpty_nil, Bool.not_true,
      Bool.false_eq_true, Obj.sampleParameters, hn, hy]
    rw [dotProduct_comm v]
  · obtain ⟨s, hs, -, es⟩ := C55_logpdf H hR hr (hc x) hl
    refine ⟨s, hs, ?_⟩
    rw [es, ← predictive_mixture H.hyp, evidence_perm hp,
      evidence_perm ((List.perm_append_singleton _ _).trans (hp.cons _))]

/-- **C55** An observed row is simulated by its value, whatever the inputs; its density may not be
asked. -/
theorem C55_observed (H : Reached out inputs types ops o) {r : Row} {x : ℝ} {l : List (Option ℝ)}
    (hr : table out inputs types ops r = some (x, l)) (rng : Obj.Rng) (t cs : Vals)
    (ins : Option Vals) :
    o.simulate rng (some r) [out] [] ins = .ok (some [(out, x)]) ∧
    o.logpdf (some r) t cs ins = .error .assertion := by
  have hg : o.g.output = out := (linreg_schema H.schema).outp
  have h1 : o.rows.x.get? r = some x := by rw [((linreg_inv H).1.holds r).1, hr]; rfl
  constructor
  · unfold Obj.simulate
    simp [hg, h1]
  · unfold Obj.logpdf
    rw [if_pos]
    show o.rows.x.has r = true
    unfold Dict.has
    rw [h1]; rfl

/-- **C55** Constraints, other targets than the output, and targets or inputs that the model would
not keep are refused. -/
theorem C55_refused (H : Reached out inputs types ops o) (rng : Obj.Rng) (rowid : Option Row)
    (t cs : Vals) (ins : Option Vals) :
    (cs ≠ [] → (∃ e, o.logpdf rowid t cs ins = .error e) ∧
      ∀ q, ∃ e, o.simulate rng rowid q cs ins = .error e) ∧
    (keeps out inputs types (t, ins) = none → ∃ e, o.logpdf rowid t cs ins = .error e) ∧
    (∀ q, q ≠ [out] → ∃ e, o.simulate rng rowid q cs ins = .error e) := by
  have hg : o.g.output = out := (linreg_schema H.schema).outp
  refine ⟨fun hcs => ⟨?_, fun q => ?_⟩, fun hk => ?_, fun q hq => ?_⟩
  · unfold Obj.logpdf
    split
    · exact ⟨_, rfl⟩
    · rw [if_pos (by simpa using hcs)]
      exact ⟨_, rfl⟩
  · unfold Obj.simulate
    split
    · exact ⟨_, rfl⟩
    · rw [if_pos (by simpa using hcs)]
      exact ⟨_, rfl⟩
  · have hp : ∀ a, prep o.g t ins ≠ .ok a := fun a ha => by
      have := (linreg_prep (linreg_schema H.schema) (t, ins) a).mp ha
      unfold keeps at hk
      rw [hk] at this
      cases this
    unfold Obj.logpdf
    split
    · exact ⟨_, rfl⟩
    · split
      · exact ⟨_, rfl⟩
      · split
        · exact ⟨_, rfl⟩
        · rename_i xt yt hpre
          cases xt with
          | none =>
            unfold calcPredictiveLogp
            split
            · exact ⟨_, rfl⟩
            · exact ⟨_, rfl⟩
          | some x =>
            exfalso
            refine hp (x, yt) ?_
            unfold prep
            rw [hpre]
            rw [if_neg]
            simp only [Bool.not_eq_eq_eq_not, Bool.not_true]
            unfold preprocess at hpre
            cases ins with
            | none => cases hpre
            | some ins =>
              simp only at hpre
              split at hpre
              · cases hpre
              · by_cases ht : t.isEmpty = true
                · rw [if_pos ht] at hpre
                  simp only at hpre
                  split at hpre
                  · cases hpre
                  · split at hpre
                    · cases hpre
                    · split at hpre
                      · cases hpre
                      · simp at hpre
                · rw [if_neg ht] at hpre
                  cases hx : t.get? o.g.output with
                  | none => rw [hx] at hpre; cases hpre
                  | some _ =>
                    have : t.has o.g.output = true := by unfold Dict.has; rw [hx]; rfl
                    simp [this]
  · unfold Obj.simulate
    rw [hg, if_pos hq]
    exact ⟨_, rfl⟩

theorem linreg_codes_of (H : Reached out inputs types ops o) {ins : Option Vals} {y : Option ℝ}
    {l : List (Option ℝ)} (h : preprocess o.g [] ins = .ok (y, l)) :
    Codes out inputs types ins l := by
  intro x
  have hg : o.g.output = out := (linreg_schema H.schema).outp
  refine (linreg_prep (linreg_schema H.schema) _ _).mp ?_
  have hpre : preprocess o.g [(out, some x)] ins = .ok (some x, l) := by
    unfold preprocess at h ⊢
    cases ins with
    | none => cases h
    | some ins =>
      simp only at h ⊢
      split at h
      · cases h
      · rename_i h1
        rw [if_neg h1]
        simp only [List.isEmpty_cons, Bool.false_eq_true, if_false, hg, Dict.get?, if_true,
          List.isEmpty_nil] at h ⊢
        split at h
        · cases h
        · rename_i h2
          rw [if_neg h2]
          split at h
          · cases h
          · rename_i y hy
            split at h
            · cases h
            · rename_i h3
              rw [if_neg h3]
              simp only [Except.ok.injEq, Prod.mk.injEq, true_and] at h ⊢
              exact h.2
  unfold prep
  simp only [hpre, hg]
  simp [Dict.has, Dict.get?]

/-- **C55** Invalid inputs are refused by `simulate`, unless the row is observed. -/
theorem C55_simulate_refused (H : Reached out inputs types ops o) (rng : Obj.Rng)
    {rowid : Option Row} (hr : ∀ r ∈ rowid, table out inputs types ops r = none) (q : List Col)
    (cs : Vals) {ins : Option Vals} (hc : ∀ l, ¬ Codes out inputs types ins l) :
    ∃ e, o.simulate rng rowid q cs ins = .error e := by
  unfold Obj.simulate
  rw [(linreg_absent H hr).2]
  split
  · exact ⟨_, rfl⟩
  · split
    · exact ⟨_, rfl⟩
    · simp only
      split
      · exact ⟨_, rfl⟩
      · rename_i y l hp
        exact absurd (linreg_codes_of H hp) (hc l)

theorem linreg_width (H : Reached out inputs types ops o) {q : Vals × Option Vals} {x : ℝ}
    {l : List (Option ℝ)} (hk : keeps out inputs types q = some (x, l)) : l.length = o.g.p := by
  have h := linreg_preprocess H (t := q.1) (ins := q.2) hk
  have hp : 0 < o.g.p := by
    have := (linreg_schema H.schema).width
    omega
  unfold preprocess at h
  split at h
  · cases h
  · split at h
    · cases h
    · simp only at h
      split at h
      · cases h
      · split at h
        · cases h
        · split at h
          · cases h
          · split at h
            · cases h
            · rename_i hw
              simp only [Except.ok.injEq, Prod.mk.injEq] at h
              rw [← h.2, List.length_cons]
              omega

/-- `posterior_hypers` with a missing covariate. -/
theorem posteriorHypers_nan {p : Nat} {h : Hyp p} (hv : ValidHyp h) {Y : List (List (Option ℝ))}
    {x : List ℝ} (hx : x.length = Y.length) (hY : ∀ y ∈ Y, y.length = p)
    (hn : ∃ y ∈ Y, none ∈ y) : posteriorHypers (Y.length : ℤ) Y x h = .ok none := by
  obtain ⟨y, hy, hyn⟩ := hn
  unfold posteriorHypers
  have h0 : (Y.length : ℤ) ≠ 0 := by
    have := List.length_pos_of_mem hy
    omega
  have ha : (Y.any fun y => y.any Option.isNone) = true := by
    rw [List.any_eq_true]
    exact ⟨y, hy, List.any_eq_true.mpr ⟨none, hyn, rfl⟩⟩
  rw [if_neg h0, if_neg (not_not.mpr ⟨rfl, hY⟩), if_neg (by rw [hx]; simp), inv_posDef hv.V]
  simp only [ha, if_true]

theorem linreg_lengths (H : Reached out inputs types ops o) :
    o.rows.N = (o.rows.Y.vals.length : ℤ) ∧ o.rows.x.vals.length = o.rows.Y.vals.length ∧
    ∀ y ∈ o.rows.Y.vals, y.length = o.g.p := by
  obtain ⟨hi, ha⟩ := linreg_inv H
  have hl : o.rows.x.length = o.rows.Y.length := by
    have := congrArg List.length ha
    simpa [Dict.keys] using this
  refine ⟨?_, ?_, fun y hy => ?_⟩
  · rw [hi.size, hl]; simp [Dict.vals]
  · simpa [Dict.vals] using hl
  · obtain ⟨q, hq, rfl⟩ := List.mem_map.mp hy
    have h1 := Dict.get?_of_mem hi.wy hq
    rw [(hi.holds q.1).2] at h1
    obtain ⟨a, ha, hb⟩ := Option.map_eq_some_iff.mp h1
    obtain ⟨o', -, ho'⟩ := kept_from _ _ _ _ ha
    rw [← hb]
    exact linreg_width H (x := a.1) ho'

/-- **C55** A remark beyond the property: a missing numerical input is not refused.  Once a row with
one is observed, the score and every density are NaN, until the row is removed. -/
theorem C55_nan (H : Reached out inputs types ops o) {r₀ : Row} {x₀ : ℝ} {l₀ : List (Option ℝ)}
    (h0 : table out inputs types ops r₀ = some (x₀, l₀)) (hn : none ∈ l₀) {rowid : Option Row}
    (hr : ∀ r ∈ rowid, table out inputs types ops r = none) {t : Vals} {ins : Option Vals}
    {x : ℝ} {l : List (Option ℝ)} (hk : keeps out inputs types (t, ins) = some (x, l)) :
    o.logpdfScore = .ok none ∧ o.logpdf rowid t [] ins = .ok none := by
  obtain ⟨hi, -⟩ := linreg_inv H
  obtain ⟨hN, hx, hY⟩ := linreg_lengths H
  have hex : ∃ y ∈ o.rows.Y.vals, none ∈ y := by
    have h1 := (hi.holds r₀).2
    rw [h0] at h1
    exact ⟨l₀, List.mem_map.mpr ⟨_, Dict.mem_of_get? h1, rfl⟩, hn⟩
  have hpost := posteriorHypers_nan H.hyp hx hY hex
  constructor
  · unfold Obj.logpdfScore calcLogpdfMarginal
    rw [hN, hpost, inv_posDef H.hyp.V]
  · unfold Obj.logpdf
    rw [(linreg_absent H hr).1, linreg_preprocess H hk]
    simp only [Bool.false_eq_true, if_false, List.isEmpty_nil, Bool.not_true]
    unfold calcPredictiveLogp
    rw [hN, hpost]
    have e : (o.rows.Y.vals.length : ℤ) + 1 = ((o.rows.Y.vals ++ [l]).length : ℤ) := by simp
    have hw := linreg_width H hk
    have hpost2 := posteriorHypers_nan (x := o.rows.x.vals ++ [x]) (Y := o.rows.Y.vals ++ [l])
      H.hyp (by simp [hx]) (fun y hy => by
        rcases List.mem_append.mp hy with h | h
        · exact hY y h
        · rw [List.mem_singleton.mp h]; exact hw)
      (hex.imp fun y h => ⟨List.mem_append_left _ h.1, h.2⟩)
    simp only [e, hpost2]

/-! ### Non-vacuity -/

theorem hyp_default_valid (p : Nat) : ValidHyp (Hyp.default p) :=
  ⟨one_pos, one_pos, Matrix.PosDef.one⟩

/-- A regression of column 0 on the numerical column 1. -/
noncomputable def linregDemo : Obj := ⟨⟨0, [1], 2, []⟩, .empty, Hyp.default 2⟩

example : Obj.new 0 [1] [.numeric] Hyp.default = .ok linregDemo := rfl

theorem linreg_demo_keeps (x : ℝ) (y : Option ℝ) :
    keeps 0 [1] [.numeric] ([(0, some x)], some [(1, y)]) = some (x, [some 1, y]) := by
  unfold keeps linregKeeps
  simp only [Dict.get?, if_true]
  have hv : ValidRow (linregLevels [.numeric]) (inputRow [1] [(1, y)]) := by
    intro i v hi
    match i with
    | 0 => trivial
    | i + 1 => simp [inputRow] at hi
  refine (if_pos ⟨by simp [Dict.keys], hv⟩).trans ?_
  · simp [rowCode, inputRow, codeOf, linregLevels, Dict.get?, List.zipIdx]

/-- The inputs of a query are coded. -/
example : Codes 0 [1] [.numeric] (some [(1, some 2)]) [some 1, some 2] :=
  fun x => linreg_demo_keeps x (some 2)

/-- Two rows are observed, a third one is observed and removed; a hyperparameter is refused and
another one accepted. -/
noncomputable def linregCalls : List Obj.Op :=
  [.inc 5 [(0, some 3)] (some [(1, some 2)]), .hyp (-1) 1, .inc 7 [(0, some 9)] (some [(1, some 9)]),
    .inc 6 [(0, some 4)] (some [(1, some (-1))]), .unc 7, .hyp 2 3]

/-- The history leads to a state that the theorems apply to. -/
example : Reached 0 [1] [.numeric] (rowCalls linregCalls) (linregDemo.run linregCalls) :=
  C55_history (fun p => hyp_default_valid p) (hypers := Hyp.default) rfl linregCalls

theorem linreg_demo_table : table 0 [1] [.numeric] (rowCalls linregCalls)
    = fun r => if r = 5 then some (3, [some 1, some 2])
        else if r = 6 then some (4, [some 1, some (-1)]) else none := by
  have h : rowCalls linregCalls = [.inc 5 ([(0, some 3)], some [(1, some 2)]),
      .inc 7 ([(0, some 9)], some [(1, some 9)]), .inc 6 ([(0, some 4)], some [(1, some (-1))]),
      .unc 7] := rfl
  rw [h]
  unfold table kept
  simp only [List.foldl_cons, List.foldl_nil, linreg_demo_keeps]
  funext r
  by_cases h5 : r = 5
  · simp [h5]
  · by_cases h6 : r = 6
    · simp [h6]
    · by_cases h7 : r = 7
      · simp [h7]
      · simp [h5, h6, h7]

/-- Its two rows are listed, here in the other order. -/
theorem linreg_demo_lists : Lists (p := 2) (table 0 [1] [.numeric] (rowCalls linregCalls))
    [(4, ![1, -1]), (3, ![1, 2])] := by
  rw [linreg_demo_table]
  refine ⟨[6, 5], by simp, fun r => ?_, .cons ⟨[some 1, some (-1)], rfl, ?_⟩
    (.cons ⟨[some 1, some 2], rfl, ?_⟩ .nil)⟩
  · by_cases h5 : r = 5
    · simp [h5]
    · by_cases h6 : r = 6
      · simp [h6]
      · simp [h5, h6]
  · simp [IsVec, List.ofFn_succ]
  · simp [IsVec, List.ofFn_succ]

/-- A row with a missing input is kept. -/
example : table 0 [1] [.numeric] [.inc 5 ([(0, some 3)], some [(1, none)])] 5
    = some (3, [some 1, none]) := by
  unfold table kept
  simp [linreg_demo_keeps]

end Cgpm.Props
