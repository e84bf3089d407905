import Verif.Lemmas.ViewNorm
import Verif.Lemmas.ViewDemo
import Verif.Props.Network

/-!
Properties C15, C16 (one view), C17 and C45 (one view): density queries on a view
(src/mixtures/view.py:275-329, src/crosscat/sampling.py:70-107).

They are stated for every view that arises from a history of legal calls on an empty view, every
query, every iteration order of Python's sets and dicts (`ord`), every simulator of the components
and every outcome of its draws (`sim`, `ω`: a density query must not depend on them).
-/
namespace Cgpm.Props
open Cgpm Cgpm.View Cgpm.Net

variable {C : Cat} {Ω : Type}

section
variable {close : C.V → C.V → Bool} {ord : PyOrder} {sim : Simulator C Ω} {ω : Draws Ω}
  {z : Nat} {v : View C} {X : C.Tbl} {rowid : Option Row} {T E : Dict Col C.Cell}

theorem NewRowQuery.disj (hq : NewRowQuery v z rowid T E) :
    ∀ c, E.get? c ≠ none → T.get? c = none := by
  intro c hc
  rw [Dict.get?_eq_none_iff]
  intro h
  exact hq.disjoint c h (by
    by_contra h'
    exact hc ((Dict.get?_eq_none_iff _ _).mpr h'))

theorem ask_new (hI : Inv X v) (hq : NewRowQuery v z rowid T E) {T' E' : Dict Nat (Val C)}
    (hd : ∀ c ∈ T'.keys, c ∉ E'.keys) :
    v.logpdf close X ord sim ω z rowid T' E' [] = v.logpdfCore ord sim ω z rowid T' E' [] := by
  have hh := (hyp_of_new hI hq.row).1
  unfold View.logpdf
  rw [populate_new hh hd]
  simp only [hh, if_true]

/-! ### C15 -/

theorem inv_mixture (hI : Inv X v) (hord : ord.Lists) (hs : Schema v z)
    (hne : ∃ r, v.seat r ≠ none) (hq : NewRowQuery v z rowid T E) :
    ((∀ k, rowDensity v k E.get? ≠ 0) →
      ∃ r, v.logpdf close X ord sim ω z rowid (cellsOf T) (cellsOf E) [] = .ok r ∧ r ≠ .nan ∧
        mass r = (mixture v fun k => rowDensity v k (both T E)) /
          mixture v (fun k => rowDensity v k E.get?)) ∧
    ((∃ k, rowDensity v k E.get? = 0) →
      v.logpdf close X ord sim ω z rowid (cellsOf T) (cellsOf E) [] = .error .valueError) := by
  rw [ask_new hI hq (by rw [cellsOf_keys, cellsOf_keys]; exact hq.disjoint)]
  exact core_enum hord sim hI hs (hyp_of_new hI hq.row).2 ω (cellsOf_wf hq.targets)
    (fun c _ => cellsOf_get? T c) (cellsOf_wf hq.evidence) (fun c _ => cellsOf_get? E c) hq.disj
    hq.inputsE hq.inputs hne
    (by rw [cellsOf_get?, (Dict.get?_eq_none_iff _ _).mpr hq.token.1]; rfl)
    (by rw [cellsOf_get?, (Dict.get?_eq_none_iff _ _).mpr hq.token.2]; rfl)

theorem inv_density (hS : FixedSupport C) (hI : Inv X v) (hord : ord.Lists)
    (hs : Schema v z) (hne : ∃ r, v.seat r ≠ none) (hq : NewRowQuery v z rowid T E) :
    (mixture v (fun k => rowDensity v k E.get?) ≠ 0 →
      ∃ r, v.logpdf close X ord sim ω z rowid (cellsOf T) (cellsOf E) [] = .ok r ∧ r ≠ .nan ∧
        mass r = (mixture v fun k => rowDensity v k (both T E)) /
          mixture v (fun k => rowDensity v k E.get?)) ∧
    (mixture v (fun k => rowDensity v k E.get?) = 0 →
      v.logpdf close X ord sim ω z rowid (cellsOf T) (cellsOf E) [] = .error .valueError) := by
  have h := inv_mixture (close := close) (sim := sim) (ω := ω) hI hord hs hne hq
  have hz := mixture_zero_iff hS hI E.get?
  exact ⟨fun h0 => h.1 (hz.1 h0), fun h0 => h.2 (hz.2 h0)⟩

/-- **C15.** Over every catalogue of component types: if the constraints have positive density in
every cluster, then exp(logpdf) is the mixture density of targets and constraints divided by that
of the constraints; if they have density zero in some cluster, the query is refused. -/
theorem C15_mixture (hC : C.Lawful) (hR : Reachable X v) (hord : ord.Lists) (hs : Schema v z)
    (hne : ∃ r, v.seat r ≠ none) (hq : NewRowQuery v z rowid T E) :
    ((∀ k, rowDensity v k E.get? ≠ 0) →
      ∃ r, v.logpdf close X ord sim ω z rowid (cellsOf T) (cellsOf E) [] = .ok r ∧ r ≠ .nan ∧
        mass r = (mixture v fun k => rowDensity v k (both T E)) /
          mixture v (fun k => rowDensity v k E.get?)) ∧
    ((∃ k, rowDensity v k E.get? = 0) →
      v.logpdf close X ord sim ω z rowid (cellsOf T) (cellsOf E) [] = .error .valueError) :=
  inv_mixture (hR.inv hC) hord hs hne hq

/-- **C15.** For the library's component types, whose supports are fixed: exp(logpdf) is the
mixture density of targets and constraints divided by that of the constraints; the query is refused
exactly when the constraints have density zero. -/
theorem C15_density (hC : C.Lawful) (hS : FixedSupport C) (hR : Reachable X v) (hord : ord.Lists)
    (hs : Schema v z) (hne : ∃ r, v.seat r ≠ none) (hq : NewRowQuery v z rowid T E) :
    (mixture v (fun k => rowDensity v k E.get?) ≠ 0 →
      ∃ r, v.logpdf close X ord sim ω z rowid (cellsOf T) (cellsOf E) [] = .ok r ∧ r ≠ .nan ∧
        mass r = (mixture v fun k => rowDensity v k (both T E)) /
          mixture v (fun k => rowDensity v k E.get?)) ∧
    (mixture v (fun k => rowDensity v k E.get?) = 0 →
      v.logpdf close X ord sim ω z rowid (cellsOf T) (cellsOf E) [] = .error .valueError) :=
  inv_density hS (hR.inv hC) hord hs hne hq

/-- **C15.** Bayes' rule, for three calls with any random draws: p(T, E) = p(T | E) p(E). -/
theorem C15_bayes (hC : C.Lawful) (hS : FixedSupport C) (hR : Reachable X v) (hord : ord.Lists)
    (hs : Schema v z) (hne : ∃ r, v.seat r ≠ none) (hq : NewRowQuery v z rowid T E)
    (hE : mixture v (fun k => rowDensity v k E.get?) ≠ 0) (ω₁ ω₂ ω₃ : Draws Ω) :
    ∃ cond marg joint,
      v.logpdf close X ord sim ω₁ z rowid (cellsOf T) (cellsOf E) [] = .ok cond ∧
      v.logpdf close X ord sim ω₂ z rowid (cellsOf E) [] [] = .ok marg ∧
      v.logpdf close X ord sim ω₃ z rowid (cellsOf (T ++ E)) [] [] = .ok joint ∧
      joint = cond.add marg ∧ joint ≠ .nan := by
  have hI := hR.inv hC
  have hin0 : InputsIn v (Dict.get? ([] : Dict Col C.Cell)) := by intro c d _ h; exact absurd rfl h
  have hbT : both (T ++ E) [] = both T E := by
    funext c; simp only [both, Dict.get?_append, Dict.get?, Option.or_none]
  have hbE : both E [] = E.get? := by
    funext c; simp only [both, Dict.get?, Option.or_none]
  have hk0 : Dict.keys ([] : Dict Col C.Cell) = [] := rfl
  have hqE : NewRowQuery v z rowid E [] := ⟨hq.row, hq.evidence, List.nodup_nil, by simp [hk0],
    ⟨hq.token.2, by simp [hk0]⟩, hin0, by rw [hbE]; exact hq.inputsE⟩
  have hkk : (T ++ E : Dict Col C.Cell).keys = T.keys ++ E.keys := by simp [Dict.keys]
  have hqJ : NewRowQuery v z rowid (T ++ E) [] := ⟨hq.row, by
      rw [hkk]
      exact List.Nodup.append hq.targets hq.evidence hq.disjoint, List.nodup_nil, by simp [hk0],
    ⟨by rw [hkk, List.mem_append]; exact fun h => h.elim hq.token.1 hq.token.2, by simp [hk0]⟩,
    hin0, by rw [hbT]; exact hq.inputs⟩
  have hone : ∀ k, rowDensity v k (Dict.get? ([] : Dict Col C.Cell)) ≠ 0 := fun k => by
    rw [show (Dict.get? ([] : Dict Col C.Cell)) = fun _ => none from rfl, rowDensity_empty]
    exact one_ne_zero
  have hm1 : mixture v (fun k => rowDensity v k (Dict.get? ([] : Dict Col C.Cell))) = 1 := by
    rw [← prior_sum hI]; congr 1; funext k
    rw [show (Dict.get? ([] : Dict Col C.Cell)) = fun _ => none from rfl, rowDensity_empty]
  obtain ⟨a, a1, a2, a3⟩ := (C15_density (close := close) (sim := sim) (ω := ω₁) hC hS hR hord hs
    hne hq).1 hE
  obtain ⟨b, b1, b2, b3⟩ := (C15_mixture (close := close) (sim := sim) (ω := ω₂) hC hR hord hs
    hne hqE).1 hone
  obtain ⟨c, c1, c2, c3⟩ := (C15_mixture (close := close) (sim := sim) (ω := ω₃) hC hR hord hs
    hne hqJ).1 hone
  rw [hm1, hbE, div_one] at b3
  rw [hm1, hbT, div_one] at c3
  refine ⟨a, b, c, a1, b1, c1, ?_, c2⟩
  have ha : mass a ≠ ⊤ := by rw [a3]; exact ENNReal.div_ne_top (mixture_top v _) hE
  have hb : mass b ≠ ⊤ := by rw [b3]; exact mixture_top v _
  obtain ⟨m1, m2, m3⟩ := mass_add a2 b2 (ne_pinf_of_mass ha) (ne_pinf_of_mass hb)
  refine C35_mass_determines _ _ c2 m2 ?_
  rw [m1, a3, b3, c3, ENNReal.div_mul_cancel hE (mixture_top v _)]

/-- **C15.** Conditioning on the cluster as well: exp(logpdf) is the product of the columns'
predictives in that cluster, divided by the same for the constraints; refused when that is zero. -/
theorem C15_given_cluster (hC : C.Lawful) (hR : Reachable X v) (hord : ord.Lists)
    (hs : Schema v z) (hq : NewRowQuery v z rowid T E) (k : Tab) :
    (rowDensity v k E.get? ≠ 0 →
      ∃ r, v.logpdf close X ord sim ω z rowid (cellsOf T) ((z, .tab k) :: cellsOf E) [] = .ok r ∧
        r ≠ .nan ∧ mass r = rowDensity v k (both T E) / rowDensity v k E.get?) ∧
    (rowDensity v k E.get? = 0 →
      v.logpdf close X ord sim ω z rowid (cellsOf T) ((z, .tab k) :: cellsOf E) [] =
        .error .valueError) := by
  have hI := hR.inv hC
  have hkk : Dict.keys ((z, (Val.tab k : Val C)) :: cellsOf E) = z :: E.keys := by
    rw [← cellsOf_keys E]; rfl
  rw [ask_new hI hq (by
    rw [cellsOf_keys, hkk]
    intro c hc h
    rcases List.mem_cons.mp h with rfl | h
    · exact hq.token.1 hc
    · exact hq.disjoint c hc h)]
  refine core_given hord sim hI hs (hyp_of_new hI hq.row).2 ω (cellsOf_wf hq.targets)
    (fun c _ => cellsOf_get? T c) ?_ ?_ hq.disj hq.inputsE hq.inputs k ?_
  · unfold Dict.WF; rw [hkk]; exact List.nodup_cons.mpr ⟨hq.token.2, hq.evidence⟩
  · intro c hc
    rw [show Dict.get? ((z, (Val.tab k : Val C)) :: cellsOf E) c = (cellsOf E).get? c by
      simp [Dict.get?, Ne.symm hc], cellsOf_get?]
  · simp [Dict.get?]

/-- **C15.** Asking for the cluster as well: exp(logpdf) is its prior probability times the density
of targets and constraints in that cluster, divided by the mixture density of the constraints. -/
theorem C15_cluster_target (hC : C.Lawful) (hS : FixedSupport C) (hR : Reachable X v)
    (hord : ord.Lists) (hs : Schema v z) (hne : ∃ r, v.seat r ≠ none)
    (hq : NewRowQuery v z rowid T E) (k : Tab) :
    (mixture v (fun k => rowDensity v k E.get?) ≠ 0 →
      ∃ r, v.logpdf close X ord sim ω z rowid ((z, .tab k) :: cellsOf T) (cellsOf E) [] = .ok r ∧
        r ≠ .nan ∧ mass r = prior v k * rowDensity v k (both T E) /
          mixture v (fun k => rowDensity v k E.get?)) ∧
    (mixture v (fun k => rowDensity v k E.get?) = 0 →
      v.logpdf close X ord sim ω z rowid ((z, .tab k) :: cellsOf T) (cellsOf E) [] = .ok .nan) := by
  have hI := hR.inv hC
  have hkk : Dict.keys ((z, (Val.tab k : Val C)) :: cellsOf T) = z :: T.keys := by
    rw [← cellsOf_keys T]; rfl
  rw [ask_new hI hq (by
    rw [cellsOf_keys, hkk]
    intro c hc h
    rcases List.mem_cons.mp hc with rfl | hc
    · exact hq.token.2 h
    · exact hq.disjoint c hc h)]
  have := core_target hord sim hI hs (hyp_of_new hI hq.row).2 ω
    (T := (z, (Val.tab k : Val C)) :: cellsOf T) (T' := T.get?)
    (by unfold Dict.WF; rw [hkk]; exact List.nodup_cons.mpr ⟨hq.token.1, hq.targets⟩)
    (fun c hc => by
      rw [show Dict.get? ((z, (Val.tab k : Val C)) :: cellsOf T) c = (cellsOf T).get? c by
        simp [Dict.get?, Ne.symm hc], cellsOf_get?])
    (cellsOf_wf hq.evidence) (fun c _ => cellsOf_get? E c) hq.disj
    hq.inputsE hq.inputs hne k (by simp [Dict.get?])
    (by rw [cellsOf_get?, (Dict.get?_eq_none_iff _ _).mpr hq.token.2]; rfl)
  refine ⟨this.1, fun h0 => this.2 h0 ?_⟩
  obtain ⟨k', hk'⟩ := (mixture_zero_iff hS hI E.get?).2 h0
  exact rowDensity_zero hS hI _ k' k hk'

/-- **C15.** The prior probabilities of the clusters of a new row, a fresh one included, sum to 1. -/
theorem C15_prior_normalised (hC : C.Lawful) (hR : Reachable X v) : mixture v (fun _ => 1) = 1 :=
  prior_sum (hR.inv hC)

/-- **C15.** The component types of the library are lawful and have fixed supports. -/
theorem C15_library (P : Prim → Prop) : (catOf P).Lawful ∧ FixedSupport (catOf P) :=
  ⟨catOf_lawful P, catOf_fixedSupport P⟩

/-- **C15.** A query with no row in the view is refused. -/
theorem C15_empty_view (hC : C.Lawful) (hR : Reachable X v) (hord : ord.Lists) (hs : Schema v z)
    (he : ∀ r, v.seat r = none) (hq : NewRowQuery v z rowid T E) :
    v.logpdf close X ord sim ω z rowid (cellsOf T) (cellsOf E) [] = .error .valueError := by
  have hI := hR.inv hC
  rw [ask_new hI hq (by rw [cellsOf_keys, cellsOf_keys]; exact hq.disjoint)]
  obtain ⟨net, hb, -⟩ := buildNetwork_ok hord (sim := sim) hI hs
  have h1 : (cellsOf E).has z = false := (Dict.has_false_iff _ _).mpr
    (by rw [cellsOf_get?, (Dict.get?_eq_none_iff _ _).mpr hq.token.2]; rfl)
  have h2 : (cellsOf T).get? z = none := by
    rw [cellsOf_get?, (Dict.get?_eq_none_iff _ _).mpr hq.token.1]; rfl
  have h3 : v.crp.counts = [] := by
    cases hc : v.crp.counts with
    | nil => rfl
    | cons p t =>
      have : p.1 ∈ v.crp.counts.keys := by rw [hc]; simp [Dict.keys]
      obtain ⟨r, hr⟩ := (Crp.occupied_iff hI.crp p.1).mp this
      have h4 : v.crp.data.get? r = none := he r
      rw [h4] at hr; cases hr
  unfold logpdfCore
  simp only [hb, h1, h2]
  have h5 : v.crp.gibbsTables none 1 = .error .valueError := by
    simp [Crp.gibbsTables, h3, Crp.singleton]
  simp only [Bool.false_eq_true, if_false, logpdfEnum, h5]

/-! ### C45 -/

/-- **C45** (one view). A query about a row of the view: refused if a target is also a constraint,
if the cluster is asked or given, or if a constraint contradicts an observed cell; otherwise the
answer is the density of the targets in the cluster of the row, given the constraints and the
observed cells of the row that are neither targets nor constraints, and nothing else. -/
theorem C45_view_row (hC : C.Lawful) (hR : Reachable X v) (hord : ord.Lists) (hs : Schema v z)
    {r : Row} (hq : OldRowQuery v z r T E) :
    ((∃ c ∈ T.keys, c ∈ E.keys) →
      v.logpdf close X ord sim ω z (some r) (cellsOf T) (cellsOf E) [] = .error .valueError) ∧
    (¬ Agrees close X v r E →
      v.logpdf close X ord sim ω z (some r) (cellsOf T) (cellsOf E) [] = .error .valueError) ∧
    ((∀ c ∈ T.keys, c ∉ E.keys) → Agrees close X v r E →
      InputsIn v (known X v r T E) →
      InputsIn v (fun c => (T.get? c).or (known X v r T E c)) →
      ∃ k, v.seat r = some k ∧
        (rowDensity v k (known X v r T E) ≠ 0 →
          ∃ a, v.logpdf close X ord sim ω z (some r) (cellsOf T) (cellsOf E) [] = .ok a ∧
            a ≠ .nan ∧ mass a = rowDensity v k (fun c => (T.get? c).or (known X v r T E c)) /
              rowDensity v k (known X v r T E)) ∧
        (rowDensity v k (known X v r T E) = 0 →
          v.logpdf close X ord sim ω z (some r) (cellsOf T) (cellsOf E) [] =
            .error .valueError)) := by
  have hI := hR.inv hC
  have hh := hyp_of_old hI hq.row.2
  refine ⟨?_, ?_, ?_⟩
  · rintro ⟨c, h1, h2⟩
    unfold View.logpdf
    rw [populate_overlap c (by rw [cellsOf_keys]; exact h1) (by rw [cellsOf_keys]; exact h2)]
  · intro h
    unfold View.logpdf
    rw [populate_disagree hh hq.evidence h]
  · intro hd ha hin1 hin2
    obtain ⟨D, k, h1, h2, h3⟩ := populate_old hI hs.token hq hd ha
    refine ⟨k, h2, ?_⟩
    have heq : v.logpdf close X ord sim ω z (some r) (cellsOf T) (cellsOf E) [] =
        v.logpdfCore ord sim ω z none (cellsOf T) D [] := by
      unfold View.logpdf
      rw [h1]
      simp only [hh, Bool.false_eq_true, if_false]
    rw [heq]
    refine core_given hord sim hI hs (fun r h => by cases h) ω (cellsOf_wf hq.targets)
      (fun c _ => cellsOf_get? T c) h3.wf h3.cell ?_ hin1 hin2 k h3.cluster
    intro c hc
    unfold known at hc
    split at hc
    · rename_i h; exact (Dict.get?_eq_none_iff _ _).mpr h.2.1
    · rw [Dict.get?_eq_none_iff]
      intro h
      exact hd c h (by
        by_contra h'
        exact hc ((Dict.get?_eq_none_iff _ _).mpr h'))

/-- **C45** (one view). For a row of the view, asking or giving the cluster is refused. -/
theorem C45_view_cluster (hC : C.Lawful) (hR : Reachable X v) {r : Row} (T E : Dict Nat (Val C))
    (hr : r < {r | v.seat r ≠ none}.ncard) (h : z ∈ T.keys ∨ z ∈ E.keys) :
    v.logpdf close X ord sim ω z (some r) T E [] = .error .valueError := by
  unfold View.logpdf
  rw [populate_token (hyp_of_old (hR.inv hC) hr) h]

/-- **C45.** For a new row, targets that are also constraints are refused. -/
theorem C45_view_overlap (T E : Dict Nat (Val C)) (c : Nat) (h1 : c ∈ T.keys) (h2 : c ∈ E.keys) :
    v.logpdf close X ord sim ω z rowid T E [] = .error .valueError := by
  unfold View.logpdf
  rw [populate_overlap c h1 h2]

/-! ### C16 (one view) -/

theorem inv_fast (hI : Inv X v) (hne : ∃ r, v.seat r ≠ none)
    (hq : NewRowQuery v z rowid T E)
    (hcol : ∀ c ∈ T.keys ++ E.keys, ∃ d, v.dims.get? c = some d ∧ d.inputs = []) :
    (mixture v (fun k => rowDensity v k E.get?) ≠ 0 → ∃ r, v.fastLogpdf rowid T E = .ok r ∧
      r ≠ .nan ∧ mass r = (mixture v fun k => rowDensity v k (both T E)) /
        mixture v (fun k => rowDensity v k E.get?)) ∧
    (mixture v (fun k => rowDensity v k E.get?) = 0 →
      v.fastLogpdf rowid T E = .error .valueError) := by
  have hb : ∀ k, rowDensity v k (both T E) = rowDensity v k T.get? * rowDensity v k E.get? := by
    intro k
    refine rowDensity_both hI k hq.disj ?_ hq.inputsE
    intro c d hd h i hi
    obtain ⟨d', hd', hi'⟩ := hcol c (List.mem_append_left _ (by
      by_contra h'; exact h ((Dict.get?_eq_none_iff _ _).mpr h')))
    rw [hd] at hd'; cases hd'
    rw [hi'] at hi; cases hi
  simp only [hb]
  exact fast_new hI hne (hyp_of_new hI hq.row).1 hq.targets hq.evidence
    (fun c hc => hcol c (List.mem_append_left _ hc))
    (fun c hc => hcol c (List.mem_append_right _ hc))

theorem inv_agree (hS : FixedSupport C) (hI : Inv X v) (hord : ord.Lists)
    (hs : Schema v z) (hne : ∃ r, v.seat r ≠ none) (hq : NewRowQuery v z rowid T E)
    (hcol : ∀ c ∈ T.keys ++ E.keys, ∃ d, v.dims.get? c = some d ∧ d.inputs = []) :
    v.fastLogpdf rowid T E =
      v.logpdf close X ord sim ω z rowid (cellsOf T) (cellsOf E) [] := by
  have h1 := inv_fast hI hne hq hcol
  have h2 := inv_density (close := close) (sim := sim) (ω := ω) hS hI hord hs hne hq
  by_cases h0 : mixture v (fun k => rowDensity v k E.get?) = 0
  · rw [h1.2 h0, h2.2 h0]
  · obtain ⟨a, a1, a2, a3⟩ := h1.1 h0
    obtain ⟨b, b1, b2, b3⟩ := h2.1 h0
    rw [a1, b1, C35_mass_determines a b a2 b2 (a3.trans b3.symm)]

/-- **C16** (one view). For a new row, and columns of the view without inputs, the direct computation
gives the mixture density of the targets and constraints divided by that of the constraints, and
refuses constraints of density zero. -/
theorem C16_fast (hC : C.Lawful) (hR : Reachable X v) (hne : ∃ r, v.seat r ≠ none)
    (hq : NewRowQuery v z rowid T E)
    (hcol : ∀ c ∈ T.keys ++ E.keys, ∃ d, v.dims.get? c = some d ∧ d.inputs = []) :
    (mixture v (fun k => rowDensity v k E.get?) ≠ 0 → ∃ r, v.fastLogpdf rowid T E = .ok r ∧
      r ≠ .nan ∧ mass r = (mixture v fun k => rowDensity v k (both T E)) /
        mixture v (fun k => rowDensity v k E.get?)) ∧
    (mixture v (fun k => rowDensity v k E.get?) = 0 →
      v.fastLogpdf rowid T E = .error .valueError) :=
  inv_fast (hR.inv hC) hne hq hcol

/-- **C16** (one view). For a new row, and columns of the view without inputs, the direct
computation and the query through the network give the same answer, or the same refusal. -/
theorem C16_agree (hC : C.Lawful) (hS : FixedSupport C) (hR : Reachable X v) (hord : ord.Lists)
    (hs : Schema v z) (hne : ∃ r, v.seat r ≠ none) (hq : NewRowQuery v z rowid T E)
    (hcol : ∀ c ∈ T.keys ++ E.keys, ∃ d, v.dims.get? c = some d ∧ d.inputs = []) :
    v.fastLogpdf rowid T E =
      v.logpdf close X ord sim ω z rowid (cellsOf T) (cellsOf E) [] :=
  inv_agree hS (hR.inv hC) hord hs hne hq hcol

/-- **C16** (one view). For a row of the view the direct computation gives the density of the
targets in the row's cluster.  So does the query through the network without constraints
(`C45_view_row`) as long as the observed cells of the row have positive density. -/
theorem C16_fast_row (hC : C.Lawful) (hR : Reachable X v) (hord : ord.Lists) (hs : Schema v z)
    {r : Row} (hq : OldRowQuery v z r T [])
    (hcol : ∀ d, ∀ c ∈ v.dims.keys, v.dims.get? c = some d → d.inputs = [])
    (hT : ∀ c ∈ T.keys, c ∈ v.dims.keys)
    (hpos : ∀ k, v.seat r = some k → rowDensity v k (known X v r T []) ≠ 0) :
    ∃ k a, v.seat r = some k ∧ v.fastLogpdf (some r) T [] = .ok a ∧ a ≠ .nan ∧
      mass a = rowDensity v k T.get? ∧
      v.logpdf close X ord sim ω z (some r) (cellsOf T) [] [] = .ok a := by
  have hI := hR.inv hC
  have hin : ∀ D : Col → Option C.Cell, InputsIn v D := by
    intro D c d hd _ i hi
    rw [hcol d c (Dict.mem_keys_of_get? hd) hd] at hi; cases hi
  obtain ⟨k, hk, hp, -⟩ := (C45_view_row (close := close) (ord := ord) (sim := sim) (ω := ω) hC hR
    hord hs hq).2.2 (by simp [Dict.keys]) (by intro c x hx; simp [Dict.get?] at hx) (hin _) (hin _)
  obtain ⟨b, b1, b2, b3⟩ := hp (hpos k hk)
  have hpl : Plain v T := by
    intro c hc
    obtain ⟨d, hd⟩ := Dict.exists_of_mem_keys (hT c hc)
    exact ⟨d, hd, hcol d c (hT c hc) hd⟩
  obtain ⟨w, w1, w2⟩ := logpdfRow_ok hI k hq.targets hpl
  have hf : v.fastLogpdf (some r) T [] = .ok (Fl.ofLogP w) := by
    unfold fastLogpdf
    simp only [hyp_of_old hI hq.row.2, hk, w1, Except.map]
  refine ⟨k, Fl.ofLogP w, hk, hf, (ofLogP_props w).1, w2, ?_⟩
  have hfac : rowDensity v k (fun c => (T.get? c).or (known X v r T [] c)) =
      rowDensity v k T.get? * rowDensity v k (known X v r T []) := by
    refine rowDensity_both hI k ?_ (fun c d hd h => hin _ c d hd h) (hin _)
    intro c hc
    unfold known at hc
    split at hc
    · rename_i h; exact (Dict.get?_eq_none_iff _ _).mpr h.2.1
    · exact absurd rfl hc
  rw [hfac, ENNReal.mul_div_cancel_right (hpos k hk) (rowDensity_fin v k _)] at b3
  rw [C35_mass_determines _ b (ofLogP_props w).1 b2 (w2.trans b3.symm)]
  exact b1

/-- **C16** (one view), where the two disagree. The direct computation raises KeyError on a column
that the view does not have. -/
theorem C16_fast_unknown (hI : ∃ r, v.seat r ≠ none) (hC : C.Lawful) (hR : Reachable X v)
    (hrow : ∀ r, rowid = some r → v.seat r = none ∧ {r | v.seat r ≠ none}.ncard ≤ r)
    (c : Col) (x : C.Cell) (hc : c ∉ v.dims.keys) :
    v.fastLogpdf rowid [(c, x)] [] = .error .keyError := by
  have hInv := hR.inv hC
  obtain ⟨K, fresh, hK, -, -, -⟩ := tables_ok hInv hI
  have hh := (hyp_of_new hInv hrow).1
  have hn : v.dims.get? c = none := (Dict.get?_eq_none_iff _ _).mpr hc
  have h1 : ∀ k, v.logpdfRow [] k = .ok 0 := fun k => rfl
  have h2 : ∀ k, v.logpdfRow [(c, x)] k = .error .keyError := fun k => by
    simp only [logpdfRow, List.foldl_cons, List.foldl_nil, hn]
  obtain ⟨lc, c1, c2⟩ := collect_forall₂ (f := v.logpdfRow []) (P := fun _ w => w = 0)
    (l := K ++ [fresh]) (fun k _ => ⟨0, h1 k, rfl⟩)
  have hnb : (lc.all fun w => w == (⊥ : LogP)) = false := by
    rw [List.all_eq_false]
    have hlen := c2.length_eq
    cases lc with
    | nil => simp at hlen
    | cons w t =>
      refine ⟨w, by simp, ?_⟩
      have : w = 0 := by
        have := (List.forall₂_iff_get.mp c2).2 0 (by rw [hlen]; simp) (by simp)
        simpa using this
      rw [this]; simp
  have h3 : collect (v.logpdfRow [(c, x)]) (K ++ [fresh]) = .error .keyError := by
    cases hl : K ++ [fresh] with
    | nil => simp at hl
    | cons k t => simp only [collect, h2]
  obtain ⟨r, r1, -⟩ := C35_logsumexp (List.zipWith Fl.add (((K ++ [fresh]).map fun k =>
      Crp.calcPredictiveLogp k v.crp.data.length v.crp.counts v.crp.alpha).map Fl.fin)
      (lc.map Fl.ofLogP))
    (by
      have := zip_prior hInv (ρ := fun _ => 1) (c2.imp fun k w h => by
        rw [h]; exact mass_ofLogP_zero)
      intro h
      obtain ⟨i, hi, e⟩ := List.getElem_of_mem h
      have h' := ((List.forall₂_iff_get.mp this).2 i (by rw [this.length_eq]; exact hi) hi).1
      exact h'.1 e)
    (by
      have := zip_prior hInv (ρ := fun _ => 1) (c2.imp fun k w h => by
        rw [h]; exact mass_ofLogP_zero)
      rintro ⟨h, -⟩
      obtain ⟨i, hi, e⟩ := List.getElem_of_mem h
      have h' := ((List.forall₂_iff_get.mp this).2 i (by rw [this.length_eq]; exact hi) hi).1
      exact h'.2 e)
  unfold fastLogpdf
  rw [hh]
  cases rowid <;>
    simp only [hK, c1, hnb, Bool.false_eq_true, if_false, logNormalize, r1, Except.map, h3]

end

/-! ### C17 -/

/-- **C17.** For a discrete column without inputs, any constraints of positive density, and a new
row: the exponentiated densities returned for the possible values of the column sum to 1.  (The
support is finite for bernoulli and categorical columns, countable for geometric and poisson.) -/
theorem C17_normalised {P : Prim → Prop} {close : ℝ → ℝ → Bool} {ord : PyOrder}
    {sim : Simulator (catOf P) Ω} {z : Nat} {v : View (catOf P)} {X : (catOf P).Tbl}
    {rowid : Option Row} {E : Dict Col (catOf P).Cell}
    (hR : Reachable X v) (hord : ord.Lists) (hs : Schema v z) (hne : ∃ r, v.seat r ≠ none)
    {c : Col} {d : Dim (catOf P)} (hd : v.dims.get? c = some d) (hi : d.inputs = [])
    (hp : discrete d.kind.1)
    (hq : ∀ x : ℝ, NewRowQuery v z rowid [(c, some x)] E)
    (hE : mixture v (fun k => rowDensity v k E.get?) ≠ 0)
    (ω : ℝ → Draws Ω) (r : ℝ → Fl)
    (hr : ∀ x, support d.kind.1 x →
      v.logpdf close X ord sim (ω x) z rowid (cellsOf [(c, some x)]) (cellsOf E) [] = .ok (r x)) :
    ∑' x : {x : ℝ // support d.kind.1 x}, mass (r x) = 1 := by
  have hC := catOf_lawful P
  have hI := hR.inv hC
  have hval : ∀ x, support d.kind.1 x → mass (r x) =
      (mixture v fun k => cellDensity d k (some x) [] * rowDensity v k E.get?) *
        (mixture v (fun k => rowDensity v k E.get?))⁻¹ := by
    intro x hx
    obtain ⟨a, a1, a2, a3⟩ := (C15_density (close := close) (sim := sim) (ω := ω x) hC
      (catOf_fixedSupport P) hR hord hs hne (hq x)).1 hE
    rw [hr x hx] at a1
    cases a1
    rw [a3, div_eq_mul_inv]
    congr 2
    funext k
    have hb := rowDensity_both hI k (T := Dict.get? [(c, some x)]) (E := E.get?) (hq x).disj
      (fun c' d' hd' h i hi' => by
        by_cases e : c = c'
        · subst e; rw [hd] at hd'; cases hd'; rw [hi] at hi'; cases hi'
        · simp [Dict.get?, e] at h) (hq x).inputsE
    refine Eq.trans hb ?_
    congr 1
    refine Eq.trans (rowDensity_plain hI k (by simp [Dict.WF, Dict.keys]) (fun c' hc' => by
      simp only [Dict.keys, List.map_cons, List.map_nil, List.mem_singleton] at hc'
      subst hc'; exact ⟨d, hd, hi⟩)) ?_
    simp [hd]
  refine (tsum_congr fun x : {x : ℝ // support d.kind.1 x} => hval x.1 x.2).trans ?_
  rw [ENNReal.tsum_mul_right]
  have hsum : ∑' x : {x : ℝ // support d.kind.1 x},
      (mixture v fun k => cellDensity d k (some x.1) [] * rowDensity v k E.get?) =
      mixture v fun k => rowDensity v k E.get? := by
    unfold mixture
    rw [ENNReal.tsum_add, Summable.tsum_finsetSum fun _ _ => ENNReal.summable]
    simp only [ENNReal.tsum_mul_left, ENNReal.tsum_mul_right, cell_tsum hI hd hi hp, one_mul]
  rw [hsum, ENNReal.mul_inv_cancel hE (mixture_top v _)]

theorem inv_refusal {P : Prim → Prop} {v : View (catOf P)} {X : (catOf P).Tbl}
    (hI : Inv X v) (D : Col → Option (catOf P).Cell) :
    mixture v (fun k => rowDensity v k D) = 0 ↔
      ∃ c d, ∃ x : ℝ, v.dims.get? c = some d ∧ D c = some (some x) ∧
        (∀ i ∈ d.inputs, ∃ y : ℝ, D i = some (some y)) ∧ ¬ support d.kind.1 x := by
  have hany : ∀ d : Dim (catOf P),
      (d.inputs.map fun i => (D i).getD none).any Option.isNone = false ↔
      ∀ i ∈ d.inputs, ∃ y : ℝ, D i = some (some y) := by
    intro d
    rw [List.any_eq_false]
    simp only [List.mem_map, forall_exists_index, and_imp, forall_apply_eq_imp_iff₂]
    refine forall₂_congr fun i _ => ?_
    cases hD : D i with
    | none => simp
    | some y =>
      cases y with
      | none => exact ⟨fun h => absurd rfl h, fun ⟨y, hy⟩ => by cases hy⟩
      | some y => exact ⟨fun _ => ⟨y, rfl⟩, fun _ h => by cases h⟩
  have hone : ∀ k, rowDensity v k D = 0 ↔ ∃ c d, ∃ x : ℝ, v.dims.get? c = some d ∧
      D c = some (some x) ∧ (∀ i ∈ d.inputs, ∃ y : ℝ, D i = some (some y)) ∧
        ¬ support d.kind.1 x := by
    intro k
    unfold rowDensity
    rw [List.prod_eq_zero_iff, List.mem_map]
    constructor
    · rintro ⟨⟨c, d⟩, hm, h0⟩
      have hd := Dict.get?_of_mem hI.wf hm
      simp only at h0
      cases hD : D c with
      | none => rw [hD] at h0; exact absurd h0 one_ne_zero
      | some x =>
        rw [hD] at h0
        simp only at h0
        cases x with
        | none => exact absurd h0 (by unfold cellDensity; exact one_ne_zero)
        | some x =>
          by_cases ha : (d.inputs.map fun i => (D i).getD none).any Option.isNone = false
          · exact ⟨c, d, x, hd, hD, (hany d).mp ha,
              fun hs => (cell_pos_iff hI hd k x _ ha).mpr hs h0⟩
          · refine absurd h0 ?_
            unfold cellDensity
            rw [Bool.not_eq_false] at ha
            rw [ha]
            exact one_ne_zero
    · rintro ⟨c, d, x, hd, hD, hin, hs⟩
      refine ⟨(c, d), Dict.mem_of_get? hd, ?_⟩
      simp only [hD]
      by_contra h0
      exact hs ((cell_pos_iff hI hd k x _ ((hany d).mpr hin)).mp h0)
  constructor
  · intro h
    obtain ⟨k, hk⟩ := (mixture_zero_iff (catOf_fixedSupport P) hI D).2 h
    exact (hone k).mp hk
  · intro h
    by_contra h0
    exact (mixture_zero_iff (catOf_fixedSupport P) hI D).1 h0 0 ((hone 0).mpr h)

/-- **C15.** For the library, constraints have density zero exactly when one of them gives a column
of the view a value outside the support of the column's type (and gives its inputs). -/
theorem C15_refusal {P : Prim → Prop} {v : View (catOf P)} {X : (catOf P).Tbl}
    (hR : Reachable X v) (D : Col → Option (catOf P).Cell) :
    mixture v (fun k => rowDensity v k D) = 0 ↔
      ∃ c d, ∃ x : ℝ, v.dims.get? c = some d ∧ D c = some (some x) ∧
        (∀ i ∈ d.inputs, ∃ y : ℝ, D i = some (some y)) ∧ ¬ support d.kind.1 x :=
  inv_refusal (hR.inv (catOf_lawful P)) D

/-! The hypotheses are met by the demonstration view: a query for column 0, constraints on column 0
(of positive and of zero density), a query about row 1. -/

/-- A query about a new row, without row identifier and with one. -/
example : ∃ v : View libCat, Reachable onesTbl v ∧ idOrder.Lists ∧ Schema v 9 ∧
    (∃ r, v.seat r ≠ none) ∧ NewRowQuery v 9 none [(0, some (1 : ℝ))] [] ∧
    NewRowQuery v 9 (some 2) [] [(0, some (1 : ℝ))] ∧
    mixture v (fun k => rowDensity v k (Dict.get? [(0, some (1 : ℝ))])) ≠ 0 ∧
    mixture v (fun k => rowDensity v k (Dict.get? [(0, some (7 : ℝ))])) = 0 ∧
    (∃ d, v.dims.get? 0 = some d ∧ d.inputs = [] ∧ discrete d.kind.1 ∧
      ∀ x : ℝ, NewRowQuery v 9 none [(0, some x)] []) := by
  obtain ⟨v, hR, h1, hk, hs⟩ := demo_view
  obtain ⟨d, hd⟩ := Dict.exists_of_mem_keys ((hk 0).mpr rfl)
  have hd' := h1 0 d hd
  have hnew : ∀ x : ℝ, NewRowQuery v 9 none [(0, some x)] [] := fun x =>
    ⟨(fun r h => by cases h), by simp [Dict.keys], by simp [Dict.keys], by simp [Dict.keys],
      by simp [Dict.keys], demo_inputs h1 _, demo_inputs h1 _⟩
  refine ⟨v, hR, idOrder_lists, demo_schema h1 hk, ⟨0, by rw [hs]; simp⟩, hnew 1,
    ⟨?_, by simp [Dict.keys], by simp [Dict.keys], by simp [Dict.keys],
      by simp [Dict.keys], demo_inputs h1 _, demo_inputs h1 _⟩, ?_, ?_,
    d, hd, hd'.2.2.2, by rw [hd'.2.2.1]; trivial, hnew⟩
  · rintro r h
    cases h
    refine ⟨by rw [hs]; simp, by rw [demo_rows hs]⟩
  · rw [ne_eq, C15_refusal hR]
    rintro ⟨c, d', x, hd', hx, -, hn⟩
    obtain ⟨rfl, -, e, -⟩ := h1 c d' hd'
    have : x = 1 := by cases hx; rfl
    rw [e] at hn
    exact hn (by simp [this, support])
  · rw [C15_refusal hR]
    refine ⟨0, d, 7, hd, rfl, by rw [hd'.2.2.2]; simp, ?_⟩
    rw [hd'.2.2.1]
    simp [support]

/-- A query about a row of the view; a constraint that contradicts the row and one that does not. -/
example : ∃ v : View libCat, Reachable onesTbl v ∧ Schema v 9 ∧
    OldRowQuery v 9 1 [] [(0, some (1 : ℝ))] ∧
    Agrees (fun a b => decide ((a : ℝ) = b)) onesTbl v 1 [(0, some (1 : ℝ))] ∧
    ¬ Agrees (fun a b => decide ((a : ℝ) = b)) onesTbl v 1 [(0, some (0 : ℝ))] ∧
    InputsIn v (known onesTbl v 1 [] [(0, some (1 : ℝ))]) ∧
    OldRowQuery v 9 1 [(0, some (1 : ℝ))] [] ∧
    (∀ d, ∀ c ∈ v.dims.keys, v.dims.get? c = some d → d.inputs = []) ∧
    (∀ k, v.seat 1 = some k →
      rowDensity v k (known onesTbl v 1 [(0, some (1 : ℝ))] []) ≠ 0) := by
  obtain ⟨v, hR, h1, hk, hs⟩ := demo_view
  refine ⟨v, hR, demo_schema h1 hk, demo_old hs _ _ (by simp [Dict.keys]) (by simp [Dict.keys])
    (by simp [Dict.keys]), ?_, ?_, demo_inputs h1 _, demo_old hs _ _ (by simp [Dict.keys])
    (by simp [Dict.keys]) (by simp [Dict.keys]), fun d c _ hd => (h1 c d hd).2.2.2, ?_⟩
  · intro c x hx _ y hy
    simp only [Dict.get?] at hx
    split at hx
    · cases hx; cases hy; exact ⟨(1 : ℝ), rfl, by simp⟩
    · cases hx
  · intro h
    obtain ⟨w, hw, hc⟩ := h 0 (some (0 : ℝ)) rfl ((hk 0).mpr rfl) (1 : ℝ) rfl
    cases hw
    simp at hc
  · intro k _
    have : known onesTbl v 1 [(0, some (1 : ℝ))] [] = fun _ => none := by
      funext c
      unfold known
      rw [if_neg]
      · rfl
      · rintro ⟨h0, hn, -⟩
        rw [hk] at h0
        exact hn (by simp [h0, Dict.keys])
    rw [this, rowDensity_empty]
    exact one_ne_zero

end Cgpm.Props
