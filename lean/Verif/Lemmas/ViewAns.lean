import Verif.Lemmas.ViewFixed

/-! The answers of `View.logpdf` and of the direct computation. -/
namespace Cgpm.Props
open Cgpm Cgpm.View Cgpm.Net

variable {C : Cat} {Ω : Type}

theorem rows_ncard {X : C.Tbl} {v : View C} (hI : Inv X v) :
    {r | v.seat r ≠ none}.ncard = v.crp.data.length := by
  have := (consistent_of hI).total
  rw [hI.crp.hN] at this
  exact_mod_cast this.symm

theorem prior_sum {X : C.Tbl} {v : View C} (hI : Inv X v) : mixture v (fun _ => 1) = 1 := by
  unfold mixture
  simp only [mul_one]
  have hpr : ∀ k, prior v k = ENNReal.ofReal (wt v.crp k / (v.crp.N + v.crp.alpha)) := by
    intro k
    rw [← prior_eq hI]
    change ENNReal.ofReal (Real.exp _) = _
    rw [pr_predictive hI.crp hI.alpha]
  have hd := denom_pos hI.crp hI.alpha
  have hocc : occupied v = v.crp.counts.keys.toFinset := by
    ext k; rw [mem_occupied hI, List.mem_toFinset]
  have hf : wt v.crp (freshTab v) = v.crp.alpha := by
    have : v.crp.counts.get? (freshTab v) = none := by
      rw [Dict.get?_eq_none_iff, ← mem_occupied hI]; exact freshTab_not_mem v
    simp [wt, this]
  simp only [hpr]
  rw [← ENNReal.ofReal_sum_of_nonneg fun k _ => div_nonneg (wt_pos hI.crp hI.alpha k).le hd.le,
    hf, ← ENNReal.ofReal_add (Finset.sum_nonneg fun k _ =>
      div_nonneg (wt_pos hI.crp hI.alpha k).le hd.le) (div_nonneg hI.alpha.le hd.le),
    ← Finset.sum_div, hocc, List.sum_toFinset _ hI.crp.wfCounts, sum_occupied hI.crp, ← add_div,
    div_self hd.ne', ENNReal.ofReal_one]

theorem rowDensity_empty (v : View C) (k : Tab) : rowDensity v k (fun _ => none) = 1 := by
  unfold rowDensity
  exact List.prod_eq_one fun x hx => by
    obtain ⟨p, -, rfl⟩ := List.mem_map.mp hx; rfl

theorem mixture_top (v : View C) (D : Col → Option C.Cell) :
    mixture v (fun k => rowDensity v k D) ≠ ⊤ := by
  unfold mixture
  refine ENNReal.add_ne_top.mpr ⟨?_, ENNReal.mul_ne_top (prior_fin v _) (rowDensity_fin v _ D)⟩
  exact ENNReal.sum_ne_top.mpr fun k _ => ENNReal.mul_ne_top (prior_fin v _) (rowDensity_fin v _ D)

theorem mass_fin_of {r : Fl} (h1 : r ≠ .nan) (h0 : mass r ≠ 0) (ht : mass r ≠ ⊤) :
    ∃ x, r = .fin x := by
  cases r with
  | nan => exact absurd rfl h1
  | ninf => exact absurd rfl h0
  | fin x => exact ⟨x, rfl⟩
  | pinf => exact absurd rfl ht

section
variable {ord : PyOrder} (hord : ord.Lists) (sim : Simulator C Ω) {z : Nat}
  {v : View C} {X : C.Tbl} (hI : Inv X v) (hs : Schema v z)
  {rowid : Option Row} (hr : NewRow v rowid) (ω : Draws Ω)
  {T E : Dict Nat (Val C)} {T' E' : Col → Option C.Cell}
  (hTw : T.WF) (hT : ∀ c, c ≠ z → T.get? c = (T' c).map .cell)
  (hEw : E.WF) (hE : ∀ c, c ≠ z → E.get? c = (E' c).map .cell)
  (hdisj : ∀ c, E' c ≠ none → T' c = none)
  (hinE : InputsIn v E') (hinJ : InputsIn v fun c => (T' c).or (E' c))

include hord hI hs hr hTw hT hEw hE hdisj hinE hinJ

/-- Neither targets nor constraints mention the cluster. -/
theorem core_enum (hne : ∃ r, v.seat r ≠ none) (hTz : T.get? z = none) (hEz : E.get? z = none) :
    ((∀ k, rowDensity v k E' ≠ 0) → ∃ r, v.logpdfCore ord sim ω z rowid T E [] = .ok r ∧
      r ≠ .nan ∧ mass r = (mixture v fun k => rowDensity v k fun c => (T' c).or (E' c)) /
        mixture v (fun k => rowDensity v k E')) ∧
    ((∃ k, rowDensity v k E' = 0) →
      v.logpdfCore ord sim ω z rowid T E [] = .error .valueError) := by
  obtain ⟨net, hb, hacc⟩ := buildNetwork_ok hord (sim := sim) hI hs
  have hc := logpdfEnum_cases hord hI hs hb hacc hne hr ω hTw hT hEw hE hdisj hinE hinJ
  have heq : v.logpdfCore ord sim ω z rowid T E [] = logpdfEnum ord ω v z net rowid T E [] := by
    have : E.has z = false := by simp [Dict.has, hEz]
    unfold logpdfCore
    simp only [hb, this, hTz]
    rfl
  rw [heq]
  refine ⟨fun h => ?_, hc.2⟩
  obtain ⟨r, r1, r2, -, r4, r5, r6⟩ := hc.1 h
  exact ⟨r, r1, r2, (ENNReal.eq_div_iff r4 r5).mpr (by rw [mul_comm]; exact r6)⟩

/-- The constraints give the cluster. -/
theorem core_given (k : Tab) (hEz : E.get? z = some (.tab k)) :
    (rowDensity v k E' ≠ 0 → ∃ r, v.logpdfCore ord sim ω z rowid T E [] = .ok r ∧ r ≠ .nan ∧
      mass r = rowDensity v k (fun c => (T' c).or (E' c)) / rowDensity v k E') ∧
    (rowDensity v k E' = 0 → v.logpdfCore ord sim ω z rowid T E [] = .error .valueError) := by
  obtain ⟨net, hb, hacc⟩ := buildNetwork_ok hord (sim := sim) hI hs
  have hD : Holds z k E' E := ⟨hEw, hEz, hE⟩
  have hJ := holds_joint hTw hT hdisj hD
  have hc := netLogpdf_cond hord hI hs hb hacc hr hD hinE ω 0 hJ hinJ
  have heq : v.logpdfCore ord sim ω z rowid T E [] = netLogpdf ord ω 0 rowid net T E [] := by
    have : E.has z = true := by simp [Dict.has, hEz]
    unfold logpdfCore
    simp only [hb, this, if_true]
  rw [heq]
  refine ⟨fun h => ?_, hc.2⟩
  obtain ⟨r, r1, r2, -, r4⟩ := hc.1 h
  exact ⟨r, r1, r2, (ENNReal.eq_div_iff h (rowDensity_fin v k E')).mpr (by rw [mul_comm]; exact r4)⟩

/-- The targets ask for the cluster. -/
theorem core_target (hne : ∃ r, v.seat r ≠ none) (k : Tab) (hTz : T.get? z = some (.tab k))
    (hEz : E.get? z = none) :
    (mixture v (fun k => rowDensity v k E') ≠ 0 →
      ∃ r, v.logpdfCore ord sim ω z rowid T E [] = .ok r ∧ r ≠ .nan ∧
      mass r = prior v k * rowDensity v k (fun c => (T' c).or (E' c)) /
        mixture v (fun k => rowDensity v k E')) ∧
    (mixture v (fun k => rowDensity v k E') = 0 → rowDensity v k E' = 0 →
      v.logpdfCore ord sim ω z rowid T E [] = .ok .nan) := by
  obtain ⟨net, hb, hacc⟩ := buildNetwork_ok hord (sim := sim) hI hs
  have hTE : ∀ c, E.get? c ≠ none → T.get? c = none := by
    intro c hc
    have hcz : c ≠ z := by rintro rfl; exact hc hEz
    rw [hT c hcz, hdisj c (fun h => hc (by rw [hE c hcz, h]; rfl))]; rfl
  -- the cluster
  have hD : Holds z k (fun _ => (none : Option C.Cell)) [(z, .tab k)] :=
    ⟨by simp [Dict.WF, Dict.keys], by simp [Dict.get?], fun c hc => by
      simp [Dict.get?, Ne.symm hc]⟩
  have hin0 : InputsIn v fun _ => (none : Option C.Cell) := by
    intro c d _ h; exact absurd rfl h
  obtain ⟨a, a1, a2, a3, a4⟩ := netLogpdf_marginal hord hI hs hb hacc hr hD hin0 ω 0
  rw [rowDensity_empty, mul_one] at a4
  -- the numerator
  have hNw : ((T.erase z).update E).WF := Dict.wf_update (Dict.wf_erase hTw z) _
  have hNc : ∀ c, c ≠ z → ((T.erase z).update E).get? c = ((T' c).or (E' c)).map .cell := by
    intro c hc
    rw [Dict.get?_update _ _ hEw, hE c hc, Dict.get?_erase_ne _ hc, hT c hc]
    cases h : E' c with
    | none => simp
    | some x => rw [hdisj c (by simp [h])]; simp
  obtain ⟨b, b1, b2, b3, b4⟩ : ∃ b, (if ((T.erase z).update E).isEmpty then .ok (Fl.fin 0)
      else netLogpdf ord ω 1 rowid net ((T.erase z).update E) [(z, .tab k)] []) = .ok b ∧
      b ≠ .nan ∧ b ≠ .pinf ∧ mass b = rowDensity v k (fun c => (T' c).or (E' c)) := by
    by_cases hem : ((T.erase z).update E).isEmpty = true
    · refine ⟨.fin 0, by rw [if_pos hem], by simp, by simp, ?_⟩
      rw [List.isEmpty_iff] at hem
      have : rowDensity v k (fun c => (T' c).or (E' c)) = 1 := by
        rw [← rowDensity_empty v k]
        unfold rowDensity
        congr 1
        refine List.map_congr_left fun p hp => ?_
        have hpz : p.1 ≠ z := fun e => hs.token (e ▸ List.mem_map.mpr ⟨p, hp, rfl⟩)
        have := hNc p.1 hpz
        rw [hem] at this
        have h0 : (T' p.1).or (E' p.1) = none := by
          cases h : (T' p.1).or (E' p.1) with
          | none => rfl
          | some x => rw [h] at this; simp [Dict.get?] at this
        simp only [h0]
      rw [this]; simp [mass]
    · rw [if_neg hem]
      have hJ := holds_joint (T := (T.erase z).update E) (T' := fun c => (T' c).or (E' c)) hNw
        hNc (by intro c h; exact absurd rfl h) hD
      have := (netLogpdf_cond hord hI hs hb hacc hr hD hin0 ω 1 hJ
        (by simpa only [Option.or_none] using hinJ)).1 (by rw [rowDensity_empty]; exact one_ne_zero)
      obtain ⟨b, b1, b2, b3, b4⟩ := this
      rw [rowDensity_empty, mul_one] at b4
      refine ⟨b, b1, b2, b3, ?_⟩
      rw [b4]; congr 1; funext c; simp
  -- the denominator
  obtain ⟨d, d1, d2, d3, d4⟩ : ∃ d, (if E.isEmpty then .ok (Fl.fin 0)
      else logpdfEnum ord (fun n => ω (n + 4)) v z net rowid E [] []) = .ok d ∧
      d ≠ .nan ∧ d ≠ .pinf ∧ mass d = mixture v (fun k => rowDensity v k E') := by
    by_cases hem : E.isEmpty = true
    · refine ⟨.fin 0, by rw [if_pos hem], by simp, by simp, ?_⟩
      rw [List.isEmpty_iff] at hem
      have : ∀ k, rowDensity v k E' = 1 := by
        intro k
        rw [← rowDensity_empty v k]
        unfold rowDensity
        congr 1
        refine List.map_congr_left fun p hp => ?_
        have hpz : p.1 ≠ z := fun e => hs.token (e ▸ List.mem_map.mpr ⟨p, hp, rfl⟩)
        have := hE p.1 hpz
        rw [hem] at this
        have h0 : E' p.1 = none := by
          cases h : E' p.1 with
          | none => rfl
          | some x => rw [h] at this; simp [Dict.get?] at this
        rw [h0]
      simp only [this, prior_sum hI]; simp [mass]
    · rw [if_neg hem]
      obtain ⟨d, d1, d2, d3, -, -, d6⟩ := (logpdfEnum_cases hord hI hs hb hacc hne hr
        (fun n => ω (n + 4)) (T := E) (E := []) (T' := E') (E' := fun _ => none) hEw hE Dict.wf_nil
        (fun c _ => rfl) (by intro c h; exact absurd rfl h) hin0
        (by simpa only [Option.or_none] using hinE)).1
        (fun k => by rw [rowDensity_empty]; exact one_ne_zero)
      refine ⟨d, d1, d2, d3, ?_⟩
      simp only [rowDensity_empty, prior_sum hI, mul_one, Option.or_none] at d6
      exact d6
  have heq : v.logpdfCore ord sim ω z rowid T E [] = .ok ((a.add b).sub d) := by
    have : E.has z = false := by simp [Dict.has, hEz]
    unfold logpdfCore
    simp only [hb, this, hTz, a1]
    rw [b1]
    simp only []
    rw [d1]
    rfl
  rw [heq]
  obtain ⟨m1, m2, m3⟩ := mass_add a2 b2 a3 b3
  constructor
  · intro h0
    obtain ⟨x, rfl⟩ := mass_fin_of d2 (d4 ▸ h0) (d4 ▸ mixture_top v E')
    obtain ⟨s1, s2⟩ := mass_sub_fin x m2
    refine ⟨_, rfl, s2, (ENNReal.eq_div_iff h0 (mixture_top v E')).mpr ?_⟩
    rw [← d4, ← a4, ← b4, ← m1, ← s1, mul_comm]; rfl
  · intro h0 hk0
    have hJ0 : rowDensity v k (fun c => (T' c).or (E' c)) = 0 := by
      unfold rowDensity at hk0 ⊢
      rw [List.prod_eq_zero_iff] at hk0 ⊢
      obtain ⟨p, hp, e⟩ := List.mem_map.mp hk0
      refine List.mem_map.mpr ⟨p, hp, ?_⟩
      split at e
      · exact absurd e one_ne_zero
      · rename_i x hx
        simp only [hdisj p.1 (by simp [hx]), hx, Option.none_or]
        rw [← e]
        congr 1
        refine List.map_congr_left fun i hi => ?_
        have hi' : E' i ≠ none := hinE p.1 p.2 (Dict.get?_of_mem hI.wf hp) (by simp [hx]) i hi
        rw [hdisj i hi', Option.none_or]
    rw [hJ0] at b4
    rw [h0] at d4
    have hb' : b = .ninf := by
      cases b with
      | nan => exact absurd rfl b2
      | ninf => rfl
      | fin x => exact absurd b4 (ENNReal.ofReal_pos.mpr (Real.exp_pos x)).ne'
      | pinf => exact absurd rfl b3
    have hd' : d = .ninf := by
      cases d with
      | nan => exact absurd rfl d2
      | ninf => rfl
      | fin x => exact absurd d4 (ENNReal.ofReal_pos.mpr (Real.exp_pos x)).ne'
      | pinf => exact absurd rfl d3
    subst hb'; subst hd'
    cases a with
    | nan => exact absurd rfl a2
    | pinf => exact absurd rfl a3
    | ninf => rfl
    | fin x => rfl
end

end Cgpm.Props
