import Verif.Lemmas.NetDrawsMany
import Verif.Props.Network

/-! The law of `logpdf` of a network. -/
namespace Cgpm.Net
open Cgpm MeasureTheory Classical Cgpm.Props
open scoped ENNReal
variable {R Ω : Type}

theorem mass_ofLogP (w : LogP) : mass (Fl.ofLogP w) = ENNReal.ofReal (pr w) := (isLog_ofLogP w).1.2

theorem mean_mass {l : List LogP} (h : l ≠ []) : ∃ r, logmeanexp (l.map Fl.ofLogP) = .ok r ∧
    r ≠ .nan ∧ mass r = (l.map fun w => ENNReal.ofReal (pr w)).sum / l.length := by
  obtain ⟨r, h1, h2, -, h3⟩ := C35_logmeanexp (l.map Fl.ofLogP) (by
    intro h
    obtain ⟨w, -, hw⟩ := List.mem_map.mp h
    exact (ofLogP_props _).1 hw)
  refine ⟨r, h1, h2, ?_⟩
  rw [h3 (by simpa using h), total, List.map_map, List.length_map]
  simp only [Function.comp_def, mass_ofLogP]

theorem mass_sub_div {a b : Fl} (ha : a ≠ .nan) (hb : b ≠ .nan) (h0 : mass b ≠ 0)
    (ht : mass b ≠ ⊤) : mass (a.sub b) = mass a / mass b := by
  cases b with
  | nan => exact absurd rfl hb
  | ninf => exact absurd rfl h0
  | pinf => exact absurd rfl ht
  | fin x =>
    obtain ⟨k1, -⟩ := mass_sub_fin x ha
    rw [ENNReal.eq_div_iff h0 ht, mul_comm]
    exact k1

section
variable {μ : Nat → Measure ℝ} [∀ v, SigmaFinite (μ v)] {rowid : R} {cgpms : List (NetCgpm R ℝ Ω)}
  {draw : NetDraws R ℝ Ω} {p : Nat → (Nat → ℝ) → ℝ≥0∞}

/-- Sums of weights over the samples of `many`. -/
theorem weights_sum {C : Dict Nat ℝ} {x : Nat → ℝ} {sw : List (Dict Nat ℝ × LogP)} {n : Nat}
    (hn : sw.length = n)
    (h : ∀ r ∈ sw, ENNReal.ofReal (pr r.2)
      = evidenceWeight μ cgpms p C.keys.toFinset (fillWith x r.1)) :
    (sw.map fun r => ENNReal.ofReal (pr r.2)).sum
      = ∑ i, evidenceWeight μ cgpms p C.keys.toFinset
          (nths (fun r : Dict Nat ℝ × LogP => fillWith x r.1) n sw i) := by
  rw [nths_sum (fun r : Dict Nat ℝ × LogP => fillWith x r.1) _ sw hn]
  exact congrArg _ (List.map_congr_left fun r hr => h r hr)

theorem logpdf_E_plain {ord : PyOrder} {net : Network R ℝ Ω} (hB : Built cgpms net)
    {T inputs : Dict Nat ℝ}
    (hp : ∀ l c, cgpms[l]? = some c → Behaves μ rowid c (draw l) (p l)) (hpos : Possible μ cgpms p T)
    (hacc : net.accuracy ≠ 0) {TA : List Nat} (hQ : Query cgpms T TA)
    {x : Nat → ℝ} (hw : Weighted μ cgpms p T TA net.topo x
      (weightedDraws ord draw rowid net [] T inputs)) {F : ℝ≥0∞ → ℝ≥0∞} (hF : Measurable F) :
    (logpdfDraws ord draw rowid net T [] inputs).E (fun r => F (mass r))
      = ∫⁻ z, F ((∑ i, evidenceWeight μ cgpms p T.keys.toFinset (z i)) / net.accuracy)
        ∂(Measure.pi fun _ : Fin net.accuracy => proposal μ cgpms p T TA net.topo x) := by
  haveI := proposal_prob hB hQ hp hpos hw
  have hWm := evidenceWeight_measurable hp T.keys.toFinset
  have hH : Measurable fun z : Fin net.accuracy → (Nat → ℝ) =>
      F ((∑ i, evidenceWeight μ cgpms p T.keys.toFinset (z i)) / net.accuracy) :=
    hF.comp ((Finset.measurable_fun_sum _ fun i _ => hWm.comp (measurable_pi_apply i)).div_const _)
  rw [← (weighted_hasLaw hB hQ hp hpos hw).many net.accuracy _ hH]
  unfold logpdfDraws
  have hupd : T.update [] = T := rfl
  rw [if_neg hacc, Draws.E_bind, hupd]
  refine E_congr_always (always_many hw.always net.accuracy) fun sw hsw => ?_
  obtain ⟨hlen, hall⟩ := hsw
  have hne : sw.map Prod.snd ≠ [] := by
    intro h
    rw [List.map_eq_nil_iff] at h
    rw [h] at hlen
    exact hacc hlen.symm
  obtain ⟨r, h1, h2, h3⟩ := mean_mass hne
  have h1' : logmeanexp (sw.map fun p => Fl.ofLogP p.2) = .ok r := by
    rw [← h1, List.map_map]; rfl
  obtain ⟨r0, k1, k2, k3⟩ := mean_mass (l := [(0 : LogP)]) (by simp)
  have k3' : mass r0 = 1 := by rw [k3]; simp [pr]
  rw [h1']
  simp only [Draws.ofExcept, Draws.bind, List.isEmpty_nil, if_true]
  rw [if_neg (by simp), k1]
  show F (mass (r.sub r0)) = _
  rw [mass_sub_div h2 k2 (by simp [k3']) (by simp [k3']), k3', div_one, h3, List.map_map,
    List.length_map, hlen]
  congr 2
  exact weights_sum hlen fun r hr => (hall r hr).2.2.2

theorem two_law {α β X Y : Type} [MeasurableSpace X] [MeasurableSpace Y] {A : Draws α} {B : Draws β}
    {φ : α → X} {ψ : β → Y} {P : Measure X} {Q : Measure Y} [SFinite Q] (hA : A.HasLaw φ P)
    (hB : B.HasLaw ψ Q) {H : X → Y → ℝ≥0∞} (hH : Measurable fun q : X × Y => H q.1 q.2) :
    (A.E fun a => B.E fun b => H (φ a) (ψ b)) = ∫⁻ z, ∫⁻ y, H z y ∂Q ∂P := by
  rw [← hA (fun z => ∫⁻ y, H z y ∂Q) hH.lintegral_prod_right']
  exact congrArg (fun f => A.E f) (funext fun a => hB (H (φ a)) (hH.comp measurable_prodMk_left))

theorem sum_pr_ne {sm : List (Dict Nat ℝ × LogP)} {n : Nat} (hn : sm.length = n) (hn0 : n ≠ 0)
    (hpr : ∀ r ∈ sm, pr r.2 ≠ 0) :
    (sm.map fun r => ENNReal.ofReal (pr r.2)).sum ≠ 0 ∧
    (sm.map fun r => ENNReal.ofReal (pr r.2)).sum ≠ ⊤ := by
  subst hn
  constructor
  · cases sm with
    | nil => exact absurd rfl hn0
    | cons r t =>
      rw [List.map_cons, List.sum_cons]
      intro h
      have := (add_eq_zero.mp h).1
      rw [ENNReal.ofReal_eq_zero] at this
      exact hpr r (by simp) (le_antisymm this (pr_nonneg _))
  · clear hn0 hpr
    induction sm with
    | nil => simp
    | cons r t ih =>
      rw [List.map_cons, List.sum_cons]
      exact ENNReal.add_ne_top.mpr ⟨ENNReal.ofReal_ne_top, ih⟩

/-- The two means that `logpdf` takes, and their ratio. -/
theorem ratio_tail {sw sm : List (Dict Nat ℝ × LogP)} {n : Nat} (hn0 : n ≠ 0) (hw : sw.length = n)
    (hm : sm.length = n) (hpr : ∀ r ∈ sm, pr r.2 ≠ 0) (F : ℝ≥0∞ → ℝ≥0∞) :
    ((Draws.ofExcept (logmeanexp (sw.map fun p => Fl.ofLogP p.2))).bind fun lpJoint =>
      if ∀ w ∈ sm.map Prod.snd, w = (⊥ : LogP) then .raise .valueError
      else
        (Draws.ofExcept (logmeanexp ((sm.map Prod.snd).map Fl.ofLogP))).bind fun lpMarg =>
        .pure (lpJoint.sub lpMarg)).E (fun r => F (mass r))
    = F ((sw.map fun r => ENNReal.ofReal (pr r.2)).sum
        / (sm.map fun r => ENNReal.ofReal (pr r.2)).sum) := by
  have hnn : ∀ {l : List (Dict Nat ℝ × LogP)}, l.length = n → l.map Prod.snd ≠ [] := by
    intro l hlen h
    rw [List.map_eq_nil_iff] at h
    rw [h] at hlen
    exact hn0 hlen.symm
  obtain ⟨r, h1, h2, h3⟩ := mean_mass (hnn hw)
  obtain ⟨rm, k1, k2, k3⟩ := mean_mass (hnn hm)
  obtain ⟨hS0, hSt⟩ := sum_pr_ne hm hn0 hpr
  have h1' : logmeanexp (sw.map fun p => Fl.ofLogP p.2) = .ok r := by
    rw [← h1, List.map_map]; rfl
  have hnb : ¬ ∀ w ∈ sm.map Prod.snd, w = (⊥ : LogP) := by
    intro h
    cases sm with
    | nil => exact hn0 hm.symm
    | cons r t =>
      refine hpr r (by simp) ?_
      rw [h r.2 (by simp)]
      rfl
  have hnz : (n : ℝ≥0∞) ≠ 0 := by exact_mod_cast hn0
  have hnt : (n : ℝ≥0∞) ≠ ⊤ := ENNReal.natCast_ne_top _
  rw [List.map_map, List.length_map, hm] at k3
  rw [List.map_map, List.length_map, hw] at h3
  simp only [Function.comp_def] at h3 k3
  have hm0 : mass rm ≠ 0 := by
    rw [k3, Ne, ENNReal.div_eq_zero_iff]
    exact fun h => h.elim hS0 hnt
  have hmt : mass rm ≠ ⊤ := by
    rw [k3, Ne, ENNReal.div_eq_top]
    exact fun h => h.elim (fun h => hnz h.2) (fun h => hSt h.1)
  rw [h1']
  simp only [Draws.ofExcept, Draws.bind]
  rw [if_neg hnb, k1]
  show F (mass (r.sub rm)) = _
  rw [mass_sub_div h2 k2 hm0 hmt, h3, k3]
  refine congrArg F ?_
  generalize (sw.map fun r => ENNReal.ofReal (pr r.2)).sum = a
  generalize (sm.map fun r => ENNReal.ofReal (pr r.2)).sum = b at hS0 hSt
  rw [div_eq_mul_inv, div_eq_mul_inv, div_eq_mul_inv, div_eq_mul_inv,
    ENNReal.mul_inv (.inl hS0) (.inl hSt), inv_inv]
  calc a * (n : ℝ≥0∞)⁻¹ * (b⁻¹ * n) = a * b⁻¹ * ((n : ℝ≥0∞)⁻¹ * n) := by ring
    _ = a * b⁻¹ := by rw [ENNReal.inv_mul_cancel hnz hnt, mul_one]

theorem logpdf_E_cond {ord : PyOrder} {net : Network R ℝ Ω} (hB : Built cgpms net)
    {T C inputs : Dict Nat ℝ} (hC : C ≠ [])
    (hp : ∀ l c, cgpms[l]? = some c → Behaves μ rowid c (draw l) (p l))
    (hposJ : Possible μ cgpms p (T.update C)) (hposC : Possible μ cgpms p C)
    (hacc : net.accuracy ≠ 0) {TJ TC : List Nat} (hQJ : Query cgpms (T.update C) TJ)
    (hQC : Query cgpms C TC) {x : Nat → ℝ}
    (hwJ : Weighted μ cgpms p (T.update C) TJ net.topo x
      (weightedDraws ord draw rowid net [] (T.update C) inputs))
    (hwC : Weighted μ cgpms p C TC net.topo x (weightedDraws ord draw rowid net [] C inputs))
    {F : ℝ≥0∞ → ℝ≥0∞} (hF : Measurable F) :
    (logpdfDraws ord draw rowid net T C inputs).E (fun r => F (mass r))
      = ∫⁻ z, ∫⁻ y, F ((∑ i, evidenceWeight μ cgpms p (T.update C).keys.toFinset (z i))
            / ∑ i, evidenceWeight μ cgpms p C.keys.toFinset (y i))
          ∂(Measure.pi fun _ : Fin net.accuracy => proposal μ cgpms p C TC net.topo x)
        ∂(Measure.pi fun _ : Fin net.accuracy => proposal μ cgpms p (T.update C) TJ net.topo x) := by
  haveI := proposal_prob hB hQJ hp hposJ hwJ
  haveI := proposal_prob hB hQC hp hposC hwC
  have hlJ := (weighted_hasLaw hB hQJ hp hposJ hwJ).many net.accuracy
  have hlC := (weighted_hasLaw hB hQC hp hposC hwC).many net.accuracy
  have haJ := always_many hwJ.always net.accuracy
  have haC := always_many hwC.always net.accuracy
  have hJm := evidenceWeight_measurable hp (T.update C).keys.toFinset
  have hCm := evidenceWeight_measurable hp C.keys.toFinset
  have hposC' : ∀ y, evidenceWeight μ cgpms p C.keys.toFinset (fillWith y C) ≠ 0 := hposC
  generalize evidenceWeight μ cgpms p (T.update C).keys.toFinset = WJ at hJm haJ ⊢
  generalize evidenceWeight μ cgpms p C.keys.toFinset = WC at hCm haC hposC' ⊢
  generalize proposal μ cgpms p C TC net.topo x = QC at *
  generalize proposal μ cgpms p (T.update C) TJ net.topo x = QJ at *
  have hsJ : Measurable fun z : Fin net.accuracy → (Nat → ℝ) => ∑ i, WJ (z i) :=
    Finset.measurable_fun_sum _ fun i _ => hJm.comp (measurable_pi_apply i)
  have hsC : Measurable fun z : Fin net.accuracy → (Nat → ℝ) => ∑ i, WC (z i) :=
    Finset.measurable_fun_sum _ fun i _ => hCm.comp (measurable_pi_apply i)
  rw [← two_law hlJ hlC (H := fun z y => F ((∑ i, WJ (z i)) / ∑ i, WC (y i)))
    (hF.comp ((hsJ.comp measurable_fst).div (hsC.comp measurable_snd)))]
  unfold logpdfDraws
  rw [if_neg hacc, Draws.E_bind]
  refine E_congr_always haJ fun sw hsw => ?_
  obtain ⟨hlen, hall⟩ := hsw
  rw [if_neg (by simpa using hC), Draws.E_bind]
  have hswap : ∀ (e : Except Exn Fl) (M : Draws (List LogP)) (k : Fl → List LogP → Draws Fl)
      (G : Fl → ℝ≥0∞), (∃ r, e = .ok r) → ((Draws.ofExcept e).E fun lp => (M.bind (k lp)).E G)
        = M.E fun marg => ((Draws.ofExcept e).bind fun lp => k lp marg).E G := by
    rintro e M k G ⟨r, rfl⟩
    simp only [Draws.ofExcept, Draws.E, Draws.bind]
    rw [Draws.E_bind]
  have hok : ∃ r, logmeanexp (sw.map fun p => Fl.ofLogP p.2) = .ok r := by
    have hne : sw.map Prod.snd ≠ [] := by
      intro h
      rw [List.map_eq_nil_iff] at h
      rw [h] at hlen
      exact hacc hlen.symm
    obtain ⟨r, h1, -⟩ := mean_mass hne
    exact ⟨r, by rw [← h1, List.map_map]; rfl⟩
  rw [hswap _ _ _ _ hok, Draws.E_bind]
  refine E_congr_always haC fun sm hsm => ?_
  obtain ⟨hlen', hall'⟩ := hsm
  have hpr : ∀ r ∈ sm, pr r.2 ≠ 0 := by
    intro r hr h0
    have := hposC' (fillWith x r.1)
    rw [fillWith_agree (hall' r hr).2.2.1, ← (hall' r hr).2.2.2, h0] at this
    simp at this
  refine (ratio_tail hacc hlen hlen' hpr F).trans (congrArg F ?_)
  rw [nths_sum (fun r : Dict Nat ℝ × LogP => fillWith x r.1) WJ sw hlen,
    nths_sum (fun r : Dict Nat ℝ × LogP => fillWith x r.1) WC sm hlen']
  congr 1
  · exact congrArg _ (List.map_congr_left fun r hr => (hall r hr).2.2.2)
  · exact congrArg _ (List.map_congr_left fun r hr => (hall' r hr).2.2.2)

end
end Cgpm.Net
