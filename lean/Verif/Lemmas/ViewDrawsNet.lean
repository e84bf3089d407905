import Verif.Lemmas.ViewDraws

/-! The network inside a view, with real values. -/
namespace Cgpm.Props
open Cgpm Cgpm.View Cgpm.Net MeasureTheory
open scoped ENNReal

variable {P : Prim → Prop}

/-- The densities of the components of the network of a view. -/
noncomputable def partDensity (v : View (catOf P)) (z : Nat) : Nat → (Nat → ℝ) → ℝ≥0∞
  | 0 => fun x => prior v (clusterAt v (x z))
  | l + 1 => match v.dims.keys[l]? with
    | some c => fun x => colDensity v (clusterAt v (x z)) c (x c)
    | none => fun _ => 1

theorem SimView.drawable {μ : Nat → Measure ℝ} {v : View (catOf P)} {z : Nat} (h : SimView μ v z) :
    Drawable μ v v.dims.keys := by
  intro c hc
  obtain ⟨d, hd⟩ : ∃ d, v.dims.get? c = some d := by
    cases hg : v.dims.get? c with
    | none => exact absurd hc ((Dict.get?_eq_none_iff _ _).mp hg)
    | some d => exact ⟨d, rfl⟩
  exact ⟨d, hd, h.plain c d hd, h.proper c d hd, h.base c d hd⟩

theorem SimView.schema {μ : Nat → Measure ℝ} {v : View (catOf P)} {z : Nat} (h : SimView μ v z) :
    Schema v z := by
  refine ⟨h.token, fun c d hd => by simp [h.plain c d hd], fun c hc => ?_⟩
  have : ∀ a b, ¬ ∃ d, v.dims.get? b = some d ∧ a ∈ d.inputs := by
    rintro a b ⟨d, hd, ha⟩
    simp [h.plain b d hd] at ha
  cases hc with
  | single h => exact this _ _ h
  | tail _ h => exact this _ _ h

theorem measurable_nat_param {f : Tab → ℝ → ℝ≥0∞} (hf : ∀ k, Measurable (f k))
    {a : (Nat → ℝ) → Tab} (ha : Measurable a) (c : Nat) :
    Measurable fun x : Nat → ℝ => f (a x) (x c) := by
  have h1 : Measurable fun q : Tab × ℝ => f q.1 q.2 := measurable_from_prod_countable_right hf
  exact h1.comp (ha.prodMk (measurable_pi_apply c))

section
variable {X : (catOf P).Tbl} {v : View (catOf P)} (hI : Inv X v) {z : Nat} {μ : Nat → Measure ℝ}
  (hv : SimView μ v z) {rowid : Option Row}

include hI hv

theorem colDensity_one {c : Col} (hc : c ∈ v.dims.keys) (k : Tab) :
    ∫⁻ t, colDensity v k c t ∂μ c = 1 := by
  obtain ⟨d, h1, h2, h3, h4⟩ := hv.drawable c hc
  have := sampleIn_total hI h1 h2 h3 k
  rw [(sampleIn_law hI h1 h2 h3 k).2 _ measurable_const] at this
  unfold colDensity
  simpa [h1, h4] using this

theorem dims_at {l : Nat} {d : Dim (catOf P)} (h : v.dims.vals[l]? = some d) :
    ∃ c, v.dims.keys[l]? = some c ∧ v.dims.get? c = some d ∧ d.index = c ∧ c ≠ z := by
  unfold Dict.vals at h
  rw [List.getElem?_map, Option.map_eq_some_iff] at h
  obtain ⟨q, hq, rfl⟩ := h
  have hm := List.mem_of_getElem? hq
  refine ⟨q.1, by unfold Dict.keys; rw [List.getElem?_map, hq]; rfl, Dict.get?_of_mem hI.wf hm,
    (hI.dim q hm).index, fun h => hv.token ?_⟩
  rw [← h]
  exact List.mem_map.mpr ⟨q, hm, rfl⟩

theorem crpNet_behaves [∀ c, SigmaFinite (μ c)] (hr : NewRow v rowid) :
    Behaves μ rowid (crpNet z v) (netDraws z v 0) (partDensity v z 0) := by
  have hm : Measurable (partDensity v z 0) := by
    have h1 : Measurable fun x : Nat → ℝ => clusterAt v (x z) :=
      (measurable_clusterAt v).comp (measurable_pi_apply z)
    exact (measurable_from_nat (f := prior v)).comp h1
  have hup : ∀ (x : Nat → ℝ) (k : Tab), partDensity v z 0 (Function.update x z (k : ℝ)) = prior v k := by
    intro x k
    simp [partDensity, clusterAt_nat]
  refine behaves_single rfl hm (fun x y h => ?_) (fun x => ?_) (fun x => ?_) fun x g hg => ?_
  · simp only [partDensity, h z (.inl rfl)]
  · rw [hv.cluster, lintegral_clusterBase]
    simp only [hup]
    have := mixture_sum v fun _ => 1
    rw [prior_sum hI] at this
    simpa using this.symm
  · refine ⟨v.crp.logpdf rowid (v.labelOf (x z)), ?_, ?_⟩
    · simp [crpNet, lookAt]
    · rw [← mass_eq_pr, crp_logpdf_mass hI hr, labelOf_eq hI]
      rfl
  · rw [hv.cluster, lintegral_clusterBase]
    simp only [hup]
    obtain ⟨K, -, hK, hnd, hset⟩ := gibbsTables_eq hI hv.rows
    have hdr : v.crp.draw rowid = Rand.logPflip
        (K.map fun k => Fl.ofLogP (v.crp.logpdf rowid k)) K := by
      unfold Crp.draw
      have : rowid.bind v.crp.data.get? = none := by
        cases rowid with
        | none => rfl
        | some r => exact hr r rfl
      rw [this, hK]
    have hsum : (K.map (prior v)).sum = 1 := by
      rw [← List.sum_toFinset _ hnd, hset]
      have := mixture_sum v fun _ => 1
      rw [prior_sum hI] at this
      simpa using this.symm
    have hfa : List.Forall₂ (fun k (a : Fl) => a ≠ .nan ∧ a ≠ .pinf ∧ mass a = prior v k) K
        (K.map fun k => Fl.ofLogP (v.crp.logpdf rowid k)) := by
      rw [List.forall₂_map_right_iff, List.forall₂_same]
      intro k _
      exact ⟨(isLog_ofLogP _).1.1, (isLog_ofLogP _).2, crp_logpdf_mass hI hr k⟩
    have := pflip_weights hfa (by rw [hsum]; exact one_ne_zero)
      fun k => g (Function.update x z (k : ℝ))
    rw [hsum, mul_one, ← List.sum_toFinset _ hnd, hset] at this
    simp only [netDraws, Draws.E_bind, hdr, Draws.E, crpNet, Draws.ofExcept, List.map_cons,
      List.map_nil, fillWith_single]
    rw [this]
    exact Finset.sum_congr rfl fun k _ => mul_comm _ _

theorem dimNet_behaves [∀ c, SigmaFinite (μ c)] (hr : NewRow v rowid) {l : Nat}
    {d : Dim (catOf P)} (hd : v.dims.vals[l]? = some d) :
    Behaves μ rowid (dimNet z v d) (netDraws z v (l + 1)) (partDensity v z (l + 1)) := by
  obtain ⟨c, hc, hg, hidx, hcz⟩ := dims_at hI hv hd
  have hck : c ∈ v.dims.keys := List.mem_of_getElem? hc
  have hpd : partDensity v z (l + 1) = fun x => colDensity v (clusterAt v (x z)) c (x c) := by
    simp only [partDensity, hc]
  have hcol : ∀ k t, colDensity v k c t = cellDensity d k (some t) [] := by
    intro k t
    simp only [colDensity, hg]
  have hinp := hv.plain c d hg
  have hupz : ∀ (x : Nat → ℝ) (t : ℝ), Function.update x c t z = x z := by
    intro x t
    simp [Function.update, Ne.symm hcz]
  have hm : Measurable (partDensity v z (l + 1)) := by
    rw [hpd]
    exact measurable_nat_param (fun k => measurable_colDensity hI k hv.drawable hck)
      ((measurable_clusterAt v).comp (measurable_pi_apply z)) c
  refine behaves_single (o := c) (by simp [dimNet, hidx]) hm (fun x y h => ?_) (fun x => ?_)
    (fun x => ?_) fun x g hg' => ?_
  · rw [hpd]
    simp only [h c (.inl rfl), h z (.inr (by simp [dimNet]))]
  · simp only [hpd, hupz, Function.update_self]
    exact colDensity_one hI hv hck _
  · obtain ⟨w, h1, h2⟩ := dim_logpdf_mass hI (Dict.mem_of_get? hg) hr (clusterAt v (x z))
      (some (x c)) []
    refine ⟨w, ?_, ?_⟩
    · simp only [dimNet, lookAt, hidx, Finset.mem_singleton, List.mem_toFinset, if_true,
        List.mem_singleton, labelOf_eq hI]
      exact h1
    · rw [← mass_eq_pr, h2, hpd]
      exact (hcol _ _).symm
  · have hlaw := (sampleIn_law hI hg hinp (hv.proper c d hg) (clusterAt v (x z))).2
      (fun t => g (Function.update x c t)) (hg'.comp (measurable_update x))
    simp only [hpd, hupz, Function.update_self, hcol]
    rw [hv.base c d hg, ← hlaw]
    have hz : lookAt [z].toFinset x z = some (x z) := by simp [lookAt]
    simp only [netDraws, hd, hz, Draws.E_bind, Draws.E, labelOf_eq hI, dimNet, Draws.ofExcept,
      List.map_cons, List.map_nil, fillWith_single]

theorem parts_behave [∀ c, SigmaFinite (μ c)] (hr : NewRow v rowid) :
    ∀ l c, (netCgpms z v)[l]? = some c → Behaves μ rowid c (netDraws z v l) (partDensity v z l) := by
  intro l c hl
  cases l with
  | zero =>
    simp only [netCgpms, List.getElem?_cons_zero, Option.some.injEq] at hl
    subst hl
    exact crpNet_behaves hI hv hr
  | succ l =>
    simp only [netCgpms, List.getElem?_cons_succ, List.getElem?_map, Option.map_eq_some_iff] at hl
    obtain ⟨d, hd, rfl⟩ := hl
    exact dimNet_behaves hI hv hr hd

omit hI hv in
theorem parts_simKeys : ∀ c ∈ netCgpms z v, SimKeys c := by
  intro c hc
  rcases List.mem_cons.mp hc with rfl | hc
  · exact simKeys_values fun _ _ _ _ _ => rfl
  · obtain ⟨d, -, rfl⟩ := List.mem_map.mp hc
    exact simKeys_values fun _ _ _ _ _ => rfl

theorem parts_at {i : Nat} {c : NetCgpm (Option Row) ℝ (Nat → ℝ)} (h : (netCgpms z v)[i]? = some c) :
    (i = 0 ∧ c = crpNet z v) ∨ ∃ j d k, i = j + 1 ∧ v.dims.keys[j]? = some k ∧ k ≠ z ∧
      c = dimNet z v d ∧ d.index = k := by
  cases i with
  | zero =>
    simp only [netCgpms, List.getElem?_cons_zero, Option.some.injEq] at h
    exact .inl ⟨rfl, h.symm⟩
  | succ j =>
    simp only [netCgpms, List.getElem?_cons_succ, List.getElem?_map, Option.map_eq_some_iff] at h
    obtain ⟨d, hd, rfl⟩ := h
    obtain ⟨k, h1, -, h3, h4⟩ := dims_at hI hv hd
    exact .inr ⟨j, d, k, rfl, h1, h4, rfl, h3⟩

theorem parts_produced (k : Nat) : Produced (netCgpms z v) k ↔ k = z ∨ k ∈ v.dims.keys := by
  constructor
  · rintro ⟨c, hc, hk⟩
    obtain ⟨i, hi⟩ := List.mem_iff_getElem?.mp hc
    rcases parts_at hI hv hi with ⟨-, rfl⟩ | ⟨j, d, k', -, h1, -, rfl, h2⟩
    · exact .inl (by simpa [crpNet] using hk)
    · right
      simp only [dimNet, List.mem_singleton] at hk
      rw [hk, h2]
      exact List.mem_of_getElem? h1
  · rintro (rfl | h)
    · exact ⟨crpNet k v, by simp [netCgpms], by simp [crpNet]⟩
    · obtain ⟨p, hp, rfl⟩ := List.mem_map.mp h
      refine ⟨dimNet z v p.2, List.mem_cons_of_mem _ (List.mem_map.mpr ⟨p.2, List.mem_map.mpr
        ⟨p, hp, rfl⟩, rfl⟩), ?_⟩
      simp [dimNet, (hI.dim p hp).index]

theorem parts_wellFormed : WellFormed (netCgpms z v) := by
  refine ⟨?_, ?_, ?_⟩
  · intro c hc
    obtain ⟨i, hi⟩ := List.mem_iff_getElem?.mp hc
    rcases parts_at hI hv hi with ⟨-, rfl⟩ | ⟨j, d, k', -, h1, -, rfl, h2⟩ <;> simp [crpNet, dimNet]
  · intro i j a b ha hb x hxa hxb
    rcases parts_at hI hv ha with ⟨rfl, rfl⟩ | ⟨i', d, k, rfl, h1, hk, rfl, h2⟩ <;>
    rcases parts_at hI hv hb with ⟨rfl, rfl⟩ | ⟨j', d', k', rfl, h1', hk', rfl, h2'⟩ 
    · rfl
    · simp only [crpNet, dimNet, List.mem_singleton, h2'] at hxa hxb
      exact absurd (hxb.symm.trans hxa) hk'
    · simp only [crpNet, dimNet, List.mem_singleton, h2] at hxa hxb
      exact absurd (hxa.symm.trans hxb) hk
    · simp only [dimNet, List.mem_singleton, h2, h2'] at hxa hxb
      have hkk : k = k' := hxa.symm.trans hxb
      subst hkk
      have hi : i' < v.dims.keys.length := (List.getElem?_eq_some_iff.mp h1).1
      have := (List.getElem?_inj hi hI.wf).mp (h1.trans h1'.symm)
      omega
  · intro i hcyc
    have hF : ∀ a b, Feeds (netCgpms z v) a b → a = 0 ∧ b ≠ 0 := by
      rintro a b ⟨ca, cb, ha, hb, x, hxa, hxb⟩
      rcases parts_at hI hv hb with ⟨rfl, rfl⟩ | ⟨j', d', k', rfl, h1', hk', rfl, h2'⟩
      · simp [crpNet] at hxb
      · simp only [dimNet, List.mem_singleton] at hxb
        subst hxb
        rcases parts_at hI hv ha with ⟨rfl, rfl⟩ | ⟨i', d, k, rfl, h1, hk, rfl, h2⟩
        · exact ⟨rfl, by simp⟩
        · simp only [dimNet, List.mem_singleton, h2] at hxa
          exact absurd hxa.symm hk
    have h0 : ∀ a b, Relation.TransGen (Feeds (netCgpms z v)) a b → a = 0 ∧ b ≠ 0 := by
      intro a b h
      induction h with
      | single h => exact hF _ _ h
      | tail _ h ih => exact ⟨ih.1, (hF _ _ h).2⟩
    exact (h0 i i hcyc).2 (h0 i i hcyc).1

omit hv in
theorem parts_joint (x : Nat → ℝ) : jointDensity (netCgpms z v) (partDensity v z) x
    = prior v (clusterAt v (x z)) *
      ∏ c ∈ v.dims.keys.toFinset, colDensity v (clusterAt v (x z)) c (x c) := by
  unfold jointDensity
  have hlen : (netCgpms z v).length = v.dims.keys.length + 1 := by
    simp [netCgpms, Dict.vals, Dict.keys]
  rw [hlen, Finset.prod_range_succ', mul_comm, List.prod_toFinset _ hI.wf]
  congr 1
  have : ∀ (l : List Nat) (F : Nat → ℝ≥0∞), ∏ i ∈ Finset.range l.length,
      (match l[i]? with | some c => F c | none => 1) = (l.map F).prod := by
    intro l F
    induction l with
    | nil => simp
    | cons a t ih =>
      rw [List.length_cons, Finset.prod_range_succ', mul_comm]
      simp only [List.getElem?_cons_zero, List.getElem?_cons_succ, List.map_cons, List.prod_cons]
      rw [ih]
  rw [← this]
  refine Finset.prod_congr rfl fun i _ => ?_
  simp only [partDensity]
  cases v.dims.keys[i]? <;> rfl

theorem clusterRowDensity_eq (x : Nat → ℝ) : clusterRowDensity v z x
    = prior v (clusterAt v (x z)) *
      ∏ c ∈ v.dims.keys.toFinset, colDensity v (clusterAt v (x z)) c (x c) := by
  unfold clusterRowDensity
  rw [rowDensity_valuesAt hI _ hI.wf hv.drawable, List.prod_toFinset _ hI.wf]

end

end Cgpm.Props
