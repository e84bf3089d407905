import Verif.Lemmas.ViewDrawsNet

/-! A view as a component of a network: densities of its outputs, and simulation given the cluster. -/
namespace Cgpm.Props
open Cgpm Cgpm.View Cgpm.Net MeasureTheory
open scoped ENNReal

variable {P : Prim → Prop}

/-- The density in cluster `k` of the values `x` of the columns in `S`. -/
noncomputable def partProd (v : View (catOf P)) (S : Finset Nat) (k : Tab) (x : Nat → ℝ) : ℝ≥0∞ :=
  ∏ c ∈ v.dims.keys.toFinset, if c ∈ S then colDensity v k c (x c) else 1

theorem partProd_congr (v : View (catOf P)) {S : Finset Nat} (k : Tab) {x y : Nat → ℝ}
    (h : ∀ c ∈ v.dims.keys, c ∈ S → x c = y c) : partProd v S k x = partProd v S k y := by
  unfold partProd
  refine Finset.prod_congr rfl fun c hc => ?_
  by_cases hS : c ∈ S
  · rw [if_pos hS, if_pos hS, h c (List.mem_toFinset.mp hc) hS]
  · rw [if_neg hS, if_neg hS]

theorem colDensity_fin (v : View (catOf P)) (k : Tab) (c : Col) (x : ℝ) : colDensity v k c x ≠ ⊤ := by
  unfold colDensity
  split
  · exact ENNReal.one_ne_top
  · exact cellDensity_fin _ _ _ _

theorem partProd_fin (v : View (catOf P)) (S : Finset Nat) (k : Tab) (x : Nat → ℝ) :
    partProd v S k x ≠ ⊤ := by
  unfold partProd
  refine ENNReal.prod_ne_top fun c _ => ?_
  split
  · exact colDensity_fin _ _ _ _
  · exact ENNReal.one_ne_top

section
variable {X : (catOf P).Tbl} {v : View (catOf P)} (hI : Inv X v) {z : Nat} {μ : Nat → Measure ℝ}
  (hv : SimView μ v z) {rowid : Option Row}

include hI hv

theorem clusterRowDensity_measurable : Measurable (clusterRowDensity v z) := by
  have he : clusterRowDensity v z = fun x => prior v (clusterAt v (x z)) *
      ∏ c ∈ v.dims.keys.toFinset, colDensity v (clusterAt v (x z)) c (x c) :=
    funext (clusterRowDensity_eq hI hv)
  rw [he]
  have hz : Measurable fun x : Nat → ℝ => clusterAt v (x z) :=
    (measurable_clusterAt v).comp (measurable_pi_apply z)
  refine ((measurable_from_nat (f := prior v)).comp hz).mul (Finset.measurable_fun_prod _ fun c hc => ?_)
  exact measurable_nat_param (fun k => measurable_colDensity hI k hv.drawable
    (List.mem_toFinset.mp hc)) hz c

theorem columns_integrated [∀ c, SigmaFinite (μ c)] (T : Finset Nat) (hT : T ⊆ v.dims.keys.toFinset) :
    (∫⋯∫⁻_T, clusterRowDensity v z ∂μ) = fun x => prior v (clusterAt v (x z)) *
      ∏ c ∈ v.dims.keys.toFinset, if c ∈ T then 1 else colDensity v (clusterAt v (x z)) c (x c) := by
  induction T using Finset.induction_on with
  | empty =>
    rw [lmarginal_empty]
    funext x
    simp [clusterRowDensity_eq hI hv]
  | insert i s his ih =>
    have hik : i ∈ v.dims.keys.toFinset := hT (Finset.mem_insert_self i s)
    have hiz : z ≠ i := by
      rintro rfl
      exact hv.token (List.mem_toFinset.mp hik)
    funext x
    rw [lmarginal_insert _ (clusterRowDensity_measurable hI hv) his,
      ih fun c hc => hT (Finset.mem_insert_of_mem hc)]
    have h1 : ∀ t : ℝ, prior v (clusterAt v (Function.update x i t z)) *
        ∏ c ∈ v.dims.keys.toFinset, (if c ∈ s then 1 else
          colDensity v (clusterAt v (Function.update x i t z)) c (Function.update x i t c))
        = colDensity v (clusterAt v (x z)) i t * (prior v (clusterAt v (x z)) *
          ∏ c ∈ v.dims.keys.toFinset.erase i, if c ∈ s then 1 else
            colDensity v (clusterAt v (x z)) c (x c)) := by
      intro t
      rw [Function.update_of_ne hiz, ← Finset.mul_prod_erase _ _ hik, if_neg his,
        Function.update_self, mul_left_comm]
      congr 2
      refine Finset.prod_congr rfl fun c hc => ?_
      rw [Function.update_of_ne (Finset.ne_of_mem_erase hc)]
    simp only [h1]
    rw [lintegral_mul_const _ (measurable_colDensity hI _ hv.drawable (List.mem_toFinset.mp hik)),
      colDensity_one hI hv (List.mem_toFinset.mp hik), one_mul, ← Finset.mul_prod_erase _ _ hik,
      if_pos (Finset.mem_insert_self i s), one_mul]
    congr 1
    refine Finset.prod_congr rfl fun c hc => ?_
    simp [Finset.ne_of_mem_erase hc]

theorem outD_in [∀ c, SigmaFinite (μ c)] {S : Finset Nat} (hz : z ∈ S) (x : Nat → ℝ) :
    outDensity μ (z :: v.dims.keys) (clusterRowDensity v z) S x
      = prior v (clusterAt v (x z)) * partProd v S (clusterAt v (x z)) x := by
  unfold outDensity
  have : (z :: v.dims.keys).toFinset \ S = v.dims.keys.toFinset \ S := by
    ext c
    simp only [Finset.mem_sdiff, List.mem_toFinset, List.mem_cons]
    constructor
    · rintro ⟨rfl | h, h'⟩
      · exact absurd hz h'
      · exact ⟨h, h'⟩
    · exact fun h => ⟨.inr h.1, h.2⟩
  rw [this, columns_integrated hI hv _ Finset.sdiff_subset]
  simp only
  congr 1
  unfold partProd
  refine Finset.prod_congr rfl fun c hc => ?_
  by_cases hS : c ∈ S <;> simp [hS, List.mem_toFinset.mp hc]

theorem outD_out [∀ c, SigmaFinite (μ c)] {S : Finset Nat} (hz : z ∉ S) (x : Nat → ℝ) :
    outDensity μ (z :: v.dims.keys) (clusterRowDensity v z) S x
      = ∑ k ∈ insert (freshTab v) (occupied v), prior v k * partProd v S k x := by
  have h1 : (∫⋯∫⁻_{z}, outDensity μ (z :: v.dims.keys) (clusterRowDensity v z) (S ∪ {z}) ∂μ)
      = outDensity μ (z :: v.dims.keys) (clusterRowDensity v z) S :=
    outDensity_lmarginal (clusterRowDensity_measurable hI hv)
      (by intro c hc; rw [Finset.mem_singleton] at hc; subst hc; exact ⟨by simp, hz⟩)
  rw [← h1, lmarginal_singleton]
  simp only
  rw [hv.cluster, lintegral_clusterBase]
  refine Finset.sum_congr rfl fun k _ => ?_
  rw [outD_in hI hv (by simp), Function.update_self, clusterAt_nat]
  congr 1
  unfold partProd
  refine Finset.prod_congr rfl fun c hc => ?_
  have hcz : c ≠ z := by
    rintro rfl
    exact hv.token (List.mem_toFinset.mp hc)
  simp [hcz, Function.update_of_ne hcz]

theorem outD_fin [∀ c, SigmaFinite (μ c)] (S : Finset Nat) (x : Nat → ℝ) :
    outDensity μ (z :: v.dims.keys) (clusterRowDensity v z) S x ≠ ⊤ := by
  by_cases hz : z ∈ S
  · rw [outD_in hI hv hz]
    exact ENNReal.mul_ne_top (prior_fin v _) (partProd_fin v _ _ _)
  · rw [outD_out hI hv hz]
    exact ENNReal.sum_ne_top.mpr fun k _ => ENNReal.mul_ne_top (prior_fin v _) (partProd_fin v _ _ _)

end

/-! ### what a simulation returns -/

theorem always_ofExcept {α : Type} {Q : α → Prop} {m : Except Exn α} (h : ∀ a, m = .ok a → Q a) :
    (Draws.ofExcept m).Always Q := by
  cases m with
  | ok a => exact h a rfl
  | error e => trivial

theorem collect_names {V : Type} {f : Nat → Except Exn (Nat × V)} (hf : ∀ q b, f q = .ok b → b.1 = q)
    {ts : List Nat} (d : Dict Nat V) (hd : collect f ts = .ok d) : d.keys = ts := by
  induction ts generalizing d with
  | nil => simp only [collect] at hd; cases hd; rfl
  | cons t ts ih =>
    unfold collect at hd
    split at hd
    · cases hd
    · rename_i b hb
      cases hrec : collect f ts with
      | error e => rw [hrec] at hd; cases hd
      | ok l =>
        rw [hrec] at hd
        simp only [Except.map] at hd
        cases hd
        have h1 := ih l hrec
        have h2 := hf t b hb
        unfold Dict.keys at h1 ⊢
        rw [List.map_cons, h1, h2]

theorem simulateDraws_always {R V Ω : Type} (ord : PyOrder) (draw : NetDraws R V Ω) (rowid : R)
    (net : Network R V Ω) (targets : List Nat) (C inputs : Dict Nat V) :
    (simulateDraws ord draw rowid net targets C inputs).Always fun d => d.keys = targets := by
  unfold simulateDraws
  split
  · trivial
  refine always_bind (always_true _) fun sw _ => ?_
  split
  · trivial
  refine always_bind (always_true _) fun i _ => ?_
  split
  · trivial
  rename_i p _
  refine always_ofExcept fun d hd => ?_
  refine collect_names (fun q b h => ?_) d hd
  cases hp : p.1.get? q with
  | none => rw [hp] at h; cases h
  | some v => rw [hp] at h; cases h; rfl

section
variable {X : (catOf P).Tbl} {v : View (catOf P)} (hI : Inv X v) {z : Nat} {μ : Nat → Measure ℝ}
  (hv : SimView μ v z) {rowid : Option Row} [∀ c, SigmaFinite (μ c)]

include hI hv

theorem allOutputs_parts : allOutputs (netCgpms z v) = (z :: v.dims.keys).toFinset := by
  ext c
  have := parts_produced hI hv c
  unfold Produced at this
  simp only [allOutputs, List.mem_toFinset, List.mem_flatMap, List.mem_cons]
  exact this

omit [∀ c, SigmaFinite (μ c)] in
theorem joint_parts : jointDensity (netCgpms z v) (partDensity v z) = clusterRowDensity v z := by
  funext x
  rw [parts_joint hI, clusterRowDensity_eq hI hv]

theorem weight_given_cluster (hr : NewRow v rowid) {S : Finset Nat} (hzS : z ∈ S) (y : Nat → ℝ)
    (h0 : outDensity μ (z :: v.dims.keys) (clusterRowDensity v z) S y ≠ 0) :
    evidenceWeight μ (netCgpms z v) (partDensity v z) S y ≠ 0 := by
  rw [outD_in hI hv hzS, mul_ne_zero_iff] at h0
  rw [evidenceWeight_eq]
  refine List.prod_ne_zero fun hmem => ?_
  obtain ⟨l, hl, he⟩ := List.mem_map.mp hmem
  rw [List.mem_range] at hl
  have hc := List.getElem?_eq_getElem hl
  by_cases hk : ∃ k ∈ (netCgpms z v)[l].outputs, k ∈ S
  · obtain ⟨k, hk1, hk2⟩ := hk
    rcases parts_at hI hv hc with ⟨rfl, hcc⟩ | ⟨j, d, c, rfl, h1, hcz, hcc, h2⟩
    · have : odAt μ (netCgpms z v) (partDensity v z) S 0 y = prior v (clusterAt v (y z)) := by
        unfold odAt
        simp only [hc, hcc, crpNet, outDensity]
        have : [z].toFinset \ S = ∅ := by simp [hzS]
        rw [this, lmarginal_empty]
        rfl
      exact h0.1 (this.symm.trans he)
    · rw [hcc] at hk1
      simp only [dimNet, List.mem_singleton, h2] at hk1
      subst hk1
      have : odAt μ (netCgpms z v) (partDensity v z) S (j + 1) y
          = colDensity v (clusterAt v (y z)) k (y k) := by
        unfold odAt
        simp only [hc, hcc, dimNet, outDensity, h2]
        have : [k].toFinset \ S = ∅ := by simp [hk2]
        rw [this, lmarginal_empty]
        simp only [partDensity, h1]
      rw [this] at he
      refine h0.2 ?_
      unfold partProd
      exact Finset.prod_eq_zero (List.mem_toFinset.mpr (List.mem_of_getElem? h1)) (by rw [if_pos hk2, he])
  · rw [od_empty (parts_behave hI hv hr) hc hk] at he
    exact one_ne_zero he

/-- Simulation given the cluster. -/
theorem simulate_given {ord : PyOrder} (hord : ord.Lists)
    {net : Network (Option Row) ℝ (Nat → ℝ)} (hb : build ord (netCgpms z v) (some 1) = .ok net)
    (hr : NewRow v rowid) {Cs : Dict Nat ℝ} (hw : Cs.WF) {S : Finset Nat}
    (hS : ∀ k, k ∈ Cs.keys ↔ k ∈ S) (hSo : S ⊆ (z :: v.dims.keys).toFinset) (hzS : z ∈ S)
    {ts : List Nat} (hn : ts.Nodup) (ht : ∀ t ∈ ts, t ∈ z :: v.dims.keys ∧ t ∉ S)
    {x : Nat → ℝ} (hx : ∀ k y, Cs.get? k = some y → x k = y)
    (h0 : outDensity μ (z :: v.dims.keys) (clusterRowDensity v z) S x ≠ 0)
    {g : (Nat → ℝ) → ℝ≥0∞} (hg : Measurable g) :
    (simulateDraws ord (netDraws z v) rowid net ts Cs []).E (fun d => g (fillWith x d))
        * outDensity μ (z :: v.dims.keys) (clusterRowDensity v z) S x
      = (∫⋯∫⁻_ts.toFinset, (fun y => g y *
          outDensity μ (z :: v.dims.keys) (clusterRowDensity v z) (S ∪ ts.toFinset) y) ∂μ) x := by
  classical
  have hkeys : Cs.keys.toFinset = S := by ext k; rw [List.mem_toFinset, hS]
  have hfill : fillWith x Cs = x := by
    funext k
    unfold fillWith
    cases h : Cs.get? k with
    | none => rfl
    | some y => exact (hx k y h).symm
  have hgood : GoodQuery (netCgpms z v) ts Cs [] :=
    ⟨hw, Dict.wf_nil, hn, fun t h => (parts_produced hI hv t).mpr (List.mem_cons.mp (ht t h).1),
      fun t h hk => (ht t h).2 ((hS t).mp hk)⟩
  have hin : ∀ c ∈ netCgpms z v, ∀ i ∈ c.inputs, i = z := by
    intro c hc i hi
    obtain ⟨l, hl⟩ := List.mem_iff_getElem?.mp hc
    rcases parts_at hI hv hl with ⟨-, rfl⟩ | ⟨j, d, c, -, -, -, rfl, -⟩
    · simp [crpNet] at hi
    · simpa [dimNet] using hi
  have hsup : Supplied (netCgpms z v) ts Cs [] := by
    intro c hc _ i hi
    rw [hin c hc i hi]
    exact .inl ((parts_produced hI hv z).mpr (.inl rfl))
  have hset : Settled (netCgpms z v) Cs := by
    intro c hc _ i hi _
    rw [hin c hc i hi]
    exact (hS z).mpr hzS
  have hpos : Possible μ (netCgpms z v) (partDensity v z) Cs := by
    intro y
    rw [hkeys]
    refine weight_given_cluster hI hv hr hzS _ ?_
    have hagree : ∀ c ∈ S, fillWith y Cs c = x c := by
      intro c hc
      have := (hS c).mpr hc
      cases h : Cs.get? c with
      | none => exact absurd this ((Dict.get?_eq_none_iff _ _).mp h)
      | some w => simp [fillWith, h, hx c w h]
    rw [outD_in hI hv hzS] at h0 ⊢
    rw [hagree z hzS, partProd_congr v _ fun c _ hc => hagree c hc]
    exact h0
  have hacc := (C26_accepted_network ord hord _ _ net hb).2.1
  -- the function of the targets alone
  let q : (Nat → ℝ) → Nat → ℝ := fun y k => if k ∈ ts then y k else x k
  have hq : Measurable q := measurable_pi_lambda _ fun k => by
    by_cases h : k ∈ ts
    · simpa [q, h] using measurable_pi_apply k
    · simp [q, h]
  have hqx : ∀ y : Nat → ℝ, (∀ k ∉ ts.toFinset, y k = x k) → q y = y := by
    intro y h
    funext k
    by_cases hk : k ∈ ts
    · simp [q, hk]
    · simp [q, hk, h k (by simpa using hk)]
  have hE : (simulateDraws ord (netDraws z v) rowid net ts Cs []).E (fun d => g (fillWith x d))
      = (simulateDraws ord (netDraws z v) rowid net ts Cs []).E
        (fun d => (g ∘ q) (fillWith (fillWith x []) d)) := by
    refine E_congr_always (simulateDraws_always ..) fun d hd => ?_
    rw [show fillWith x [] = x from rfl, Function.comp, hqx]
    intro k hk
    have : d.get? k = none := by
      rw [Dict.get?_eq_none_iff, hd]
      simpa using hk
    simp [fillWith, this]
  rw [hE, C72_exact hord hb parts_simKeys hgood hsup (parts_behave hI hv hr) hpos hset
    (by rw [hacc]; simp) x (hg.comp hq) fun y w h => by
      refine congrArg g (funext fun k => ?_)
      by_cases hk : k ∈ ts
      · simp [q, hk, h k hk]
      · simp [q, hk]]
  rw [show fillWith x [] = x from rfl]
  have hden : evidenceDensity μ (netCgpms z v) (partDensity v z) Cs x
      = outDensity μ (z :: v.dims.keys) (clusterRowDensity v z) S x := by
    unfold evidenceDensity heldIntegral outDensity
    simp only [one_mul]
    rw [hfill, allOutputs_parts hI hv, hkeys, show (fun y => jointDensity (netCgpms z v)
      (partDensity v z) y) = clusterRowDensity v z from joint_parts hI hv]
  unfold conditionalMean
  rw [hden, ENNReal.div_mul_cancel h0 (outD_fin hI hv S x)]
  unfold heldIntegral
  rw [hfill, allOutputs_parts hI hv, hkeys, joint_parts hI hv]
  have hsplit : (z :: v.dims.keys).toFinset \ S
      = ts.toFinset ∪ ((z :: v.dims.keys).toFinset \ (S ∪ ts.toFinset)) := by
    ext k
    simp only [Finset.mem_sdiff, Finset.mem_union, List.mem_toFinset]
    constructor
    · rintro ⟨h1, h2⟩
      by_cases hk : k ∈ ts
      · exact .inl hk
      · exact .inr ⟨h1, by tauto⟩
    · rintro (h | ⟨h1, h2⟩)
      · exact ht k h
      · exact ⟨h1, by tauto⟩
  have hm := clusterRowDensity_measurable hI hv
  have hgm : Measurable fun y => (g ∘ q) y * clusterRowDensity v z y := (hg.comp hq).mul hm
  rw [hsplit, lmarginal_union μ _ hgm (by
    rw [Finset.disjoint_left]; intro k h1 h2; simp at h1 h2; tauto)]
  refine lintegral_congr fun w => ?_
  set y := Function.updateFinset x ts.toFinset w with hy
  have hyx : ∀ k ∉ ts.toFinset, y k = x k := fun k hk => by simp only [hy, Function.updateFinset, hk, dite_false]
  rw [lmarginal_pull (D := fun y => (g ∘ q) y) _ hm y fun u hu => by
    refine congrArg g (funext fun k => ?_)
    by_cases hk : k ∈ ts
    · simp only [q, hk, if_true]
      exact hu k (by simp [hk])
    · simp [q, hk]]
  rw [Function.comp, hqx y hyx]
  rfl

end

end Cgpm.Props
