import Verif.Lemmas.ColReach
import Verif.Props.Transition

/-! Two sweeps over all kernels reach every latent structure of positive posterior weight. -/
namespace Cgpm.Spec.Hyper

theorem average_nonneg_of {m : ℕ} {F : List ℝ → ℝ}
    (h : ∀ us : List ℝ, us.length = m → (∀ u ∈ us, 0 ≤ u ∧ u < 1) → 0 ≤ F us) : 0 ≤ average m F := by
  classical
  have : average m F = average m fun us => max (F us) 0 :=
    Cgpm.Props.average_congr fun us hl hu => (max_eq_left (h us hl hu)).symm
  rw [this]
  have key : ∀ (m : ℕ) (G : List ℝ → ℝ), (∀ us, 0 ≤ G us) → 0 ≤ average m G := by
    intro m
    induction m with
    | zero => intro G hG; exact hG []
    | succ m ih =>
      intro G hG
      exact intervalIntegral.integral_nonneg zero_le_one fun u _ => ih _ fun us => hG _
  exact key m _ fun us => le_max_right _ _

end Cgpm.Spec.Hyper

namespace Cgpm.State
open Cgpm.View Cgpm.Spec Cgpm.Props Cgpm.Mix Cgpm.Spec.Hyper
variable {C : Cat} {cfg : Cfg C} {s : State C}

theorem realise_onModel (hL : C.Lawful) (cfg : Cfg C) (hs : Inv s)
    {L : Latent (colsOf s) (rowsOf s)} (hLg : L ∈ latents (colsOf s) (rowsOf s)) :
    ∃ t, OnModel s t ∧ latentOf (colsOf s) (rowsOf s) t = L := by
  obtain ⟨t, ht, rfl⟩ := hs.realise cfg hLg
  exact ⟨t, ⟨SameState.kin hL ht, ht.sorted, Latent.mem_latents.mp hLg⟩, rfl⟩

theorem IsChain.isStep (hL : C.Lawful) (cfg : Cfg C) (hs : Inv s)
    {W : Latent (colsOf s) (rowsOf s) → ℝ} {N : ℕ} {K : State C → List ℝ → Out (State C)}
    {P : (Latent (colsOf s) (rowsOf s) → ℝ) → Latent (colsOf s) (rowsOf s) → ℝ}
    (h : IsChain s W N K P) : IsStep (latents (colsOf s) (rowsOf s)) W P := by
  refine ⟨h.lin, fun c L hLg => ?_, fun f hf L hLg => ?_, h.inv⟩
  · obtain ⟨t, ht, rfl⟩ := realise_onModel hL cfg hs hLg
    rw [← h.law t ht, average_const]
  · obtain ⟨t, ht, rfl⟩ := realise_onModel hL cfg hs hLg
    rw [← h.law t ht]
    refine average_nonneg_of fun us hl hu => ?_
    obtain ⟨t', e, ht'⟩ := h.ok t ht us hl hu
    rw [e, Out.state_ok]
    exact hf _ (Latent.mem_latents.mpr ht'.grid)

theorem transitionDims_chain (hL : C.Lawful) (hs : Inv s) (hcond : s.anyConditional cfg = false)
    (hCd : s.Cd = []) {U : Latent (colsOf s) (rowsOf s) → ℝ} (hU : ∀ t, KinS s t →
      (latentOf (colsOf s) (rowsOf s) t).OnGrid →
      U (latentOf (colsOf s) (rowsOf s) t) = freeWeight t)
    (hpos : ∀ L ∈ latents (colsOf s) (rowsOf s), 0 < U L)
    {W : Latent (colsOf s) (rowsOf s) → ℝ} (hW : IsJointPosterior cfg s W) (k : ℕ)
    (cs : List {c // c ∈ colsOf s}) (hp : ∀ c ∈ cs, partnersExist s c.1) :
    IsChain s W (cs.length * s.dimDraws (k + 1))
      (fun t us => t.transitionDims cfg (k + 1) (cs.map Subtype.val) us)
      (colPasses s.Ci U k cs) := by
  have hWU := hs.posterior_weight hL hU hW
  induction cs with
  | nil =>
    rw [List.length_nil, zero_mul]
    exact ⟨fun t ht us _ _ => ⟨t, rfl, ht⟩, fun t _ f => rfl, fun f => rfl, fun _ _ _ _ _ => rfl⟩
  | cons c cs ih =>
    have h1 := gibbsDim_chain hL hs hU hpos hWU (mem_colsOf.mp c.2) hcond hCd (hp c (by simp)) k
    have h3 := h1.comp (ih fun c hc => hp c (by simp [hc]))
    rw [List.length_cons, Nat.succ_mul, Nat.add_comm]
    refine h3.congr fun t ht us => ?_
    have : t.dimDraws (k + 1) = s.dimDraws (k + 1) := by unfold dimDraws; rw [ht.kin.nRows]
    simp only [List.map_cons, transitionDims, this]

/-- What the path towards `L'` has achieved after a kernel call. -/
structure Toward (ks : List Kernel) (L' x x' : Latent (colsOf s) (rowsOf s)) : Prop where
  part : .columns ∈ ks ∨ x.part = L'.part → x'.part = L'.part
  alpha : x.part = L'.part → .alpha ∈ ks ∨ x.alpha = L'.alpha → x'.alpha = L'.alpha
  views : x.part = L'.part → .viewAlphas ∈ ks ∨ (∀ c, (x.view c).1 = (L'.view c).1) →
    ∀ c, (x'.view c).1 = (L'.view c).1
  rows : x.part = L'.part → .rows ∈ ks ∨ (∀ c, (x.view c).2 = (L'.view c).2) →
    ∀ c, (x'.view c).2 = (L'.view c).2

/-- The structure `x` with concentrations and row partitions that fit its blocks. -/
def withViews (x : Latent (colsOf s) (rowsOf s)) (v : {c // c ∈ colsOf s} → ℝ × RowPartition (rowsOf s))
    (h : ∀ a b, x.part.r a b → v a = v b) : Latent (colsOf s) (rowsOf s) := ⟨x.alpha, x.part, v, h⟩

theorem callKernel_moves (hL : C.Lawful) (hCh : C.Chain) (hs : StateReachable cfg s)
    (hm : ColumnsMove cfg s none) {W : Latent (colsOf s) (rowsOf s) → ℝ}
    (hW : IsJointPosterior cfg s W) : ∃ ε : ℝ, 0 < ε ∧ ε ≤ 1 ∧ ∀ (k : Kernel) (o : Orders),
      Orders.Lists s none none o → ∃ P, IsChain s W (s.kernelDraws none none k)
        (fun t us => t.callKernel cfg none none o us k) P ∧
      ∀ L' ∈ latents (colsOf s) (rowsOf s), 0 < W L' → ∀ x ∈ latents (colsOf s) (rowsOf s),
        ∃ x' ∈ latents (colsOf s) (rowsOf s), Reaches (latents (colsOf s) (rowsOf s)) P ε x x' ∧
          Toward [k] L' x x' := by
  classical
  have hI := hs.inv hL
  obtain ⟨U, w, χ, hU, hpos, hχ, hw, hF⟩ := posterior_factor hL hI hW
  have hWU := hI.posterior_weight hL hU hW
  obtain ⟨εa, a0, a1, ha⟩ := alphaRedraw_reaches hpos
  obtain ⟨hvn, εv, v0, v1, hv⟩ := alphaLocal_reaches hw.2.1
  obtain ⟨εr, r0, r1, hr⟩ := rowLocal_reaches hw.2.1 s.nRows
  obtain ⟨εc, c0, c1, hc, hc'⟩ := colPasses_reaches (Ci := s.Ci) (n := s.nRows) hpos 0
  set n := (colsOf s).card with hn
  have pv0 := pow_pos v0 n
  have pr0 := pow_pos r0 n
  have pc0 := pow_pos c0 s.outputs.length
  have pv1 := pow_le_one₀ (n := n) v0.le v1
  have pr1 := pow_le_one₀ (n := n) r0.le r1
  have pc1 := pow_le_one₀ (n := s.outputs.length) c0.le c1
  set ε := min (min εa (εv ^ n)) (min (εr ^ n) (εc ^ s.outputs.length)) with hε
  have la : ε ≤ εa := (min_le_left _ _).trans (min_le_left _ _)
  have lv : ε ≤ εv ^ n := (min_le_left _ _).trans (min_le_right _ _)
  have lr : ε ≤ εr ^ n := (min_le_right _ _).trans (min_le_left _ _)
  have lc : ε ≤ εc ^ s.outputs.length := (min_le_right _ _).trans (min_le_right _ _)
  have hApart : ∀ L ∈ latents (colsOf s) (rowsOf s), 0 < W L → Apart s.Ci L := fun L hLg h0 => by
    by_contra hn
    rw [hWU L hLg, if_neg hn] at h0
    exact lt_irrefl _ h0
  have hstay : ∀ (k : Kernel) (L' x : Latent (colsOf s) (rowsOf s)),
      (k = .columns → x.part = L'.part) → (k = .alpha → x.part ≠ L'.part ∨ x.alpha = L'.alpha) →
      (k = .viewAlphas → x.part ≠ L'.part) → (k = .rows → x.part ≠ L'.part ∨
        ∀ c, (x.view c).2 = (L'.view c).2) → Toward [k] L' x x := by
    intro k L' x h1 h2 h3 h4
    refine ⟨fun h => ?_, fun hp h => ?_, fun hp h => ?_, fun hp h => ?_⟩
    · rcases h with h | h
      · exact h1 (List.mem_singleton.mp h).symm
      · exact h
    · rcases h with h | h
      · exact (h2 (List.mem_singleton.mp h).symm).resolve_left fun g => g hp
      · exact h
    · rcases h with h | h
      · exact absurd hp (h3 (List.mem_singleton.mp h).symm)
      · exact h
    · rcases h with h | h
      · exact (h4 (List.mem_singleton.mp h).symm).resolve_left fun g => g hp
      · exact h
  have hid : IsChain s W 0 (fun (t : State C) _ => .ok t) (fun f => f) :=
    ⟨fun t ht us _ _ => ⟨t, rfl, ht⟩, fun t _ f => rfl, fun f => rfl, fun _ _ _ _ _ => rfl⟩
  have e1 : ε ≤ 1 := la.trans a1
  refine ⟨ε, lt_min (lt_min a0 pv0) (lt_min pr0 pc0), e1, fun k o ho => ?_⟩
  have hidR : ∀ x ∈ latents (colsOf s) (rowsOf s), Reaches (latents (colsOf s) (rowsOf s))
      (fun f => f) ε x x := fun x hx f hf => by
    have := mul_le_mul_of_nonneg_right e1 (hf x hx)
    rwa [one_mul] at this
  cases k with
  | alpha =>
    refine ⟨_, transitionCrpAlpha_chain hI hU hpos hχ, fun L' hL' h0 x hx => ?_⟩
    by_cases hp : x.part = L'.part
    · have hg := (Latent.mem_latents.mp hL').1
      have hm : withAlpha x L'.alpha ∈ latents (colsOf s) (rowsOf s) :=
        Latent.mem_latents.mpr ⟨hg, (Latent.mem_latents.mp hx).2⟩
      refine ⟨withAlpha x L'.alpha, hm, (ha x hx L'.alpha hg).mono hm la,
        fun _ => hp, fun _ _ => rfl, fun _ h => h.resolve_left (by simp),
        fun _ h => h.resolve_left (by simp)⟩
    · exact ⟨x, hx, (ha x hx x.alpha (Latent.mem_latents.mp hx).1).mono hx la,
        hstay _ L' x (by simp) (fun _ => Or.inl hp) (by simp) (by simp)⟩
  | viewAlphas =>
    have hk := transitionCrpAlpha_viewKernel hI hw
    refine ⟨_, (visitViews_chain (cols := none) hI hF hk (by simp) ho.views).congr
      fun t ht us => by simp only [callKernel, ht.kin.nRows], fun L' hL' h0 x hx => ?_⟩
    have hset : ∀ x' ∈ latents (colsOf s) (rowsOf s), x.alpha = x'.alpha → x.part = x'.part →
        (∀ c, (x'.view c).2 = (x.view c).2) → Reaches (latents (colsOf s) (rowsOf s))
          (atAll ((alphaLocal w).mul (alphaLocal w)) (selects s none)) ε x x' :=
      fun x' hx' g1 g2 g3 => (atAll_reaches (R := fun l l' => l'.2 = l.2) hvn v0 v1 hv
        (fun c => Or.inl rfl) hx hx' g1 g2 g3).mono hx' lv
    by_cases hp : x.part = L'.part
    · have hm : withViews x (fun c => ((L'.view c).1, (x.view c).2)) (fun a b h => by
          rw [x.same a b h, L'.same a b (hp ▸ h)]) ∈ latents (colsOf s) (rowsOf s) :=
        Latent.mem_latents.mpr ⟨(Latent.mem_latents.mp hx).1, (Latent.mem_latents.mp hL').2⟩
      exact ⟨_, hm, hset _ hm rfl rfl fun _ => rfl, fun _ => hp,
        fun _ h => h.resolve_left (by simp), fun _ _ _ => rfl, fun _ h => h.resolve_left (by simp)⟩
    · exact ⟨x, hx, hset x hx rfl rfl fun _ => rfl,
        hstay _ L' x (by simp) (by simp) (fun _ => hp) (by simp)⟩
  | columnParams =>
    exact ⟨_, hid, fun L' hL' h0 x hx => ⟨x, hx, hidR x hx,
      hstay _ L' x (by simp) (by simp) (by simp) (by simp)⟩⟩
  | rows =>
    by_cases h1 : s.nRows = 1
    · have hid' : IsChain s W (s.kernelDraws none none .rows)
          (fun (t : State C) _ => .ok t) (fun f => f) :=
        ⟨fun t ht us _ _ => ⟨t, rfl, ht⟩, fun t _ f => average_const _ _, fun f => rfl,
          fun _ _ _ _ _ => rfl⟩
      refine ⟨_, hid'.congr fun t ht us => ?_, fun L' hL' h0 x hx => ⟨x, hx, hidR x hx,
        hstay _ L' x (by simp) (by simp) (by simp) fun _ => Or.inr fun c => ?_⟩⟩
      · simp only [callKernel, ht.kin.nRows, if_pos h1]
      · have hsub : ∀ a b : {r // r ∈ rowsOf s}, a = b := fun a b => by
          have ha : a.1 < 1 := h1 ▸ Finset.mem_range.mp a.2
          have hb : b.1 < 1 := h1 ▸ Finset.mem_range.mp b.2
          exact Subtype.ext ((Nat.lt_one_iff.mp ha).trans (Nat.lt_one_iff.mp hb).symm)
        exact Setoid.ext fun a b => by
          rw [hsub a b]
          exact ⟨fun _ => (L'.view c).2.refl b, fun _ => (x.view c).2.refl b⟩
    · have hR : ∀ B, (o.rows B).length = (List.range s.nRows).length ∧
          ∀ r ∈ o.rows B, r < s.nRows := fun B =>
        ⟨(ho.rows B).length_eq, fun r hr => by
          have := (ho.rows B).mem_iff.mp hr
          simpa using this⟩
      have hk := transitionRows_viewKernel hL hCh hI hw hR
      obtain ⟨hn1, hn2⟩ := hr o.rows fun B => ⟨fun r hr => (ho.rows B).mem_iff.mpr
        (by simpa [rowsOf] using hr), by rw [(hR B).1]; simp⟩
      refine ⟨_, (visitViews_chain (cols := none) hI hF hk (by simp) ho.views).congr
        fun t ht us => by
          simp only [callKernel, ht.kin.nRows, if_neg h1, ht.kin.tbl, Option.getD_none],
        fun L' hL' h0 x hx => ?_⟩
      have hset : ∀ x' ∈ latents (colsOf s) (rowsOf s), x.alpha = x'.alpha → x.part = x'.part →
          (∀ c, (x'.view c).1 = (x.view c).1) → Reaches (latents (colsOf s) (rowsOf s))
            (atAll (rowLocal w o.rows) (selects s none)) ε x x' :=
        fun x' hx' g1 g2 g3 => (atAll_reaches (R := fun l l' => l'.1 = l.1) hn1 r0 r1 hn2
          (fun c => Or.inl rfl) hx hx' g1 g2 g3).mono hx' lr
      by_cases hp : x.part = L'.part
      · have hm : withViews x (fun c => ((x.view c).1, (L'.view c).2)) (fun a b h => by
            rw [x.same a b h, L'.same a b (hp ▸ h)]) ∈ latents (colsOf s) (rowsOf s) :=
          Latent.mem_latents.mpr ⟨(Latent.mem_latents.mp hx).1, (Latent.mem_latents.mp hx).2⟩
        exact ⟨_, hm, hset _ hm rfl rfl fun _ => rfl, fun _ => hp,
          fun _ h => h.resolve_left (by simp), fun _ h => h.resolve_left (by simp), fun _ _ _ => rfl⟩
      · exact ⟨x, hx, hset x hx rfl rfl fun _ => rfl,
          hstay _ L' x (by simp) (by simp) (by simp) (fun _ => Or.inl hp)⟩
  | columns =>
    have hoc : ∀ c, c ∈ o.cols ↔ c ∈ colsOf s := fun c => by
      rw [ho.cols.mem_iff, mem_colsOf]; rfl
    obtain ⟨cs, hcs⟩ : ∃ cs : List {c // c ∈ colsOf s}, cs.map Subtype.val = o.cols :=
      ⟨o.cols.attach.map fun c => ⟨c.1, (hoc c.1).mp c.2⟩, by
        rw [List.map_map]; exact List.attach_map_subtype_val _⟩
    have hlen : cs.length = s.outputs.length := by
      rw [← List.length_map (f := Subtype.val) (as := cs), hcs, ho.cols.length_eq]; rfl
    have hnd : cs.Nodup := by
      refine List.Nodup.of_map Subtype.val ?_
      rw [hcs, ho.cols.nodup_iff]
      exact hI.data.nodup
    have hall : ∀ c, c ∈ cs := fun c => by
      have := (hoc c.1).mpr c.2
      rw [← hcs, List.mem_map] at this
      obtain ⟨c', hc', e⟩ := this
      rwa [← Subtype.ext e]
    have hch := transitionDims_chain hL hI hm.conditional hm.dependent hU hpos hW 0 cs
      (fun c _ => hm.partners c.1 (mem_colsOf.mp c.2))
    refine ⟨_, (?_ : IsChain s W (s.kernelDraws none none .columns)
      (fun t us => t.callKernel cfg none none o us .columns) (colPasses s.Ci U 0 cs)),
      fun L' hL' h0 x hx => ?_⟩
    · rw [hcs, hlen] at hch
      exact hch
    · have hA := hApart L' hL' h0
      by_cases hp : x.part = L'.part
      · have hAx : Apart s.Ci x := fun a b h hne hr => hA a b h hne (hp ▸ hr)
        have := hc cs x hx hAx
        rw [hlen] at this
        exact ⟨x, hx, this.mono hx lc, hstay _ L' x (fun _ => hp) (by simp) (by simp) (by simp)⟩
      · obtain ⟨L1, hL1, p1, p2, p3⟩ := hc' cs hnd hall x hx L'.part hA
        rw [hlen] at p3
        exact ⟨L1, hL1, p3.mono hL1 lc, fun _ => p1, fun h => absurd h hp, fun h => absurd h hp,
          fun h => absurd h hp⟩

end Cgpm.State
