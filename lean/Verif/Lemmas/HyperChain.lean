import Verif.Lemmas.HyperFiber

/-! The kernels of a State as chains on hyperparameters and latent structures. -/
namespace Cgpm.Mix

theorem IsStep.congr {ι : Type} {S : Finset ι} {W : ι → ℝ} {P : (ι → ℝ) → ι → ℝ}
    (h : IsStep S W P) {f g : ι → ℝ} (hfg : ∀ x ∈ S, f x = g x) {x : ι} (hx : x ∈ S) :
    P f x = P g x :=
  le_antisymm (h.mono (fun y hy => (hfg y hy).le) hx) (h.mono (fun y hy => (hfg y hy).ge) hx)

theorem IsStep.comp {ι : Type} {S : Finset ι} {W : ι → ℝ} {P Q : (ι → ℝ) → ι → ℝ}
    (h : IsStep S W P) (h' : IsStep S W Q) : IsStep S W (fun f => P (Q f)) := by
  refine ⟨fun f g a b x => ?_, fun c x hx => ?_, fun f hf => h.nonneg _ (h'.nonneg f hf),
    fun f => (h.inv _).trans (h'.inv f)⟩
  · have : Q (fun y => a * f y + b * g y) = fun y => a * Q f y + b * Q g y :=
      funext fun y => h'.lin f g a b y
    simp only [this, h.lin]
  · rw [h.congr (fun y hy => h'.const c y hy) hx]
    exact h.const c x hx

theorem isStep_id {ι : Type} (S : Finset ι) (W : ι → ℝ) : IsStep S W (fun f => f) :=
  ⟨fun _ _ _ _ _ => rfl, fun _ _ _ => rfl, fun _ h => h, fun _ => rfl⟩

end Cgpm.Mix

namespace Cgpm.State
open Cgpm.View Cgpm.Spec Cgpm.Props Cgpm.Mix Cgpm.Spec.Hyper Cgpm.Hyper
variable {C : Cat} {cfg : Cfg C} {s : State C} {lib : HyperLib C} {grids : Col → Grids}
  {val : C.ι → Hypers → C.H} {Adm : C.ι → Hypers → Prop}

/-- Hyperparameters and a latent structure. -/
abbrev FullLatent (s : State C) (grids : Col → Grids) :=
  Choice (colsOf s) grids × Latent (colsOf s) (rowsOf s)

/-- Those with concentrations on the grids. -/
noncomputable def fullLatents (s : State C) (grids : Col → Grids) : Finset (FullLatent s grids) :=
  Finset.univ ×ˢ latents (colsOf s) (rowsOf s)

theorem mem_fullLatents {x : FullLatent s grids} :
    x ∈ fullLatents s grids ↔ x.2 ∈ latents (colsOf s) (rowsOf s) := by
  simp [fullLatents]

/-- A function of the dictionaries of hyperparameters and the latent structure, on the choices. -/
def onChoice (F : ({c // c ∈ colsOf s} → Hypers) → Latent (colsOf s) (rowsOf s) → ℝ)
    (x : FullLatent s grids) : ℝ := F x.1.hypers x.2

/-- With `N` uniform draws, `K` takes States of the full model to States of the full model, and `P` is
the chain of the new hyperparameters and latent structure. -/
structure FullChain (cfg : Cfg C) (lib : HyperLib C) (s : State C) (W : FullLatent s grids → ℝ)
    (N : ℕ) (K : State C → List ℝ → Out (State C))
    (P : (FullLatent s grids → ℝ) → FullLatent s grids → ℝ) : Prop where
  ok : ∀ (κ : Choice (colsOf s) grids) t, At cfg lib s κ t → ∀ us : List ℝ, us.length = N →
    (∀ u ∈ us, 0 ≤ u ∧ u < 1) →
    ∃ (κ' : Choice (colsOf s) grids) (t' : State C), K t us = .ok t' ∧ At cfg lib s κ' t'
  law : ∀ (κ : Choice (colsOf s) grids) t, At cfg lib s κ t → ∀ F, average N (fun us =>
      F (hypersOf lib (colsOf s) (K t us).state) (latentOf (colsOf s) (rowsOf s) (K t us).state))
    = P (onChoice F) (κ, latentOf (colsOf s) (rowsOf s) t)
  step : IsStep (fullLatents s grids) W P

theorem exists_at (hL : C.Lawful) (hs : StateReachable cfg s) (hS : SoundState lib grids val Adm s)
    (κ : Choice (colsOf s) grids) {L : Latent (colsOf s) (rowsOf s)}
    (hLg : L ∈ latents (colsOf s) (rowsOf s)) :
    ∃ t, At cfg lib s κ t ∧ latentOf (colsOf s) (rowsOf s) t = L := by
  obtain ⟨Q, V, hV, hκ⟩ := exists_putAll hL hs hS κ
  obtain ⟨t, ht, e⟩ := (FullState.inv hL hV).realise cfg (L := L) hLg
  refine ⟨t, (At.onModel hL hs hS hV hκ).mpr ⟨⟨SameState.kin hL ht, ht.sorted, ?_⟩, ht.reachable⟩, e⟩
  have := Latent.mem_latents.mp hLg
  rw [← e] at this
  exact this

theorem FullChain.comp (hL : C.Lawful) (hs : StateReachable cfg s)
    (hS : SoundState lib grids val Adm s) {W : FullLatent s grids → ℝ} {a b : ℕ}
    {K K' : State C → List ℝ → Out (State C)}
    {P P' : (FullLatent s grids → ℝ) → FullLatent s grids → ℝ}
    (h : FullChain cfg lib s W a K P) (h' : FullChain cfg lib s W b K' P') :
    FullChain cfg lib s W (a + b) (fun t us => (K t (us.take a)).bind fun t' => K' t' (us.drop a))
      (fun f => P (P' f)) := by
  classical
  refine ⟨fun κ t ht us hl hu => ?_, fun κ t ht F => ?_, h.step.comp h'.step⟩
  · obtain ⟨κ1, t1, e1, h1⟩ := h.ok κ t ht (us.take a) (by rw [List.length_take]; omega)
      (fun u hm => hu u (List.mem_of_mem_take hm))
    obtain ⟨κ2, t2, e2, h2⟩ := h'.ok κ1 t1 h1 (us.drop a) (by rw [List.length_drop]; omega)
      (fun u hm => hu u (List.mem_of_mem_drop hm))
    exact ⟨κ2, t2, by simp only [e1, Out.bind_ok, e2], h2⟩
  · -- the expected value after the second call, as a function of the dictionaries
    let G : ({c // c ∈ colsOf s} → Hypers) → Latent (colsOf s) (rowsOf s) → ℝ := fun η L =>
      if e : ∃ κ : Choice (colsOf s) grids, κ.hypers = η then P' (onChoice F) (e.choose, L) else 0
    have hG : ∀ (κ : Choice (colsOf s) grids), ∀ L ∈ latents (colsOf s) (rowsOf s),
        G κ.hypers L = P' (onChoice F) (κ, L) := fun κ L hLg => by
      have e : ∃ κ' : Choice (colsOf s) grids, κ'.hypers = κ.hypers := ⟨κ, rfl⟩
      simp only [G, dif_pos e]
      obtain ⟨t, ht, rfl⟩ := exists_at hL hs hS κ hLg
      have ht' : At cfg lib s e.choose t := ⟨ht.full, ht.chosen.trans e.choose_spec.symm, ht.grid⟩
      rw [← h'.law κ t ht F, ← h'.law e.choose t ht' F]
    have h1 : average (a + b) (fun us =>
        F (hypersOf lib (colsOf s) ((K t (us.take a)).bind fun t' => K' t' (us.drop a)).state)
          (latentOf (colsOf s) (rowsOf s)
            ((K t (us.take a)).bind fun t' => K' t' (us.drop a)).state))
        = average a (fun us => G (hypersOf lib (colsOf s) (K t us).state)
            (latentOf (colsOf s) (rowsOf s) (K t us).state)) := by
      rw [average_append (a := a) (b := b)]
      refine average_congr fun us hl hu => ?_
      obtain ⟨κ1, t1, e1, h1⟩ := h.ok κ t ht us hl hu
      rw [e1, Out.state_ok, h1.chosen, hG κ1 _ (Latent.mem_latents.mpr h1.grid),
        ← h'.law κ1 t1 h1 F]
      refine average_congr fun vs hl' hu' => ?_
      have q1 : (us ++ vs).take a = us := by rw [← hl, List.take_left]
      have q2 : (us ++ vs).drop a = vs := by rw [← hl, List.drop_left]
      rw [q1, q2, e1, Out.bind_ok]
    rw [h1, h.law κ t ht G]
    refine h.step.congr (fun x hx => ?_) (mem_fullLatents.mpr (Latent.mem_latents.mpr ht.grid))
    exact hG x.1 x.2 (mem_fullLatents.mp hx)

theorem FullChain.congr {W : FullLatent s grids → ℝ} {N : ℕ}
    {K K' : State C → List ℝ → Out (State C)}
    {P : (FullLatent s grids → ℝ) → FullLatent s grids → ℝ} (h : FullChain cfg lib s W N K P)
    (e : ∀ (κ : Choice (colsOf s) grids) t, At cfg lib s κ t → ∀ us, K' t us = K t us) :
    FullChain cfg lib s W N K' P :=
  ⟨fun κ t ht us => by rw [e κ t ht us]; exact h.ok κ t ht us,
    fun κ t ht F => by simp only [e κ t ht]; exact h.law κ t ht F, h.step⟩

theorem fullChain_id (cfg : Cfg C) (lib : HyperLib C) (s : State C) (W : FullLatent s grids → ℝ) :
    FullChain cfg lib s W 0 (fun t _ => .ok t) (fun f => f) :=
  ⟨fun κ t ht us _ _ => ⟨κ, t, rfl, ht⟩, fun κ t ht F => by
    show F _ _ = F _ _
    rw [Out.state_ok, ht.chosen], isStep_id _ _⟩

/-! ### Kernels that leave the hyperparameters as they are -/

theorem fullChain_fibers (hL : C.Lawful) (hs : StateReachable cfg s)
    (hS : SoundState lib grids val Adm s) {W : FullLatent s grids → ℝ} {N : ℕ}
    {K : State C → List ℝ → Out (State C)} {Q : Choice (colsOf s) grids → Crp}
    {V : Choice (colsOf s) grids → Dict Nat (View C)}
    (hV : ∀ κ, FullState cfg s { s with crp := Q κ, views := V κ })
    (hκ : ∀ κ, hypersOf lib (colsOf s) { s with crp := Q κ, views := V κ } = κ.hypers)
    {P : Choice (colsOf s) grids → (Latent (colsOf s) (rowsOf s) → ℝ) →
      Latent (colsOf s) (rowsOf s) → ℝ}
    (hP : ∀ κ, IsChain { s with crp := Q κ, views := V κ } (fun L => W (κ, L)) N K (P κ))
    (hr : ∀ κ, GoodKernel cfg { s with crp := Q κ, views := V κ } (fun L => W (κ, L)) N K) :
    FullChain cfg lib s W N K (fun f x => P x.1 (fun L => f (x.1, L)) x.2) ∧
    ∀ (κ : Choice (colsOf s) grids) t, At cfg lib s κ t → ∀ us : List ℝ, us.length = N →
      (∀ u ∈ us, 0 ≤ u ∧ u < 1) → ∃ t', K t us = .ok t' ∧ At cfg lib s κ t' := by
  have hok : ∀ (κ : Choice (colsOf s) grids) t, At cfg lib s κ t → ∀ us : List ℝ, us.length = N →
      (∀ u ∈ us, 0 ≤ u ∧ u < 1) → ∃ t', K t us = .ok t' ∧ At cfg lib s κ t' := by
    intro κ t ht us hl hu
    obtain ⟨m, r⟩ := (At.onModel hL hs hS (hV κ) (hκ κ)).mp ht
    obtain ⟨t', e, m'⟩ := (hP κ).ok t m us hl hu
    exact ⟨t', e, (At.onModel hL hs hS (hV κ) (hκ κ)).mpr
      ⟨m', (hr κ).reach t t' m r us hl hu e⟩⟩
  have hstep := fun κ => (hP κ).isStep hL cfg (FullState.inv hL (hV κ))
  refine ⟨⟨fun κ t ht us hl hu => ?_, fun κ t ht F => ?_, ?_⟩, hok⟩
  · obtain ⟨t', e, h'⟩ := hok κ t ht us hl hu
    exact ⟨κ, t', e, h'⟩
  · obtain ⟨m, r⟩ := (At.onModel hL hs hS (hV κ) (hκ κ)).mp ht
    refine Eq.trans (average_congr fun us hl hu => ?_) ((hP κ).law t m (F κ.hypers))
    obtain ⟨t', e, h'⟩ := hok κ t ht us hl hu
    rw [e, Out.state_ok, h'.chosen]
    rfl
  · refine ⟨fun f g a b x => (hstep x.1).lin _ _ a b x.2, fun c x hx =>
      (hstep x.1).const c x.2 (mem_fullLatents.mp hx), fun f hf x hx =>
      (hstep x.1).nonneg _ (fun L hLg => hf (x.1, L) (mem_fullLatents.mpr hLg)) x.2
        (mem_fullLatents.mp hx), fun f => ?_⟩
    unfold fullLatents
    rw [Finset.sum_product, Finset.sum_product]
    exact Finset.sum_congr rfl fun κ _ => (hstep κ).inv fun L => f (κ, L)

/-! ### The hyperparameters of a column -/

/-- `U` is the weight of the States of the full model before the constraints. -/
structure FullWeight (cfg : Cfg C) (lib : HyperLib C) (s : State C)
    (U : FullLatent s grids → ℝ) : Prop where
  eq : ∀ (κ : Choice (colsOf s) grids) t, At cfg lib s κ t →
    U (κ, latentOf (colsOf s) (rowsOf s) t) = freeWeight t
  pos : ∀ x ∈ fullLatents s grids, 0 < U x

/-- The hyperparameters of column `a` at the positions `js` are redrawn in turn. -/
noncomputable def hyperStep (U : FullLatent s grids → ℝ) (a : {c // c ∈ colsOf s})
    (js : List (Fin (grids a.1).length)) (f : FullLatent s grids → ℝ) (x : FullLatent s grids) : ℝ :=
  hyperOp (g := fun a : {c // c ∈ colsOf s} => grids a.1) (fun κ => U (κ, x.2)) a js
    (fun κ => f (κ, x.2)) x.1

theorem drawDimHypers_eq {t : State C} {c : Col} {i : Nat} {v : View C} {d : Dim C}
    (hz : t.Zv c = some i) (hv : t.views.get? i = some v) (hd : v.dims.get? c = some d)
    (g : Grids) (draws : List (String × ℝ)) :
    t.drawDimHypers lib g draws c
      = (d.drawHypers lib g draws).map fun d' => t.putDim i v c d' := by
  simp only [drawDimHypers, hz, onView, hv, View.drawDimHypers, hd]
  cases d.drawHypers lib g draws <;> rfl

theorem hyperStep_isStep {U W : FullLatent s grids → ℝ} {χ : Latent (colsOf s) (rowsOf s) → ℝ}
    (hpos : ∀ x ∈ fullLatents s grids, 0 < U x)
    (hχ : ∀ x ∈ fullLatents s grids, W x = χ x.2 * U x) (a : {c // c ∈ colsOf s})
    (js : List (Fin (grids a.1).length)) : IsStep (fullLatents s grids) W (hyperStep U a js) := by
  have hp : ∀ L ∈ latents (colsOf s) (rowsOf s), ∀ κ : Choice (colsOf s) grids, 0 < U (κ, L) :=
    fun L hLg κ => hpos _ (mem_fullLatents.mpr hLg)
  refine ⟨fun f g x y z => hyperOp_lin (fun κ => U (κ, z.2)) a js (fun κ => f (κ, z.2))
    (fun κ => g (κ, z.2)) x y z.1, fun c x hx =>
    hyperOp_const (hp x.2 (mem_fullLatents.mp hx)) a js c x.1, fun f hf x hx =>
    hyperOp_nonneg (hp x.2 (mem_fullLatents.mp hx)) a js
      (fun κ => hf (κ, x.2) (mem_fullLatents.mpr ((mem_fullLatents (x := x)).mp hx))) x.1, fun f => ?_⟩
  unfold fullLatents
  rw [Finset.sum_product_right, Finset.sum_product_right]
  refine Finset.sum_congr rfl fun L hLg => ?_
  have e : ∀ (G : FullLatent s grids → ℝ), ∑ κ : Choice (colsOf s) grids, W (κ, L) * G (κ, L)
      = χ L * ∑ κ : Choice (colsOf s) grids, U (κ, L) * G (κ, L) := fun G => by
    rw [Finset.mul_sum]
    refine Finset.sum_congr rfl fun κ _ => ?_
    rw [hχ (κ, L) (mem_fullLatents.mpr hLg), mul_assoc]
  rw [e, e]
  congr 1
  exact hyperOp_inv (hp L hLg) a js fun κ => f (κ, L)

theorem putDim_untouched {t : State C} {i : Nat} {v : View C} {c : Col} {d : Dim C}
    (hv : t.views.get? i = some v) (ks : List Kernel) (cols : Option (List Col))
    (rowids : Option (List Row)) : Untouched ks cols rowids t (t.putDim i v c d) := by
  refine ⟨fun _ => rfl, fun _ _ => rfl, fun _ => ⟨keys_putDim c hv d, fun j w w' h h' => ?_⟩⟩
  have hV : (t.putDim i v c d).views.get? j
      = if j = i then some { v with dims := v.dims.set c d } else t.views.get? j :=
    Dict.get?_set _ _ _ _
  rw [hV] at h'
  split at h'
  · rename_i e
    subst e
    rw [hv] at h
    cases h
    cases h'
    exact ⟨fun _ => rfl, fun _ _ => rfl⟩
  · rw [h] at h'
    cases h'
    exact ⟨fun _ => rfl, fun _ _ => rfl⟩

theorem drawDimHypers_outcome (hL : C.Lawful) (hs : StateReachable cfg s)
    (hS : SoundState lib grids val Adm s) (a : {c // c ∈ colsOf s})
    (js : List (Fin (grids a.1).length)) {κ : Choice (colsOf s) grids} {t : State C}
    (ht : At cfg lib s κ t) {us : List ℝ} (hl : us.length = js.length)
    (hu : ∀ u ∈ us, 0 ≤ u ∧ u < 1) : ∃ (k : Config (grids a.1)) (t' : State C),
      t.drawDimHypers lib (grids a.1) ((nameList (grids a.1) js).zip us) a.1 = .ok t' ∧
      At cfg lib s (Function.update κ a k) t' ∧
      ∀ ks cols rowids, Untouched ks cols rowids t t' := by
  obtain ⟨-, d, -, hdim, -⟩ := FullState.dims hL hs ht.full (mem_colsOf.mp a.2)
  obtain ⟨i, v, hz, hv, hd⟩ := dimFor_ok hdim
  have S := FullState.sound hL hs ht.full hS (mem_colsOf.mp a.2) hdim
  have hch := congrFun ht.chosen a
  rw [hypersOf_dim hdim] at hch
  obtain ⟨k, -, e⟩ := S.outcome d rfl js (κ a) hch hu hl
  refine ⟨k, _, ?_, At.putDim hL hs hS ht a hz hv hd k, fun ks cols rowids =>
    putDim_untouched hv ks cols rowids⟩
  rw [drawDimHypers_eq hz hv hd, e, Out.map_ok]

theorem drawDimHypers_chain (hL : C.Lawful) (hs : StateReachable cfg s)
    (hS : SoundState lib grids val Adm s) {U W : FullLatent s grids → ℝ}
    (hU : FullWeight cfg lib s U) {χ : Latent (colsOf s) (rowsOf s) → ℝ}
    (hχ : ∀ x ∈ fullLatents s grids, W x = χ x.2 * U x) (a : {c // c ∈ colsOf s})
    (js : List (Fin (grids a.1).length)) :
    FullChain cfg lib s W js.length (fun t us =>
      t.drawDimHypers lib (grids a.1) ((nameList (grids a.1) js).zip us) a.1) (hyperStep U a js) := by
  refine ⟨fun κ t ht us hl hu => ?_, fun κ t ht F => ?_, hyperStep_isStep hU.pos hχ a js⟩
  · obtain ⟨k, t', e, h', -⟩ := drawDimHypers_outcome hL hs hS a js ht hl hu
    exact ⟨Function.update κ a k, t', e, h'⟩
  · obtain ⟨-, d, -, hdim, -⟩ := FullState.dims hL hs ht.full (mem_colsOf.mp a.2)
    obtain ⟨i, v, hz, hv, hd⟩ := dimFor_ok hdim
    have S := FullState.sound hL hs ht.full hS (mem_colsOf.mp a.2) hdim
    have hch := congrFun ht.chosen a
    rw [hypersOf_dim hdim] at hch
    have hI := FullState.inv hL ht.full
    have hstate : ∀ us, (t.drawDimHypers lib (grids a.1) ((nameList (grids a.1) js).zip us) a.1).state
        = t.putDim i v a.1 (d.drawHypers lib (grids a.1) ((nameList (grids a.1) js).zip us)).state :=
      fun us => by
        rw [drawDimHypers_eq hz hv hd]
        cases d.drawHypers lib (grids a.1) ((nameList (grids a.1) js).zip us) <;> rfl
    simp only [hstate]
    rw [S.law d rfl js (κ a) hch (fun d' => F (hypersOf lib (colsOf s) (t.putDim i v a.1 d'))
      (latentOf (colsOf s) (rowsOf s) (t.putDim i v a.1 d')))]
    set L := latentOf (colsOf s) (rowsOf s) t with hLdef
    have hF : (fun k : Config (grids a.1) => F (hypersOf lib (colsOf s)
          (t.putDim i v a.1 (d.transitionHypers (val d.kind k.hypers))))
        (latentOf (colsOf s) (rowsOf s)
          (t.putDim i v a.1 (d.transitionHypers (val d.kind k.hypers)))))
        = fun k => onChoice F (Function.update κ a k, L) := funext fun k => by
      rw [(At.putDim hL hs hS ht a hz hv hd k).chosen, latentOf_putDim a.1 hv]
      rfl
    rw [hF]
    have hp : 0 < concentrationPrior t.nRows v.crp.alpha := by
      have hn : t.nRows = s.nRows := by
        unfold State.nRows; rw [ht.full.data, ht.full.outputs]
      have := ht.grid.2 a
      rw [latent_viewLabel hz hv, rowsOf_card] at this
      rw [hn]
      exact concentrationPrior_pos this
    have hw : ∀ k : Config (grids a.1), U (Function.update κ a k, L)
        = freeWeight t / Real.exp d.score
          * Real.exp (d.transitionHypers (val d.kind k.hypers)).score := fun k => by
      rw [← freeWeight_putDim hI hv hp hd, ← hU.eq _ _ (At.putDim hL hs hS ht a hz hv hd k),
        latentOf_putDim a.1 hv]
    have hR : freeWeight t / Real.exp d.score ≠ 0 := by
      rw [← hU.eq κ t ht]
      exact (div_pos (hU.pos _ (mem_fullLatents.mpr (Latent.mem_latents.mpr ht.grid)))
        (Real.exp_pos _)).ne'
    have := cfgPass_hyperOp (g := fun a : {c // c ∈ colsOf s} => grids a.1)
      (Φ := fun κ => U (κ, L)) (a := a) κ hR hw js (fun κ => onChoice F (κ, L)) (κ a)
    rw [Function.update_eq_self] at this
    exact this

end Cgpm.State
