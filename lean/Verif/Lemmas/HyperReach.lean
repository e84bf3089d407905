import Verif.Lemmas.HyperKernels

/-! Two rounds of all kernels reach every choice of hyperparameters and latent structure of positive
posterior weight. -/
namespace Cgpm.State
open Cgpm.View Cgpm.Spec Cgpm.Props Cgpm.Mix Cgpm.Spec.Hyper Cgpm.Hyper
variable {C : Cat} {cfg : Cfg C} {s : State C} {lib : HyperLib C} {grids : Col → Grids}
  {val : C.ι → Hypers → C.H} {Adm : C.ι → Hypers → Prop}

theorem Toward.append {as bs : List Kernel} {L' x x' x'' : Latent (colsOf s) (rowsOf s)}
    (h : Toward as L' x x') (h' : Toward bs L' x' x'') : Toward (as ++ bs) L' x x'' := by
  have key : ∀ (j : Kernel) (X : Prop), j ∈ as ++ bs ∨ X → j ∈ bs ∨ (j ∈ as ∨ X) := by
    intro j X h
    rcases h with h | h
    · rcases List.mem_append.mp h with e | e
      · exact Or.inr (Or.inl e)
      · exact Or.inl e
    · exact Or.inr (Or.inr h)
  refine ⟨fun g => h'.part ((key _ _ g).imp_right h.part), fun hp g => ?_, fun hp g => ?_,
    fun hp g => ?_⟩
  · exact h'.alpha (h.part (Or.inr hp)) ((key _ _ g).imp_right (h.alpha hp))
  · exact h'.views (h.part (Or.inr hp)) ((key _ _ g).imp_right (h.views hp))
  · exact h'.rows (h.part (Or.inr hp)) ((key _ _ g).imp_right (h.rows hp))

theorem toward_refl (L' x : Latent (colsOf s) (rowsOf s)) : Toward [] L' x x :=
  ⟨fun h => h.resolve_left (by simp), fun _ h => h.resolve_left (by simp),
    fun _ h => h.resolve_left (by simp), fun _ h => h.resolve_left (by simp)⟩

/-- What the path towards `y` has achieved after some kernel calls. -/
structure FullToward (ks : List AnyKernel) (y x x' : FullLatent s grids) : Prop where
  latent : Toward (otherKernels ks) y.2 x.2 x'.2
  hypers : .columnHypers ∈ ks ∨ x.1 = y.1 → x'.1 = y.1

theorem FullToward.append {as bs : List AnyKernel} {y x x' x'' : FullLatent s grids}
    (h : FullToward as y x x') (h' : FullToward bs y x' x'') : FullToward (as ++ bs) y x x'' := by
  refine ⟨?_, fun g => h'.hypers ?_⟩
  · have : otherKernels (as ++ bs) = otherKernels as ++ otherKernels bs := List.filterMap_append
    rw [this]
    exact h.latent.append h'.latent
  · rcases g with g | g
    · rcases List.mem_append.mp g with e | e
      · exact Or.inr (h.hypers (Or.inl e))
      · exact Or.inl e
    · exact Or.inr (h.hypers (Or.inr g))

/-! ### The hyperparameters -/

theorem hyperSteps_isStep {U W : FullLatent s grids → ℝ} {χ : Latent (colsOf s) (rowsOf s) → ℝ}
    (hpos : ∀ x ∈ fullLatents s grids, 0 < U x)
    (hχ : ∀ x ∈ fullLatents s grids, W x = χ x.2 * U x)
    (js : (a : {c // c ∈ colsOf s}) → List (Fin (grids a.1).length)) (l : List {c // c ∈ colsOf s}) :
    IsStep (fullLatents s grids) W (hyperSteps U js l) := by
  induction l with
  | nil => exact isStep_id _ _
  | cons a l ih => exact (hyperStep_isStep hpos hχ a (js a)).comp ih

theorem exists_hyper_lower {U : FullLatent s grids → ℝ} (hpos : ∀ x ∈ fullLatents s grids, 0 < U x) :
    ∃ ε : ℝ, 0 < ε ∧ ε ≤ 1 ∧ ∀ L ∈ latents (colsOf s) (rowsOf s),
      ∀ (κ : Configs fun a : {c // c ∈ colsOf s} => grids a.1) (a : {c // c ∈ colsOf s})
        (j : Fin (grids a.1).length) (i : Fin (grids a.1)[j].2.length),
        ε ≤ U (Configs.setAt κ a j i, L) / ∑ k, U (Configs.setAt κ a j k, L) := by
  refine exists_lower (latents (colsOf s) (rowsOf s)) (fun L ε =>
      ∀ (κ : Configs fun a : {c // c ∈ colsOf s} => grids a.1) (a : {c // c ∈ colsOf s})
        (j : Fin (grids a.1).length) (i : Fin (grids a.1)[j].2.length),
        ε ≤ U (Configs.setAt κ a j i, L) / ∑ k, U (Configs.setAt κ a j k, L))
    (fun L ε ε' _ he h κ a j i => he.trans (h κ a j i)) fun L hLg => ?_
  obtain ⟨ε, h0, -, h2⟩ := exists_setAt_lower (g := fun a : {c // c ∈ colsOf s} => grids a.1)
    (Φ := fun κ => U (κ, L)) (fun κ => hpos _ (mem_fullLatents.mpr hLg))
  exact ⟨ε, h0, h2⟩

theorem hyperSteps_reaches {U W : FullLatent s grids → ℝ} {χ : Latent (colsOf s) (rowsOf s) → ℝ}
    (hpos : ∀ x ∈ fullLatents s grids, 0 < U x)
    (hχ : ∀ x ∈ fullLatents s grids, W x = χ x.2 * U x) {ε : ℝ} (h0 : 0 < ε)
    (hε : ∀ L ∈ latents (colsOf s) (rowsOf s),
      ∀ (κ : Configs fun a : {c // c ∈ colsOf s} => grids a.1) (a : {c // c ∈ colsOf s})
        (j : Fin (grids a.1).length) (i : Fin (grids a.1)[j].2.length),
        ε ≤ U (Configs.setAt κ a j i, L) / ∑ k, U (Configs.setAt κ a j k, L))
    {js : (a : {c // c ∈ colsOf s}) → List (Fin (grids a.1).length)}
    (hl : ∀ a, (js a).length = (grids a.1).length) (hj : ∀ a j, j ∈ js a)
    (l : List {c // c ∈ colsOf s}) (τ : Choice (colsOf s) grids) {x : FullLatent s grids}
    (hx : x ∈ fullLatents s grids) : ∃ κ' : Choice (colsOf s) grids,
      (∀ a, a ∈ l ∨ x.1 a = τ a → κ' a = τ a) ∧
      Reaches (fullLatents s grids) (hyperSteps U js l)
        (ε ^ ((l.map fun a => a.1).map fun c => (grids c).length).sum) x (κ', x.2) := by
  induction l generalizing x with
  | nil => exact ⟨x.1, fun a h => h.resolve_left (by simp), fun f _ => by simp [hyperSteps]⟩
  | cons a l ih =>
    have hLg := mem_fullLatents.mp hx
    have hx1 : ((Function.update x.1 a (τ a), x.2) : FullLatent s grids) ∈ fullLatents s grids :=
      mem_fullLatents.mpr hLg
    obtain ⟨κ', e1, r1⟩ := ih hx1
    refine ⟨κ', fun b hb => e1 b ?_, fun f hf => ?_⟩
    · by_cases e : b = a
      · subst e
        exact Or.inr (by simp)
      · rcases hb with hb | hb
        · exact Or.inl ((List.mem_cons.mp hb).resolve_left e)
        · exact Or.inr (by simpa [Function.update_of_ne e] using hb)
    · have hmix : Configs.mix (g := fun a : {c // c ∈ colsOf s} => grids a.1) x.1 τ a (js a)
          = Function.update x.1 a (τ a) := by
        unfold Configs.mix
        congr 1
        funext j
        rw [if_pos (hj a j)]
      have hn := (hyperSteps_isStep hpos hχ js l).nonneg f hf
      have h1 := hyperOp_reaches (g := fun a : {c // c ∈ colsOf s} => grids a.1)
        (Φ := fun κ => U (κ, x.2)) (fun κ => hpos _ (mem_fullLatents.mpr hLg)) h0 (hε x.2 hLg) a (js a)
        x.1 τ (f := fun κ => hyperSteps U js l f (κ, x.2))
        (fun κ => hn (κ, x.2) (mem_fullLatents.mpr hLg))
      rw [hmix, hl] at h1
      simp only [List.map_cons, List.sum_cons]
      rw [pow_add, mul_assoc]
      exact (mul_le_mul_of_nonneg_left (r1 f hf) (pow_pos h0 _).le).trans h1

/-! ### Any kernel -/

theorem callAny_moves (hL : C.Lawful) (hCh : C.Chain) (hs : StateReachable cfg s)
    (hS : SoundState lib grids val Adm s) (hm : ColumnsMove cfg s none)
    {W : Choice (colsOf s) grids → Latent (colsOf s) (rowsOf s) → ℝ}
    (hW : IsFullPosterior cfg lib grids s W) :
    ∃ ε : ℝ, 0 < ε ∧ ε ≤ 1 ∧ ∀ (k : AnyKernel) (o : AnyOrders),
      AnyOrders.Lists grids s none none o → ∃ P, FullChain cfg lib s (fun x => W x.1 x.2)
        (s.anyDraws grids none none k) (fun t us => t.callAny cfg lib grids none none o us k) P ∧
      ∀ y ∈ fullLatents s grids, 0 < W y.1 y.2 → ∀ x ∈ fullLatents s grids,
        ∃ x' ∈ fullLatents s grids, Reaches (fullLatents s grids) P ε x x' ∧
          FullToward [k] y x x' := by
  classical
  obtain ⟨Q, V, hF⟩ := exists_fibers hL hs hS
  obtain ⟨U, χ, hU, hχ1, hχ⟩ := hF.weight hL hs hS hW
  obtain ⟨εh, g0, g1, hh⟩ := exists_hyper_lower hU.pos
  have hn : namesExist s none none := ⟨by simp, by simp⟩
  have hposW : ∀ (κ κ' : Choice (colsOf s) grids), ∀ L ∈ latents (colsOf s) (rowsOf s),
      0 < W κ L → 0 < W κ' L := fun κ κ' L hLg h => by
    have e1 : W κ L = χ L * U (κ, L) := hχ (κ, L) (mem_fullLatents.mpr hLg)
    have e2 : W κ' L = χ L * U (κ', L) := hχ (κ', L) (mem_fullLatents.mpr hLg)
    have u2 := hU.pos (κ', L) (mem_fullLatents.mpr hLg)
    rcases hχ1 L with ⟨e, -⟩ | ⟨e, -⟩
    · rw [e2, e, one_mul]; exact u2
    · rw [e1, e, zero_mul] at h; exact absurd h (lt_irrefl _)
  -- one bound for all choices of hyperparameters
  obtain ⟨εk, k0, k1, hk⟩ := exists_lower (Finset.univ : Finset (Choice (colsOf s) grids))
    (fun κ ε => ∀ (k : Kernel) (o : Orders), Orders.Lists s none none o →
      ∃ P, IsChain { s with crp := Q κ, views := V κ } (W κ) (s.kernelDraws none none k)
        (fun t us => t.callKernel cfg none none o us k) P ∧
      ∀ L' ∈ latents (colsOf s) (rowsOf s), 0 < W κ L' → ∀ x ∈ latents (colsOf s) (rowsOf s),
        ∃ x' ∈ latents (colsOf s) (rowsOf s), Reaches (latents (colsOf s) (rowsOf s)) P ε x x' ∧
          Toward (s := s) [k] L' x x')
    (fun κ ε ε' _ he h k o ho => by
      obtain ⟨P, p1, p2⟩ := h k o ho
      refine ⟨P, p1, fun L' hL' hw x hx => ?_⟩
      obtain ⟨x', hx', r, t⟩ := p2 L' hL' hw x hx
      exact ⟨x', hx', r.mono hx' he, t⟩)
    (fun κ _ => by
      obtain ⟨ε, e0, -, h⟩ := callKernel_moves hL hCh (hF.full κ).reachable
        (hF.columnsMove hL hs hm κ) (hF.joint hL hs hS hW κ)
      refine ⟨ε, e0, fun k o ho => ?_⟩
      obtain ⟨P, p1, p2⟩ := h k o ⟨ho.views, ho.rows, ho.cols⟩
      refine ⟨P, p1, fun L' hL' hw x hx => ?_⟩
      obtain ⟨x', hx', r, t⟩ := p2 L' hL' hw x hx
      exact ⟨x', hx', r, ⟨t.part, t.alpha, t.views, t.rows⟩⟩)
  set n := (s.outputs.map fun c => (grids c).length).sum with hn'
  have p0 := pow_pos g0 n
  have p1 := pow_le_one₀ (n := n) g0.le g1
  refine ⟨min εk (εh ^ n), lt_min k0 p0, (min_le_left _ _).trans k1, fun k o ho => ?_⟩
  cases k with
  | of k =>
    choose P hP using fun κ => hk κ (Finset.mem_univ κ) k o.toOrders ho.orders
    have hG : ∀ κ, GoodKernel cfg { s with crp := Q κ, views := V κ } (W κ)
        (s.kernelDraws none none k) (fun t us => t.callKernel cfg none none o.toOrders us k) :=
      fun κ => callKernel_good hL hCh (hF.full κ).reachable hn (hF.joint hL hs hS hW κ)
        (fun e => hF.columnsMove hL hs hm κ)
        ⟨ho.orders.views, ho.orders.rows, ho.orders.cols⟩
    refine ⟨_, (fullChain_fibers (W := fun x => W x.1 x.2) hL hs hS hF.full hF.chosen
      (fun κ => (hP κ).1) hG).1, fun y hy hw x hx => ?_⟩
    obtain ⟨x', hx', r, t⟩ := (hP x.1).2 y.2 (mem_fullLatents.mp hy)
      (hposW y.1 x.1 y.2 (mem_fullLatents.mp hy) hw) x.2 (mem_fullLatents.mp hx)
    refine ⟨(x.1, x'), mem_fullLatents.mpr hx', fun f hf => ?_, ⟨t, fun h => ?_⟩⟩
    · have := r (fun L => f (x.1, L)) fun L hLg => hf _ (mem_fullLatents.mpr hLg)
      exact (mul_le_mul_of_nonneg_right (min_le_left _ _) (hf _ (mem_fullLatents.mpr hx'))).trans this
    · exact h.resolve_left (by simp)
  | columnHypers =>
    obtain ⟨js, j1, j2, j3⟩ := exists_orders (hs.inv hL) hS ho.names
    obtain ⟨l, hl⟩ := exists_attach (s := s) (l := s.outputs) fun c hc => hc
    have hc := drawHypers_chain (W := fun x => W x.1 x.2) hL hs hS hU hχ j1 j2 l
    rw [hl] at hc
    refine ⟨_, hc.congr fun κ t ht us => ?_, fun y hy hw x hx => ?_⟩
    · show drawHypers lib grids o.names t.outputs t us = _
      rw [ht.full.outputs]
    · obtain ⟨κ', e, r⟩ := hyperSteps_reaches (W := fun x => W x.1 x.2) hU.pos hχ g0 hh j2 j3 l y.1 hx
      have hall : κ' = y.1 := funext fun a => e a (Or.inl (by
        have : a.1 ∈ l.map fun a => a.1 := by rw [hl]; exact mem_colsOf.mp a.2
        obtain ⟨b, hb, e⟩ := List.mem_map.mp this
        exact (Subtype.ext e : b = a) ▸ hb))
      subst hall
      rw [hl] at r
      have hm' : ((y.1, x.2) : FullLatent s grids) ∈ fullLatents s grids :=
        mem_fullLatents.mpr ((mem_fullLatents (x := x)).mp hx)
      exact ⟨(y.1, x.2), hm', r.mono hm' (min_le_right _ _), ⟨toward_refl _ _, fun _ => rfl⟩⟩

/-! ### Schedules -/

/-- The chains of kernel calls, one after another. -/
def passAny (Pk : AnyKernel → AnyOrders → (FullLatent s grids → ℝ) → FullLatent s grids → ℝ) :
    List (AnyKernel × AnyOrders) → (FullLatent s grids → ℝ) → FullLatent s grids → ℝ
  | [], f => f
  | k :: ks, f => Pk k.1 k.2 (passAny Pk ks f)

theorem passAny_append (Pk : AnyKernel → AnyOrders → (FullLatent s grids → ℝ) → FullLatent s grids → ℝ)
    (a b : List (AnyKernel × AnyOrders)) (f : FullLatent s grids → ℝ) :
    passAny Pk (a ++ b) f = passAny Pk a (passAny Pk b f) := by
  induction a with
  | nil => rfl
  | cons k a ih => simp only [List.cons_append, passAny, ih]

section
variable {Pk : AnyKernel → AnyOrders → (FullLatent s grids → ℝ) → FullLatent s grids → ℝ}
  {W : FullLatent s grids → ℝ}

theorem passAny_chain (hL : C.Lawful) (hs : StateReachable cfg s)
    (hS : SoundState lib grids val Adm s)
    (hP : ∀ k o, AnyOrders.Lists grids s none none o → FullChain cfg lib s W
      (s.anyDraws grids none none k) (fun t us => t.callAny cfg lib grids none none o us k) (Pk k o))
    (ks : List (AnyKernel × AnyOrders)) (hk : ∀ k ∈ ks, AnyOrders.Lists grids s none none k.2) :
    FullChain cfg lib s W (ks.map fun k => s.anyDraws grids none none k.1).sum
      (fun t us => callAnys cfg lib grids none none ks t us) (passAny Pk ks) := by
  induction ks with
  | nil => exact fullChain_id cfg lib s W
  | cons k ks ih =>
    rw [List.map_cons, List.sum_cons]
    refine ((hP k.1 k.2 (hk k (by simp))).comp hL hs hS
      (ih fun k' hk' => hk k' (by simp [hk']))).congr fun κ t ht us => ?_
    simp only [callAnys, anyDraws_eq ht]

theorem passAny_moves {ε : ℝ} (h0 : 0 < ε)
    (hSt : ∀ k o, AnyOrders.Lists grids s none none o → IsStep (fullLatents s grids) W (Pk k o))
    (hP : ∀ k o, AnyOrders.Lists grids s none none o → ∀ y ∈ fullLatents s grids, 0 < W y →
      ∀ x ∈ fullLatents s grids, ∃ x' ∈ fullLatents s grids,
        Reaches (fullLatents s grids) (Pk k o) ε x x' ∧ FullToward [k] y x x')
    (ks : List (AnyKernel × AnyOrders)) (hk : ∀ k ∈ ks, AnyOrders.Lists grids s none none k.2)
    {y : FullLatent s grids} (hy : y ∈ fullLatents s grids) (hW : 0 < W y) :
    (∀ f, (∀ x ∈ fullLatents s grids, 0 ≤ f x) → ∀ x ∈ fullLatents s grids, 0 ≤ passAny Pk ks f x) ∧
    ∀ x ∈ fullLatents s grids, ∃ x' ∈ fullLatents s grids,
      Reaches (fullLatents s grids) (passAny Pk ks) (ε ^ ks.length) x x' ∧
        FullToward (ks.map Prod.fst) y x x' := by
  induction ks with
  | nil =>
    exact ⟨fun f hf => hf, fun x hx => ⟨x, hx, fun f _ => by simp [passAny],
      ⟨toward_refl _ _, fun h => h.resolve_left (by simp)⟩⟩⟩
  | cons k ks ih =>
    obtain ⟨hn, ih⟩ := ih fun k' hk' => hk k' (by simp [hk'])
    have ho := hk k (by simp)
    refine ⟨fun f hf => (hSt k.1 k.2 ho).nonneg _ (hn f hf), fun x hx => ?_⟩
    obtain ⟨z, hz, r1, t1⟩ := hP k.1 k.2 ho y hy hW x hx
    obtain ⟨z', hz', r2, t2⟩ := ih z hz
    refine ⟨z', hz', fun f hf => ?_, t1.append t2⟩
    refine le_trans ?_ (r1 (passAny Pk ks f) (hn f hf))
    rw [List.length_cons, pow_succ, mul_comm (ε ^ _) ε, mul_assoc]
    exact mul_le_mul_of_nonneg_left (r2 f hf) h0.le

theorem mem_otherKernels {ks : List AnyKernel} {k : Kernel} (h : .of k ∈ ks) : k ∈ otherKernels ks :=
  List.mem_filterMap.mpr ⟨.of k, h, rfl⟩

/-- A list of calls with a call over columns, followed by one with calls of all other kernels, reaches
everything of positive weight. -/
theorem passAny_reaches {ε : ℝ} (h0 : 0 < ε)
    (hSt : ∀ k o, AnyOrders.Lists grids s none none o → IsStep (fullLatents s grids) W (Pk k o))
    (hP : ∀ k o, AnyOrders.Lists grids s none none o → ∀ y ∈ fullLatents s grids, 0 < W y →
      ∀ x ∈ fullLatents s grids, ∃ x' ∈ fullLatents s grids,
        Reaches (fullLatents s grids) (Pk k o) ε x x' ∧ FullToward [k] y x x')
    {a b : List (AnyKernel × AnyOrders)} (ha : ∀ k ∈ a, AnyOrders.Lists grids s none none k.2)
    (hb : ∀ k ∈ b, AnyOrders.Lists grids s none none k.2) (hcol : .of .columns ∈ a.map Prod.fst)
    (hal : .of .alpha ∈ b.map Prod.fst) (hva : .of .viewAlphas ∈ b.map Prod.fst)
    (hro : .of .rows ∈ b.map Prod.fst) (hhy : .columnHypers ∈ b.map Prod.fst)
    {x y : FullLatent s grids} (hx : x ∈ fullLatents s grids) (hy : y ∈ fullLatents s grids)
    (hW : 0 < W y) : Reaches (fullLatents s grids) (passAny Pk (a ++ b))
      (ε ^ (a.length + b.length)) x y := by
  obtain ⟨-, m1⟩ := passAny_moves h0 hSt hP a ha hy hW
  obtain ⟨n2, m2⟩ := passAny_moves h0 hSt hP b hb hy hW
  obtain ⟨z, hz, r1, t1⟩ := m1 x hx
  obtain ⟨z', hz', r2, t2⟩ := m2 z hz
  have hp := t1.latent.part (Or.inl (mem_otherKernels hcol))
  have t := t2.latent
  have : z'.2 = y.2 := Latent.ext (t.alpha hp (Or.inl (mem_otherKernels hal))) (t.part (Or.inr hp))
    (funext fun c => Prod.ext (t.views hp (Or.inl (mem_otherKernels hva)) c)
      (t.rows hp (Or.inl (mem_otherKernels hro)) c))
  have : z' = y := Prod.ext (t2.hypers (Or.inl hhy)) this
  subst this
  intro f hf
  rw [passAny_append, pow_add, mul_assoc]
  exact (mul_le_mul_of_nonneg_left (r2 f hf) (pow_pos h0 _).le).trans (r1 _ (n2 f hf))

end

/-- The calls from number `a` on. -/
def anysFrom (kernels : List AnyKernel) (orders : ℕ → AnyOrders) (a m : ℕ) :
    List (AnyKernel × AnyOrders) :=
  (List.range' a m).filterMap fun i => (kernels[i % kernels.length]?).map fun k => (k, orders i)

theorem anysFrom_append (kernels : List AnyKernel) (orders : ℕ → AnyOrders) (a m m' : ℕ) :
    anysFrom kernels orders a (m + m')
      = anysFrom kernels orders a m ++ anysFrom kernels orders (a + m) m' := by
  unfold anysFrom
  rw [← List.filterMap_append]
  congr 1
  have := List.range'_append (s := a) (m := m) (n := m') (step := 1)
  rw [one_mul] at this
  exact this.symm

theorem anysFrom_mem {kernels : List AnyKernel} {orders : ℕ → AnyOrders} {a : ℕ}
    (ha : a % kernels.length = 0) {k : AnyKernel} (hk : k ∈ kernels) :
    k ∈ (anysFrom kernels orders a kernels.length).map Prod.fst := by
  obtain ⟨j, hj, e⟩ := List.getElem_of_mem hk
  refine List.mem_map.mpr ⟨(k, orders (a + j)), List.mem_filterMap.mpr ⟨a + j, ?_, ?_⟩, rfl⟩
  · rw [List.mem_range'_1]; omega
  · have : (a + j) % kernels.length = j := by
      rw [Nat.add_mod, ha, Nat.zero_add, Nat.mod_mod, Nat.mod_eq_of_lt hj]
    rw [this, List.getElem?_eq_getElem hj, e]
    rfl

theorem anysFrom_length (kernels : List AnyKernel) (orders : ℕ → AnyOrders) (a m : ℕ) :
    (anysFrom kernels orders a m).length ≤ m := by
  unfold anysFrom
  refine (List.length_filterMap_le _ _).trans ?_
  rw [List.length_range']

theorem anysFrom_orders {kernels : List AnyKernel} {orders : ℕ → AnyOrders}
    (ho : ∀ i, AnyOrders.Lists grids s none none (orders i)) (a m : ℕ) :
    ∀ k ∈ anysFrom kernels orders a m, AnyOrders.Lists grids s none none k.2 := by
  intro k hk
  obtain ⟨i, -, hi⟩ := List.mem_filterMap.mp hk
  obtain ⟨k', -, rfl⟩ := Option.map_eq_some_iff.mp hi
  exact ho i

/-- Convergence of the chains of any schedule. -/
theorem passAny_converges (hL : C.Lawful) (hCh : C.Chain) (hs : StateReachable cfg s)
    (hS : SoundState lib grids val Adm s) (hm : ColumnsMove cfg s none)
    {W : Choice (colsOf s) grids → Latent (colsOf s) (rowsOf s) → ℝ}
    (hW : IsFullPosterior cfg lib grids s W) (hW0 : ∀ x ∈ fullLatents s grids, 0 ≤ W x.1 x.2)
    (hWs : 0 < ∑ x ∈ fullLatents s grids, W x.1 x.2) {kernels : List AnyKernel}
    (h1 : .of .alpha ∈ kernels) (h2 : .of .viewAlphas ∈ kernels) (h3 : .of .rows ∈ kernels)
    (h4 : .of .columns ∈ kernels) (h5 : .columnHypers ∈ kernels) :
    ∃ ε : ℝ, 0 < ε ∧ ε ≤ 1 ∧ ∀ (q r a : ℕ) (orders : ℕ → AnyOrders), a % kernels.length = 0 →
      (∀ i, AnyOrders.Lists grids s none none (orders i)) → ∃ P,
        FullChain cfg lib s (fun x => W x.1 x.2)
          ((anysFrom kernels orders a (q * (2 * kernels.length) + r)).map fun k =>
            s.anyDraws grids none none k.1).sum
          (fun t us => callAnys cfg lib grids none none
            (anysFrom kernels orders a (q * (2 * kernels.length) + r)) t us) P ∧
        ∀ f D, (∀ x ∈ fullLatents s grids,
            |f x - mean (fullLatents s grids) (fun x => W x.1 x.2) f| ≤ D) →
          ∀ x ∈ fullLatents s grids,
            |P f x - mean (fullLatents s grids) (fun x => W x.1 x.2) f| ≤ (1 - ε) ^ q * D := by
  obtain ⟨ε, h0, e1, hk⟩ := callAny_moves hL hCh hs hS hm hW
  classical
  have hk' : ∀ (k : AnyKernel) (o : AnyOrders), ∃ P, AnyOrders.Lists grids s none none o →
      FullChain cfg lib s (fun x => W x.1 x.2) (s.anyDraws grids none none k)
        (fun t us => t.callAny cfg lib grids none none o us k) P ∧
      ∀ y ∈ fullLatents s grids, 0 < W y.1 y.2 → ∀ x ∈ fullLatents s grids,
        ∃ x' ∈ fullLatents s grids, Reaches (fullLatents s grids) P ε x x' ∧
          FullToward [k] y x x' := fun k o => by
    by_cases h : AnyOrders.Lists grids s none none o
    · obtain ⟨P, hP⟩ := hk k o h
      exact ⟨P, fun _ => hP⟩
    · exact ⟨fun f => f, fun g => absurd g h⟩
  choose Pk hPk using hk'
  have hC := fun k o ho => (hPk k o ho).1
  have hSt : ∀ k o, AnyOrders.Lists grids s none none o →
      IsStep (fullLatents s grids) (fun x => W x.1 x.2) (Pk k o) := fun k o ho => (hC k o ho).step
  have hMv := fun k o ho => (hPk k o ho).2
  set n := kernels.length with hn
  refine ⟨ε ^ (n + n), pow_pos h0 _, pow_le_one₀ h0.le e1, fun q r a orders ha ho =>
    ⟨passAny Pk (anysFrom kernels orders a (q * (2 * n) + r)),
      passAny_chain hL hs hS hC _ (anysFrom_orders ho a _), ?_⟩⟩
  induction q generalizing a with
  | zero =>
    intro f D hD x hx
    rw [pow_zero, one_mul]
    exact (passAny_chain hL hs hS hC _ (anysFrom_orders ho a _)).step.bound hD x hx
  | succ q ih =>
    intro f D hD x hx
    have e : (q + 1) * (2 * n) + r = n + (n + (q * (2 * n) + r)) := by ring
    have a1 : (a + n) % n = 0 := by rw [Nat.add_mod_right]; exact ha
    have a2 : (a + n + n) % n = 0 := by rw [Nat.add_mod_right]; exact a1
    have hrest := (passAny_chain hL hs hS hC _ (anysFrom_orders (kernels := kernels) ho (a + n + n)
      (q * (2 * n) + r))).step
    have htwo := (passAny_chain hL hs hS hC
      (anysFrom kernels orders a n ++ anysFrom kernels orders (a + n) n) (fun k hk => by
        rcases List.mem_append.mp hk with hk | hk
        · exact anysFrom_orders ho a n k hk
        · exact anysFrom_orders ho (a + n) n k hk)).step
    rw [e, anysFrom_append, anysFrom_append, ← List.append_assoc, passAny_append]
    have hmean := hrest.mean_eq f
    have hcon := htwo.contract hW0 hWs (pow_pos h0 (n + n))
      (fun x hx y hy hy0 g hg => by
        have := passAny_reaches h0 hSt hMv (anysFrom_orders ho a n)
          (anysFrom_orders ho (a + n) n) (anysFrom_mem ha h4) (anysFrom_mem a1 h1)
          (anysFrom_mem a1 h2) (anysFrom_mem a1 h3) (anysFrom_mem a1 h5) hx hy hy0 g hg
        refine le_trans (mul_le_mul_of_nonneg_right (pow_le_pow_of_le_one h0.le e1 ?_) (hg y hy)) this
        exact Nat.add_le_add (anysFrom_length ..) (anysFrom_length ..))
      (f := passAny Pk (anysFrom kernels orders (a + n + n) (q * (2 * n) + r)) f)
      (D := (1 - ε ^ (n + n)) ^ q * D) (fun x hx => by
        have := ih (a + n + n) a2 f D hD x hx
        rw [← hmean] at this
        exact this) x hx
    rw [← hmean, pow_succ, mul_comm ((1 - ε ^ (n + n)) ^ q), mul_assoc]
    exact hcon

end Cgpm.State
