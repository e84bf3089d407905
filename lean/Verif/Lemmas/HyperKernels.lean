import Verif.Lemmas.HyperChain

/-! The kernels of a State, with that of the hyperparameters, as chains. -/
namespace Cgpm.State
open Cgpm.View Cgpm.Spec Cgpm.Props Cgpm.Mix Cgpm.Spec.Hyper Cgpm.Hyper
variable {C : Cat} {cfg : Cfg C} {s : State C} {lib : HyperLib C} {grids : Col → Grids}
  {val : C.ι → Hypers → C.H} {Adm : C.ι → Hypers → Prop} {cols : Option (List Col)}
  {rowids : Option (List Row)}

/-- One State for each choice of hyperparameters. -/
structure Fibers (cfg : Cfg C) (lib : HyperLib C) (s : State C)
    (Q : Choice (colsOf s) grids → Crp) (V : Choice (colsOf s) grids → Dict Nat (View C)) :
    Prop where
  full : ∀ κ, FullState cfg s { s with crp := Q κ, views := V κ }
  chosen : ∀ κ, hypersOf lib (colsOf s) { s with crp := Q κ, views := V κ } = κ.hypers

theorem exists_fibers (hL : C.Lawful) (hs : StateReachable cfg s)
    (hS : SoundState lib grids val Adm s) :
    ∃ (Q : Choice (colsOf s) grids → Crp) (V : Choice (colsOf s) grids → Dict Nat (View C)),
      Fibers cfg lib s Q V := by
  choose Q V h using fun κ : Choice (colsOf s) grids => exists_putAll hL hs hS κ
  exact ⟨Q, V, fun κ => (h κ).1, fun κ => (h κ).2⟩

section
variable {Q : Choice (colsOf s) grids → Crp} {V : Choice (colsOf s) grids → Dict Nat (View C)}

theorem Fibers.columnsMove (hL : C.Lawful) (hs : StateReachable cfg s) (h : Fibers cfg lib s Q V)
    (hm : ColumnsMove cfg s cols) (κ : Choice (colsOf s) grids) :
    ColumnsMove cfg { s with crp := Q κ, views := V κ } cols := by
  have hI := hs.inv hL
  have hI' := FullState.inv hL (h.full κ)
  refine ⟨?_, hm.dependent, hm.partners⟩
  have hst : Steady s { s with crp := Q κ, views := V κ } := by
    refine ⟨fun c d' hd' => ?_, fun c => ?_⟩
    · have hc : c ∈ s.outputs := (dimFor_of_mem hI').mp ⟨d', hd'⟩
      obtain ⟨d, hd⟩ := (dimFor_of_mem hI).mpr hc
      obtain ⟨-, e1, e2⟩ := (h.full κ).columns c d d' hd hd'
      exact ⟨d, hd, e2, e1⟩
    · rw [← not_iff_not]
      exact (hI'.cols c).trans (hI.cols c).symm
  rw [hst.anyConditional hI hI' cfg]
  exact hm.conditional

theorem Fibers.joint (hL : C.Lawful) (hs : StateReachable cfg s)
    (hS : SoundState lib grids val Adm s) (h : Fibers cfg lib s Q V)
    {W : Choice (colsOf s) grids → Latent (colsOf s) (rowsOf s) → ℝ}
    (hW : IsFullPosterior cfg lib grids s W) (κ : Choice (colsOf s) grids) :
    IsJointPosterior cfg { s with crp := Q κ, views := V κ } (W κ) := fun t ht => by
  obtain ⟨h1, h2⟩ := (full_iff_same hL hs hS (h.full κ) (h.chosen κ)).mpr ht
  exact hW κ t h1 h2

theorem Fibers.weight (hL : C.Lawful) (hs : StateReachable cfg s)
    (hS : SoundState lib grids val Adm s) (h : Fibers cfg lib s Q V)
    {W : Choice (colsOf s) grids → Latent (colsOf s) (rowsOf s) → ℝ}
    (hW : IsFullPosterior cfg lib grids s W) :
    ∃ (U : FullLatent s grids → ℝ) (χ : Latent (colsOf s) (rowsOf s) → ℝ), FullWeight cfg lib s U ∧
      (∀ L, (χ L = 1 ∧ Apart s.Ci L) ∨ (χ L = 0 ∧ ¬ Apart s.Ci L)) ∧
      ∀ x ∈ fullLatents s grids, W x.1 x.2 = χ x.2 * U x := by
  classical
  choose U hU hpos using fun κ => (FullState.inv hL (h.full κ)).exists_weight hL cfg
  refine ⟨fun x => U x.1 x.2, fun L => if Apart s.Ci L then 1 else 0, ⟨fun κ t ht => ?_,
    fun x hx => hpos x.1 x.2 (mem_fullLatents.mp hx)⟩, fun L => ?_, fun x hx => ?_⟩
  · obtain ⟨m, -⟩ := (At.onModel hL hs hS (h.full κ) (h.chosen κ)).mp ht
    exact hU κ t m.kin m.grid
  · by_cases e : Apart s.Ci L
    · exact Or.inl ⟨if_pos e, e⟩
    · exact Or.inr ⟨if_neg e, e⟩
  · have := (FullState.inv hL (h.full x.1)).posterior_weight hL (hU x.1) (h.joint hL hs hS hW x.1) x.2
      (mem_fullLatents.mp hx)
    have hA : ∀ (p : Prop) [Decidable p] (u : ℝ), (if p then u else 0) = (if p then 1 else 0) * u := by
      intro p _ u
      split <;> simp
    refine this.trans ?_
    exact hA _ _
end

/-! ### The hyperparameters of several columns -/

/-- The hyperparameters of the columns in `l` are redrawn, in the orders given by `js`. -/
noncomputable def hyperSteps (U : FullLatent s grids → ℝ)
    (js : (a : {c // c ∈ colsOf s}) → List (Fin (grids a.1).length)) :
    List {c // c ∈ colsOf s} → (FullLatent s grids → ℝ) → FullLatent s grids → ℝ
  | [], f => f
  | a :: l, f => hyperStep U a (js a) (hyperSteps U js l f)

theorem drawHypers_chain (hL : C.Lawful) (hs : StateReachable cfg s)
    (hS : SoundState lib grids val Adm s) {U W : FullLatent s grids → ℝ}
    (hU : FullWeight cfg lib s U) {χ : Latent (colsOf s) (rowsOf s) → ℝ}
    (hχ : ∀ x ∈ fullLatents s grids, W x = χ x.2 * U x) {names : Col → List String}
    {js : (a : {c // c ∈ colsOf s}) → List (Fin (grids a.1).length)}
    (hn : ∀ a, nameList (grids a.1) (js a) = names a.1)
    (hl : ∀ a, (js a).length = (grids a.1).length) (l : List {c // c ∈ colsOf s}) :
    FullChain cfg lib s W ((l.map fun a => a.1).map fun c => (grids c).length).sum
      (fun t us => drawHypers lib grids names (l.map fun a => a.1) t us) (hyperSteps U js l) := by
  induction l with
  | nil => exact fullChain_id cfg lib s W
  | cons a l ih =>
    have h1 := drawDimHypers_chain hL hs hS hU hχ a (js a)
    rw [hn a, hl a] at h1
    simp only [List.map_cons, List.sum_cons]
    exact h1.comp hL hs hS ih

theorem exists_orders (hs : Inv s) (hS : SoundState lib grids val Adm s) {names : Col → List String}
    (hn : ∀ c, (names c).Perm (grids c).keys) :
    ∃ js : (a : {c // c ∈ colsOf s}) → List (Fin (grids a.1).length),
      (∀ a, nameList (grids a.1) (js a) = names a.1) ∧ (∀ a, (js a).length = (grids a.1).length) ∧
      ∀ a j, j ∈ js a := by
  have key : ∀ a : {c // c ∈ colsOf s}, ∃ js : List (Fin (grids a.1).length),
      nameList (grids a.1) js = names a.1 ∧ js.length = (grids a.1).length ∧ ∀ j, j ∈ js := fun a => by
    obtain ⟨d, hd⟩ := (dimFor_of_mem hs).mpr (mem_colsOf.mp a.2)
    exact exists_nameList ((hS a.1 d hd).good []).wf (hn a.1)
  choose js h using key
  exact ⟨js, fun a => (h a).1, fun a => (h a).2.1, fun a => (h a).2.2⟩

/-- The columns of a list, as columns of `s`. -/
theorem exists_attach {l : List Col} (h : ∀ c ∈ l, c ∈ s.outputs) :
    ∃ l' : List {c // c ∈ colsOf s}, l'.map (fun a => a.1) = l :=
  ⟨l.attach.map fun c => ⟨c.1, mem_colsOf.mpr (h c.1 c.2)⟩, by simp⟩

/-! ### Any kernel -/

theorem anyDraws_eq {κ : Choice (colsOf s) grids} {t : State C} (h : At cfg lib s κ t)
    (k : AnyKernel) : t.anyDraws grids cols rowids k = s.anyDraws grids cols rowids k := by
  have hn : t.nRows = s.nRows := by
    unfold State.nRows; rw [h.full.data, h.full.outputs]
  cases k with
  | of k => cases k <;> simp only [anyDraws, kernelDraws, h.full.outputs, hn, dimDraws]
  | columnHypers => simp only [anyDraws, h.full.outputs]

theorem callAny_chain (hL : C.Lawful) (hCh : C.Chain) (hs : StateReachable cfg s)
    (hS : SoundState lib grids val Adm s) (hn : namesExist s cols rowids)
    {W : Choice (colsOf s) grids → Latent (colsOf s) (rowsOf s) → ℝ}
    (hW : IsFullPosterior cfg lib grids s W) {k : AnyKernel}
    (hm : k = .of .columns → ColumnsMove cfg s cols) {o : AnyOrders}
    (ho : AnyOrders.Lists grids s cols rowids o) :
    ∃ P, FullChain cfg lib s (fun x => W x.1 x.2) (s.anyDraws grids cols rowids k)
      (fun t us => t.callAny cfg lib grids cols rowids o us k) P := by
  obtain ⟨Q, V, hF⟩ := exists_fibers hL hs hS
  cases k with
  | of k =>
    have hG : ∀ κ, GoodKernel cfg { s with crp := Q κ, views := V κ } (W κ)
        (s.kernelDraws cols rowids k) (fun t us => t.callKernel cfg cols rowids o.toOrders us k) :=
      fun κ => callKernel_good hL hCh (hF.full κ).reachable hn (hF.joint hL hs hS hW κ)
        (fun e => hF.columnsMove hL hs (hm (by rw [e])) κ)
        ⟨ho.orders.views, ho.orders.rows, ho.orders.cols⟩
    choose P hP using fun κ => (hG κ).kernel
    exact ⟨_, (fullChain_fibers (W := fun x => W x.1 x.2) hL hs hS hF.full hF.chosen hP hG).1⟩
  | columnHypers =>
    obtain ⟨U, χ, hU, -, hχ⟩ := hF.weight hL hs hS hW
    obtain ⟨js, j1, j2, -⟩ := exists_orders (hs.inv hL) hS ho.names
    obtain ⟨l, hl⟩ := exists_attach (l := cols.getD s.outputs) fun c hc => cols_mem hn hc
    have := drawHypers_chain (W := fun x => W x.1 x.2) hL hs hS hU hχ j1 j2 l
    rw [hl] at this
    refine ⟨_, this.congr fun κ t ht us => ?_⟩
    simp only [callAny, ht.full.outputs]

theorem callAnys_chain (hL : C.Lawful) (hCh : C.Chain) (hs : StateReachable cfg s)
    (hS : SoundState lib grids val Adm s) (hn : namesExist s cols rowids)
    {W : Choice (colsOf s) grids → Latent (colsOf s) (rowsOf s) → ℝ}
    (hW : IsFullPosterior cfg lib grids s W) (ks : List (AnyKernel × AnyOrders))
    (hk : ∀ k ∈ ks, (k.1 = .of .columns → ColumnsMove cfg s cols) ∧
      AnyOrders.Lists grids s cols rowids k.2) :
    ∃ P, FullChain cfg lib s (fun x => W x.1 x.2)
      (ks.map fun k => s.anyDraws grids cols rowids k.1).sum
      (fun t us => callAnys cfg lib grids cols rowids ks t us) P := by
  induction ks with
  | nil => exact ⟨_, fullChain_id cfg lib s _⟩
  | cons k ks ih =>
    obtain ⟨P, h1⟩ := callAny_chain hL hCh hs hS hn hW (hk k (by simp)).1 (hk k (by simp)).2
    obtain ⟨P', h2⟩ := ih fun k' hk' => hk k' (by simp [hk'])
    rw [List.map_cons, List.sum_cons]
    refine ⟨_, (h1.comp hL hs hS h2).congr fun κ t ht us => ?_⟩
    simp only [callAnys, anyDraws_eq ht]

theorem totalAnyDraws_eq (s : State C) (grids : Col → Grids) (cols : Option (List Col))
    (rowids : Option (List Row)) (kernels : List AnyKernel) (calls : ℕ) (orders : ℕ → AnyOrders) :
    (((List.range calls).filterMap fun i => (kernels[i % kernels.length]?).map
      fun k => (k, orders i)).map fun k => s.anyDraws grids cols rowids k.1).sum
      = totalAnyDraws grids s cols rowids kernels calls := by
  unfold totalAnyDraws
  rw [List.map_filterMap, List.map_filterMap]
  simp only [Option.map_map]
  rfl

theorem transitionAny_chain (hL : C.Lawful) (hCh : C.Chain) (hs : StateReachable cfg s)
    (hS : SoundState lib grids val Adm s) (hn : namesExist s cols rowids) {kernels : List AnyKernel}
    (hne : kernels ≠ []) (hm : .of .columns ∈ kernels → ColumnsMove cfg s cols) (calls : ℕ)
    {orders : ℕ → AnyOrders} (ho : ∀ i, AnyOrders.Lists grids s cols rowids (orders i))
    {W : Choice (colsOf s) grids → Latent (colsOf s) (rowsOf s) → ℝ}
    (hW : IsFullPosterior cfg lib grids s W) :
    ∃ P, FullChain cfg lib s (fun x => W x.1 x.2) (totalAnyDraws grids s cols rowids kernels calls)
      (fun t us => t.transitionAny cfg lib grids calls kernels cols rowids orders us) P := by
  obtain ⟨P, h⟩ := callAnys_chain hL hCh hs hS hn hW ((List.range calls).filterMap fun i =>
    (kernels[i % kernels.length]?).map fun k => (k, orders i)) (fun k hk => by
      obtain ⟨i, -, hi⟩ := List.mem_filterMap.mp hk
      obtain ⟨k', hk', rfl⟩ := Option.map_eq_some_iff.mp hi
      have := List.mem_of_getElem? hk'
      exact ⟨fun e => hm (by rw [← e]; exact this), ho i⟩)
  rw [totalAnyDraws_eq] at h
  refine ⟨P, h.congr fun κ t ht us => ?_⟩
  unfold transitionAny
  rw [if_neg (by rw [not_not, ht.full.outputs]; exact hn.1), if_neg hne]

/-! ### What is left as it is -/

theorem drawHypers_untouched (hL : C.Lawful) (hs : StateReachable cfg s)
    (hS : SoundState lib grids val Adm s) {names : Col → List String}
    {js : (a : {c // c ∈ colsOf s}) → List (Fin (grids a.1).length)}
    (hn : ∀ a, nameList (grids a.1) (js a) = names a.1)
    (hl : ∀ a, (js a).length = (grids a.1).length) (l : List {c // c ∈ colsOf s})
    {κ : Choice (colsOf s) grids} {t : State C} (ht : At cfg lib s κ t) {us : List ℝ}
    (hlen : us.length = ((l.map fun a => a.1).map fun c => (grids c).length).sum)
    (hu : ∀ u ∈ us, 0 ≤ u ∧ u < 1) : ∃ (κ' : Choice (colsOf s) grids) (t' : State C),
      drawHypers lib grids names (l.map fun a => a.1) t us = .ok t' ∧ At cfg lib s κ' t' ∧
      (∀ ks cols rowids, Untouched ks cols rowids t t') ∧ ∀ a, a ∉ l → κ' a = κ a := by
  induction l generalizing κ t us with
  | nil => exact ⟨κ, t, rfl, ht, fun ks cols rowids => Untouched.refl ks cols rowids t, fun _ _ => rfl⟩
  | cons a l ih =>
    simp only [List.map_cons, List.sum_cons] at hlen
    obtain ⟨k, t1, e1, h1, u1⟩ := drawDimHypers_outcome hL hs hS a (js a) ht
      (us := us.take (grids a.1).length) (by rw [hl, List.length_take]; omega)
      (fun u hm => hu u (List.mem_of_mem_take hm))
    rw [hn] at e1
    obtain ⟨κ', t', e2, h2, u2, f2⟩ := ih h1 (us := us.drop (grids a.1).length)
      (by rw [List.length_drop]; omega) (fun u hm => hu u (List.mem_of_mem_drop hm))
    refine ⟨κ', t', ?_, h2, fun ks cols rowids => ?_, fun b hb => ?_⟩
    · simp only [List.map_cons, drawHypers, e1, Out.bind_ok, e2]
    · refine (u1 ks cols rowids).trans (h1.full.outputs.trans ht.full.outputs.symm) ?_ (u2 ks cols rowids)
      unfold State.nRows
      rw [h1.full.data, h1.full.outputs, ht.full.data, ht.full.outputs]
    · rw [f2 b fun hm => hb (by simp [hm]), Function.update_of_ne fun e => hb (by simp [e])]

theorem callAny_untouched (hL : C.Lawful) (hCh : C.Chain) (hs : StateReachable cfg s)
    (hS : SoundState lib grids val Adm s) (hn : namesExist s cols rowids) {all : List AnyKernel}
    {k : AnyKernel} (hk : k ∈ all) (hm : k = .of .columns → ColumnsMove cfg s cols) {o : AnyOrders}
    (ho : AnyOrders.Lists grids s cols rowids o) {κ : Choice (colsOf s) grids} {t : State C}
    (ht : At cfg lib s κ t) {us : List ℝ} (hl : us.length = s.anyDraws grids cols rowids k)
    (hu : ∀ u ∈ us, 0 ≤ u ∧ u < 1) : ∃ (κ' : Choice (colsOf s) grids) (t' : State C),
      t.callAny cfg lib grids cols rowids o us k = .ok t' ∧ At cfg lib s κ' t' ∧
      Untouched (otherKernels all) cols rowids t t' ∧
      ∀ a, .columnHypers ∉ all ∨ a.1 ∉ cols.getD s.outputs → κ' a = κ a := by
  cases k with
  | of k =>
    obtain ⟨Q, V, hF⟩ := exists_fibers hL hs hS
    obtain ⟨m, r⟩ := (At.onModel hL hs hS (hF.full κ) (hF.chosen κ)).mp ht
    have hr := (hF.full κ).reachable
    obtain ⟨W, hW⟩ := (C60_posterior hL hr).2.1
    have hm' : k = .columns → ColumnsMove cfg { s with crp := Q κ, views := V κ } cols := fun e =>
      hF.columnsMove hL hs (hm (by rw [e])) κ
    have ho' : Orders.Lists { s with crp := Q κ, views := V κ } cols rowids o.toOrders :=
      ⟨ho.orders.views, ho.orders.rows, ho.orders.cols⟩
    have hG := callKernel_good hL hCh hr hn hW hm' ho'
    obtain ⟨P, p1, -, -⟩ := hG.kernel
    obtain ⟨t', e, m'⟩ := p1 t m us hl hu
    refine ⟨κ, t', e, (At.onModel hL hs hS (hF.full κ) (hF.chosen κ)).mpr
      ⟨m', hG.reach t t' m r us hl hu e⟩, ?_, fun _ _ => rfl⟩
    refine callKernel_untouched hL hCh hr hn ?_ hm' ho' m r hl hu e
    exact List.mem_filterMap.mpr ⟨.of k, hk, rfl⟩
  | columnHypers =>
    obtain ⟨js, j1, j2, -⟩ := exists_orders (hs.inv hL) hS ho.names
    obtain ⟨l, hl'⟩ := exists_attach (l := cols.getD s.outputs) fun c hc => cols_mem hn hc
    obtain ⟨κ', t', e, h', u', f'⟩ := drawHypers_untouched hL hs hS j1 j2 l ht (us := us)
      (by rw [hl']; exact hl) hu
    refine ⟨κ', t', ?_, h', u' _ _ _, fun a ha => f' a fun hm => ?_⟩
    · simp only [callAny, ht.full.outputs]
      rw [← hl']; exact e
    · refine ha.resolve_left (fun h => h hk) ?_
      rw [← hl']
      exact List.mem_map_of_mem (f := fun a : {c // c ∈ colsOf s} => a.1) hm

theorem callAnys_untouched (hL : C.Lawful) (hCh : C.Chain) (hs : StateReachable cfg s)
    (hS : SoundState lib grids val Adm s) (hn : namesExist s cols rowids) {all : List AnyKernel}
    (ks : List (AnyKernel × AnyOrders))
    (hk : ∀ k ∈ ks, k.1 ∈ all ∧ (k.1 = .of .columns → ColumnsMove cfg s cols) ∧
      AnyOrders.Lists grids s cols rowids k.2) {κ : Choice (colsOf s) grids} {t : State C}
    (ht : At cfg lib s κ t) {us : List ℝ}
    (hl : us.length = (ks.map fun k => s.anyDraws grids cols rowids k.1).sum)
    (hu : ∀ u ∈ us, 0 ≤ u ∧ u < 1) : ∃ (κ' : Choice (colsOf s) grids) (t' : State C),
      callAnys cfg lib grids cols rowids ks t us = .ok t' ∧ At cfg lib s κ' t' ∧
      Untouched (otherKernels all) cols rowids t t' ∧
      ∀ a, .columnHypers ∉ all ∨ a.1 ∉ cols.getD s.outputs → κ' a = κ a := by
  induction ks generalizing κ t us with
  | nil => exact ⟨κ, t, rfl, ht, Untouched.refl _ cols rowids t, fun _ _ => rfl⟩
  | cons k ks ih =>
    obtain ⟨k1, k2, k3⟩ := hk k (by simp)
    rw [List.map_cons, List.sum_cons] at hl
    obtain ⟨κ1, t1, e1, h1, u1, f1⟩ := callAny_untouched hL hCh hs hS hn k1 k2 k3 ht
      (us := us.take (s.anyDraws grids cols rowids k.1)) (by rw [List.length_take]; omega)
      (fun u hm => hu u (List.mem_of_mem_take hm))
    obtain ⟨κ', t', e2, h2, u2, f2⟩ := ih (fun k' hk' => hk k' (by simp [hk'])) h1
      (us := us.drop (s.anyDraws grids cols rowids k.1))
      (by rw [List.length_drop]; omega) (fun u hm => hu u (List.mem_of_mem_drop hm))
    refine ⟨κ', t', ?_, h2, ?_, fun a ha => (f2 a ha).trans (f1 a ha)⟩
    · simp only [callAnys, anyDraws_eq ht, e1, Out.bind_ok, e2]
    · refine u1.trans (h1.full.outputs.trans ht.full.outputs.symm) ?_ u2
      unfold State.nRows
      rw [h1.full.data, h1.full.outputs, ht.full.data, ht.full.outputs]

end Cgpm.State
