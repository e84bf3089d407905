import Verif.Lemmas.BatchDraws
import Mathlib.Probability.Independence.Basic

/-! The law of samples of several programs that are resampled. -/
namespace Cgpm.Batch
open Cgpm MeasureTheory Cgpm.Props
open scoped ENNReal

variable {X : Type} [MeasurableSpace X] {α ι : Type}

/-! ### averages over a list -/

/-- The average of `f` over a list. -/
noncomputable def avg {κ : Type} (l : List κ) (f : κ → ℝ≥0∞) : ℝ≥0∞ :=
  (l.length : ℝ≥0∞)⁻¹ * ∑ i : Fin l.length, f (l.get i)

theorem avg_list {κ : Type} (l : List κ) (f : κ → ℝ≥0∞) :
    avg l f = (l.length : ℝ≥0∞)⁻¹ * (l.map f).sum := by
  unfold avg
  congr 1
  rw [← List.sum_ofFn]
  congr 1
  refine List.ext_getElem (by simp) fun i h1 h2 => ?_
  simp

theorem avg_congr {κ : Type} {l : List κ} {f g : κ → ℝ≥0∞} (h : ∀ a ∈ l, f a = g a) :
    avg l f = avg l g := by
  unfold avg
  exact congrArg _ (Finset.sum_congr rfl fun i _ => h _ (List.get_mem _ _))

theorem avg_perm {κ : Type} {l l' : List κ} (h : l.Perm l') (f : κ → ℝ≥0∞) : avg l f = avg l' f := by
  rw [avg_list, avg_list, h.length_eq, (h.map f).sum_eq]

theorem avg_map {κ κ' : Type} (l : List κ) (h : κ → κ') (f : κ' → ℝ≥0∞) :
    avg (l.map h) f = avg l fun a => f (h a) := by
  rw [avg_list, avg_list, List.length_map, List.map_map]
  rfl

theorem avg_const {κ : Type} {l : List κ} (hl : l ≠ []) (c : ℝ≥0∞) : avg l (fun _ => c) = c := by
  unfold avg
  rw [Finset.sum_const, Finset.card_univ, Fintype.card_fin, nsmul_eq_mul, ← mul_assoc,
    ENNReal.inv_mul_cancel (by simpa using hl) (ENNReal.natCast_ne_top _), one_mul]

theorem avg_swap {κ κ' : Type} (l : List κ) (l' : List κ') (f : κ → κ' → ℝ≥0∞) :
    avg l (fun a => avg l' (f a)) = avg l' fun b => avg l fun a => f a b := by
  unfold avg
  simp only [Finset.mul_sum]
  rw [Finset.sum_comm]
  refine Finset.sum_congr rfl fun i _ => Finset.sum_congr rfl fun j _ => ?_
  ring

theorem inv_length_ne_top {κ : Type} {l : List κ} (hl : l ≠ []) : ((l.length : ℝ≥0∞)⁻¹) ≠ ⊤ := by
  simpa using hl

theorem seqE_avg {κ : Type} {l : List κ} (hl : l ≠ []) (μs : List (Measure X))
    (hμ : ∀ μ ∈ μs, SFinite μ) {H : κ → List X → ℝ≥0∞} (hH : ∀ a ∈ l, MeasL μs.length (H a)) :
    seqE μs (fun x => avg l fun a => H a x) = avg l fun a => seqE μs (H a) := by
  unfold avg
  rw [seqE_mul μs _ (inv_length_ne_top hl), seqE_sum Finset.univ μs hμ
    (F := fun i x => H (l.get i) x) fun i _ => hH _ (List.get_mem _ _)]

theorem measurable_avg {κ β : Type} [MeasurableSpace β] (l : List κ) {H : κ → β → ℝ≥0∞}
    (hH : ∀ a ∈ l, Measurable (H a)) : Measurable fun b => avg l fun a => H a b := by
  unfold avg
  exact (Finset.measurable_fun_sum _ fun i _ => hH _ (List.get_mem _ _)).const_mul _

/-! ### some elements of a list, by their indexes -/

/-- The elements with the given indexes. -/
def sel {κ : Type} (y : List κ) (σ : List Nat) : List κ := σ.filterMap fun i => y[i]?

theorem sel_nil {κ : Type} (y : List κ) : sel y [] = [] := rfl

theorem sel_map {κ κ' : Type} (f : κ → κ') (y : List κ) (σ : List Nat) :
    sel (y.map f) σ = (sel y σ).map f := by
  unfold sel
  rw [List.map_filterMap]
  simp [List.getElem?_map]

theorem sel_eq_map {κ : Type} {y : List κ} {σ : List Nat} (h : ∀ i ∈ σ, i < y.length) (d : κ) :
    sel y σ = σ.map fun i => y.getD i d := by
  unfold sel
  induction σ with
  | nil => rfl
  | cons i t ih =>
    have hi := h i List.mem_cons_self
    rw [List.filterMap_cons, List.getElem?_eq_getElem hi, ih fun j hj => h j (List.mem_cons_of_mem _ hj)]
    simp [hi]

theorem sel_ofFn {N : Nat} {x : Fin N → X} {σ : List Nat} (h : ∀ i ∈ σ, i < N) :
    sel (List.ofFn x) σ
      = List.ofFn fun j : Fin σ.length => x ⟨σ.get j, h _ (List.get_mem _ _)⟩ := by
  unfold sel
  induction σ with
  | nil => rfl
  | cons i t ih =>
    have hi := h i List.mem_cons_self
    rw [List.filterMap_cons, List.getElem?_eq_getElem (by simpa using hi),
      ih fun j hj => h j (List.mem_cons_of_mem _ hj)]
    simp [List.ofFn_succ]

theorem pick_eq_sel {κ : Type} {y : List κ} {σ : List Nat} (h : ∀ i ∈ σ, i < y.length) :
    Engine.pick y σ = .ok (sel y σ) := by
  induction σ with
  | nil => rfl
  | cons i t ih =>
    have hi := h i List.mem_cons_self
    unfold Engine.pick sel
    rw [List.getElem?_eq_getElem hi, ih fun j hj => h j (List.mem_cons_of_mem _ hj),
      List.filterMap_cons, List.getElem?_eq_getElem hi]
    rfl

/-- The orders of `N` indexes. -/
def orders (N : Nat) : List (List Nat) := (List.range N).permutations

theorem orders_ne (N : Nat) : orders N ≠ [] := by
  have : List.range N ∈ orders N := List.mem_permutations.mpr (List.Perm.refl _)
  exact List.ne_nil_of_mem this

theorem orders_take {N : Nat} {σ : List Nat} (h : σ ∈ orders N) (n : Nat) :
    (σ.take n).Nodup ∧ ∀ i ∈ σ.take n, i < N := by
  have hp := List.mem_permutations.mp h
  exact ⟨(hp.nodup_iff.mpr List.nodup_range).sublist (List.take_sublist n σ),
    fun i hi => List.mem_range.mp (hp.mem_iff.mp (List.mem_of_mem_take hi))⟩

theorem orders_take_length {N n : Nat} (hn : n ≤ N) {σ : List Nat} (h : σ ∈ orders N) :
    (σ.take n).length = n := by
  rw [List.length_take, (List.mem_permutations.mp h).length_eq, List.length_range]
  omega

/-- The average over `n` elements of a list, taken without replacement. -/
noncomputable def takeE {κ : Type} (n : Nat) (y : List κ) (g : List κ → ℝ≥0∞) : ℝ≥0∞ :=
  avg (orders y.length) fun σ => g (sel y (σ.take n))

theorem takeE_permutations {κ : Type} (n : Nat) (y : List κ) (g : List κ → ℝ≥0∞) :
    takeE n y g = avg y.permutations fun z => g (z.take n) := by
  cases y with
  | nil => simp [takeE, orders, sel, avg_list]
  | cons d t =>
    have h1 : (d :: t).permutations = (orders (d :: t).length).map
        (List.map fun i => (d :: t).getD i d) := by
      unfold orders
      rw [List.map_permutations]
      congr 1
      refine List.ext_getElem (by simp) fun i i1 i2 => ?_
      simp at i1
      simp [i1]
    rw [h1, avg_map]
    refine avg_congr fun σ hσ => ?_
    rw [sel_eq_map (orders_take hσ n).2 d, List.map_take]

theorem takeE_symm {κ : Type} (n : Nat) {y y' : List κ} (h : y.Perm y') (g : List κ → ℝ≥0∞) :
    takeE n y g = takeE n y' g := by
  rw [takeE_permutations, takeE_permutations, avg_perm h.permutations]

theorem E_sample (n N : Nat) (g : List Nat → ℝ≥0∞) :
    (Draws.ofRand (Rand.sample n (List.range N))).E g = avg (orders N) fun σ => g (σ.take n) := by
  have hM : ((orders N).length : ℝ) ≠ 0 := by
    simpa using orders_ne N
  have hu : Rand.uniform (orders N).length
      = .choice (List.replicate (orders N).length (1 / ((orders N).length : ℝ))) .pure := by
    unfold Rand.uniform Rand.draw
    rw [if_pos ⟨fun x hx => by rw [List.eq_of_mem_replicate hx]; positivity, by
      rw [List.sum_replicate, nsmul_eq_mul, mul_one_div, div_self hM]⟩]
  show (Draws.ofRand ((Rand.uniform (orders N).length).bind fun i =>
    .pure (((orders N).getD i []).take n))).E g = _
  rw [hu]
  have hr : List.replicate (orders N).length (1 / ((orders N).length : ℝ))
      = (orders N).map fun _ => 1 / ((orders N).length : ℝ) := by
    rw [List.map_const']
  rw [hr]
  simp only [Rand.bind, Draws.ofRand]
  rw [Draws.E_choice (orders N) (fun _ => 1 / ((orders N).length : ℝ))
    (fun i => Draws.pure (((orders N).getD i []).take n)) (fun σ => g (σ.take n)) g]
  · rw [avg_list, List.sum_map_mul_left]
    congr 1
    rw [one_div, ENNReal.ofReal_inv_of_pos (by positivity), ENNReal.ofReal_natCast]
  · intro i hi
    show g (((orders N).getD i []).take n) = _
    simp [hi]

/-! ### the samples of several programs -/

/-- The average over samples taken from each list without replacement, chained. -/
noncomputable def gathE {X : Type} : List (List X) → List Nat → (List X → ℝ≥0∞) → ℝ≥0∞
  | y :: ys, n :: ns, F => takeE n y fun z => gathE ys ns fun l => F (z ++ l)
  | _, _, F => F []

theorem choose_gather {φ : α → X} {N : Nat} {ns : List Nat} (hn : ∀ n ∈ ns, n ≤ N) :
    ∀ {ss : List (List α)}, (∀ s ∈ ss, s.length = N) → ns.length ≤ ss.length →
      ∀ F : List X → ℝ≥0∞,
      ((Engine.chooseIndexes N ns).bind fun idx => Draws.ofExcept (Engine.gather ss idx)).E
          (fun l => F (l.map φ))
        = gathE (ss.map (List.map φ)) ns F := by
  induction ns with
  | nil =>
    intro ss _ _ F
    cases ss <;> rfl
  | cons n t ih =>
    intro ss hs hl F
    cases ss with
    | nil => simp at hl
    | cons s ss =>
      have hsN := hs s List.mem_cons_self
      unfold Engine.chooseIndexes
      rw [if_neg (by have := hn n List.mem_cons_self; omega), Draws.E_bind, Draws.E_bind, E_sample]
      simp only [List.map_cons, gathE, takeE, List.length_map, hsN]
      refine avg_congr fun σ hσ => ?_
      rw [← ih (fun m hm => hn m (List.mem_cons_of_mem _ hm))
        (fun s' h' => hs s' (List.mem_cons_of_mem _ h')) (by simpa using hl), Draws.E_bind, Draws.E_bind]
      refine E_congr_always (always_true _) fun rest _ => ?_
      simp only [Draws.E]
      rw [Engine.gather.eq_1, pick_eq_sel (by rw [hsN]; exact (orders_take hσ n).2)]
      cases Engine.gather ss rest with
      | error e => rfl
      | ok m =>
        simp only [Draws.ofExcept, Draws.E]
        rw [List.map_append, sel_map]

omit [MeasurableSpace X] in
theorem gathE_avg {κ : Type} {P : List κ} {ys : List (List X)} {ns : List Nat}
    (H : κ → List X → ℝ≥0∞) :
    avg P (fun a => gathE ys ns (H a)) = gathE ys ns fun l => avg P fun a => H a l := by
  induction ys generalizing ns H with
  | nil => simp only [gathE]
  | cons y ys ih =>
    cases ns with
    | nil => simp only [gathE]
    | cons n ns =>
      simp only [gathE, takeE]
      rw [avg_swap]
      exact avg_congr fun σ _ => ih _

/-- Each law as many times as is said. -/
def blocks : List (Measure X) → List Nat → List (Measure X)
  | ν :: νs, n :: ns => List.replicate n ν ++ blocks νs ns
  | _, _ => []

theorem blocks_length {νs : List (Measure X)} {ns : List Nat} (h : ns.length = νs.length) :
    (blocks νs ns).length = ns.sum := by
  induction νs generalizing ns with
  | nil => cases ns with
    | nil => rfl
    | cons n ns => simp at h
  | cons ν νs ih => cases ns with
    | nil => simp at h
    | cons n ns =>
      rw [blocks, List.length_append, List.length_replicate, ih (by simpa using h), List.sum_cons]

theorem mem_blocks {νs : List (Measure X)} {ns : List Nat} {μ : Measure X} (h : μ ∈ blocks νs ns) :
    μ ∈ νs := by
  induction νs generalizing ns with
  | nil => simp [blocks] at h
  | cons ν νs ih => cases ns with
    | nil => simp [blocks] at h
    | cons n ns =>
      rw [blocks, List.mem_append] at h
      rcases h with h | h
      · rw [List.eq_of_mem_replicate h]; exact List.mem_cons_self
      · exact List.mem_cons_of_mem _ (ih h)

/-- Some of several independent draws are independent draws. -/
theorem seqE_sel {ν : Measure X} [IsProbabilityMeasure ν] {N : Nat} {τ : List Nat} (hn : τ.Nodup)
    (h : ∀ i ∈ τ, i < N) {g : List X → ℝ≥0∞} (hg : MeasL τ.length g) :
    seqE (List.replicate N ν) (fun y => g (sel y τ)) = seqE (List.replicate τ.length ν) g := by
  let e : Fin τ.length → Fin N := fun j => ⟨τ.get j, h _ (List.get_mem _ _)⟩
  have he : Function.Injective e := fun i j hij => by
    have : τ.get i = τ.get j := congrArg Fin.val hij
    exact hn.injective_get this
  have hme : Measurable fun x : Fin N → X => fun j => x (e j) :=
    measurable_pi_iff.mpr fun j => measurable_pi_apply _
  have hm : MeasL N fun y => g (sel y τ) := by
    have := Measurable.comp (g := fun z : Fin τ.length → X => g (List.ofFn z)) hg hme
    unfold MeasL
    simp only [sel_ofFn h]
    exact this
  rw [seqE_pi _ _ hm, seqE_pi _ _ hg]
  have hind := (ProbabilityTheory.iIndepFun_pi (μ := fun _ : Fin N => ν)
    (X := fun _ x => x) fun _ => aemeasurable_id).precomp he
  have hmap := (ProbabilityTheory.iIndepFun_iff_map_fun_eq_pi_map
    fun j => (measurable_pi_apply (e j)).aemeasurable).mp hind
  have h1 : ∀ j, (Measure.pi fun _ : Fin N => ν).map (fun x => x (e j)) = ν := fun j =>
    (measurePreserving_eval (fun _ : Fin N => ν) (e j)).map_eq
  simp only [h1] at hmap
  rw [← hmap, lintegral_map (f := fun z : Fin τ.length → X => g (List.ofFn z)) hg hme]
  refine lintegral_congr fun x => ?_
  rw [sel_ofFn h]

/-- Samples taken without replacement from independent draws are independent draws. -/
theorem seqE_takeE {ν : Measure X} [IsProbabilityMeasure ν] {N n : Nat} (hn : n ≤ N)
    {g : List X → ℝ≥0∞} (hg : MeasL n g) :
    seqE (List.replicate N ν) (fun y => takeE n y g) = seqE (List.replicate n ν) g := by
  have h1 : seqE (List.replicate N ν) (fun y => takeE n y g)
      = seqE (List.replicate N ν) (fun y => avg (orders N) fun σ => g (sel y (σ.take n))) :=
    seqE_congr fun y hy => by
      rw [List.length_replicate] at hy
      unfold takeE
      rw [hy]
  have hσ : ∀ σ ∈ orders N, MeasL (σ.take n).length g := fun σ hσ => by
    rw [orders_take_length hn hσ]; exact hg
  rw [h1, seqE_avg (orders_ne N) _ (fun μ hμ => by
    rw [List.eq_of_mem_replicate hμ]; infer_instance)]
  · rw [avg_congr (g := fun _ => seqE (List.replicate n ν) g), avg_const (orders_ne N)]
    intro σ h
    rw [seqE_sel (orders_take h n).1 (orders_take h n).2 (hσ σ h), orders_take_length hn h]
  · intro σ h
    rw [List.length_replicate]
    have hme : Measurable fun x : Fin N → X => fun j : Fin (σ.take n).length =>
        x ⟨(σ.take n).get j, (orders_take h n).2 _ (List.get_mem _ _)⟩ :=
      measurable_pi_iff.mpr fun j => measurable_pi_apply _
    have := Measurable.comp (g := fun z : Fin (σ.take n).length → X => g (List.ofFn z)) (hσ σ h) hme
    unfold MeasL
    simp only [sel_ofFn (orders_take h n).2]
    exact this

/-- Samples taken from the beginning, then a rest. -/
theorem measP_takeE {N n k : Nat} (hn : n ≤ N) {G : List X → ℝ≥0∞} (hG : MeasL (n + k) G) :
    MeasP k fun (x : Fin N → X) l => takeE n (List.ofFn x) fun z => G (z ++ l) := by
  unfold MeasP takeE
  simp only [List.length_ofFn]
  refine measurable_avg (orders N) (H := fun σ (p : (Fin N → X) × (Fin k → X)) =>
    G (sel (List.ofFn p.1) (σ.take n) ++ List.ofFn p.2)) fun σ h => ?_
  have hG' : MeasL ((σ.take n).length + k) G := by rw [orders_take_length hn h]; exact hG
  have hme : Measurable fun x : Fin N → X => fun j : Fin (σ.take n).length =>
      x ⟨(σ.take n).get j, (orders_take h n).2 _ (List.get_mem _ _)⟩ :=
    measurable_pi_iff.mpr fun j => measurable_pi_apply _
  have := hG'.append.comp_left hme
  unfold MeasP at this
  simp only [sel_ofFn (orders_take h n).2]
  exact this

/-- Up to order, the batch is `N` independent draws from `ν`. -/
structure Batched (φ : α → X) (N : Nat) (m : Draws (List α)) (ν : Measure X) : Prop where
  prob : IsProbabilityMeasure ν
  length : m.Always fun l => l.length = N
  law : ∀ F : List X → ℝ≥0∞, Symm F → MeasL N F →
    m.E (fun l => F (l.map φ)) = seqE (List.replicate N ν) F

theorem sampleAll_always {φ : α → X} {N : Nat} {ms : List (Draws (List α))} {νs : List (Measure X)}
    (h : List.Forall₂ (Batched φ N) ms νs) :
    (Engine.sampleAll ms).Always fun ls => ls.length = ms.length ∧ ∀ l ∈ ls, l.length = N := by
  induction h with
  | nil => exact ⟨rfl, by simp⟩
  | cons hm _ ih =>
    refine always_bind hm.length fun l hl => always_bind ih fun ls hls => ⟨?_, ?_⟩
    · simp [hls.1]
    · intro l' hl'
      rcases List.mem_cons.mp hl' with rfl | hl'
      exacts [hl, hls.2 _ hl']

/-- The labels are drawn after the samples. -/
theorem sampleAll_law {φ : α → X} {N : Nat} {ms : List (Draws (List α))} {νs : List (Measure X)}
    (h : List.Forall₂ (Batched φ N) ms νs) {K : Finset ι} {w : ι → ℝ≥0∞} (hw : ∀ k ∈ K, w k ≠ ⊤)
    {n : Nat} {ns : List ι → List Nat}
    (hns : ∀ ks, ks.length = n → (ns ks).length = ms.length ∧ ∀ j ∈ ns ks, j ≤ N)
    {G : List ι → List X → ℝ≥0∞} (hG : ∀ ks, ks.length = n → MeasL (ns ks).sum (G ks)) :
    (Engine.sampleAll ms).E (fun ls => labE K w n fun ks =>
        gathE (ls.map (List.map φ)) (ns ks) (G ks))
      = labE K w n fun ks => seqE (blocks νs (ns ks)) (G ks) := by
  induction h generalizing ns G with
  | nil =>
    simp only [Engine.sampleAll, Draws.E, List.map_nil, gathE, blocks, seqE]
  | @cons m ν ms νs hm hms ih =>
    have hsf : ∀ μ ∈ νs, SFinite μ := by
      intro μ hμ
      obtain ⟨i, hi, rfl⟩ := List.getElem_of_mem hμ
      have hi' : i < ms.length := by rw [hms.length_eq]; exact hi
      have := (hms.get hi' hi).prob
      simp only [List.get_eq_getElem] at this
      infer_instance
    have := hm.prob
    let n0 : List ι → Nat := fun ks => (ns ks).headD 0
    let ns' : List ι → List Nat := fun ks => (ns ks).tail
    have hsplit : ∀ ks, ks.length = n → ns ks = n0 ks :: ns' ks := by
      intro ks hks
      have hl := (hns ks hks).1
      simp only [n0, ns']
      cases hc : ns ks with
      | nil => rw [hc] at hl; simp at hl
      | cons a b => rfl
    have hn0 : ∀ ks, ks.length = n → n0 ks ≤ N := fun ks hks =>
      (hns ks hks).2 _ (by rw [hsplit ks hks]; exact List.mem_cons_self)
    have hns' : ∀ ks, ks.length = n → (ns' ks).length = ms.length ∧ ∀ j ∈ ns' ks, j ≤ N := by
      intro ks hks
      have hl := hns ks hks
      rw [hsplit ks hks] at hl
      exact ⟨by simpa using hl.1, fun j hj => hl.2 j (List.mem_cons_of_mem _ hj)⟩
    have hG' : ∀ ks, ks.length = n → MeasL (n0 ks + (ns' ks).sum) (G ks) := by
      intro ks hks
      have := hG ks hks
      rw [hsplit ks hks, List.sum_cons] at this
      exact this
    have hbl : ∀ ks, ks.length = n → (blocks νs (ns' ks)).length = (ns' ks).sum := fun ks hks =>
      blocks_length ((hns' ks hks).1.trans hms.length_eq)
    have hbs : ∀ ks, ∀ μ ∈ blocks νs (ns' ks), SFinite μ := fun ks μ hμ => hsf μ (mem_blocks hμ)
    let H : List ι → List X → ℝ≥0∞ := fun ks y => seqE (blocks νs (ns' ks)) fun l =>
      takeE (n0 ks) y fun z => G ks (z ++ l)
    have hH : ∀ ks, ks.length = n → MeasL N (H ks) := by
      intro ks hks
      refine measurable_seqE (blocks νs (ns' ks)) (hbs ks)
        (G := fun (x : Fin N → X) l => takeE (n0 ks) (List.ofFn x) fun z => G ks (z ++ l)) ?_
      rw [hbl ks hks]
      exact measP_takeE (hn0 ks hks) (hG' ks hks)
    have hrep : ∀ μ ∈ List.replicate N ν, SFinite μ := fun μ hμ => by
      rw [List.eq_of_mem_replicate hμ]; infer_instance
    have hmeas : MeasL N fun y => labE K w n fun ks => H ks y := by
      have aux : ∀ n (H : List ι → List X → ℝ≥0∞), (∀ ks, ks.length = n → MeasL N (H ks)) →
          MeasL N fun y => labE K w n fun ks => H ks y := by
        intro n
        induction n with
        | zero => intro H hH; exact hH [] rfl
        | succ n ih =>
          intro H hH
          unfold MeasL
          simp only [labE]
          exact Finset.measurable_fun_sum _ fun k _ => Measurable.const_mul
            (ih (fun ks => H (k :: ks)) fun ks hks => hH _ (by simp [hks])) _
      exact aux n H hH
    simp only [Engine.sampleAll]
    rw [Draws.E_bind]
    have e1 : ∀ l : List α, l.length = N →
        ((Engine.sampleAll ms).bind fun ls => Draws.pure (l :: ls)).E
        (fun ls => labE K w n fun ks => gathE (ls.map (List.map φ)) (ns ks) (G ks))
        = labE K w n fun ks => H ks (l.map φ) := by
      intro l hl
      rw [Draws.E_bind]
      have := ih (ns := ns') hns' (G := fun ks l' => takeE (n0 ks) (l.map φ) fun z => G ks (z ++ l'))
        (fun ks hks => by
          have hm' := (measP_takeE (hn0 ks hks) (hG' ks hks)).at
            (fun i : Fin N => (l.map φ).get (i.cast (by rw [List.length_map, hl])))
          have ho : List.ofFn (fun i : Fin N => (l.map φ).get (i.cast (by rw [List.length_map, hl])))
              = l.map φ := by
            refine List.ext_getElem (by simp [hl]) fun i h1 h2 => ?_
            simp
          rw [ho] at hm'
          exact hm')
      refine Eq.trans ?_ this
      refine E_congr_always (always_true _) fun ls _ => ?_
      simp only [Draws.E]
      refine labE_congr fun ks hks _ => ?_
      rw [hsplit ks hks, List.map_cons, gathE]
      exact gathE_avg _
    refine (E_congr_always hm.length e1).trans ?_
    rw [hm.law (fun y => labE K w n fun ks => H ks y) (fun y y' hp => ?_) hmeas,
      seqE_labE K w hw n (List.replicate N ν) hrep (by rw [List.length_replicate]; exact hH)]
    · refine labE_congr fun ks hks _ => ?_
      rw [hsplit ks hks, blocks, seqE_append]
      rw [← seqE_takeE (hn0 ks hks)]
      · refine seqE_congr fun y hy => ?_
        rw [List.length_replicate] at hy
        simp only [H, takeE]
        refine seqE_avg (orders_ne _) _ (hbs ks) fun σ hσ => ?_
        refine MeasL.append_at _ ?_
        have : (sel y (σ.take (n0 ks))).length = n0 ks := by
          have hlt := (orders_take hσ (n0 ks)).2
          have hlen := orders_take_length (n := n0 ks) (by rw [hy]; exact hn0 ks hks) hσ
          have e := sel_ofFn (x := y.get) hlt
          rw [List.ofFn_get] at e
          rw [e, List.length_ofFn, hlen]
        rw [this, hbl ks hks]
        exact hG' ks hks
      · refine MeasL.average (hbs ks) ?_
        rw [hbl ks hks]
        exact hG' ks hks
    · refine labE_congr fun ks _ _ => ?_
      refine seqE_congr fun l _ => takeE_symm _ hp _

theorem takeE_zero {κ : Type} (y : List κ) (g : List κ → ℝ≥0∞) : takeE 0 y g = g [] := by
  unfold takeE
  simp only [List.take_zero, sel_nil]
  exact avg_const (orders_ne _) _

theorem gathE_zeros {X : Type} (ys : List (List X)) (ns : List Nat) (j : Nat) (F : List X → ℝ≥0∞) :
    gathE ys (ns ++ List.replicate j 0) F = gathE ys ns F := by
  induction ys generalizing ns j F with
  | nil => simp only [gathE]
  | cons y ys ih =>
    cases ns with
    | nil =>
      cases j with
      | zero => rfl
      | succ j =>
        rw [List.nil_append, List.replicate_succ, gathE, takeE_zero]
        have := ih [] j (fun l => F ([] ++ l))
        rw [List.nil_append] at this
        rw [this]
        cases ys <;> simp only [gathE, List.nil_append]
    | cons n ns =>
      simp only [List.cons_append, gathE, ih]

/-- `np.bincount` counts the labels, and stops after the largest. -/
theorem bincount_pad {ks : List Nat} {m : Nat} (h : ∀ k ∈ ks, k < m) :
    ∃ j, (List.range m).map (fun k => ks.count k) = Engine.bincount ks ++ List.replicate j 0 := by
  have hb : ∀ ks : List Nat, (∀ k ∈ ks, k < m) → ks.foldr (fun k m => max (k + 1) m) 0 ≤ m := by
    intro ks h
    induction ks with
    | nil => simp
    | cons k t ih =>
      simp only [List.foldr_cons]
      have := ih fun k hk => h k (List.mem_cons_of_mem _ hk)
      have := h k List.mem_cons_self
      omega
  have hlt : ∀ (ks : List Nat) k, k ∈ ks → k < ks.foldr (fun k m => max (k + 1) m) 0 := by
    intro ks k hk
    induction ks with
    | nil => cases hk
    | cons a t ih =>
      simp only [List.foldr_cons]
      rcases List.mem_cons.mp hk with rfl | hk
      · omega
      · have := ih hk; omega
  refine ⟨m - ks.foldr (fun k m => max (k + 1) m) 0, ?_⟩
  unfold Engine.bincount
  obtain ⟨d, hd⟩ := Nat.exists_eq_add_of_le (hb ks h)
  have hz : ∀ i, ks.count (ks.foldr (fun k m => max (k + 1) m) 0 + i) = 0 := by
    intro i
    refine List.count_eq_zero.mpr fun hm => ?_
    have := hlt ks _ hm
    omega
  generalize ks.foldr (fun k m => max (k + 1) m) 0 = b at hd hz
  rw [hd, List.range_add, List.map_append, List.map_map]
  congr 1
  have : (b + d - b) = d := by omega
  rw [this]
  refine List.ext_getElem (by simp) fun i h1 h2 => ?_
  simp [hz]

theorem blocks_range (νs : List (Measure X)) (f : Nat → Nat) (ν : Nat → Measure X) (a : Nat)
    (h : ∀ i (hi : i < νs.length), νs[i] = ν (a + i)) :
    blocks νs ((List.range' a νs.length).map f)
      = (List.range' a νs.length).flatMap fun k => List.replicate (f k) (ν k) := by
  induction νs generalizing a with
  | nil => rfl
  | cons μ t ih =>
    simp only [List.length_cons, List.range'_succ, List.map_cons, blocks, List.flatMap_cons]
    rw [ih (a + 1) fun i hi => ?_]
    · have := h 0 (by simp)
      simp only [List.getElem_cons_zero, Nat.add_zero] at this
      rw [this]
    · have := h (i + 1) (by simpa using hi)
      simp only [List.getElem_cons_succ] at this
      rw [this]
      congr 1
      omega

end Cgpm.Batch
