import Mathlib.MeasureTheory.Constructions.Pi
import Mathlib.Data.List.Perm.Basic
import Mathlib.Data.List.OfFn

/-! Lists of independent draws: nested integrals of a function of the list. -/
namespace Cgpm.Batch
open MeasureTheory
open scoped ENNReal

variable {X Y β : Type} [MeasurableSpace X] [MeasurableSpace Y] [MeasurableSpace β]

/-- The expected value of `F` of a list whose elements are independent and have the given laws. -/
noncomputable def seqE : List (Measure X) → (List X → ℝ≥0∞) → ℝ≥0∞
  | [], F => F []
  | μ :: t, F => ∫⁻ x, seqE t (fun l => F (x :: l)) ∂μ

/-- `G` is measurable on lists of length `n`, jointly with a parameter. -/
def MeasP (n : Nat) (G : β → List X → ℝ≥0∞) : Prop :=
  Measurable fun p : β × (Fin n → X) => G p.1 (List.ofFn p.2)

/-- `F` is measurable on lists of length `n`. -/
def MeasL (n : Nat) (F : List X → ℝ≥0∞) : Prop := Measurable fun x : Fin n → X => F (List.ofFn x)

theorem measurable_fin_cons (n : Nat) :
    Measurable fun p : X × (Fin n → X) => (Fin.cons p.1 p.2 : Fin (n + 1) → X) := by
  refine measurable_pi_iff.mpr fun i => ?_
  refine Fin.cases ?_ (fun i => ?_) i
  · simpa using measurable_fst
  · simp only [Fin.cons_succ]
    exact (measurable_pi_apply i).comp measurable_snd

theorem MeasP.cons {n : Nat} {G : β → List X → ℝ≥0∞} (h : MeasP (n + 1) G) :
    MeasP n (fun (p : β × X) l => G p.1 (p.2 :: l)) := by
  unfold MeasP at h ⊢
  have := h.comp (f := fun q : (β × X) × (Fin n → X) => (q.1.1, (Fin.cons q.1.2 q.2 : Fin (n + 1) → X)))
    ((measurable_fst.comp measurable_fst).prodMk
      ((measurable_fin_cons n).comp ((measurable_snd.comp measurable_fst).prodMk measurable_snd)))
  simpa [Function.comp_def, List.ofFn_succ] using this

theorem MeasL.toP {n : Nat} {F : List X → ℝ≥0∞} (h : MeasL n F) : MeasP n (fun (_ : β) => F) :=
  Measurable.comp (g := fun x : Fin n → X => F (List.ofFn x)) h measurable_snd

theorem MeasP.at {n : Nat} {G : β → List X → ℝ≥0∞} (h : MeasP n G) (b : β) : MeasL n (G b) :=
  Measurable.comp (g := fun p : β × (Fin n → X) => G p.1 (List.ofFn p.2)) h measurable_prodMk_left

theorem MeasL.cons {n : Nat} {F : List X → ℝ≥0∞} (h : MeasL (n + 1) F) :
    MeasP n (fun (x : X) l => F (x :: l)) := by
  have := (h.toP (β := Unit)).cons
  exact this.comp ((measurable_const.prodMk measurable_fst).prodMk measurable_snd)
    (f := fun q : X × (Fin n → X) => (((), q.1), q.2))

theorem MeasP.comp_left {γ : Type} [MeasurableSpace γ] {n : Nat} {G : β → List X → ℝ≥0∞}
    (h : MeasP n G) {f : γ → β} (hf : Measurable f) : MeasP n (fun c => G (f c)) :=
  Measurable.comp h ((hf.comp measurable_fst).prodMk measurable_snd)
    (f := fun q : γ × (Fin n → X) => (f q.1, q.2))

theorem measurable_seqE (μs : List (Measure X)) (hμ : ∀ μ ∈ μs, SFinite μ) :
    ∀ {β : Type} [MeasurableSpace β] {G : β → List X → ℝ≥0∞}, MeasP μs.length G →
      Measurable fun b => seqE μs (G b) := by
  induction μs with
  | nil =>
    intro β _ G h
    have := Measurable.comp h (measurable_id.prodMk measurable_const)
      (f := fun b : β => (b, (Fin.elim0 : Fin 0 → X)))
    simpa [seqE, Function.comp_def] using this
  | cons μ t ih =>
    intro β _ G h
    have := hμ μ List.mem_cons_self
    simp only [seqE]
    have := ih (fun m hm => hμ m (List.mem_cons_of_mem _ hm)) h.cons
    exact this.lintegral_prod_right'

theorem seqE_append (a b : List (Measure X)) (F : List X → ℝ≥0∞) :
    seqE (a ++ b) F = seqE a fun l => seqE b fun l' => F (l ++ l') := by
  induction a generalizing F with
  | nil => rfl
  | cons μ t ih => simp only [List.cons_append, seqE, ih]

theorem seqE_congr {μs : List (Measure X)} {F G : List X → ℝ≥0∞}
    (h : ∀ l, l.length = μs.length → F l = G l) : seqE μs F = seqE μs G := by
  induction μs generalizing F G with
  | nil => exact h [] rfl
  | cons μ t ih =>
    simp only [seqE]
    exact lintegral_congr fun x => ih fun l hl => h (x :: l) (by simp [hl])

/-- The function does not depend on the order of the list. -/
def Symm (F : List X → ℝ≥0∞) : Prop := ∀ l l', l.Perm l' → F l = F l'

theorem Symm.cons {F : List X → ℝ≥0∞} (h : Symm F) (x : X) : Symm fun l => F (x :: l) :=
  fun _ _ hp => h _ _ (hp.cons x)

theorem seqE_perm {μs νs : List (Measure X)} (hp : μs.Perm νs) :
    (∀ μ ∈ μs, SFinite μ) → ∀ {F : List X → ℝ≥0∞}, Symm F → MeasL μs.length F →
      seqE μs F = seqE νs F := by
  induction hp with
  | nil => intro _ F _ _; rfl
  | cons μ hp ih =>
    intro hμ F hs hF
    simp only [seqE]
    exact lintegral_congr fun x => ih (fun m hm => hμ m (List.mem_cons_of_mem _ hm)) (hs.cons x)
      (hF.cons.at x)
  | swap μ ν t =>
    intro hμ F hs hF
    have := hμ μ (by simp)
    have := hμ ν (by simp)
    simp only [seqE]
    rw [lintegral_lintegral_swap]
    · refine lintegral_congr fun x => lintegral_congr fun y => seqE_congr fun l _ => hs _ _ ?_
      exact List.Perm.swap x y l
    · exact (measurable_seqE t (fun m hm => hμ m (by simp [hm])) hF.cons.cons).aemeasurable
  | trans h1 h2 ih1 ih2 =>
    intro hμ F hs hF
    rw [ih1 hμ hs hF]
    exact ih2 (fun m hm => hμ m (h1.mem_iff.mpr hm)) hs (h1.length_eq ▸ hF)

theorem seqE_const {μs : List (Measure X)} (hμ : ∀ μ ∈ μs, IsProbabilityMeasure μ) (c : ℝ≥0∞) :
    seqE μs (fun _ => c) = c := by
  induction μs with
  | nil => rfl
  | cons μ t ih =>
    have := hμ μ List.mem_cons_self
    simp only [seqE, ih fun m hm => hμ m (List.mem_cons_of_mem _ hm), lintegral_const,
      measure_univ, mul_one]

theorem seqE_swap (μs : List (Measure X)) (hμ : ∀ μ ∈ μs, SFinite μ) {ν : Measure β} [SFinite ν]
    {G : β → List X → ℝ≥0∞} (h : MeasP μs.length G) :
    seqE μs (fun l => ∫⁻ y, G y l ∂ν) = ∫⁻ y, seqE μs (G y) ∂ν := by
  induction μs generalizing G with
  | nil => rfl
  | cons μ t ih =>
    have := hμ μ List.mem_cons_self
    have ht := fun m hm => hμ m (List.mem_cons_of_mem _ hm)
    simp only [seqE]
    rw [lintegral_lintegral_swap (measurable_seqE t ht h.cons).aemeasurable]
    refine lintegral_congr fun x => ?_
    exact ih ht (h.cons.comp_left (measurable_id.prodMk measurable_const))

theorem seqE_mul (μs : List (Measure X)) (c : ℝ≥0∞) (hc : c ≠ ⊤) (F : List X → ℝ≥0∞) :
    seqE μs (fun l => c * F l) = c * seqE μs F := by
  induction μs generalizing F with
  | nil => rfl
  | cons μ t ih => simp only [seqE, ih]; exact lintegral_const_mul' _ _ hc

theorem seqE_sum {ι : Type} (K : Finset ι) (μs : List (Measure X)) (hμ : ∀ μ ∈ μs, SFinite μ)
    {F : ι → List X → ℝ≥0∞} (hF : ∀ i ∈ K, MeasL μs.length (F i)) :
    seqE μs (fun l => ∑ i ∈ K, F i l) = ∑ i ∈ K, seqE μs (F i) := by
  induction μs generalizing F with
  | nil => rfl
  | cons μ t ih =>
    have := hμ μ List.mem_cons_self
    have ht := fun m hm => hμ m (List.mem_cons_of_mem _ hm)
    simp only [seqE]
    rw [← lintegral_finsetSum' K fun i hi => (measurable_seqE t ht (hF i hi).cons).aemeasurable]
    exact lintegral_congr fun x => ih ht fun i hi => (hF i hi).cons.at x

/-- Independent draws from one law: the product measure. -/
theorem seqE_pi (ν : Measure X) [SigmaFinite ν] (n : Nat) {F : List X → ℝ≥0∞} (hF : MeasL n F) :
    seqE (List.replicate n ν) F = ∫⁻ x : Fin n → X, F (List.ofFn x) ∂Measure.pi fun _ => ν := by
  induction n generalizing F with
  | zero =>
    simp only [List.replicate_zero, seqE]
    rw [Measure.pi_of_empty (α := Fin 0) (x := Fin.elim0), lintegral_dirac' _ hF]
    simp
  | succ n ih =>
    have e := measurePreserving_piFinSuccAbove (fun _ : Fin (n + 1) => ν) 0
    have hcons : ∀ p : X × (Fin n → X),
        (MeasurableEquiv.piFinSuccAbove (fun _ : Fin (n + 1) => X) 0).symm p = Fin.cons p.1 p.2 := by
      intro p
      simp only [MeasurableEquiv.piFinSuccAbove_symm_apply, Fin.insertNthEquiv, Fin.insertNth_zero,
        Equiv.coe_fn_mk, Fin.zero_succAbove]
      rfl
    rw [← e.symm.lintegral_comp hF]
    simp only [hcons, List.replicate_succ, seqE, List.ofFn_succ, Fin.cons_zero, Fin.cons_succ]
    refine Eq.trans ?_ (lintegral_prod _ (Measurable.aemeasurable hF.cons)).symm
    exact lintegral_congr fun x => ih (hF.cons.at x)

theorem measurable_fin_append (a b : Nat) :
    Measurable fun p : (Fin a → X) × (Fin b → X) => (Fin.append p.1 p.2 : Fin (a + b) → X) := by
  refine measurable_pi_iff.mpr fun i => ?_
  refine Fin.addCases (fun i => ?_) (fun i => ?_) i
  · simp only [Fin.append_left]
    exact (measurable_pi_apply i).comp measurable_fst
  · simp only [Fin.append_right]
    exact (measurable_pi_apply i).comp measurable_snd

theorem MeasL.append {a b : Nat} {F : List X → ℝ≥0∞} (h : MeasL (a + b) F) :
    MeasP b (fun (x : Fin a → X) l => F (List.ofFn x ++ l)) := by
  have := Measurable.comp (g := fun x : Fin (a + b) → X => F (List.ofFn x)) h
    (measurable_fin_append (X := X) a b)
  simpa only [MeasP, Function.comp_def, List.ofFn_fin_append] using this

theorem MeasL.append_at {b : Nat} {F : List X → ℝ≥0∞} (L : List X) (h : MeasL (L.length + b) F) :
    MeasL b fun l => F (L ++ l) := by
  have := h.append.at L.get
  simpa only [List.ofFn_get] using this

/-- The rest of a list, averaged, is measurable in its beginning. -/
theorem MeasL.average {a : Nat} {νs : List (Measure X)} (hν : ∀ ν ∈ νs, SFinite ν)
    {F : List X → ℝ≥0∞} (h : MeasL (a + νs.length) F) :
    MeasL a fun l => seqE νs fun l' => F (l ++ l') :=
  measurable_seqE νs hν h.append

/-! ### labels -/

/-- The expected value of `G` of `n` independent labels with weights `w`. -/
noncomputable def labE {ι : Type} (K : Finset ι) (w : ι → ℝ≥0∞) : Nat → (List ι → ℝ≥0∞) → ℝ≥0∞
  | 0, G => G []
  | n + 1, G => ∑ k ∈ K, w k * labE K w n fun ks => G (k :: ks)

theorem labE_congr {ι : Type} {K : Finset ι} {w : ι → ℝ≥0∞} {n : Nat} {F G : List ι → ℝ≥0∞}
    (h : ∀ ks, ks.length = n → (∀ k ∈ ks, k ∈ K) → F ks = G ks) : labE K w n F = labE K w n G := by
  induction n generalizing F G with
  | zero => exact h [] rfl (by simp)
  | succ n ih =>
    simp only [labE]
    refine Finset.sum_congr rfl fun k hk => ?_
    rw [ih fun ks h1 h2 => h (k :: ks) (by simp [h1]) (by
      intro j hj; rcases List.mem_cons.mp hj with rfl | hj; exacts [hk, h2 j hj])]

theorem seqE_labE {ι : Type} (K : Finset ι) (w : ι → ℝ≥0∞) (hw : ∀ k ∈ K, w k ≠ ⊤) (n : Nat)
    (μs : List (Measure X)) (hμ : ∀ μ ∈ μs, SFinite μ) {G : List ι → List X → ℝ≥0∞}
    (hG : ∀ ks, ks.length = n → MeasL μs.length (G ks)) :
    seqE μs (fun l => labE K w n fun ks => G ks l) = labE K w n fun ks => seqE μs (G ks) := by
  induction n generalizing G with
  | zero => rfl
  | succ n ih =>
    simp only [labE]
    have hm : ∀ k ∈ K, ∀ m ≤ n, ∀ H : List ι → List X → ℝ≥0∞,
        (∀ ks, ks.length = m → MeasL μs.length (H ks)) →
        MeasL μs.length fun l => labE K w m fun ks => H ks l := by
      intro k hk m hm
      induction m with
      | zero => intro H hH; exact hH [] rfl
      | succ m ih' =>
        intro H hH
        unfold MeasL
        simp only [labE]
        refine Finset.measurable_fun_sum _ fun j _ => Measurable.const_mul ?_ _
        exact ih' (by omega) (fun ks => H (j :: ks)) fun ks hks => hH (j :: ks) (by simp [hks])
    rw [seqE_sum K μs hμ (F := fun k l => w k * labE K w n fun ks => G (k :: ks) l) fun k hk =>
      Measurable.const_mul (hm k hk n le_rfl (fun ks => G (k :: ks)) fun ks hks =>
        hG (k :: ks) (by simp [hks])) (w k)]
    refine Finset.sum_congr rfl fun k hk => ?_
    rw [seqE_mul _ _ (hw k hk), ih fun ks hks => hG (k :: ks) (by simp [hks])]

/-- Independent draws from a mixture: draw the labels, then from the laws of the labels. -/
theorem seqE_mixture {ι : Type} (K : Finset ι) (w : ι → ℝ≥0∞) (hw : ∀ k ∈ K, w k ≠ ⊤)
    (ν : ι → Measure X) (hν : ∀ k, SFinite (ν k)) (n : Nat) {F : List X → ℝ≥0∞} (hF : MeasL n F) :
    seqE (List.replicate n (∑ k ∈ K, w k • ν k)) F
      = labE K w n fun ks => seqE (ks.map ν) F := by
  induction n generalizing F with
  | zero => rfl
  | succ n ih =>
    simp only [List.replicate_succ, seqE, labE]
    rw [lintegral_finsetSum_measure]
    refine Finset.sum_congr rfl fun k hk => ?_
    rw [lintegral_smul_measure, smul_eq_mul]
    congr 1
    rw [lintegral_congr fun x => ih (hF.cons.at x)]
    have hms : ∀ ks : List ι, ∀ μ ∈ ks.map ν, SFinite μ := by
      intro ks μ hμ
      obtain ⟨j, -, rfl⟩ := List.mem_map.mp hμ
      exact hν j
    have := hν k
    have := seqE_labE (X := X) K w hw n [ν k] (by simp [hν]) (G := fun ks l =>
      match l with | x :: _ => seqE (ks.map ν) fun l => F (x :: l) | [] => 0) (fun ks hks => by
        have := measurable_seqE (ks.map ν) (hms ks) (G := fun x l => F (x :: l)) (by
          rw [List.length_map, hks]; exact hF.cons)
        exact this.comp (measurable_pi_apply (0 : Fin 1)))
    simpa [seqE] using this

/-! ### draws side by side -/

theorem MeasP.zip_right {Z : Type} [MeasurableSpace Z] {n : Nat} {F : List Z → ℝ≥0∞} (hF : MeasL n F)
    {f : X → Y → Z} (hf : Measurable fun p : X × Y => f p.1 p.2) :
    Measurable fun p : (Fin n → X) × (Fin n → Y) =>
      F (List.zipWith f (List.ofFn p.1) (List.ofFn p.2)) := by
  have hz : ∀ p : (Fin n → X) × (Fin n → Y), List.zipWith f (List.ofFn p.1) (List.ofFn p.2)
      = List.ofFn fun i => f (p.1 i) (p.2 i) := by
    intro p
    apply List.ext_getElem
    · simp
    · intro i h1 h2
      simp
  simp only [hz]
  refine Measurable.comp hF ?_ (f := fun p : (Fin n → X) × (Fin n → Y) => fun i => f (p.1 i) (p.2 i))
  refine measurable_pi_iff.mpr fun i => ?_
  exact hf.comp (f := fun p : (Fin n → X) × (Fin n → Y) => (p.1 i, p.2 i))
    (((measurable_pi_apply i).comp measurable_fst).prodMk
      ((measurable_pi_apply i).comp measurable_snd))

theorem seqE_zip {Z : Type} [MeasurableSpace Z] {μ : Measure X} {ν : Measure Y} [SFinite μ]
    [SFinite ν] {f : X → Y → Z} (hf : Measurable fun p : X × Y => f p.1 p.2) (n : Nat)
    {F : List Z → ℝ≥0∞} (hF : MeasL n F) :
    seqE (List.replicate n μ) (fun xs => seqE (List.replicate n ν) fun ys => F (List.zipWith f xs ys))
      = seqE (List.replicate n ((μ.prod ν).map fun p => f p.1 p.2)) F := by
  induction n generalizing F with
  | zero => rfl
  | succ n ih =>
    have hμ : ∀ m ∈ List.replicate n μ, SFinite m := by
      intro m hm; rw [List.eq_of_mem_replicate hm]; infer_instance
    have hν : ∀ m ∈ List.replicate n ν, SFinite m := by
      intro m hm; rw [List.eq_of_mem_replicate hm]; infer_instance
    have hz := MeasP.zip_right hF hf
    have hG : Measurable fun q : (X × Y) × (Fin n → X) × (Fin n → Y) =>
        F (f q.1.1 q.1.2 :: List.zipWith f (List.ofFn q.2.1) (List.ofFn q.2.2)) := by
      have := hz.comp (f := fun q : (X × Y) × (Fin n → X) × (Fin n → Y) =>
          ((Fin.cons q.1.1 q.2.1 : Fin (n + 1) → X), (Fin.cons q.1.2 q.2.2 : Fin (n + 1) → Y)))
        (((measurable_fin_cons n).comp ((measurable_fst.comp measurable_fst).prodMk
            (measurable_fst.comp measurable_snd))).prodMk
          ((measurable_fin_cons n).comp ((measurable_snd.comp measurable_fst).prodMk
            (measurable_snd.comp measurable_snd))))
      simpa [Function.comp_def, List.ofFn_succ] using this
    simp only [List.replicate_succ, seqE, List.zipWith_cons_cons]
    have h1 : Measurable fun q : (X × Y) × (Fin n → X) =>
        seqE (List.replicate n ν) fun ys => F (f q.1.1 q.1.2 :: List.zipWith f (List.ofFn q.2) ys) := by
      refine measurable_seqE (List.replicate n ν) hν (β := (X × Y) × (Fin n → X))
        (G := fun q ys => F (f q.1.1 q.1.2 :: List.zipWith f (List.ofFn q.2) ys)) ?_
      rw [List.length_replicate]
      exact hG.comp (f := fun q : ((X × Y) × (Fin n → X)) × (Fin n → Y) => (q.1.1, q.1.2, q.2))
        ((measurable_fst.comp measurable_fst).prodMk
          ((measurable_snd.comp measurable_fst).prodMk measurable_snd))
    rw [lintegral_map' , lintegral_prod]
    · refine lintegral_congr fun x => ?_
      rw [seqE_swap (List.replicate n μ) hμ (G := fun y xs => seqE (List.replicate n ν)
        fun ys => F (f x y :: List.zipWith f xs ys))]
      · exact lintegral_congr fun y => ih (hF.cons.at (f x y))
      · rw [List.length_replicate]
        exact h1.comp (f := fun q : Y × (Fin n → X) => ((x, q.1), q.2))
          ((measurable_const.prodMk measurable_fst).prodMk measurable_snd)
    · have := (measurable_seqE (List.replicate n ((μ.prod ν).map fun p => f p.1 p.2))
        (fun m hm => by rw [List.eq_of_mem_replicate hm]; infer_instance)
        (G := fun z l => F (z :: l)) (by rw [List.length_replicate]; exact hF.cons)).comp hf
      exact this.aemeasurable
    · exact (measurable_seqE (List.replicate n ((μ.prod ν).map fun p => f p.1 p.2))
        (fun m hm => by rw [List.eq_of_mem_replicate hm]; infer_instance)
        (G := fun z l => F (z :: l)) (by rw [List.length_replicate]; exact hF.cons)).aemeasurable
    · exact hf.aemeasurable

end Cgpm.Batch
