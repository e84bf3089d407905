import Verif.Props.NetConverge

/-!
Property C72, continued: what happens at accuracy one, and the hypotheses are met.
-/
namespace Cgpm.Props
open Cgpm Cgpm.Net MeasureTheory
open scoped ENNReal

section
variable {R Ω : Type}
variable {μ : Nat → Measure ℝ} [∀ v, SigmaFinite (μ v)] {rowid : R} {cgpms : List (NetCgpm R ℝ Ω)}
  {draw : NetDraws R ℝ Ω} {p : Nat → (Nat → ℝ) → ℝ≥0∞} {ord : PyOrder} {acc : Option Nat}
  {net : Network R ℝ Ω} {targets : List Nat} {constraints inputs : Dict Nat ℝ}

/-- **C72.** At accuracy one (the default) the weight has no effect: the law of what `simulate` returns
is the joint density with the weight of the evidence divided out, so that each component draws given
only the evidence on its own outputs. -/
theorem C72_one_sample (hord : ord.Lists) (hb : build ord cgpms acc = .ok net)
    (hsim : ∀ c ∈ cgpms, SimKeys c) (hq : GoodQuery cgpms targets constraints inputs)
    (hs : Supplied cgpms targets constraints inputs)
    (hp : ∀ l c, cgpms[l]? = some c → Behaves μ rowid c (draw l) (p l))
    (hpos : Possible μ cgpms p constraints) (hacc : acc = none ∨ acc = some 1) (x : Nat → ℝ)
    {g : (Nat → ℝ) → ℝ≥0∞} (hg : Measurable g)
    (hloc : ∀ y z : Nat → ℝ, (∀ v ∈ targets, y v = z v) → g y = g z) :
    (simulateDraws ord draw rowid net targets constraints inputs).E
        (fun d => g (fillWith (fillWith x inputs) d))
      = heldIntegral μ cgpms p constraints (fillWith x inputs)
          fun y => g y / evidenceWeight μ cgpms p constraints.keys.toFinset y := by
  have ha : net.accuracy = 1 := by
    have := (C26_accepted_network ord hord cgpms acc net hb).2.1
    rcases hacc with rfl | rfl <;> exact this
  have hB := built_of_build hord hb
  obtain ⟨TA, hQ, hTA, hw⟩ := weighted_facts hord hB hsim hq hs hp
  haveI := proposal_prob hB hQ hp hpos (hw x)
  have ht : ∀ t ∈ targets, t ∈ TA := fun t h =>
    (hTA t).mpr ⟨.target h, hq.disjoint t h, hq.produced t h⟩
  have hWm := evidenceWeight_measurable hp constraints.keys.toFinset
  have hac : Concerns cgpms targets constraints
      fun y => g y / evidenceWeight μ cgpms p constraints.keys.toFinset y := by
    intro y z h
    have h1 := hloc y z fun v hv => h v fun _ => .inr (.target hv)
    have h2 := evidenceWeight_concerns hp targets constraints y z h
    simp only [h1, h2]
  have hm' : Measurable fun y => g y / evidenceWeight μ cgpms p constraints.keys.toFinset y :=
    hg.div hWm
  rw [← proposal_integral hB hQ hTA hp hpos (hw x) hm' hac,
    simulate_E hB hp hpos (by rw [ha]; exact one_ne_zero) hQ ht (hw x) hg hloc]
  generalize proposal μ cgpms p constraints TA net.topo (fillWith x inputs) = Q at *
  generalize evidenceWeight μ cgpms p constraints.keys.toFinset = W at *
  rw [ha]
  have hm : Measurable fun y => W y * (g y / W y) := hWm.mul (hg.div hWm)
  rw [← lintegral_mean Q hm one_ne_zero]
  refine lintegral_congr fun z => ?_
  simp only [Finset.univ_unique, Finset.sum_singleton, Nat.cast_one, div_one]
  rw [mul_div_assoc]

end

/-! ### A noisy copy of a coin -/

/-- A component that draws 0 or 1, the latter with probability `q` of its inputs. -/
noncomputable def coinNet (o : Nat) (I : List Nat) (q : (Nat → ℝ) → ℝ) :
    NetCgpm (Option Row) ℝ (Nat → ℝ) where
  outputs := [o]
  inputs := I
  logpdf := fun _ T ins => .ok ((Real.log (if (T o).getD 0 = 1 then q fun v => (ins v).getD 0
    else 1 - q fun v => (ins v).getD 0) : ℝ) : LogP)
  simulate := fun ω _ ts _ _ => .ok (ts.map fun t => (t, ω t))

noncomputable def coinDraws (q : (Nat → ℝ) → ℝ) (_ : Option Row) (_ : List Nat) (_ ins : Look ℝ) :
    Draws (Nat → ℝ) :=
  .draw (npChoice ([false, true].map fun b => if b then q fun v => (ins v).getD 0
    else 1 - q fun v => (ins v).getD 0)) fun x => .pure fun _ => (⌊x⌋₊ : ℝ)

noncomputable def coinDensity (o : Nat) (q : (Nat → ℝ) → ℝ) (x : Nat → ℝ) : ℝ≥0∞ :=
  ENNReal.ofReal (if x o = 1 then q x else 1 - q x)

/-- Two values. -/
noncomputable def coinBase : Measure ℝ := Measure.dirac 0 + Measure.dirac 1

instance : IsFiniteMeasure coinBase := by unfold coinBase; infer_instance

theorem coin_integral (f : ℝ → ℝ≥0∞) : ∫⁻ t, f t ∂coinBase = f 0 + f 1 := by
  unfold coinBase
  rw [lintegral_add_measure, lintegral_dirac, lintegral_dirac]

theorem coin_behaves_on {μ : Nat → Measure ℝ} [∀ v, SigmaFinite (μ v)] {o : Nat} (hμ : μ o = coinBase)
    {I : List Nat} {q : (Nat → ℝ) → ℝ} (hm : Measurable q) (ho : o ∉ I)
    (hq : ∀ x y : Nat → ℝ, (∀ v ∈ I, x v = y v) → q x = q y) (h0 : ∀ x, 0 < q x) (h1 : ∀ x, q x < 1)
    (r : Option Row) :
    Behaves μ r (coinNet o I q) (coinDraws q) (coinDensity o q) := by
  have hlook : ∀ x : Nat → ℝ, q (fun v => (lookAt I.toFinset x v).getD 0) = q x := by
    intro x
    refine hq _ _ fun v hv => ?_
    simp [lookAt, hv]
  have hupd : ∀ (x : Nat → ℝ) (t : ℝ), q (Function.update x o t) = q x := fun x t =>
    hq _ _ fun v hv => Function.update_of_ne (fun e : v = o => ho (e ▸ hv)) _ _
  have hpos : ∀ x t, 0 < if t = (1 : ℝ) then q x else 1 - q x := by
    intro x t
    split
    · exact h0 x
    · have := h1 x; linarith
  refine behaves_single (o := o) rfl ?_ ?_ ?_ ?_ ?_
  · unfold coinDensity
    refine (Measurable.ite ?_ hm (measurable_const.sub hm)).ennreal_ofReal
    exact (measurable_pi_apply o) (measurableSet_singleton 1)
  · intro x y h
    unfold coinDensity
    rw [h o (.inl rfl), hq x y fun v hv => h v (.inr hv)]
  · intro x
    rw [hμ, coin_integral]
    unfold coinDensity
    simp only [Function.update_self, hupd]
    rw [if_neg (by norm_num), if_true, ← ENNReal.ofReal_add (by have := h1 x; linarith) (h0 x).le]
    simp
  · intro x
    refine ⟨_, rfl, ?_⟩
    have e : (lookAt {o} x o).getD 0 = x o := by simp [lookAt]
    simp only [coinNet, e, hlook]
    show ENNReal.ofReal (Real.exp (Real.log _)) = _
    rw [Real.exp_log (hpos x (x o))]
    rfl
  · intro x g hg
    rw [hμ, coin_integral]
    unfold coinDraws coinDensity
    simp only [Function.update_self, hupd, coinNet, hlook]
    rw [if_neg (by norm_num), if_true]
    simp only [Draws.bind, Draws.ofExcept, List.map_cons, List.map_nil]
    have hE := Draws.E_choice [false, true] (fun b : Bool => if b then q x else 1 - q x)
      (fun i => Draws.pure [(o, (i : ℝ))])
      (fun b => g (Function.update x o (if b then 1 else 0))) (g := fun d => g (fillWith x d))
      (by
        intro i hi
        have : i = 0 ∨ i = 1 := by simp at hi; omega
        rcases this with rfl | rfl <;> simp [Draws.E, fillWith_single])
    refine hE.trans ?_
    simp
    ring

theorem coin_behaves {o : Nat} {I : List Nat} {q : (Nat → ℝ) → ℝ} (hm : Measurable q) (ho : o ∉ I)
    (hq : ∀ x y : Nat → ℝ, (∀ v ∈ I, x v = y v) → q x = q y) (h0 : ∀ x, 0 < q x) (h1 : ∀ x, q x < 1)
    (r : Option Row) :
    Behaves (fun _ => coinBase) r (coinNet o I q) (coinDraws q) (coinDensity o q) :=
  coin_behaves_on rfl hm ho hq h0 h1 r

/-- The probability that the copy is 1. -/
noncomputable def copyProb (x : Nat → ℝ) : ℝ := if x 0 = 1 then 9 / 10 else 1 / 10

/-- Variable 0 is a fair coin, and variable 1 is a copy of it that is right nine times in ten. -/
noncomputable def flipNet : List (NetCgpm (Option Row) ℝ (Nat → ℝ)) :=
  [coinNet 0 [] fun _ => 1 / 2, coinNet 1 [0] copyProb]

noncomputable def flipDraws : NetDraws (Option Row) ℝ (Nat → ℝ)
  | 0 => coinDraws fun _ => 1 / 2
  | _ => coinDraws copyProb

noncomputable def flipDensity : Nat → (Nat → ℝ) → ℝ≥0∞
  | 0 => coinDensity 0 fun _ => 1 / 2
  | _ => coinDensity 1 copyProb

theorem flipNet_wf : WellFormed flipNet := by
  have hf : ∀ i j, Feeds flipNet i j → i = 0 ∧ j = 1 := by
    rintro i j ⟨a, b, ha, hb, v, hva, hvb⟩
    rcases i with _ | _ | i <;> rcases j with _ | _ | j <;>
      simp [flipNet, coinNet] at ha hb <;> subst ha hb <;> simp_all
  refine ⟨by simp [flipNet, coinNet], ?_, ?_⟩
  · intro i j a b ha hb v hva hvb
    rcases i with _ | _ | i <;> rcases j with _ | _ | j <;>
      simp [flipNet, coinNet] at ha hb <;> subst ha hb <;> simp_all
  · intro i hi
    have : ∀ a b, Relation.TransGen (Feeds flipNet) a b → a = 0 ∧ b = 1 := by
      intro a b h
      induction h with
      | single h => exact hf _ _ h
      | tail _ h ih => exact ⟨ih.1, (hf _ _ h).2⟩
    have := this i i hi
    omega

theorem flip_behaves (l : Nat) (c : NetCgpm (Option Row) ℝ (Nat → ℝ)) (h : flipNet[l]? = some c) :
    Behaves (fun _ => coinBase) none c (flipDraws l) (flipDensity l) := by
  rcases l with _ | _ | l
  · simp only [flipNet, List.getElem?_cons_zero, Option.some.injEq] at h
    subst h
    refine coin_behaves measurable_const List.not_mem_nil (fun _ _ _ => rfl) ?_ ?_ none
    · intro x; norm_num
    · intro x; norm_num
  · simp [flipNet] at h
    subst h
    refine coin_behaves ?_ (by simp) ?_ ?_ ?_ none
    · unfold copyProb
      exact Measurable.ite ((measurable_pi_apply 0) (measurableSet_singleton 1)) measurable_const
        measurable_const
    · intro x y h
      unfold copyProb
      rw [h 0 (by simp)]
    · intro x; unfold copyProb; split <;> norm_num
    · intro x; unfold copyProb; split <;> norm_num
  · simp [flipNet] at h

theorem flip_simKeys : ∀ c ∈ flipNet, SimKeys c := by
  intro c hc
  simp only [flipNet, List.mem_cons, List.not_mem_nil, or_false] at hc
  rcases hc with rfl | rfl <;> exact simKeys_values fun _ _ _ _ _ => rfl

theorem flip_weight (x : Nat → ℝ) :
    evidenceWeight (fun _ => coinBase) flipNet flipDensity {1} x = coinDensity 1 copyProb x := by
  rw [evidenceWeight_eq]
  have h0 := od_empty flip_behaves (S := {1}) (l := 0) rfl (by simp [coinNet]) x
  have h1 : odAt (fun _ => coinBase) flipNet flipDensity {1} 1 x = coinDensity 1 copyProb x := by
    have : odAt (fun _ => coinBase) flipNet flipDensity {1} 1
      = outDensity (fun _ => coinBase) [1] (flipDensity 1) {1} := rfl
    rw [this]
    unfold outDensity
    have he : ([1] : List Nat).toFinset \ {1} = ∅ := by simp
    rw [he, lmarginal_empty]
    rfl
  have hlen : flipNet.length = 2 := rfl
  rw [hlen]
  simp only [List.range_succ, List.range_zero, List.nil_append, List.map_append, List.map_cons,
    List.map_nil, List.prod_append, List.prod_cons, List.prod_nil, mul_one]
  rw [h0, h1, one_mul]

theorem flip_held (x : Nat → ℝ) (g : (Nat → ℝ) → ℝ≥0∞) :
    heldIntegral (fun _ => coinBase) flipNet flipDensity [(1, 1)] x g
      = g (Function.update (Function.update x 1 1) 0 0) * ENNReal.ofReal (1 / 20)
        + g (Function.update (Function.update x 1 1) 0 1) * ENNReal.ofReal (9 / 20) := by
  unfold heldIntegral
  have he : allOutputs flipNet \ (Dict.keys [(1, (1 : ℝ))]).toFinset = {0} := by
    decide
  have hj : ∀ t : ℝ, jointDensity flipNet flipDensity (Function.update (Function.update x 1 1) 0 t)
      = ENNReal.ofReal (1 / 2) * ENNReal.ofReal (if t = 1 then 9 / 10 else 1 / 10) := by
    intro t
    have hlen : flipNet.length = 2 := rfl
    unfold jointDensity
    rw [hlen, Finset.prod_range_succ, Finset.prod_range_succ, Finset.prod_range_zero, one_mul]
    congr 1
    · simp only [flipDensity, coinDensity]
      split <;> norm_num
    · simp [flipDensity, coinDensity, copyProb]
  have hfill : fillWith x [(1, 1)] = Function.update x 1 1 := fillWith_single x 1 1
  rw [he, lmarginal_singleton, hfill]
  simp only [coin_integral, hj]
  rw [if_neg (by norm_num), if_true, ← ENNReal.ofReal_mul (by norm_num),
    ← ENNReal.ofReal_mul (by norm_num)]
  norm_num

theorem flip_possible : Possible (fun _ => coinBase) flipNet flipDensity [(1, 1)] := by
  intro x
  have he : (Dict.keys [(1, (1 : ℝ))]).toFinset = {1} := rfl
  rw [he, flip_weight]
  unfold coinDensity copyProb
  rw [Ne, ENNReal.ofReal_eq_zero, not_le]
  split <;> split <;> norm_num

theorem flip_supplied (T : List Nat) : Supplied flipNet T [(1, 1)] [] := by
  intro c hc _ v hv
  simp only [flipNet, List.mem_cons, List.not_mem_nil, or_false] at hc
  rcases hc with rfl | rfl
  · simp [coinNet] at hv
  · simp [coinNet] at hv
    subst hv
    exact .inl ⟨_, List.mem_cons_self, by simp [coinNet]⟩

theorem flip_good : GoodQuery flipNet [0] [(1, 1)] [] := by
  refine ⟨?_, ?_, ?_, ?_, ?_⟩ <;> simp [Dict.WF, Dict.keys, Produced, flipNet, coinNet]

open Classical in
/-- **C72.** So at the default accuracy simulation given evidence can be far from the conditional law:
given that the copy is 1, the coin is 1 with probability 9/10, and `simulate` returns 1 with
probability 1/2. -/
theorem C72_one_sample_far (net : Network (Option Row) ℝ (Nat → ℝ))
    (hb : build idOrder flipNet none = .ok net) :
    let g : (Nat → ℝ) → ℝ≥0∞ := fun y => if y 0 = 1 then 1 else 0
    (simulateDraws idOrder flipDraws none net [0] [(1, 1)] []).E (fun d => g (fillWith 0 d))
      = ENNReal.ofReal (1 / 2) ∧
    conditionalMean (fun _ => coinBase) flipNet flipDensity [(1, 1)] 0 g = ENNReal.ofReal (9 / 10) := by
  intro g
  have hg : Measurable g := Measurable.ite ((measurable_pi_apply 0) (measurableSet_singleton 1))
    measurable_const measurable_const
  have hloc : ∀ y z : Nat → ℝ, (∀ v ∈ [0], y v = z v) → g y = g z := by
    intro y z h
    simp only [g, h 0 (by simp)]
  constructor
  · have h := C72_one_sample idOrder_lists hb flip_simKeys flip_good (flip_supplied _) flip_behaves
      flip_possible (.inl rfl) 0 hg hloc
    refine h.trans ?_
    have he : (Dict.keys [(1, (1 : ℝ))]).toFinset = {1} := rfl
    rw [flip_held, he, flip_weight, flip_weight]
    simp only [g, Function.update_self, coinDensity, copyProb,
      Function.update_of_ne (show (1 : ℕ) ≠ 0 by decide), if_true]
    rw [if_neg (by norm_num), ENNReal.zero_div, zero_mul, zero_add, one_div,
      ← ENNReal.ofReal_inv_of_pos (by norm_num), ← ENNReal.ofReal_mul (by norm_num)]
    norm_num
  · unfold conditionalMean evidenceDensity
    rw [flip_held, flip_held]
    simp only [g, Function.update_self, if_true]
    rw [if_neg (by norm_num), zero_mul, zero_add, one_mul, one_mul,
      ← ENNReal.ofReal_add (by norm_num) (by norm_num), ← ENNReal.ofReal_div_of_pos (by norm_num)]
    norm_num

/-- The hypotheses of the theorems about accuracy are met by this network. -/
example : (∃ net, build idOrder flipNet (some 100) = .ok net) ∧
    GoodQuery flipNet [0] [(1, 1)] [] ∧ Supplied flipNet [0] [(1, 1)] [] ∧
    Possible (fun _ => coinBase) flipNet flipDensity [(1, 1)] ∧
    weightMoment (fun _ => coinBase) flipNet flipDensity [(1, 1)] 0 ≠ ⊤ := by
  refine ⟨(C26_accepted_iff idOrder idOrder_lists flipNet (some 100)).1 flipNet_wf, flip_good,
    flip_supplied _, flip_possible, ?_⟩
  have he : (Dict.keys [(1, (1 : ℝ))]).toFinset = {1} := rfl
  unfold weightMoment
  rw [flip_held, he, flip_weight, flip_weight]
  exact ENNReal.add_ne_top.mpr ⟨ENNReal.mul_ne_top ENNReal.ofReal_ne_top ENNReal.ofReal_ne_top,
    ENNReal.mul_ne_top ENNReal.ofReal_ne_top ENNReal.ofReal_ne_top⟩

end Cgpm.Props
