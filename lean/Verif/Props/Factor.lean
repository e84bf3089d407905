import Verif.Lemmas.FactorFull

/-!
C48: the queries of a factor analysis are the exact conditional densities of its generative model.

`Spec.Factor.density` is the joint density of some of the variables under the model
`z ~ N(0, I)`, `x = mux + W z + e`, `e ~ N(0, Psi)`.
-/
namespace Cgpm.Props
open Cgpm.Spec.Factor Matrix
open Cgpm.Factor (recoord)

variable {f : Factor}

/-- What the least-squares fallback of `mvnormal.logpdf` answers. -/
abbrev Loser := (n : Nat) → (Fin n → ℝ) → Matrix (Fin n) (Fin n) ℝ → Fl

/-- The constructor makes valid objects: it refuses exactly inputs, fewer than two outputs,
duplicated outputs, a missing or zero latent dimension, and more factors than observables. -/
theorem C48_new (outputs inputs : List Col) (L : Option Nat) (mux : Nat → ℝ)
    (Psi W : Nat → Nat → ℝ) :
    ((∃ f, Factor.new outputs inputs L mux Psi W = .ok f) ↔
      inputs = [] ∧ 2 ≤ outputs.length ∧ outputs.Nodup ∧
        ∃ l, L = some l ∧ 0 < l ∧ l ≤ outputs.length - l) ∧
    ∀ f, Factor.new outputs inputs L mux Psi W = .ok f →
      f.outputs = outputs ∧ L = some f.L ∧ f.mux = mux ∧ f.Psi = Psi ∧ f.W = W ∧ f.data = [] ∧
      FullRows f ∧
      ((Matrix.of fun i j : Fin (numObs f) => Psi i j).PosDef → Valid f) := by
  unfold Factor.new
  by_cases h1 : inputs = []
  · by_cases h2 : outputs.length < 2
    · simp [h1, h2]
    · by_cases h3 : outputs.dedup.length = outputs.length
      · have hn : outputs.Nodup := by
          rw [← List.dedup_eq_self]
          exact (List.dedup_sublist outputs).eq_of_length h3
        cases L with
        | none => simp [h1, h2, h3]
        | some l =>
          by_cases h4 : l = 0
          · simp [h1, h2, h3, h4]
          · by_cases h5 : (outputs.take (outputs.length - l)).length < l
            · have h6 := h5
              rw [List.length_take] at h6
              simp only [h1, h2, h3, h4, h5, List.isEmpty_nil, Bool.not_true, if_true, if_false,
                ne_eq, not_true_eq_false, reduceCtorEq, exists_false, false_iff, IsEmpty.forall_iff,
                implies_true, and_true, Bool.false_eq_true]
              rintro ⟨-, -, -, m, hm, -, h7⟩
              cases hm
              omega
            · have h6 := h5
              rw [List.length_take] at h6
              simp only [h1, h2, h3, h4, h5, List.isEmpty_nil, Bool.not_true, if_false,
                ne_eq, not_true_eq_false, Bool.false_eq_true, Except.ok.injEq, exists_eq', true_iff,
                true_and]
              refine ⟨⟨by omega, hn, l, rfl, by omega, by omega⟩, ?_⟩
              rintro g rfl
              refine ⟨rfl, rfl, rfl, rfl, rfl, rfl, ?_, fun h => ⟨hn, ?_, h⟩⟩
              · intro r vs h
                cases h
              · show l ≤ outputs.length
                omega
      · have hn : ¬ outputs.Nodup := fun h => h3 (by rw [h.dedup])
        simp [h1, h2, h3, hn]
  · have : inputs.isEmpty = false := by simpa using h1
    simp [h1, this]

/-- The reindexing is a bijection of the variables onto the coordinates of the joint vector: the
`k`-th factor is the coordinate `k`, and the `i`-th observable is the coordinate `L + i`. -/
theorem C48_reindex (hn : f.outputs.Nodup) (hL : f.L ≤ f.outputs.length) :
    ∃ c : Col → Nat,
      (∀ l : List Col, (∀ q ∈ l, q ∈ f.outputs) → f.reindex l = .ok (l.map c)) ∧
      Set.BijOn c {q | q ∈ f.outputs} {i | i < f.outputs.length} ∧
      (∀ (i : Nat) (q : Col), i < f.outputs.length - f.L → f.outputs[i]? = some q →
        c q = f.L + i) ∧
      (∀ (k : Nat) (q : Col), f.outputs[f.outputs.length - f.L + k]? = some q → c q = k) ∧
      ∀ l : List Col, (∃ q ∈ l, q ∉ f.outputs) → f.reindex l = .error .keyError := by
  have hpos : ∀ i q, f.outputs[i]? = some q → pos f q = i := by
    intro i q h
    obtain ⟨hi, rfl⟩ := List.getElem?_eq_some_iff.1 h
    exact hn.idxOf_getElem i hi
  have obs : ∀ i q, i < f.outputs.length - f.L → f.outputs[i]? = some q →
      Factor.coord f q = f.L + i := by
    intro i q hi h
    have := hpos i q h
    rw [Factor.coord_obs (by unfold IsObs numObs; omega)]
    omega
  have lat : ∀ k q, f.outputs[f.outputs.length - f.L + k]? = some q → Factor.coord f q = k := by
    intro k q h
    have := hpos _ q h
    rw [Factor.coord_lat (by unfold IsObs numObs; omega)]
    unfold numObs; omega
  refine ⟨Factor.coord f, fun l hl => Factor.reindex_ok hn hl, ⟨?_, ?_, ?_⟩, obs, lat, ?_⟩
  · intro q hq
    exact Factor.coord_lt hL hq
  · intro q hq r hr e
    exact Factor.coord_inj hL hq hr e
  · intro i hi
    have hi : i < f.outputs.length := hi
    by_cases h : i < f.L
    · have hlt : f.outputs.length - f.L + i < f.outputs.length := by omega
      exact ⟨_, List.getElem_mem hlt, lat i _ (List.getElem?_eq_getElem hlt)⟩
    · have hlt : i - f.L < f.outputs.length := by omega
      refine ⟨_, List.getElem_mem hlt, ?_⟩
      rw [obs (i - f.L) _ (by omega) (List.getElem?_eq_getElem hlt)]
      omega
  · intro l
    unfold Factor.reindex
    induction l with
    | nil => rintro ⟨q, hq, _⟩; cases hq
    | cons a t ih =>
      rintro ⟨q, hq, hno⟩
      by_cases ha : a ∈ f.outputs
      · have hq : q ∈ t := (List.mem_cons.1 hq).resolve_left (by rintro rfl; exact hno ha)
        simp only [Net.collect, Factor.convert_ok hn ha, ih ⟨q, hq, hno⟩]
        rfl
      · simp only [Net.collect, Factor.convert_err ha]

/-- The checks of a query pass. -/
theorem prepare_ok {r : Option Row} {T : List Col} {C cs : Dict Col ℝ}
    (hT : ∀ q ∈ T, q ∈ f.outputs) (hne : T ≠ []) (h : f.populate r T C = .ok cs)
    (hd : ∀ q ∈ T, q ∉ cs.keys) : f.prepare r T C [] = .ok cs := by
  unfold Factor.prepare
  rw [h]
  have g1 : T.isEmpty = false := by
    cases T with
    | nil => exact absurd rfl hne
    | cons a t => rfl
  have g2 : (T.any fun q => !f.outputs.contains q) = false := by
    rw [List.any_eq_false]
    intro q hq
    simp [hT q hq]
  have g3 : (T.any fun q => cs.has q) = false := by
    rw [List.any_eq_false]
    intro q hq
    rw [Dict.has_iff]
    exact hd q hq
  simp only [g1, g2, g3, List.isEmpty_nil, Bool.not_true, Bool.false_eq_true, if_false]

/-- `logpdf` is the logarithm of the conditional density of the targets given the evidence. -/
theorem C48_density (hV : Valid f) (hR : FullRows f) (loser : Loser) (r : Option Row)
    {T C Ev : Dict Col ℝ} (hT : Assigns f T) (hne : T ≠ []) (hC : Assigns f C)
    (hd : ∀ q ∈ T.keys, q ∉ C.keys) (hE : Evidence f r T.keys C Ev) :
    ∃ p, f.logpdf loser r T C [] = .ok (.fin p) ∧ 0 < density f Ev ∧
      Real.exp p = density f (T ++ Ev) / density f Ev := by
  obtain ⟨cs, h1, h2⟩ := Factor.populate_ok hV.nodup hR r T.keys hC.nodup
  have hA := Factor.evidence_assigns h2 hC
  have hD := Factor.evidence_disjoint h2 hd
  have hpe : cs.Perm Ev := Factor.evidence_perm h2 hE
  have ha := (Factor.assigns_append hT hA hD).nodup
  have e1 : density f cs = density f Ev := Factor.density_perm h2.nodup hpe
  have e2 : density f (T ++ cs) = density f (T ++ Ev) :=
    Factor.density_perm ha (hpe.append_left T)
  obtain ⟨hP, hG⟩ := Factor.given_density hV hT hA hD
  have hpos := Factor.density_pos hV hA
  have hpos2 := Factor.density_pos hV (Factor.assigns_append hT hA hD)
  have hprep := prepare_ok hT.known (by simpa [Dict.keys] using hne) h1 hD
  refine ⟨Real.log (density f (T ++ Ev) / density f Ev), ?_, e1 ▸ hpos, ?_⟩
  · unfold Factor.logpdf
    rw [hprep]
    simp only
    rw [Factor.reindexDict_ok hV hT]
    simp only
    rw [Factor.reindexDict_ok hV hA]
    simp only
    rw [Factor.mvnCondition_ok hV hT hA hD]
    simp only
    rw [Factor.mvnLogpdf_posDef loser _ _ hP, ← e1, ← e2, ← hG, mul_div_cancel_right₀ _ hpos.ne']
  · rw [Real.exp_log]
    rw [← e1, ← e2]
    positivity

/-- The order of the targets, of the constraints and of the row is irrelevant. -/
theorem C48_order (hV : Valid f) (hR : FullRows f) (loser : Loser) (r : Option Row)
    {T T' C C' : Dict Col ℝ} (hT : Assigns f T) (hne : T ≠ []) (hC : Assigns f C)
    (hd : ∀ q ∈ T.keys, q ∉ C.keys) (hTT : T.Perm T') (hCC : C.Perm C') :
    f.logpdf loser r T' C' [] = f.logpdf loser r T C [] := by
  have hk : T.keys.Perm T'.keys := hTT.map _
  have hk' : C.keys.Perm C'.keys := hCC.map _
  have hT' : Assigns f T' := ⟨hk.nodup_iff.1 hT.nodup, fun q hq => hT.known q (hk.mem_iff.2 hq)⟩
  have hC' : Assigns f C' := ⟨hk'.nodup_iff.1 hC.nodup, fun q hq => hC.known q (hk'.mem_iff.2 hq)⟩
  have hd' : ∀ q ∈ T'.keys, q ∉ C'.keys := fun q hq hc =>
    hd q (hk.mem_iff.2 hq) (hk'.mem_iff.2 hc)
  obtain ⟨Ev, -, hE⟩ := Factor.populate_ok hV.nodup hR r T.keys hC.nodup
  have hE' : Evidence f r T'.keys C' Ev := by
    refine ⟨hE.nodup, fun q => ?_⟩
    rw [hE.get q, Dict.get?_perm hC.nodup hCC]
    by_cases h : q ∈ T.keys
    · rw [if_pos h, if_pos (hk.mem_iff.1 h)]
    · rw [if_neg h, if_neg (fun h' => h (hk.mem_iff.2 h'))]
  have hne' : T' ≠ [] := by
    rintro rfl
    exact hne hTT.eq_nil
  obtain ⟨p, e1, -, e2⟩ := C48_density hV hR loser r hT hne hC hd hE
  obtain ⟨p', e1', -, e2'⟩ := C48_density hV hR loser r hT' hne' hC' hd' hE'
  have ha := (Factor.assigns_append hT (Factor.evidence_assigns hE hC)
    (Factor.evidence_disjoint hE hd)).nodup
  rw [← Factor.density_perm ha (hTT.append_right Ev), ← e2] at e2'
  rw [e1, e1', Real.exp_injective e2']

/-- The chain rule: `log p(T, U | E) = log p(T | U, E) + log p(U | E)`. -/
theorem C48_chain (hV : Valid f) (hR : FullRows f) (loser : Loser) {T U C : Dict Col ℝ}
    (hT : Assigns f T) (hU : Assigns f U) (hC : Assigns f C) (hneT : T ≠ []) (hneU : U ≠ [])
    (hTU : ∀ q ∈ T.keys, q ∉ U.keys) (hTC : ∀ q ∈ T.keys, q ∉ C.keys)
    (hUC : ∀ q ∈ U.keys, q ∉ C.keys) :
    ∃ a b c, f.logpdf loser none (T ++ U) C [] = .ok (.fin a) ∧
      f.logpdf loser none T (U ++ C) [] = .ok (.fin b) ∧
      f.logpdf loser none U C [] = .ok (.fin c) ∧ a = b + c := by
  have hk : ∀ a b : Dict Col ℝ, (a ++ b).keys = a.keys ++ b.keys := by simp [Dict.keys]
  have hev : ∀ (T C : Dict Col ℝ), Assigns f C → Evidence f none T.keys C C := by
    intro T C hC
    refine ⟨hC.nodup, fun q => ?_⟩
    unfold cell
    cases C.get? q <;> simp
  have hUC' := Factor.assigns_append hU hC hUC
  have hTUC : ∀ q ∈ T.keys, q ∉ (U ++ C).keys := by
    intro q hq
    rw [hk, List.mem_append]
    exact fun h => h.elim (hTU q hq) (hTC q hq)
  obtain ⟨a, a1, a2, a3⟩ := C48_density hV hR loser none (Factor.assigns_append hT hU hTU)
    (by simp [hneT]) hC (by
      intro q hq
      rw [hk, List.mem_append] at hq
      exact hq.elim (hTC q) (hUC q)) (hev _ C hC)
  obtain ⟨b, b1, b2, b3⟩ := C48_density hV hR loser none hT hneT hUC' hTUC (hev _ _ hUC')
  obtain ⟨c, c1, c2, c3⟩ := C48_density hV hR loser none hU hneU hC hUC (hev _ C hC)
  refine ⟨a, b, c, a1, b1, c1, Real.exp_injective ?_⟩
  rw [Real.exp_add, a3, b3, c3, List.append_assoc]
  field_simp

/-- The covariances of one variable with an assignment. -/
noncomputable def rowBlock (f : Factor) (v : Col) (d : Dict Col ℝ) :
    Matrix (Fin 1) (Fin d.length) ℝ := of fun _ j => covar f v d[j].1

/-- The variance of one variable. -/
noncomputable def varBlock (f : Factor) (v : Col) : Matrix (Fin 1) (Fin 1) ℝ :=
  of fun _ _ => covar f v v

theorem density_cons (hV : Valid f) {d : Dict Col ℝ} (hd : Assigns f d) {v : Col}
    (hv : v ∈ f.outputs) (x : ℝ) :
    density f ((v, x) :: d) = gauss
      (Sum.elim (fun _ : Fin 1 => x) (fun i : Fin d.length => d[i].2))
      (Sum.elim (fun _ : Fin 1 => mean f v) (fun i : Fin d.length => mean f d[i].1))
      (fromBlocks (varBlock f v) (rowBlock f v d) (rowBlock f v d)ᵀ (Factor.block f d d)) := by
  have e1 : density f ((v, x) :: d) = density f ([(v, x)] ++ d) := rfl
  rw [e1, Factor.density_append]
  congr 1
  · funext i
    cases i with
    | inl i => simp
    | inr i => rfl
  · funext i
    cases i with
    | inl i => simp
    | inr i => rfl
  · funext i j
    cases i with
    | inl i =>
      cases j with
      | inl j => simp [varBlock]
      | inr j => simp [rowBlock]
    | inr i =>
      cases j with
      | inl j => simpa [rowBlock] using Factor.covar_symm hV (Factor.assigns_getElem hd i) hv
      | inr j => simp [Factor.block]

theorem cons_posDef (hV : Valid f) {d : Dict Col ℝ} (hd : Assigns f d) {v : Col}
    (hv : v ∈ f.outputs) (hvd : v ∉ d.keys) :
    (fromBlocks (varBlock f v) (rowBlock f v d) (rowBlock f v d)ᵀ (Factor.block f d d)).PosDef := by
  have h1 := Factor.covar_posDef hV (ι := Fin 1 ⊕ Fin d.length)
    (Sum.elim (fun _ => v) (fun i => d[i].1))
    (by
      intro i
      cases i with
      | inl i => exact hv
      | inr i => exact Factor.assigns_getElem hd i)
    (by
      have hk : ∀ i : Fin d.length, d[i].1 ∈ d.keys := fun i =>
        List.mem_map.2 ⟨d[i], List.getElem_mem _, rfl⟩
      intro i j e
      cases i with
      | inl i =>
        cases j with
        | inl j => exact congrArg _ (Subsingleton.elim i j)
        | inr j =>
          simp only [Sum.elim_inl, Sum.elim_inr] at e
          exact absurd (e ▸ hk j) hvd
      | inr i =>
        cases j with
        | inr j => exact congrArg _ (Factor.assigns_inj hd e)
        | inl j =>
          simp only [Sum.elim_inl, Sum.elim_inr] at e
          exact absurd (e ▸ hk i) hvd)
  have h2 : (of fun i j => covar f
      ((Sum.elim (fun _ : Fin 1 => v) (fun i : Fin d.length => d[i].1)) i)
      ((Sum.elim (fun _ : Fin 1 => v) (fun i : Fin d.length => d[i].1)) j))
      = fromBlocks (varBlock f v) (rowBlock f v d) (rowBlock f v d)ᵀ (Factor.block f d d) := by
    funext i j
    cases i with
    | inl i =>
      cases j with
      | inl j => rfl
      | inr j => rfl
    | inr i =>
      cases j with
      | inl j => simpa [rowBlock] using Factor.covar_symm hV (Factor.assigns_getElem hd i) hv
      | inr j => rfl
  rw [← h2]
  exact h1

/-- Integrating one target out of the density leaves the density of the others. -/
theorem density_integral (hV : Valid f) {d : Dict Col ℝ} (hd : Assigns f d) {v : Col}
    (hv : v ∈ f.outputs) (hvd : v ∉ d.keys) :
    ∫ x, density f ((v, x) :: d) = density f d := by
  have hB := cons_posDef hV hd hv hvd
  have hS := (schur_posDef hB).2
  have h0 := hS.diag_pos (i := default)
  obtain ⟨w, hw⟩ : ∃ w : NNReal, (w : ℝ) = (varBlock f v
      - rowBlock f v d * (Factor.block f d d)⁻¹ * (rowBlock f v d)ᵀ) default default :=
    ⟨⟨_, h0.le⟩, rfl⟩
  have hw0 : w ≠ 0 := by
    intro e
    rw [← hw, e] at h0
    simp at h0
  have key : ∀ x, density f ((v, x) :: d)
      = ProbabilityTheory.gaussianPDFReal (((fun _ : Fin 1 => mean f v)
        + (rowBlock f v d * (Factor.block f d d)⁻¹)
          *ᵥ ((fun i : Fin d.length => d[i].2) - fun i => mean f d[i].1)) default) w x
        * density f d := by
    intro x
    rw [density_cons hV hd hv, gauss_schur hB, gauss_unique _ _ _ w hw hw0]
    rfl
  simp only [key]
  rw [MeasureTheory.integral_mul_const, ProbabilityTheory.integral_gaussianPDFReal_eq_one _ hw0,
    one_mul]

/-- Marginalisation: integrating a target out of the answers gives the answer without the target. -/
theorem C48_marginal (hV : Valid f) (hR : FullRows f) (loser : Loser) {T C : Dict Col ℝ} {v : Col}
    (hT : Assigns f T) (hneT : T ≠ []) (hC : Assigns f C) (hTC : ∀ q ∈ T.keys, q ∉ C.keys)
    (hv : v ∈ f.outputs) (hvT : v ∉ T.keys) (hvC : v ∉ C.keys) :
    ∃ (p : ℝ → ℝ) (p₀ : ℝ),
      (∀ x, f.logpdf loser none ((v, x) :: T) C [] = .ok (.fin (p x))) ∧
      f.logpdf loser none T C [] = .ok (.fin p₀) ∧ ∫ x, Real.exp (p x) = Real.exp p₀ := by
  have hev : ∀ (T : Dict Col ℝ), Evidence f none T.keys C C := by
    intro T
    refine ⟨hC.nodup, fun q => ?_⟩
    unfold cell
    cases C.get? q <;> simp
  have hvT' : ∀ x, Assigns f ((v, x) :: T) := fun x => by
    constructor
    · simp only [Dict.keys, List.map_cons, List.nodup_cons]
      exact ⟨hvT, hT.nodup⟩
    · intro q hq
      simp only [Dict.keys, List.map_cons, List.mem_cons] at hq
      exact hq.elim (fun e => e ▸ hv) (hT.known q)
  have hd : ∀ x, ∀ q ∈ Dict.keys ((v, x) :: T), q ∉ C.keys := fun x q hq => by
    simp only [Dict.keys, List.map_cons, List.mem_cons] at hq
    exact hq.elim (fun e => e ▸ hvC) (hTC q)
  choose p h1 h2 h3 using fun x => C48_density hV hR loser none (hvT' x) (by simp) hC (hd x)
    (hev ((v, x) :: T))
  obtain ⟨p₀, g1, g2, g3⟩ := C48_density hV hR loser none hT hneT hC hTC (hev T)
  refine ⟨p, p₀, h1, g1, ?_⟩
  have hA := Factor.assigns_append hT hC hTC
  simp only [h3, g3]
  rw [MeasureTheory.integral_div]
  congr 1
  refine density_integral hV hA hv ?_
  simp only [Dict.keys, List.map_append, List.mem_append, not_or]
  exact ⟨hvT, hvC⟩

/-- The density of one target integrates to one, whatever the row and the constraints. -/
theorem C48_normalised (hV : Valid f) (hR : FullRows f) (loser : Loser) (r : Option Row)
    {C : Dict Col ℝ} {v : Col} (hC : Assigns f C) (hv : v ∈ f.outputs) (hvC : v ∉ C.keys) :
    ∃ p : ℝ → ℝ, (∀ x, f.logpdf loser r [(v, x)] C [] = .ok (.fin (p x))) ∧
      ∫ x, Real.exp (p x) = 1 := by
  obtain ⟨Ev, -, hE⟩ := Factor.populate_ok hV.nodup hR r [v] hC.nodup
  have hA := Factor.evidence_assigns hE hC
  have hvE : v ∉ Ev.keys := Factor.evidence_disjoint hE (by simpa using hvC) v (by simp)
  choose p h1 h2 h3 using fun x : ℝ => C48_density (T := [(v, x)]) hV hR loser r
    ⟨by simp [Dict.keys], by simpa [Dict.keys] using hv⟩ (by simp) hC
    (by simpa [Dict.keys] using hvC) (Ev := Ev) (by simpa [Dict.keys] using hE)
  refine ⟨p, h1, ?_⟩
  simp only [h3]
  rw [MeasureTheory.integral_div]
  have := density_integral hV hA hv hvE
  simp only [List.cons_append, List.nil_append]
  rw [this, div_self (h2 0).ne']

/-- Without a row, a query is conditioned on the constraints. -/
theorem evidence_none {T : List Col} {C : Dict Col ℝ} (hC : Assigns f C) :
    Evidence f none T C C := by
  refine ⟨hC.nodup, fun q => ?_⟩
  unfold cell
  cases C.get? q <;> simp

/-- The generative model: the factors are standard normal, and given the factors the observables
have mean `mux + W z` and covariance `Psi`. -/
theorem C48_generative (hV : Valid f) (hR : FullRows f) (hL : 0 < f.L) (hO : 0 < numObs f)
    (loser : Loser) (xs : Fin (numObs f) → ℝ) (zs : Fin f.L → ℝ) :
    f.logpdf loser none (allLat f zs) [] [] = .ok (.fin (Real.log (gauss zs 0 1))) ∧
    f.logpdf loser none (allObs f xs) (allLat f zs) [] = .ok (.fin (Real.log
      (gauss xs (fun i => f.mux i + ∑ k : Fin f.L, f.W i k * zs k)
        (Matrix.of fun i j => f.Psi i j)))) := by
  have hX := Factor.allObs_assigns hV xs
  have hZ := Factor.allLat_assigns hV zs
  have neX : allObs f xs ≠ [] := by
    intro e
    have := Factor.allObs_len xs
    rw [e] at this
    simp at this; omega
  have neZ : allLat f zs ≠ [] := by
    intro e
    have := Factor.allLat_len hV.le zs
    rw [e] at this
    simp at this; omega
  have hnil : Assigns f [] := ⟨by simp [Dict.keys], by simp [Dict.keys]⟩
  constructor
  · obtain ⟨p, h1, -, h2⟩ := C48_density hV hR loser none hZ neZ hnil (by simp [Dict.keys])
      (evidence_none hnil)
    rw [List.append_nil, Factor.density_nil, div_one, Factor.density_lat hV] at h2
    rw [h1, ← h2, Real.log_exp]
  · obtain ⟨p, h1, h0, h2⟩ := C48_density hV hR loser none hX neX hZ
      (Factor.all_disjoint hV xs zs) (evidence_none hZ)
    rw [Factor.density_generative hV, Factor.density_lat hV] at h2
    rw [Factor.density_lat hV] at h0
    rw [mul_div_cancel_right₀ _ h0.ne'] at h2
    have e : (fun i : Fin (numObs f) => f.mux i + ∑ k : Fin f.L, f.W i k * zs k)
        = (fun i : Fin (numObs f) => f.mux i) + (Factor.loadings f)ᵀ *ᵥ zs := by
      funext i
      rfl
    rw [h1, e]
    change _ = Except.ok (Fl.fin (Real.log (gauss xs _ (Factor.noiseMat f))))
    rw [← h2, Real.log_exp]

/-- The posterior of the factors given all the observables: precision `I + W' Psi⁻¹ W` and mean
`(I + W' Psi⁻¹ W)⁻¹ W' Psi⁻¹ (x - mux)`. -/
theorem C48_posterior (hV : Valid f) (hR : FullRows f) (hL : 0 < f.L) (loser : Loser)
    (xs : Fin (numObs f) → ℝ) (zs : Fin f.L → ℝ) :
    let W : Matrix (Fin (numObs f)) (Fin f.L) ℝ := of fun i k => f.W i k
    let Psi : Matrix (Fin (numObs f)) (Fin (numObs f)) ℝ := of fun i j => f.Psi i j
    let S := (1 + Wᵀ * Psi⁻¹ * W)⁻¹
    f.logpdf loser none (allLat f zs) (allObs f xs) [] = .ok (.fin (Real.log
      (gauss zs (S *ᵥ (Wᵀ *ᵥ (Psi⁻¹ *ᵥ (xs - fun i : Fin (numObs f) => f.mux i)))) S))) := by
  intro W Psi S
  have hX := Factor.allObs_assigns hV xs
  have hZ := Factor.allLat_assigns hV zs
  have neZ : allLat f zs ≠ [] := by
    intro e
    have := Factor.allLat_len hV.le zs
    rw [e] at this
    simp at this; omega
  obtain ⟨p, h1, h0, h2⟩ := C48_density hV hR loser none hZ neZ hX
    (fun q h1 h2 => Factor.all_disjoint hV xs zs q h2 h1) (evidence_none hX)
  rw [Factor.density_posterior hV, mul_div_cancel_right₀ _ h0.ne'] at h2
  rw [h1]
  have hS : S = (Factor.precision f)⁻¹ := rfl
  rw [hS]
  change _ = Except.ok (Fl.fin (Real.log (gauss zs ((Factor.precision f)⁻¹ *ᵥ (Factor.loadings f
    *ᵥ ((Factor.noiseMat f)⁻¹ *ᵥ (xs - fun i : Fin (numObs f) => f.mux i)))) _)))
  rw [← h2, Real.log_exp]

/-- `mvnormal.conditional` computes the same parameters as `mvn_condition`. -/
theorem C48_conditional (mu : Nat → ℝ) (cov : Nat → Nat → ℝ) (n : Nat) (Q : List Nat)
    (E : Dict Nat ℝ) {g : (Fin Q.length → ℝ) × Matrix (Fin Q.length) (Fin Q.length) ℝ}
    (h : Factor.mvnCondition n mu cov Q E = .ok g) :
    g = mvnConditional (Factor.vals E) (fun i => mu Q[i]) (fun i => mu E.keys[i])
      (of fun i j : Fin Q.length => cov Q[i] Q[j])
      (of fun (i : Fin Q.length) (j : Fin E.keys.length) => cov Q[i] E.keys[j])
      (of fun (i : Fin Q.length) (j : Fin E.keys.length) => cov Q[i] E.keys[j])ᵀ
      (of fun i j : Fin E.keys.length => cov E.keys[i] E.keys[j]) := by
  unfold Factor.mvnCondition at h
  split at h
  · cases h
  · split at h
    · cases h
    · split at h
      · cases h
      · cases h
        unfold Factor.given mvnConditional
        rw [mulVec_mulVec, ← Matrix.mul_assoc]
        rfl

theorem ofFn_vals (d : Dict Col ℝ) : List.ofFn (Factor.vals (recoord f d)) = d.map Prod.snd := by
  apply List.ext_getElem
  · simp [recoord, Dict.keys]
  · intro i a b
    simp [Factor.vals, recoord]

/-- The values drawn, as an assignment. -/
theorem sample_assigns {targets : List Col} (hn : targets.Nodup)
    (hk : ∀ q ∈ targets, q ∈ f.outputs) {n : Nat} (hl : n = targets.length) (x : Fin n → ℝ) :
    Assigns f (targets.zip (List.ofFn x)) ∧ (targets.zip (List.ofFn x)).map Prod.fst = targets ∧
      (targets.zip (List.ofFn x)).map Prod.snd = List.ofFn x := by
  have e1 : (targets.zip (List.ofFn x)).map Prod.fst = targets := by
    rw [List.map_fst_zip]; simp [hl]
  have e2 : (targets.zip (List.ofFn x)).map Prod.snd = List.ofFn x := by
    rw [List.map_snd_zip]; simp [hl]
  exact ⟨⟨by unfold Dict.keys; rwa [e1], by unfold Dict.keys; rwa [e1]⟩, e1, e2⟩

/-- The parameters of the normal vector that `simulate` asks for. -/
theorem factor_parameters (hV : Valid f) (hR : FullRows f)
    (r : Option Row) {T : List Col} {C Ev : Dict Col ℝ} (hT : T.Nodup)
    (hk : ∀ q ∈ T, q ∈ f.outputs) (hne : T ≠ []) (hC : Assigns f C) (hd : ∀ q ∈ T, q ∉ C.keys)
    (hE : Evidence f r T C Ev) :
    ∃ (cs : Dict Col ℝ) (tr : List Nat) (er : Dict Nat ℝ)
      (g : (Fin tr.length → ℝ) × Matrix (Fin tr.length) (Fin tr.length) ℝ),
      f.prepare r T C [] = .ok cs ∧ f.reindex T = .ok tr ∧ f.reindexDict cs = .ok er ∧
      Factor.mvnCondition (f.L + f.D) f.mu f.cov tr er = .ok g ∧ tr.length = T.length ∧ g.2.PosDef ∧
      (∀ x : Fin tr.length → ℝ,
        gauss x g.1 g.2 = density f (T.zip (List.ofFn x) ++ Ev) / density f Ev) ∧
      ∀ x : Fin tr.length → ℝ, Factor.getSample T x = T.zip (List.ofFn x) := by
  obtain ⟨cs, h1, h2⟩ := Factor.populate_ok hV.nodup hR r T hC.nodup
  have hA := Factor.evidence_assigns h2 hC
  have hD := Factor.evidence_disjoint h2 hd
  have hprep := prepare_ok hk hne h1 hD
  have hpe : cs.Perm Ev := Factor.evidence_perm h2 hE
  have hlen : (T.map (Factor.coord f)).length = T.length := List.length_map _
  have hA' := Factor.evidence_assigns hE hC
  have hD' := Factor.evidence_disjoint hE hd
  have key : ∀ x : Fin (T.map (Factor.coord f)).length → ℝ,
      (Factor.given f.mu f.cov (T.map (Factor.coord f)) (recoord f cs)).2.PosDef ∧
      gauss x (Factor.given f.mu f.cov (T.map (Factor.coord f)) (recoord f cs)).1
        (Factor.given f.mu f.cov (T.map (Factor.coord f)) (recoord f cs)).2
        = density f (T.zip (List.ofFn x) ++ Ev) / density f Ev := by
    intro x
    obtain ⟨hS, e1, e2⟩ := sample_assigns hT hk hlen x
    have hdd : ∀ q ∈ Dict.keys (T.zip (List.ofFn x)), q ∉ cs.keys := by
      unfold Dict.keys; rw [e1]; exact hD
    have hdd' : ∀ q ∈ Dict.keys (T.zip (List.ofFn x)), q ∉ Ev.keys := by
      unfold Dict.keys; rw [e1]; exact hD'
    have hkeys : T.map (Factor.coord f) = (recoord f (T.zip (List.ofFn x))).keys := by
      rw [Factor.recoord_keys]; unfold Dict.keys; rw [e1]
    have hvals : List.ofFn (Factor.vals (recoord f (T.zip (List.ofFn x)))) = List.ofFn x := by
      rw [ofFn_vals, e2]
    obtain ⟨g1, g2⟩ := Factor.given_density hV hS hA hdd
    have hp := Factor.density_pos hV hA
    have hgen : ∀ (Q : List Nat) (x' : Fin Q.length → ℝ),
        Q = (recoord f (T.zip (List.ofFn x))).keys → List.ofFn x' = List.ofFn x →
        (Factor.given f.mu f.cov Q (recoord f cs)).2.PosDef ∧
        gauss x' (Factor.given f.mu f.cov Q (recoord f cs)).1
          (Factor.given f.mu f.cov Q (recoord f cs)).2 * density f cs
          = density f (T.zip (List.ofFn x) ++ cs) := by
      rintro Q x' rfl hx'
      have : x' = Factor.vals (recoord f (T.zip (List.ofFn x))) := by
        exact List.ofFn_injective (hx'.trans hvals.symm)
      rw [this]
      exact ⟨g1, g2⟩
    obtain ⟨k1, k2⟩ := hgen _ x hkeys rfl
    refine ⟨k1, ?_⟩
    rw [← Factor.density_perm h2.nodup hpe,
      ← Factor.density_perm (Factor.assigns_append hS hA hdd).nodup (hpe.append_left _), ← k2,
      mul_div_cancel_right₀ _ hp.ne']
  have hcond : Factor.mvnCondition (f.L + f.D) f.mu f.cov (T.map (Factor.coord f)) (recoord f cs)
      = .ok (Factor.given f.mu f.cov (T.map (Factor.coord f)) (recoord f cs)) := by
    obtain ⟨hS, e1, e2⟩ := sample_assigns hT hk hlen 0
    have hkeys : T.map (Factor.coord f)
        = (recoord f (T.zip (List.ofFn (0 : Fin (T.map (Factor.coord f)).length → ℝ)))).keys := by
      rw [Factor.recoord_keys]; unfold Dict.keys; rw [e1]
    have := Factor.mvnCondition_ok hV hS hA (by unfold Dict.keys; rw [e1]; exact hD)
    rw [← hkeys] at this
    exact this
  have hget : ∀ x : Fin (T.map (Factor.coord f)).length → ℝ,
      Factor.getSample T x = T.zip (List.ofFn x) := by
    intro x
    obtain ⟨hS, -, -⟩ := sample_assigns hT hk hlen x
    exact Dict.update_nil_eq hS.nodup
  exact ⟨cs, _, _, _, hprep, Factor.reindex_ok hV.nodup hk, Factor.reindexDict_ok hV hA, hcond, hlen,
    (key 0).1, fun x => (key x).2, hget⟩

/-- `simulate` asks the generator for a normal vector whose density is the conditional density of
the targets given the evidence, and pairs every target with its own coordinate of the draw. -/
theorem C48_simulate (hV : Valid f) (hR : FullRows f)
    (rng : (n : Nat) → (Fin n → ℝ) → Matrix (Fin n) (Fin n) ℝ → Nat → (Fin n → ℝ))
    (r : Option Row) {T : List Col} {C Ev : Dict Col ℝ} (hT : T.Nodup)
    (hk : ∀ q ∈ T, q ∈ f.outputs) (hne : T ≠ []) (hC : Assigns f C) (hd : ∀ q ∈ T, q ∉ C.keys)
    (hE : Evidence f r T C Ev) :
    ∃ (n : Nat) (m : Fin n → ℝ) (S : Matrix (Fin n) (Fin n) ℝ), n = T.length ∧ S.PosDef ∧
      (∀ x : Fin n → ℝ,
        gauss x m S = density f (T.zip (List.ofFn x) ++ Ev) / density f Ev) ∧
      f.simulate rng r T C [] none = .ok (.inl (T.zip (List.ofFn (rng n m S 0)))) ∧
      ∀ N, f.simulate rng r T C [] (some N)
        = .ok (.inr ((List.range N).map fun k => T.zip (List.ofFn (rng n m S k)))) := by
  obtain ⟨cs, tr, er, g, h1, h2, h3, h4, hlen, hpd, hg, hget⟩ :=
    factor_parameters hV hR r hT hk hne hC hd hE
  refine ⟨_, g.1, g.2, hlen, hpd, hg, ?_, fun N => ?_⟩ <;>
  · unfold Factor.simulate
    simp only [h1, h2, h3, h4, hget]

/-- The refusals: no targets, an unknown target, a variable that is target and constraint, inputs,
or an unknown constraint. -/
theorem C48_refused (hV : Valid f) (hR : FullRows f) (loser : Loser)
    (rng : (n : Nat) → (Fin n → ℝ) → Matrix (Fin n) (Fin n) ℝ → Nat → (Fin n → ℝ))
    (r : Option Row) {T C : Dict Col ℝ} {inputs : List Col} (N : Option Nat)
    (hC : C.keys.Nodup) :
    (inputs ≠ [] ∨ T = [] ∨ (∃ q ∈ T.keys, q ∉ f.outputs) ∨ (∃ q ∈ T.keys, q ∈ C.keys) →
      f.logpdf loser r T C inputs = .error .valueError ∧
      f.simulate rng r T.keys C inputs N = .error .valueError) ∧
    (inputs = [] → Assigns f T → T ≠ [] → (∀ q ∈ T.keys, q ∉ C.keys) →
      (∃ q ∈ C.keys, q ∉ f.outputs) →
      f.logpdf loser r T C inputs = .error .keyError ∧
      f.simulate rng r T.keys C inputs N = .error .keyError) := by
  obtain ⟨cs, h1, h2⟩ := Factor.populate_ok hV.nodup hR r T.keys hC
  constructor
  · intro h
    have hp : f.prepare r T.keys C inputs = .error .valueError := by
      unfold Factor.prepare
      rw [h1]
      simp only
      by_cases a1 : inputs = []
      · by_cases a2 : T = []
        · simp [a1, a2, Dict.keys]
        · by_cases a3 : ∃ q ∈ T.keys, q ∉ f.outputs
          · have : (T.keys.any fun q => !f.outputs.contains q) = true := by
              obtain ⟨q, hq, hn⟩ := a3
              rw [List.any_eq_true]
              exact ⟨q, hq, by simpa using hn⟩
            simp only [this, if_true, ite_self]
          · have h5 : ∃ q ∈ T.keys, q ∈ C.keys := by
              rcases h with h | h | h | h
              · exact absurd a1 h
              · exact absurd h a2
              · exact absurd h a3
              · exact h
            have : (T.keys.any fun q => cs.has q) = true := by
              obtain ⟨q, hq, hn⟩ := h5
              rw [List.any_eq_true]
              refine ⟨q, hq, ?_⟩
              obtain ⟨v, hv⟩ := Dict.exists_of_mem_keys hn
              rw [Dict.has, h2.get, hv]
              rfl
            simp only [this, if_true, ite_self]
      · have : inputs.isEmpty = false := by simpa using a1
        simp [this]
    constructor
    · unfold Factor.logpdf; rw [hp]
    · unfold Factor.simulate; rw [hp]
  · rintro rfl hT hne hd ⟨q, hq, hno⟩
    have hD := Factor.evidence_disjoint h2 hd
    have hp := prepare_ok hT.known (by simpa [Dict.keys] using hne) h1 hD
    have hcs : q ∈ cs.keys := by
      rw [← Dict.get?_isSome_iff, h2.get]
      obtain ⟨v, hv⟩ := Dict.exists_of_mem_keys hq
      rw [hv]; rfl
    obtain ⟨c, -, -, -, -, hbad⟩ := C48_reindex hV.nodup hV.le
    have hr : f.reindexDict cs = .error .keyError := by
      unfold Factor.reindexDict
      rw [hbad _ ⟨q, hcs, hno⟩]
    constructor
    · unfold Factor.logpdf
      rw [hp]
      simp only
      rw [Factor.reindexDict_ok hV hT]
      simp only
      rw [hr]
    · unfold Factor.simulate
      rw [hp]
      simp only
      rw [Factor.reindex_ok hV.nodup hT.known]
      simp only
      rw [hr]

/-- `transition` keeps the rows and the schema, and takes the loadings, the mean and the (diagonal)
noise from the estimates; the new parameters are valid as soon as the estimated noise variances are
positive. -/
theorem C48_transition (hV : Valid f) (hR : FullRows f) (noise mean : Nat → ℝ)
    (components : Nat → Nat → ℝ) (h : ∀ i < numObs f, 0 < noise i) :
    Valid (f.transition noise mean components) ∧ FullRows (f.transition noise mean components) ∧
    (f.transition noise mean components).data = f.data ∧
    (f.transition noise mean components).outputs = f.outputs ∧
    (f.transition noise mean components).L = f.L ∧
    (∀ i k, (f.transition noise mean components).W i k = components k i) ∧
    (∀ i, (f.transition noise mean components).mux i = mean i ∧
      (f.transition noise mean components).Psi i i = noise i) ∧
    ∀ i j, i ≠ j → (f.transition noise mean components).Psi i j = 0 := by
  refine ⟨⟨hV.nodup, hV.le, ?_⟩, hR, rfl, rfl, rfl, fun _ _ => rfl,
    fun i => ⟨rfl, by simp [Factor.transition]⟩, fun i j h => by simp [Factor.transition, h]⟩
  have e : (Matrix.of fun i j : Fin (numObs (f.transition noise mean components)) =>
      (f.transition noise mean components).Psi i j)
      = Matrix.diagonal fun i : Fin (numObs (f.transition noise mean components)) => noise i := by
    funext i j
    show (if i.val = j.val then noise i.val else 0) = Matrix.diagonal _ i j
    rw [Matrix.diagonal_apply]
    simp only [Fin.ext_iff]
  rw [e]
  exact PosDef.diagonal fun i => h i.val i.isLt

/-- `logpdf_score` raises as soon as there is data. -/
theorem C48_score_raises (hd : f.data ≠ []) : f.logpdfScore = .error .typeError := by
  unfold Factor.logpdfScore
  have : f.data.isEmpty = false := by simpa using hd
  simp [this]

/-! ### A concrete object meets the hypotheses -/

/-- Two observables 7 and 3, one factor 5; the row 0 has the value 1 for the variable 7 only. -/
noncomputable def factorDemo : Factor where
  outputs := [7, 3, 5]
  L := 1
  mux i := if i = 0 then 2 else -1
  Psi i j := if i = j then 4 else 0
  W i _ := if i = 0 then 1 else 3
  data := [(0, [some 1, none])]

theorem factorDemo_valid : Valid factorDemo := by
  refine ⟨by simp [factorDemo], by simp [factorDemo], ?_⟩
  have e : (Matrix.of fun i j : Fin (numObs factorDemo) => factorDemo.Psi i j)
      = Matrix.diagonal fun _ : Fin (numObs factorDemo) => (4 : ℝ) := by
    funext i j
    show (if i.val = j.val then (4 : ℝ) else 0) = Matrix.diagonal _ i j
    rw [Matrix.diagonal_apply]
    simp only [Fin.ext_iff]
  rw [e]
  exact PosDef.diagonal fun i => by norm_num

theorem factorDemo_rows : FullRows factorDemo := by
  intro r vs h
  unfold factorDemo at h
  simp only [Dict.get?_cons] at h
  split at h
  · cases h; rfl
  · cases h

/-- A query about the variable 3 at the row 0 is conditioned on the value of the variable 7. -/
theorem factorDemo_evidence : Evidence factorDemo (some 0) [3] [] [(7, 1)] := by
  refine ⟨by simp [Dict.keys], fun q => ?_⟩
  unfold cell
  have hp : pos factorDemo 7 = 0 := by decide
  by_cases h7 : q = 7
  · subst h7
    have : IsObs factorDemo 7 := by unfold IsObs; rw [hp]; decide
    rw [if_neg (by decide), if_pos this, hp]
    rfl
  · have e1 : Dict.get? [((7 : Col), (1 : ℝ))] q = none := by
      rw [Dict.get?_cons, if_neg (Ne.symm h7)]; rfl
    rw [e1]
    by_cases h3 : q = 3
    · simp [h3]
    · rw [if_neg (by simpa using h3)]
      by_cases ho : IsObs factorDemo q
      · exfalso
        unfold IsObs pos numObs factorDemo at ho
        simp only at ho
        rw [List.idxOf_cons_ne _ (Ne.symm h7), List.idxOf_cons_ne _ (Ne.symm h3)] at ho
        simp at ho
      · rw [if_neg ho]; rfl

example (loser : Loser) (x : ℝ) :
    ∃ p, factorDemo.logpdf loser (some 0) [(3, x)] [] [] = .ok (.fin p) ∧
      0 < density factorDemo [(7, 1)] ∧
      Real.exp p = density factorDemo [(3, x), (7, 1)] / density factorDemo [(7, 1)] :=
  C48_density factorDemo_valid factorDemo_rows loser (some 0)
    ⟨by simp [Dict.keys], by simp [Dict.keys, factorDemo]⟩ (by simp)
    ⟨by simp [Dict.keys], by simp [Dict.keys]⟩ (by simp [Dict.keys]) factorDemo_evidence

example (loser : Loser) :
    ∃ p : ℝ → ℝ, (∀ x, factorDemo.logpdf loser (some 0) [(3, x)] [(5, 2)] [] = .ok (.fin (p x))) ∧
      ∫ x, Real.exp (p x) = 1 :=
  C48_normalised factorDemo_valid factorDemo_rows loser (some 0)
    ⟨by simp [Dict.keys], by simp [Dict.keys, factorDemo]⟩ (by simp [factorDemo])
    (by simp [Dict.keys])

example (loser : Loser) (xs : Fin (numObs factorDemo) → ℝ) (zs : Fin factorDemo.L → ℝ) :
    factorDemo.logpdf loser none (allLat factorDemo zs) [] []
      = .ok (.fin (Real.log (gauss zs 0 1))) :=
  (C48_generative factorDemo_valid factorDemo_rows (by decide) (by decide) loser xs zs).1

example (loser : Loser) :
    ∃ a b c, factorDemo.logpdf loser none [(7, 1), (3, 2)] [] [] = .ok (.fin a) ∧
      factorDemo.logpdf loser none [(7, 1)] [(3, 2)] [] = .ok (.fin b) ∧
      factorDemo.logpdf loser none [(3, 2)] [] [] = .ok (.fin c) ∧ a = b + c :=
  C48_chain (T := [(7, 1)]) (U := [(3, 2)]) (C := []) factorDemo_valid factorDemo_rows loser
    ⟨by simp [Dict.keys], by simp [Dict.keys, factorDemo]⟩
    ⟨by simp [Dict.keys], by simp [Dict.keys, factorDemo]⟩ ⟨by simp [Dict.keys], by simp [Dict.keys]⟩
    (by simp) (by simp) (by simp [Dict.keys]) (by simp [Dict.keys]) (by simp [Dict.keys])

example : factorDemo.logpdfScore = .error .typeError := C48_score_raises (by simp [factorDemo])

end Cgpm.Props
