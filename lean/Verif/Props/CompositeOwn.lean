import Verif.Props.CompositeDraws

/-!
Property C73, continued: composing models with a State does not change what it says about its own
columns.
-/
namespace Cgpm.Props
open Cgpm Cgpm.State Cgpm.Net MeasureTheory
open scoped ENNReal

section
variable {R Ω : Type}
variable {μ : Nat → Measure ℝ} [∀ v, SigmaFinite (μ v)] {rowid : R} {cgpms : List (NetCgpm R ℝ Ω)}
  {draw : NetDraws R ℝ Ω} {p : Nat → (Nat → ℝ) → ℝ≥0∞} {ord : PyOrder} {acc : Option Nat}
  {net : Network R ℝ Ω} {targets : List Nat} {constraints inputs : Dict Nat ℝ}

/-- Only the variables that a query needs have to be integrated. -/
theorem held_needed (hord : ord.Lists) (hb : build ord cgpms acc = .ok net)
    (hsim : ∀ c ∈ cgpms, SimKeys c) (hq : GoodQuery cgpms targets constraints inputs)
    (hs : Supplied cgpms targets constraints inputs)
    (hp : ∀ l c, cgpms[l]? = some c → Behaves μ rowid c (draw l) (p l)) :
    ∃ TA : List Nat, (∀ v, v ∈ TA ↔ (Needed cgpms (· ∈ targets) (· ∈ constraints.keys) v ∧
        v ∉ constraints.keys ∧ Produced cgpms v)) ∧
      ∀ {g : (Nat → ℝ) → ℝ≥0∞}, Measurable g → Concerns cgpms targets constraints g → ∀ x,
        heldIntegral μ cgpms p constraints (fillWith x inputs) g
          = (∫⋯∫⁻_TA.toFinset, (fun y => g y *
              evidenceWeight μ cgpms p (constraints.keys.toFinset ∪ TA.toFinset) y) ∂μ)
            (fillWith (fillWith x inputs) constraints) := by
  have hB := built_of_build hord hb
  obtain ⟨TA, hQ, hTA, hw⟩ := weighted_facts hord hB hsim hq hs hp
  refine ⟨TA, hTA, fun hg hc x => ?_⟩
  have h1 := (hw x).joint_concerns hB hQ hTA hp hg hc
  rw [(hw x).law _ hg] at h1
  unfold futureOf at h1
  rw [outs_topo hB hQ.prod] at h1
  simp only [← evidenceWeight_topo hB] at h1
  exact h1.symm

end

variable {P : Prim → Prop} {close : ℝ → ℝ → Bool} {ord : PyOrder} {rowid : Option Row}
  {cfg : Cfg (catOf P)} {s : State (catOf P)} {ν : Nat → Measure ℝ} [∀ c, SigmaFinite (ν c)]
  {hooked : List Composed} {q : Nat → (Nat → ℝ) → ℝ≥0∞} {targets : List Nat}
  {query constraints inputs : Dict Nat ℝ} {accuracy : Option Nat}

theorem own_produced (h : State.Inv s) {c : Nat} (hc : c ∈ s.outputs) :
    ∃ (l : Nat) (hl : l < s.views.length), c ∈ s.views[l].2.dims.keys := by
  obtain ⟨v, view, d, -, hv, hd, -⟩ := h.dim hc
  obtain ⟨l, hl, e⟩ := List.mem_iff_getElem.mp (Dict.mem_of_get? hv)
  refine ⟨l, hl, ?_⟩
  rw [e]
  exact Dict.mem_keys_of_get? hd

theorem netCgpms_view {l : Nat} (hl : l < s.views.length) :
    (s.netCgpms close ord hooked)[l]?
      = some (viewNet close s.tbl ord (token s.views[l].1) s.views[l].2) := by
  unfold netCgpms
  rw [List.getElem?_append, if_pos (by rw [List.length_map]; exact hl), List.getElem?_map,
    List.getElem?_eq_getElem hl]
  rfl

/-- Components with columns of the State among their outputs are views: they have no inputs. -/
theorem own_inputs (h : State.Inv s) (hw : WellFormed (s.netCgpms close ord hooked)) {c : Nat}
    (hc : c ∈ s.outputs) {m : NetCgpm (Option Row) ℝ (Nat → ℝ)}
    (hm : m ∈ s.netCgpms close ord hooked) (ho : c ∈ m.outputs) : m.inputs = [] := by
  obtain ⟨l, hl, hk⟩ := own_produced h hc
  obtain ⟨j, hj⟩ := List.mem_iff_getElem?.mp hm
  have := hw.unique l j _ _ (netCgpms_view hl) hj c (List.mem_cons_of_mem _ hk) ho
  subst this
  rw [netCgpms_view hl] at hj
  cases hj
  rfl

/-- **C73.** Constraints on columns of the State are evidence about components without inputs, as
C73_simulate and C73_logpdf ask. -/
theorem C73_settled (hR : StateReachable cfg s) (hw : WellFormed (s.netCgpms close ord hooked))
    (hE : ∀ c ∈ constraints.keys, c ∈ s.outputs) :
    Settled (s.netCgpms close ord hooked) constraints := by
  rintro m hm ⟨o, ho, hk⟩ i hi
  rw [own_inputs (hR.inv (catOf_lawful P)) hw (hE o hk) hm ho] at hi
  cases hi

theorem own_needed (h : State.Inv s) (hw : WellFormed (s.netCgpms close ord hooked))
    (hT : ∀ c ∈ targets, c ∈ s.outputs) (hE : ∀ c ∈ constraints.keys, c ∈ s.outputs) {v : Nat}
    (hv : Needed (s.netCgpms close ord hooked) (· ∈ targets) (· ∈ constraints.keys) v) :
    v ∈ targets := by
  induction hv with
  | target h => exact h
  | input hm ho _ hi ih =>
    rw [own_inputs h hw (hT _ ih) hm ho] at hi
    cases hi
  | constr hm ho hc hi =>
    rw [own_inputs h hw (hE _ hc) hm ho] at hi
    cases hi

/-- What values of columns of the State are worth. -/
theorem own_weight (h : State.Inv s) (hs : SimState s) (hord : ord.Lists) (hr : NewRowId s rowid)
    (hw : WellFormed (s.netCgpms close ord hooked))
    (hh : ∀ l m, hooked[l]? = some m → Behaves (rowBase s ν) rowid m.cgpm m.draw (q l))
    {S : Finset Nat} (hS : ∀ c ∈ S, c ∈ s.outputs) {y : Nat → ℝ} {D : Col → Option (catOf P).Cell}
    (hD : ∀ c ∈ s.outputs, D c = if c ∈ S then some (some (y c)) else none) :
    evidenceWeight (rowBase s ν) (s.netCgpms close ord hooked) (rowDensities s q) S y
      = stateDensity s D := by
  have hB : ∀ l c, (s.netCgpms close ord hooked)[l]? = some c → _ := fun l c hc =>
    composite_behaves (ν := ν) h hs hord hr hh l c hc
  have hlen : (s.netCgpms close ord hooked).length = s.views.length + hooked.length := by
    simp [netCgpms]
  rw [evidenceWeight_eq, hlen, List.range_add, List.map_append, List.prod_append]
  have h2 : ((List.map (fun x => s.views.length + x) (List.range hooked.length)).map fun l =>
      odAt (rowBase s ν) (s.netCgpms close ord hooked) (rowDensities s q) S l y).prod = 1 := by
    refine List.prod_eq_one fun a ha => ?_
    obtain ⟨l, hl, rfl⟩ := List.mem_map.mp ha
    obtain ⟨j, hj, rfl⟩ := List.mem_map.mp hl
    rw [List.mem_range] at hj
    have hlt : s.views.length + j < (s.netCgpms close ord hooked).length := by omega
    refine od_empty hB (List.getElem?_eq_getElem hlt) ?_ y
    rintro ⟨k, hk1, hk2⟩
    obtain ⟨l, hl, hk⟩ := own_produced h (hS k hk2)
    have := hw.unique l _ _ _ (netCgpms_view hl) (List.getElem?_eq_getElem hlt) k
      (List.mem_cons_of_mem _ hk) hk1
    omega
  rw [h2, mul_one]
  unfold stateDensity
  congr 1
  refine List.ext_getElem (by simp) fun l h1 h3 => ?_
  simp only [List.length_map, List.length_range] at h1
  simp only [List.getElem_map, List.getElem_range]
  have hv : s.views.get? s.views[l].1 = some s.views[l].2 :=
    Dict.get?_of_mem h.views.wf (List.getElem_mem h1)
  have ho := h.views.view _ _ hv
  have hsv := simView_of (ν := ν) h hs hv
  have e2 : rowDensities s q l = clusterRowDensity s.views[l].2 (token s.views[l].1) := by
    unfold rowDensities
    simp only [List.getElem?_eq_getElem h1]
  have htok : token s.views[l].1 ∉ S := fun hc =>
    absurd (hs.names _ (hS _ hc)) (Nat.not_lt.mpr (Nat.le_add_right _ _))
  unfold odAt
  simp only [netCgpms_view h1, e2]
  refine (outD_out ho.inv hsv htok y).trans ?_
  unfold viewDensity
  rw [mixture_sum]
  refine Finset.sum_congr rfl fun k _ => ?_
  rw [rowDensity_part ho.inv hsv (fun c hc => hD c ((h.cols c).mp (by
    rw [(ho.dims c).mp hc]; simp))) k]

theorem cellsFrom_get? (D : Dict Nat ℝ) (c : Nat) :
    Dict.get? (cellsFrom (P := P) D) c = (D.get? c).map fun x => (some x : (catOf P).Cell) := by
  unfold cellsFrom
  induction D with
  | nil => rfl
  | cons a t ih =>
    rw [List.map_cons, Dict.get?_cons, Dict.get?_cons, ih]
    by_cases h : a.1 = c
    · rw [if_pos h, if_pos h]; rfl
    · rw [if_neg h, if_neg h]

/-- The weight of constraints on columns of the State. -/
theorem own_constraints (h : State.Inv s) (hs : SimState s) (hord : ord.Lists)
    (hr : NewRowId s rowid) (hw : WellFormed (s.netCgpms close ord hooked))
    (hh : ∀ l m, hooked[l]? = some m → Behaves (rowBase s ν) rowid m.cgpm m.draw (q l))
    (hE : ∀ c ∈ constraints.keys, c ∈ s.outputs) (x : Nat → ℝ) :
    evidenceWeight (rowBase s ν) (s.netCgpms close ord hooked) (rowDensities s q)
        constraints.keys.toFinset (fillWith x constraints)
      = stateDensity s (Dict.get? (cellsFrom (P := P) constraints)) := by
  refine own_weight h hs hord hr hw hh (fun c hc => hE c (List.mem_toFinset.mp hc)) fun c _ => ?_
  rw [cellsFrom_get?]
  by_cases hc : c ∈ constraints.keys.toFinset
  · rw [if_pos hc]
    rw [List.mem_toFinset] at hc
    unfold fillWith
    cases hd : constraints.get? c with
    | none => exact absurd hc ((Dict.get?_eq_none_iff _ _).mp hd)
    | some y => rfl
  · rw [if_neg hc, (Dict.get?_eq_none_iff _ _).mpr (fun h => hc (List.mem_toFinset.mpr h))]
    rfl


theorem own_good (h : State.Inv s) (hq : OwnQuery s targets constraints) :
    GoodQuery (s.netCgpms close ord hooked) targets constraints [] := by
  refine ⟨hq.constraints_wf, List.nodup_nil, hq.targets_nodup, fun t ht => ?_, hq.disjoint⟩
  obtain ⟨l, hl, hk⟩ := own_produced h (hq.targets_own t ht)
  exact ⟨_, List.mem_of_getElem? (netCgpms_view hl), List.mem_cons_of_mem _ hk⟩

theorem own_supplied (h : State.Inv s) (hw : WellFormed (s.netCgpms close ord hooked))
    (hq : OwnQuery s targets constraints) :
    Supplied (s.netCgpms close ord hooked) targets constraints [] := by
  rintro m hm ⟨o, ho, hn⟩ v hv
  have : o ∈ s.outputs := by
    rcases hn with hn | hn
    · exact hq.targets_own o (own_needed h hw hq.targets_own hq.constraints_own hn)
    · exact hq.constraints_own o hn
  rw [own_inputs h hw this hm ho] at hv
  cases hv

theorem own_possible (h : State.Inv s) (hs : SimState s) (hord : ord.Lists)
    (hr : NewRowId s rowid) (hw : WellFormed (s.netCgpms close ord hooked))
    (hh : ∀ l m, hooked[l]? = some m → Behaves (rowBase s ν) rowid m.cgpm m.draw (q l))
    (hE : ∀ c ∈ constraints.keys, c ∈ s.outputs)
    (hpos : stateDensity s (Dict.get? (cellsFrom (P := P) constraints)) ≠ 0) :
    Possible (rowBase s ν) (s.netCgpms close ord hooked) (rowDensities s q) constraints := by
  intro x
  rw [own_constraints h hs hord hr hw hh hE x]
  exact hpos

theorem get?_valuesAt (T : List Col) (x : Col → ℝ) (c : Col) :
    Dict.get? (valuesAt (P := P) T x) c = if c ∈ T then some (some (x c)) else none := by
  unfold valuesAt
  induction T with
  | nil => rfl
  | cons a t ih =>
    rw [List.map_cons, Dict.get?_cons, ih]
    by_cases h : a = c
    · subst h
      rw [if_pos List.mem_cons_self]
      exact if_pos rfl
    · refine (if_neg h).trans ?_
      simp only [List.mem_cons, Ne.symm h, false_or]
      rfl

/-- **C73.** Composing models with a State does not change what it draws for its own columns: for every
query about columns of the State, the composite State and the State itself draw from the same joint law,
at every accuracy. -/
theorem C73_own_simulate (hR : StateReachable cfg s) (hs : SimState s) (hord : ord.Lists)
    (hr : NewRowId s rowid) (hw : WellFormed (s.netCgpms close ord hooked))
    (hk : ∀ m ∈ hooked, SimKeys m.cgpm)
    (hh : ∀ l m, hooked[l]? = some m → Behaves (rowBase s ν) rowid m.cgpm m.draw (q l))
    (hne : targets ≠ []) (hq : OwnQuery s targets constraints)
    (hpos : stateDensity s (Dict.get? (cellsFrom (P := P) constraints)) ≠ 0)
    (hacc : accuracy ≠ some 0) (x : Nat → ℝ) {g : (Nat → ℝ) → ℝ≥0∞} (hg : Measurable g)
    (hloc : ∀ y z : Nat → ℝ, (∀ v ∈ targets, y v = z v) → g y = g z) :
    (s.sampleComposite close ord hooked rowid targets constraints [] accuracy).E
        (fun d => g (fillWith x d))
      = (s.sample close rowid targets (cellsFrom constraints)).E (fun row => g (fillIn x row)) := by
  have h := hR.inv (catOf_lawful P)
  have hG := own_good (close := close) (ord := ord) (hooked := hooked) h hq
  have hS := own_supplied h hw hq
  have hP := own_possible h hs hord hr hw hh hq.constraints_own hpos
  have hset := C73_settled hR hw hq.constraints_own
  have hB : ∀ l c, (s.netCgpms close ord hooked)[l]? = some c → _ := fun l c hc =>
    composite_behaves (ν := ν) h hs hord hr hh l c hc
  obtain ⟨net, hb, -⟩ := composite_build hord hw 1
  have h1 := C73_simulate hR hs hord hr hw hk hh hG hS hP hset hacc x hg hloc
  have hx : fillWith x [] = x := rfl
  rw [hx] at h1
  rw [h1]
  unfold conditionalMean
  have h2 := evidence_settled hord hb (composite_simKeys hk) hG hS hB hP hset x
  rw [hx, own_constraints h hs hord hr hw hh hq.constraints_own x] at h2
  obtain ⟨TA, hTA, h3⟩ := held_needed hord hb (composite_simKeys hk) hG hS hB
  have hTT : TA.toFinset = targets.toFinset := by
    ext v
    rw [List.mem_toFinset, List.mem_toFinset, hTA]
    constructor
    · rintro ⟨hn, -, -⟩
      exact own_needed h hw hq.targets_own hq.constraints_own hn
    · intro hv
      exact ⟨.target hv, hq.disjoint v hv, hG.produced v hv⟩
  have h4 := h3 hg (fun y z hyz => hloc y z fun v hv => hyz v fun _ => Or.inr (.target hv)) x
  rw [hx, hTT] at h4
  rw [h2, h4]
  have hck : (cellsFrom (P := P) constraints).keys = constraints.keys := cellsFrom_keys _
  have hsim : StateSimOn s targets (cellsFrom constraints) := by
    refine ⟨hne, hq.targets_nodup, by rw [hck]; exact hq.constraints_wf, fun c hc => ⟨?_, ?_⟩,
      by rw [hck]; exact hq.disjoint⟩
    · rw [hck] at hc
      rcases List.mem_append.mp hc with hc | hc
      · exact hq.targets_own c hc
      · exact hq.constraints_own c hc
    · intro d hd
      exact hs.plain c d hd
  let beh : ViewBehaviour (catOf P) Unit :=
    ⟨fun _ _ _ _ _ => .error .valueError, fun _ _ _ _ _ _ _ => .error .valueError⟩
  have hp : ProperCols s targets := fun c hc d hd => hs.proper c (hq.targets_own c hc) d hd
  obtain ⟨r, r1, r2⟩ := C70_law (close := close) (ord := ord) (beh := beh) (ωj := fun _ _ => ())
    (ωm := fun _ _ => ()) (hooked := []) (acc := none) hR hr hsim hp
    fun v view hv _ => stateDensity_pos hpos (v, view) (Dict.mem_of_get? hv)
  rw [r2 g hg x]
  have hmass : ∀ y, mass (r y) = stateDensity s (both (valuesAt targets y) (cellsFrom constraints))
      / stateDensity s (Dict.get? (cellsFrom (P := P) constraints)) := by
    intro y
    obtain ⟨r', e1, -, e2⟩ := C16_state_density (close := close) (ord := ord) (beh := beh)
      (ωj := fun _ _ => ()) (ωm := fun _ _ => ()) (hooked := []) (acc := none) (catOf_lawful P) hR hr
      (simOn_query hsim y) (by rw [valuesAt_keys]; exact hsim.disjoint) hpos
    rw [r1 y] at e1
    cases e1
    exact e2
  unfold lmarginal
  have hpi : (Measure.pi fun i : targets.toFinset => rowBase s ν i)
      = Measure.pi fun i : targets.toFinset => colBase s i := by
    congr 1
    funext i
    unfold rowBase
    rw [if_pos (hq.targets_own i (List.mem_toFinset.mp i.2))]
  rw [hpi, div_eq_mul_inv, ← lintegral_mul_const' _ _ (ENNReal.inv_ne_top.mpr hpos)]
  refine lintegral_congr fun z => ?_
  beta_reduce
  rw [hmass, mul_assoc, ← div_eq_mul_inv]
  have hz : ∀ v ∈ targets, Function.updateFinset (fillWith x constraints) targets.toFinset z v
      = Function.updateFinset x targets.toFinset z v := by
    intro v hv
    simp [Function.updateFinset, hv]
  congr 1
  · exact hloc _ _ hz
  congr 1
  refine own_weight h hs hord hr hw hh ?_ fun c _ => ?_
  · intro c hc
    rcases Finset.mem_union.mp hc with hc | hc
    · exact hq.constraints_own c (List.mem_toFinset.mp hc)
    · exact hq.targets_own c (List.mem_toFinset.mp hc)
  · unfold both
    rw [get?_valuesAt, cellsFrom_get?]
    by_cases hc : c ∈ targets
    · rw [if_pos hc, if_pos (by simp [hc]), hz c hc]
      rfl
    · rw [if_neg hc]
      by_cases hk : c ∈ constraints.keys
      · rw [if_pos (by simp [hk])]
        cases hd : constraints.get? c with
        | none => exact absurd hk ((Dict.get?_eq_none_iff _ _).mp hd)
        | some w =>
          have : Function.updateFinset (fillWith x constraints) targets.toFinset z c = w := by
            simp [Function.updateFinset, hc, fillWith, hd]
          rw [this]
          rfl
      · rw [if_neg (by simp [hc, hk]), (Dict.get?_eq_none_iff _ _).mpr hk]
        rfl

variable {Ω : Type} {beh : ViewBehaviour (catOf P) Ω} {ωj ωm : Nat → Nat → Ω}
  {others : Dict Nat (NetCgpm (Option Row) (Val (catOf P)) Ω)} {acc : Option Nat} {r : Fl}

/-- **C73.** Composing models with a State does not change the densities of its own columns: for every
query of positive density about columns of the State, `logpdf` of the composite State reports what that
of the State itself reports, whatever is drawn and at every accuracy. -/
theorem C73_own_logpdf (hR : StateReachable cfg s) (hs : SimState s) (hord : ord.Lists)
    (hr : NewRowId s rowid) (hw : WellFormed (s.netCgpms close ord hooked))
    (hk : ∀ m ∈ hooked, SimKeys m.cgpm)
    (hh : ∀ l m, hooked[l]? = some m → Behaves (rowBase s ν) rowid m.cgpm m.draw (q l))
    (hwf : query.keys.Nodup) (hq : OwnQuery s query.keys constraints)
    (hpos : stateDensity s (both (cellsFrom query) (cellsFrom (P := P) constraints)) ≠ 0)
    (hposE : stateDensity s (Dict.get? (cellsFrom (P := P) constraints)) ≠ 0)
    (hacc : accuracy ≠ some 0)
    (hlp : s.logpdf close ord beh ωj ωm false others rowid (cellsFrom query) (cellsFrom constraints) []
      acc = .ok r) {F : ℝ≥0∞ → ℝ≥0∞} (hF : Measurable F) :
    (s.densityComposite close ord hooked rowid query constraints [] accuracy).E (fun a => F (mass a))
      = F (mass r) := by
  have h := hR.inv (catOf_lawful P)
  have hck : ∀ D : Dict Nat ℝ, (cellsFrom (P := P) D).keys = D.keys := fun D => cellsFrom_keys _
  have hB : ∀ l c, (s.netCgpms close ord hooked)[l]? = some c → _ := fun l c hc =>
    composite_behaves (ν := ν) h hs hord hr hh l c hc
  obtain ⟨net, hb, -⟩ := composite_build hord hw 1
  have hqE : OwnQuery s [] constraints :=
    ⟨List.nodup_nil, hq.constraints_wf, (by simp), hq.constraints_own, by simp⟩
  have hmemJ : ∀ c ∈ (query.update constraints).keys, c ∈ s.outputs := by
    intro c hc
    rcases (Dict.mem_keys_update _ _ _).mp hc with hc | hc
    · exact hq.targets_own c hc
    · exact hq.constraints_own c hc
  have hqJ : OwnQuery s [] (query.update constraints) :=
    ⟨List.nodup_nil, Dict.wf_update hwf _, (by simp), hmemJ, by simp⟩
  have hD : stateDensity s (Dict.get? (cellsFrom (P := P) (query.update constraints)))
      = stateDensity s (both (cellsFrom query) (cellsFrom (P := P) constraints)) := by
    congr 1
    funext c
    unfold both
    rw [cellsFrom_get?, cellsFrom_get?, cellsFrom_get?, Dict.get?_update _ _ hq.constraints_wf]
    cases hd : query.get? c with
    | none => cases constraints.get? c <;> rfl
    | some w =>
      rw [(Dict.get?_eq_none_iff _ _).mpr (hq.disjoint c (Dict.mem_keys_of_get? hd))]
      rfl
  have hP := own_possible h hs hord hr hw hh hq.constraints_own hposE
  have hPJ := own_possible h hs hord hr hw hh hmemJ (by rw [hD]; exact hpos)
  have hset := C73_settled hR hw hq.constraints_own
  have hsetJ := C73_settled hR hw hmemJ
  have hG := own_good (close := close) (ord := ord) (hooked := hooked) h hqE
  have hGJ := own_good (close := close) (ord := ord) (hooked := hooked) h hqJ
  have hS := own_supplied h hw hqE
  have hSJ := own_supplied h hw hqJ
  let x : Nat → ℝ := fun _ => 0
  rw [C73_logpdf hR hs hord hr hw hk hh hq.disjoint hGJ hSJ hG hS hPJ hP hsetJ hset hacc x hF,
    evidence_settled hord hb (composite_simKeys hk) hG hS hB hP hset x,
    evidence_settled hord hb (composite_simKeys hk) hGJ hSJ hB hPJ hsetJ x]
  have hx : fillWith x [] = x := rfl
  rw [hx, own_constraints h hs hord hr hw hh hq.constraints_own x,
    own_constraints h hs hord hr hw hh hmemJ x, hD]
  obtain ⟨r', e1, -, e2⟩ := C16_state_density (close := close) (ord := ord) (beh := beh)
    (ωj := ωj) (ωm := ωm) (hooked := others) (acc := acc) (T := cellsFrom query)
    (E := cellsFrom constraints) (catOf_lawful P) hR hr
    ⟨by rw [hck]; exact hwf, by rw [hck]; exact hq.constraints_wf, fun c hc => ⟨by
      rw [hck, hck] at hc
      rcases List.mem_append.mp hc with hc | hc
      · exact hq.targets_own c hc
      · exact hq.constraints_own c hc, fun d hd => hs.plain c d hd⟩⟩
    (by rw [hck, hck]; exact hq.disjoint) hposE
  rw [hlp] at e1
  cases e1
  rw [e2]

/-! ### The hypotheses are met -/

section
variable {R Ω : Type}
variable {μ : Nat → Measure ℝ} [∀ v, SigmaFinite (μ v)] {rowid : R} {cgpms : List (NetCgpm R ℝ Ω)}
  {draw : NetDraws R ℝ Ω} {p : Nat → (Nat → ℝ) → ℝ≥0∞} {ord : PyOrder} {acc : Option Nat}
  {net : Network R ℝ Ω} {targets : List Nat} {constraints inputs : Dict Nat ℝ}

/-- The weights have a second moment if they are bounded. -/
theorem moment_bounded (hord : ord.Lists) (hb : build ord cgpms acc = .ok net)
    (hsim : ∀ c ∈ cgpms, SimKeys c) (hq : GoodQuery cgpms targets constraints inputs)
    (hs : Supplied cgpms targets constraints inputs)
    (hp : ∀ l c, cgpms[l]? = some c → Behaves μ rowid c (draw l) (p l))
    (hpos : Possible μ cgpms p constraints)
    (h1 : ∀ y, evidenceWeight μ cgpms p constraints.keys.toFinset y ≤ 1) (x : Nat → ℝ) :
    weightMoment μ cgpms p constraints (fillWith x inputs) ≤ 1 := by
  have hB := built_of_build hord hb
  obtain ⟨TA, hQ, hTA, hw⟩ := weighted_facts hord hB hsim hq hs hp
  have := proposal_prob hB hQ hp hpos (hw x)
  rw [← (proposal_facts hB hQ hTA hp hpos (hw x)).2.1]
  refine (lintegral_mono fun y => mul_le_one' (h1 y) (h1 y)).trans ?_
  simp

end

/-- The network of a composite State is well-formed, if the models produce something, do not produce
what another model or the State produces, and there is an order in which they can be drawn. -/
theorem composite_wellFormed (h : State.Inv s) (hs : SimState s) (rk : Nat → Nat)
    (hne : ∀ m ∈ hooked, m.cgpm.outputs ≠ [])
    (hdisj : hooked.Pairwise fun a b => ∀ v ∈ a.cgpm.outputs, v ∉ b.cgpm.outputs)
    (hfor : ∀ m ∈ hooked, ∀ o ∈ m.cgpm.outputs, o ∉ s.outputs ∧ o < 10 ^ 7)
    (hrk : ∀ m ∈ hooked, ∀ i ∈ m.cgpm.inputs, ∀ o ∈ m.cgpm.outputs, rk i < rk o) :
    WellFormed (s.netCgpms close ord hooked) := by
  let beh : ViewBehaviour (catOf P) Unit :=
    ⟨fun _ _ _ _ _ => .error .valueError, fun _ _ _ _ _ _ _ => .error .valueError⟩
  let shape : Composed → NetCgpm (Option Row) (Val (catOf P)) Unit := fun m =>
    ⟨m.cgpm.outputs, m.cgpm.inputs, fun _ _ _ => .error .valueError, fun _ _ _ _ _ => .error .valueError⟩
  let H : Dict Nat (NetCgpm (Option Row) (Val (catOf P)) Unit) := hooked.map fun m => (0, shape m)
  have hH : H.vals = hooked.map shape := by
    simp [H, Dict.vals]
  have hw : WellFormed (s.buildCgpms beh H) := by
    refine h.wellFormed beh rk hs.names ?_ ?_ ?_ ?_
    · rw [hH]
      intro c hc
      obtain ⟨m, hm, rfl⟩ := List.mem_map.mp hc
      exact hne m hm
    · rw [hH, List.pairwise_map]
      exact hdisj
    · rw [hH]
      intro c hc
      obtain ⟨m, hm, rfl⟩ := List.mem_map.mp hc
      exact hfor m hm
    · rw [hH]
      intro c hc
      obtain ⟨m, hm, rfl⟩ := List.mem_map.mp hc
      exact hrk m hm
  have hget : ∀ (i : Nat) (a : NetCgpm (Option Row) ℝ (Nat → ℝ)),
      (s.netCgpms close ord hooked)[i]? = some a →
      ∃ b : NetCgpm (Option Row) (Val (catOf P)) Unit, (s.buildCgpms beh H)[i]? = some b ∧
        b.outputs = a.outputs ∧ b.inputs = a.inputs := by
    intro i a ha
    unfold netCgpms at ha
    unfold buildCgpms
    rw [hH]
    rw [List.getElem?_append] at ha ⊢
    rw [List.length_map] at ha ⊢
    by_cases hi : i < s.views.length
    · rw [if_pos hi] at ha ⊢
      rw [List.getElem?_map, List.getElem?_eq_getElem hi] at ha ⊢
      cases ha
      exact ⟨_, rfl, rfl, rfl⟩
    · rw [if_neg hi] at ha ⊢
      rw [List.getElem?_map] at ha ⊢
      cases hm : hooked[i - s.views.length]? with
      | none => rw [hm] at ha; cases ha
      | some m =>
        rw [hm] at ha
        cases ha
        exact ⟨_, rfl, rfl, rfl⟩
  have hfeed : ∀ i j, Feeds (s.netCgpms close ord hooked) i j → Feeds (s.buildCgpms beh H) i j := by
    rintro i j ⟨a, b, ha, hb, v, h1, h2⟩
    obtain ⟨a', ha', e1, -⟩ := hget i a ha
    obtain ⟨b', hb', -, e2⟩ := hget j b hb
    exact ⟨a', b', ha', hb', v, e1 ▸ h1, e2 ▸ h2⟩
  refine ⟨fun c hc => ?_, fun i j a b ha hb v h1 h2 => ?_, fun i hi => ?_⟩
  · obtain ⟨i, hi⟩ := List.mem_iff_getElem?.mp hc
    obtain ⟨c', hc', e, -⟩ := hget i c hi
    rw [← e]
    exact hw.nonempty c' (List.mem_of_getElem? hc')
  · obtain ⟨a', ha', e1, -⟩ := hget i a ha
    obtain ⟨b', hb', e2, -⟩ := hget j b hb
    exact hw.unique i j a' b' ha' hb' v (e1 ▸ h1) (e2 ▸ h2)
  · exact hw.acyclic i (Relation.TransGen.mono hfeed _ _ hi)

/-- A composed model: variable 7 is 1 with probability 9/10 if column 0 is 1, with probability 1/10
otherwise. -/
noncomputable def copyModel : Composed := ⟨coinNet 7 [0] copyProb, coinDraws copyProb⟩

/-- A State with two normal columns in different views, composed with a model that reads column 0: a
query about columns of the State, a query about the model given a column (for which the answers are
exact), and a query about a column given the variable of the model (for which they are not). -/
example : ∃ s : State libCat, StateReachable plainCfg s ∧ SimState s ∧ NewRowId s none ∧
    WellFormed (s.netCgpms (fun x y : ℝ => decide (x = y)) idOrder [copyModel]) ∧
    SimKeys copyModel.cgpm ∧
    Behaves (rowBase s fun _ => coinBase) none copyModel.cgpm copyModel.draw (coinDensity 7 copyProb) ∧
    OwnQuery s [0] [(1, 3)] ∧ stateDensity s (Dict.get? (cellsFrom [(1, 3)])) ≠ 0 ∧
    (let cgpms := s.netCgpms (fun x y : ℝ => decide (x = y)) idOrder [copyModel]
     let base := rowBase s fun _ => coinBase
     let dens := rowDensities s fun _ => coinDensity 7 copyProb
     (GoodQuery cgpms [7] [(0, 1)] [] ∧ Supplied cgpms [7] [(0, 1)] [] ∧
       Possible base cgpms dens [(0, 1)] ∧ Settled cgpms [(0, 1)]) ∧
     (GoodQuery cgpms [0] [(7, 1)] [] ∧ Supplied cgpms [0] [(7, 1)] [] ∧
       Possible base cgpms dens [(7, 1)] ∧ ¬ Settled cgpms [(7, 1)] ∧
       weightMoment base cgpms dens [(7, 1)] (fillWith 0 []) ≠ ⊤)) := by
  obtain ⟨s, h1, h2, h3, h4, h5, h6, h7, h8, -, -, h11, h12⟩ :=
    stateDemo_init (normal_remembered 2) normal_hyp (a := 0) (b := 1) (by decide) [] []
  have hsim : SimState s := by
    refine ⟨by rw [h4]; simp, fun c d hd => (h12 c d hd).2.1, fun c _ d hd => ?_⟩
    rw [(h12 c d hd).2.2]
    exact trivial
  have hnew : NewRowId s none := fun r e => by cases e
  have hpos : ∀ D : Dict Col libCat.Cell, stateDensity s D.get? ≠ 0 := by
    intro D h0
    unfold stateDensity at h0
    obtain ⟨e, he, h0⟩ := List.mem_map.mp (List.prod_eq_zero_iff.mp h0)
    have hv := Dict.get?_of_mem h2.views.wf he
    obtain ⟨c, d, x, g1, g2, -, g3⟩ := (inv_refusal (h2.views.view e.1 e.2 hv).inv _).mp h0
    rw [(h12 c d (h2.dimFor_of_view hv g1)).1] at g3
    exact g3 trivial
  have hwf : WellFormed (s.netCgpms (fun x y : ℝ => decide (x = y)) idOrder [copyModel]) := by
    refine composite_wellFormed h2 hsim id ?_ ?_ ?_ ?_ <;> simp [copyModel, coinNet, h4]
  have hbase : rowBase s (fun _ => coinBase) 7 = coinBase := by
    unfold rowBase clusterOwner
    rw [if_neg (by rw [h4]; simp), if_neg (by norm_num)]
  have hbeh : Behaves (rowBase s fun _ => coinBase) none copyModel.cgpm copyModel.draw
      (coinDensity 7 copyProb) := by
    refine coin_behaves_on hbase ?_ (by simp) ?_ ?_ ?_ none
    · unfold copyProb
      exact Measurable.ite ((measurable_pi_apply 0) (measurableSet_singleton 1)) measurable_const
        measurable_const
    · intro x y h
      unfold copyProb
      rw [h 0 (by simp)]
    · intro x; unfold copyProb; split <;> norm_num
    · intro x; unfold copyProb; split <;> norm_num
  have hkeys : SimKeys copyModel.cgpm := simKeys_values fun _ _ _ _ _ => rfl
  have hh : ∀ (l : Nat) (m : Composed), [copyModel][l]? = some m →
      Behaves (rowBase s fun _ => coinBase) none m.cgpm m.draw ((fun _ => coinDensity 7 copyProb) l) := by
    intro l m hm
    rcases l with _ | l
    · cases hm; exact hbeh
    · simp at hm
  have hB : ∀ l c, (s.netCgpms (fun x y : ℝ => decide (x = y)) idOrder [copyModel])[l]? = some c → _ :=
    fun l c hc => composite_behaves (ν := fun _ => coinBase) h2 hsim idOrder_lists hnew hh l c hc
  obtain ⟨net, hb, -⟩ := composite_build (s := s) (close := fun x y : ℝ => decide (x = y))
    (hooked := [copyModel]) idOrder_lists hwf 1
  have hlast : (s.netCgpms (fun x y : ℝ => decide (x = y)) idOrder [copyModel])[s.views.length]?
      = some copyModel.cgpm := by
    unfold netCgpms
    rw [List.getElem?_append_right (by simp)]
    simp
  have hmem := List.mem_of_getElem? hlast
  have hin : ∀ m ∈ s.netCgpms (fun x y : ℝ => decide (x = y)) idOrder [copyModel], ∀ v ∈ m.inputs,
      v = 0 := by
    intro m hm v hv
    rcases List.mem_append.mp hm with hm | hm
    · obtain ⟨e, -, rfl⟩ := List.mem_map.mp hm
      cases hv
    · simp only [List.map_cons, List.map_nil, List.mem_singleton] at hm
      subst hm
      simpa [copyModel, coinNet] using hv
  have hprod : ∀ c ∈ s.outputs,
      Produced (s.netCgpms (fun x y : ℝ => decide (x = y)) idOrder [copyModel]) c := by
    intro c hc
    obtain ⟨l, hl, hk⟩ := own_produced h2 hc
    exact ⟨_, List.mem_of_getElem? (netCgpms_view hl), List.mem_cons_of_mem _ hk⟩
  have hprod0 := hprod 0 (by rw [h4]; simp)
  have hsup : ∀ T C, Supplied (s.netCgpms (fun x y : ℝ => decide (x = y)) idOrder [copyModel]) T C []
      := by
    intro T C m hm _ v hv
    rw [hin m hm v hv]
    exact .inl hprod0
  have hweight : ∀ y, evidenceWeight (rowBase s fun _ => coinBase)
      (s.netCgpms (fun x y : ℝ => decide (x = y)) idOrder [copyModel])
      (rowDensities s fun _ => coinDensity 7 copyProb) (Dict.keys [(7, (1 : ℝ))]).toFinset y
        = coinDensity 7 copyProb y := by
    intro y
    have he : (Dict.keys [(7, (1 : ℝ))]).toFinset = {7} := rfl
    have hlen : (s.netCgpms (fun x y : ℝ => decide (x = y)) idOrder [copyModel]).length
        = s.views.length + 1 := by simp [netCgpms]
    rw [evidenceWeight_eq, hlen, List.range_succ, List.map_append, List.prod_append,
      List.prod_eq_one, one_mul]
    · have e2 : rowDensities s (fun _ => coinDensity 7 copyProb) s.views.length
          = coinDensity 7 copyProb := by
        unfold rowDensities
        rw [List.getElem?_eq_none le_rfl]
      simp only [List.map_cons, List.map_nil, List.prod_cons, List.prod_nil, mul_one]
      unfold odAt
      simp only [hlast, e2]
      unfold outDensity
      have : copyModel.cgpm.outputs.toFinset \ (Dict.keys [(7, (1 : ℝ))]).toFinset = ∅ := by
        rw [he]; simp [copyModel, coinNet]
      rw [this, lmarginal_empty]
    · intro a ha
      obtain ⟨l, hl, rfl⟩ := List.mem_map.mp ha
      rw [List.mem_range] at hl
      refine od_empty hB (netCgpms_view hl) ?_ y
      rintro ⟨k, hk1, hk2⟩
      rw [he, Finset.mem_singleton] at hk2
      subst hk2
      have := hwf.unique l _ _ _ (netCgpms_view hl) hlast 7 hk1 (by simp [copyModel, coinNet])
      omega
  have hpos7 : Possible (rowBase s fun _ => coinBase)
      (s.netCgpms (fun x y : ℝ => decide (x = y)) idOrder [copyModel])
      (rowDensities s fun _ => coinDensity 7 copyProb) [(7, 1)] := by
    intro x
    rw [hweight]
    unfold coinDensity copyProb
    rw [Ne, ENNReal.ofReal_eq_zero, not_le]
    split <;> split <;> norm_num
  have hgood7 : GoodQuery (s.netCgpms (fun x y : ℝ => decide (x = y)) idOrder [copyModel]) [0] [(7, 1)]
      [] := by
    refine ⟨by simp [Dict.WF, Dict.keys], by simp [Dict.WF, Dict.keys], by simp, ?_,
      by simp [Dict.keys]⟩
    intro t ht
    rw [List.mem_singleton] at ht
    subst ht
    exact hprod0
  refine ⟨s, h1, hsim, hnew, hwf, hkeys, hbeh, ?_, hpos _, ⟨⟨?_, hsup _ _, ?_, ?_⟩,
    hgood7, hsup _ _, hpos7, ?_, ?_⟩⟩
  · refine ⟨by simp, by simp [Dict.keys], ?_, ?_, ?_⟩ <;> simp [Dict.keys, h4]
  · refine ⟨by simp [Dict.WF, Dict.keys], by simp [Dict.WF, Dict.keys], by simp, ?_,
      by simp [Dict.keys]⟩
    intro t ht
    rw [List.mem_singleton] at ht
    subst ht
    exact ⟨_, hmem, by simp [copyModel, coinNet]⟩
  · exact own_possible h2 hsim idOrder_lists hnew hwf hh (by simp [Dict.keys, h4]) (hpos _)
  · exact C73_settled h1 hwf (by simp [Dict.keys, h4])
  · intro h
    have := h _ hmem ⟨7, by simp [copyModel, coinNet], by simp [Dict.keys]⟩ 0
      (by simp [copyModel, coinNet]) hprod0
    simp [Dict.keys] at this
  · refine ne_top_of_le_ne_top ENNReal.one_ne_top (moment_bounded idOrder_lists hb
      (composite_simKeys (by simpa using hkeys)) hgood7 (hsup _ _) hB hpos7 (fun y => ?_) 0)
    rw [hweight]
    unfold coinDensity copyProb
    rw [ENNReal.ofReal_le_one]
    split <;> split <;> norm_num

end Cgpm.Props
