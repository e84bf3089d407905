import Verif.Lemmas.ViewBehavesAll

/-! A view as a component of a network. -/
namespace Cgpm.Props
open Cgpm Cgpm.View Cgpm.Net MeasureTheory
open scoped ENNReal

variable {P : Prim → Prop}

theorem logp_mass {r : Fl} (h1 : r ≠ .nan) (h2 : mass r ≠ ⊤) :
    ∃ w, r.logp = .ok w ∧ ENNReal.ofReal (pr w) = mass r := by
  cases r with
  | nan => exact absurd rfl h1
  | pinf => exact absurd rfl h2
  | ninf => exact ⟨⊥, rfl, by simp [pr, mass]⟩
  | fin a => exact ⟨(a : ℝ), rfl, rfl⟩

theorem logpdf_unconditional {C : Cat} {Ω : Type} {X : C.Tbl} {v : View C}
    {rowid : Option Row} (hh : v.hypothetical rowid = true) {close : C.V → C.V → Bool} {ord : PyOrder}
    {sim : Simulator C Ω} {ω : Nat → Nat → Nat → Ω} {z : Nat} {T : Dict Nat (Val C)} :
    v.logpdf close X ord sim ω z rowid T [] [] = v.logpdfCore ord sim ω z rowid T [] [] := by
  unfold View.logpdf
  rw [populate_new hh (by simp [Dict.keys])]
  simp only [hh, if_true]

section
variable {X : (catOf P).Tbl} {v : View (catOf P)} (hI : Inv X v) {z : Nat} {μ : Nat → Measure ℝ}
  (hv : SimView μ v z) {rowid : Option Row}

include hI hv

omit hv in
theorem prior_total : ∑ k ∈ insert (freshTab v) (occupied v), prior v k = 1 := by
  have := prior_sum hI
  rw [mixture_sum] at this
  simpa using this

variable [∀ c, SigmaFinite (μ c)]

/-- The densities a view reports. -/
theorem viewNet_logpdf {close : ℝ → ℝ → Bool} {ord : PyOrder} (hord : ord.Lists)
    (hr : FreshRow v rowid) {S : Finset Nat} (hSo : S ⊆ (z :: v.dims.keys).toFinset)
    (x : Nat → ℝ) (i : Look ℝ) : ∃ w,
    (State.viewNet close X ord z v).logpdf rowid (lookAt S x) i = .ok w ∧
      ENNReal.ofReal (pr w) = outDensity μ (z :: v.dims.keys) (clusterRowDensity v z) S x := by
  classical
  obtain ⟨hh, hnew⟩ := hyp_of_new hI hr
  set Cs := dictOf (z :: v.dims.keys) (lookAt S x) with hCs
  have hkeys : Cs.keys = (z :: v.dims.keys).filter fun c => c ∈ S := by
    rw [hCs, dictOf_look, keys_valueMap]
  have hget : ∀ c, Cs.get? c = if c ∈ S then some (x c) else none := by
    intro c
    rw [hCs, dictOf_look, get?_valueMap]
    by_cases hc : c ∈ S
    · have := List.mem_toFinset.mp (hSo hc)
      simp only [List.mem_filter, this, hc, decide_true, and_self, if_true]
    · simp [hc]
  have hnd : (z :: v.dims.keys).Nodup := List.nodup_cons.mpr ⟨hv.token, hI.wf⟩
  have hw : (v.valsOf z Cs).WF := by
    unfold Dict.WF
    rw [valsOf_keys, hkeys]
    exact hnd.filter _
  have hcell : ∀ c, c ≠ z → (v.valsOf z Cs).get? c = (cellLook (P := P) Cs c).map .cell := by
    intro c hc
    rw [valsOf_get?]
    unfold cellLook
    cases Cs.get? c
    · rfl
    · simp only [Option.map_some, hc, if_false]
      rfl
  have hpart : ∀ k, rowDensity v k (cellLook Cs) = partProd v S k x := by
    intro k
    refine rowDensity_part hI hv (fun c _ => ?_) k
    unfold cellLook
    rw [hget]
    by_cases hc : c ∈ S
    · rw [if_pos hc, if_pos hc]; rfl
    · rw [if_neg hc, if_neg hc]; rfl
  have hpart' : ∀ k, rowDensity v k (fun c => (cellLook (P := P) Cs c).or none) = partProd v S k x := by
    intro k
    rw [← hpart]
    congr 1
    funext c
    cases cellLook (P := P) Cs c <;> rfl
  have hempty : ∀ k, rowDensity v k (fun _ => (none : Option (catOf P).Cell)) = 1 := by
    intro k
    refine (rowDensity_part hI hv (D := fun _ => none) (S := ∅) (x := x)
      (fun c _ => (if_neg (Finset.notMem_empty c)).symm) k).trans ?_
    unfold partProd
    simp
  have hmix : mixture v (fun k => rowDensity v k fun _ => (none : Option (catOf P).Cell)) = 1 := by
    simp only [hempty]
    exact prior_sum hI
  have hlog : v.logpdf close X ord noSim (fun _ _ _ => ()) z rowid (v.valsOf z Cs) [] []
      = v.logpdfCore ord noSim (fun _ _ _ => ()) z rowid (v.valsOf z Cs) [] [] :=
    logpdf_unconditional hh
  obtain ⟨r, r1, r2, r3⟩ : ∃ r, v.logpdf close X ord noSim (fun _ _ _ => ()) z rowid
      (v.valsOf z Cs) [] [] = .ok r ∧ r ≠ .nan ∧
      mass r = outDensity μ (z :: v.dims.keys) (clusterRowDensity v z) S x := by
    rw [hlog]
    by_cases hz : z ∈ S
    · have hTz : (v.valsOf z Cs).get? z = some (.tab (clusterAt v (x z))) := by
        rw [valsOf_get?, hget, if_pos hz, ← labelOf_eq hI]
        simp
      obtain ⟨r, r1, r2, r3⟩ := (core_target (E := []) (E' := fun _ => none) hord noSim hI hv.schema
        hnew (fun _ _ _ => ()) hw hcell Dict.wf_nil (fun _ _ => rfl) (fun _ h => absurd rfl h)
        (plain_inputsIn hI hv _) (plain_inputsIn hI hv _) hv.rows _ hTz rfl).1
        (by rw [hmix]; exact one_ne_zero)
      refine ⟨r, r1, r2, ?_⟩
      rw [r3, hmix, div_one, hpart', outD_in hI hv hz]
    · have hTz : (v.valsOf z Cs).get? z = none := by
        rw [valsOf_get?, hget, if_neg hz]
        rfl
      obtain ⟨r, r1, r2, r3⟩ := (core_enum (E := []) (E' := fun _ => none) hord noSim hI hv.schema
        hnew (fun _ _ _ => ()) hw hcell Dict.wf_nil (fun _ _ => rfl) (fun _ h => absurd rfl h)
        (plain_inputsIn hI hv _) (plain_inputsIn hI hv _) hv.rows hTz rfl).1
        (fun k => by rw [hempty]; exact one_ne_zero)
      refine ⟨r, r1, r2, ?_⟩
      rw [r3, hmix, div_one, outD_out hI hv hz, mixture_sum]
      simp only [hpart']
  obtain ⟨w, w1, w2⟩ := logp_mass r2 (by rw [r3]; exact outD_fin hI hv S x)
  refine ⟨w, ?_, by rw [w2, r3]⟩
  show (match v.logpdf close X ord noSim (fun _ _ _ => ()) z rowid (v.valsOf z Cs) [] [] with
    | .error e => Except.error e
    | .ok w => w.logp) = _
  simp only [r1]
  exact w1

/-- A view as a component of a network. -/
theorem view_behaves {close : ℝ → ℝ → Bool} {ord : PyOrder} (hord : ord.Lists)
    (hr : FreshRow v rowid) : Behaves μ rowid (State.viewNet close X ord z v)
      (State.viewDraws close X ord z v) (clusterRowDensity v z) where
  measurable := clusterRowDensity_measurable hI hv
  scope := by
    intro x y h
    rw [clusterRowDensity_eq hI hv, clusterRowDensity_eq hI hv, h z (.inl (by simp [State.viewNet]))]
    congr 1
    refine Finset.prod_congr rfl fun c hc => ?_
    rw [h c (.inl (by simp [State.viewNet, List.mem_toFinset.mp hc]))]
  total := by
    intro x
    have := outD_out hI hv (S := ∅) (by simp) x
    unfold outDensity at this
    rw [Finset.sdiff_empty] at this
    refine this.trans ?_
    have h1 : ∀ k, partProd v ∅ k x = 1 := fun k => by unfold partProd; simp
    simp only [h1, mul_one]
    exact prior_total hI
  logpdf := fun S hS _ x => viewNet_logpdf hI hv hord hr hS x _
  simulate := by
    intro S ts hS hn _ ht x h0 g hg
    have hS' : S ⊆ (z :: v.dims.keys).toFinset := hS
    set Cs := dictOf (z :: v.dims.keys) (lookAt S x) with hCs
    have hkeys : Cs.keys = (z :: v.dims.keys).filter fun c => c ∈ S := by
      rw [hCs, dictOf_look, keys_valueMap]
    have hnd : (z :: v.dims.keys).Nodup := List.nodup_cons.mpr ⟨hv.token, hI.wf⟩
    obtain ⟨ha, hl⟩ := simulateReal_law hI hv (close := close) hord hr (Cs := Cs)
      (by unfold Dict.WF; rw [hkeys]; exact hnd.filter _) (S := S)
      (fun k => by
        rw [hkeys, List.mem_filter]
        simp only [decide_eq_true_eq, and_iff_right_iff_imp]
        exact fun h => List.mem_toFinset.mp (hS' h)) hS' hn ht (x := x)
      (fun k y hy => by
        rw [hCs, dictOf_look, get?_valueMap] at hy
        by_cases hk : k ∈ (z :: v.dims.keys).filter fun c => c ∈ S
        · rw [if_pos hk] at hy
          cases hy
          rfl
        · rw [if_neg hk] at hy
          cases hy) h0
    refine Eq.trans ?_ (hl hg)
    congr 1
    unfold State.viewDraws
    rw [Draws.E_bind, Draws.E_bind]
    refine E_congr_always ha fun d hd => ?_
    show g (fillWith x (ts.map fun t => (t, (d.get? t).getD 0))) = _
    rw [fillWith_map hn hd]

end

end Cgpm.Props
