import Verif.Lemmas.ViewBehaves

/-! A view as a component of a network: simulation, and densities. -/
namespace Cgpm.Props
open Cgpm Cgpm.View Cgpm.Net MeasureTheory
open scoped ENNReal

variable {P : Prim → Prop}

/-! ### dicts of values -/

theorem dictOf_look (outs : List Nat) (S : Finset Nat) (x : Nat → ℝ) :
    dictOf outs (lookAt S x) = (outs.filter fun c => c ∈ S).map fun c => (c, x c) := by
  induction outs with
  | nil => rfl
  | cons a t ih =>
    unfold dictOf at ih ⊢
    by_cases h : a ∈ S
    · simp [List.filterMap_cons, lookAt, h, ← ih]
    · simp [List.filterMap_cons, lookAt, h, ← ih]

theorem get?_valueMap (l : List Nat) (x : Nat → ℝ) (k : Nat) :
    Dict.get? (l.map fun c => (c, x c)) k = if k ∈ l then some (x k) else none := by
  induction l with
  | nil => rfl
  | cons a t ih =>
    rw [List.map_cons, Dict.get?_cons, ih]
    by_cases h : a = k
    · subst h; simp
    · simp [h, Ne.symm h]

theorem keys_valueMap (l : List Nat) (x : Nat → ℝ) : Dict.keys (l.map fun c => (c, x c)) = l := by
  simp [Dict.keys, Function.comp_def]

theorem valsOf_keys (v : View (catOf P)) (z : Nat) (D : Dict Nat ℝ) : (v.valsOf z D).keys = D.keys := by
  simp [valsOf, Dict.keys, Function.comp_def]

theorem valsOf_get? (v : View (catOf P)) (z : Nat) (D : Dict Nat ℝ) (k : Nat) :
    (v.valsOf z D).get? k = (D.get? k).map fun x => if k = z then .tab (v.labelOf x)
      else .cell (some x) := by
  induction D with
  | nil => rfl
  | cons a t ih =>
    unfold valsOf at ih ⊢
    rw [List.map_cons, Dict.get?_cons, Dict.get?_cons, ih]
    by_cases h : a.1 = k
    · simp [h]
    · simp [h]

/-- Values as cells. -/
def cellLook (D : Dict Nat ℝ) : Col → Option (catOf P).Cell :=
  fun c => (D.get? c).map fun x => (some x : (catOf P).Cell)

theorem fillWith_map {ts : List Nat} (hn : ts.Nodup) {d : Dict Nat ℝ} (h : ∀ k, k ∈ d.keys ↔ k ∈ ts)
    (x : Nat → ℝ) :
    fillWith x (ts.map fun t => (t, (d.get? t).getD 0)) = fillWith x d := by
  funext k
  unfold fillWith
  rw [get?_valueMap ts (fun t => (d.get? t).getD 0)]
  by_cases hk : k ∈ ts
  · have := (h k).mpr hk
    cases hd : d.get? k with
    | none => exact absurd this ((Dict.get?_eq_none_iff _ _).mp hd)
    | some y => simp [hk]
  · have : d.get? k = none := (Dict.get?_eq_none_iff _ _).mpr fun h' => hk ((h k).mp h')
    simp [hk, this]

theorem get?_set_one (d : Dict Nat ℝ) (z : Nat) (a : ℝ) (k : Nat) :
    (d.update [(z, a)]).get? k = if k = z then some a else d.get? k := by
  rw [Dict.get?_update _ _ (by simp [Dict.WF, Dict.keys])]
  by_cases h : k = z
  · simp [Dict.get?, h]
  · simp [Dict.get?, h, Ne.symm h]

section
variable {X : (catOf P).Tbl} {v : View (catOf P)} (hI : Inv X v) {z : Nat} {μ : Nat → Measure ℝ}
  (hv : SimView μ v z) {rowid : Option Row}

include hI hv

theorem rowDensity_part {D : Col → Option (catOf P).Cell} {S : Finset Nat} {x : Nat → ℝ}
    (hD : ∀ c ∈ v.dims.keys, D c = if c ∈ S then some (some (x c)) else none) (k : Tab) :
    rowDensity v k D = partProd v S k x := by
  unfold rowDensity partProd
  rw [List.prod_toFinset _ hI.wf]
  unfold Dict.keys
  rw [List.map_map]
  refine congrArg _ (List.map_congr_left fun p hp => ?_)
  have hk : p.1 ∈ v.dims.keys := List.mem_map.mpr ⟨p, hp, rfl⟩
  have hg := Dict.get?_of_mem hI.wf hp
  rw [Function.comp, hD p.1 hk]
  by_cases hS : p.1 ∈ S
  · simp only [hS, if_true]
    unfold colDensity
    rw [hg, hv.plain p.1 p.2 hg]
    rfl
  · simp only [hS, if_false]

theorem plain_inputsIn (D : Col → Option (catOf P).Cell) : InputsIn v D := by
  intro c d hd _ i hi
  simp [hv.plain c d hd] at hi

variable [∀ c, SigmaFinite (μ c)]

/-- Simulation of a view. -/
theorem simulateReal_law {close : ℝ → ℝ → Bool} {ord : PyOrder} (hord : ord.Lists)
    (hr : FreshRow v rowid) {Cs : Dict Nat ℝ} (hw : Cs.WF) {S : Finset Nat}
    (hS : ∀ k, k ∈ Cs.keys ↔ k ∈ S) (hSo : S ⊆ (z :: v.dims.keys).toFinset)
    {ts : List Nat} (hn : ts.Nodup) (ht : ∀ t ∈ ts, t ∈ z :: v.dims.keys ∧ t ∉ S)
    {x : Nat → ℝ} (hx : ∀ k y, Cs.get? k = some y → x k = y)
    (h0 : outDensity μ (z :: v.dims.keys) (clusterRowDensity v z) S x ≠ 0) :
    ((v.simulateReal close X ord z rowid ts Cs).Always fun d => ∀ k, k ∈ d.keys ↔ k ∈ ts) ∧
    ∀ {g : (Nat → ℝ) → ℝ≥0∞}, Measurable g →
      (v.simulateReal close X ord z rowid ts Cs).E (fun d => g (fillWith x d))
          * outDensity μ (z :: v.dims.keys) (clusterRowDensity v z) S x
        = (∫⋯∫⁻_ts.toFinset, (fun y => g y *
          outDensity μ (z :: v.dims.keys) (clusterRowDensity v z) (S ∪ ts.toFinset) y) ∂μ) x := by
  classical
  have hdis : ∀ c ∈ ts, c ∉ (v.valsOf z Cs).keys := by
    intro c hc
    rw [valsOf_keys]
    exact fun h => (ht c hc).2 ((hS c).mp h)
  obtain ⟨hh, hnew⟩ := hyp_of_new hI hr
  have hpop : v.populateReal close X z rowid ts Cs = .ok Cs := by
    unfold populateReal validateQuery
    rw [if_neg (by simpa using hn), any_has_false hdis, hh]
    cases rowid <;> rfl
  obtain ⟨net, hb⟩ := (C26_accepted_iff ord hord (netCgpms z v) (some 1)).1 (parts_wellFormed hI hv)
  obtain ⟨dens, hdb, hdacc⟩ := buildNetwork_ok hord (sim := (noSim : Simulator (catOf P) Unit)) hI hv.schema
  by_cases hzS : z ∈ S
  · have heq : v.simulateReal close X ord z rowid ts Cs
        = simulateDraws ord (netDraws z v) rowid net ts Cs [] := by
      unfold simulateReal
      have : Cs.has z = true := (Dict.has_iff _ _).mpr ((hS z).mpr hzS)
      simp only [hpop, hb, hdb, hh, this, if_true]
    rw [heq]
    exact ⟨always_imp (simulateDraws_always ..) fun d hd k => by rw [hd],
      fun hg => simulate_given hI hv hord hb hnew hw hS hSo hzS hn ht hx h0 hg⟩
  · obtain ⟨K, hK, -, hnd, hset⟩ := gibbsTables_eq hI hv.rows
    have hCz : Cs.get? z = none := (Dict.get?_eq_none_iff _ _).mpr fun h => hzS ((hS z).mp h)
    -- the weights of the clusters
    have hE' : ∀ c, c ≠ z → (v.valsOf z Cs).get? c
        = (cellLook (P := P) Cs c).map .cell := by
      intro c hc
      rw [valsOf_get?]
      unfold cellLook
      cases Cs.get? c
      · rfl
      · simp only [Option.map_some, hc, if_false]
        rfl
    have hpart : ∀ k, rowDensity v k (cellLook Cs) = partProd v S k x := by
      intro k
      refine rowDensity_part hI hv (fun c _ => ?_) k
      unfold cellLook
      by_cases hc : c ∈ S
      · have := (hS c).mpr hc
        cases hd : Cs.get? c with
        | none => exact absurd this ((Dict.get?_eq_none_iff _ _).mp hd)
        | some y =>
          rw [if_pos hc, hx c y hd]
          rfl
      · have : Cs.get? c = none := (Dict.get?_eq_none_iff _ _).mpr fun h' => hc ((hS c).mp h')
        rw [if_neg hc, this]
        rfl
    have hwt : ∀ k, ∃ r, netLogpdf ord (fun _ _ _ => ()) 0 rowid dens
        ((v.valsOf z Cs).update [(z, .tab k)]) [] [] = .ok r ∧ r ≠ .nan ∧ r ≠ .pinf ∧
          mass r = prior v k * partProd v S k x := by
      intro k
      have := netLogpdf_marginal hord hI hv.schema hdb hdacc hnew
        (holds_merge (E := v.valsOf z Cs) (by unfold Dict.WF; rw [valsOf_keys]; exact hw) hE' k)
        (plain_inputsIn hI hv _) (fun _ _ _ => ()) 0
      rwa [hpart] at this
    obtain ⟨lps, hl1, hl2⟩ : ∃ lps, collect (fun k : Tab => netLogpdf ord (fun _ _ _ => ()) 0 rowid
        dens ((v.valsOf z Cs).update [(z, .tab k)]) [] []) K = .ok lps ∧
        List.Forall₂ (fun k (a : Fl) => a ≠ .nan ∧ a ≠ .pinf ∧
          mass a = prior v k * partProd v S k x) K lps := by
      clear hK hnd hset
      induction K with
      | nil => exact ⟨[], rfl, .nil⟩
      | cons k t ih =>
        obtain ⟨r, r1, r2⟩ := hwt k
        obtain ⟨l, l1, l2⟩ := ih
        exact ⟨r :: l, by simp only [collect, r1, l1, Except.map], .cons r2 l2⟩
    set rest := ts.filter fun q => !(q == z) with hrest
    have hrestmem : ∀ k, k ∈ rest ↔ k ∈ ts ∧ k ≠ z := by simp [hrest]
    have heq : v.simulateReal close X ord z rowid ts Cs
        = (Draws.ofRand (Rand.logPflip lps K)).bind fun k =>
          (simulateDraws ord (netDraws z v) rowid net rest (Cs.update [(z, (k : ℝ))]) []).bind
            fun s => .pure (if ts.contains z then s.update [(z, (k : ℝ))] else s) := by
      unfold simulateReal
      have : Cs.has z = false := (Dict.has_false_iff _ _).mpr hCz
      simp only [hpop, hb, hdb, hh, this, hK, Bool.false_eq_true, if_false, if_true, hl1]
      rfl
    constructor
    · rw [heq]
      refine always_bind (always_true _) fun k _ => always_bind (simulateDraws_always ..) fun s hs => ?_
      show ∀ q, q ∈ Dict.keys (if ts.contains z then s.update [(z, (k : ℝ))] else s) ↔ q ∈ ts
      intro q
      by_cases hzt : z ∈ ts
      · rw [if_pos (by simpa using hzt), ← not_iff_not, ← Dict.get?_eq_none_iff, get?_set_one]
        by_cases hq : q = z
        · simp [hq, hzt]
        · rw [if_neg hq, Dict.get?_eq_none_iff, hs, hrestmem]
          simp [hq]
      · rw [if_neg (by simpa using hzt), hs, hrestmem]
        constructor
        · exact fun h => h.1
        · intro h
          refine ⟨h, ?_⟩
          rintro rfl
          exact hzt h
    intro g hg
    set Z := outDensity μ (z :: v.dims.keys) (clusterRowDensity v z) with hZ
    have hZm : ∀ T, Measurable (Z T) := fun T =>
      outDensity_measurable (clusterRowDensity_measurable hI hv) T
    have hsum : (K.map fun k => prior v k * partProd v S k x).sum = Z S x := by
      rw [← List.sum_toFinset _ hnd, hset, hZ, outD_out hI hv hzS]
    -- the values with the cluster
    have hZk : ∀ k : Tab, Z (insert z S) (Function.update x z (k : ℝ)) = prior v k * partProd v S k x := by
      intro k
      rw [hZ, outD_in hI hv (by simp), Function.update_self, clusterAt_nat]
      congr 1
      unfold partProd
      refine Finset.prod_congr rfl fun c hc => ?_
      have hcz : c ≠ z := by
        rintro rfl
        exact hv.token (List.mem_toFinset.mp hc)
      simp [hcz]
    let gz : (Nat → ℝ) → ℝ≥0∞ := fun y => if z ∈ ts then g y else g (Function.update y z (x z))
    have hgz : Measurable gz := by
      by_cases hzt : z ∈ ts
      · simpa [gz, hzt] using hg
      · simp only [gz, hzt, if_false]
        exact hg.comp measurable_update_left
    have hrest0 : ∀ t ∈ rest, t ∈ z :: v.dims.keys ∧ t ∉ insert z S := by
      intro t h
      obtain ⟨h1, h2⟩ := (hrestmem t).mp h
      exact ⟨(ht t h1).1, by simp [h2, (ht t h1).2]⟩
    have hone : ∀ k : Tab, prior v k * partProd v S k x *
        ((simulateDraws ord (netDraws z v) rowid net rest (Cs.update [(z, (k : ℝ))]) []).bind
            fun s => .pure (if ts.contains z then s.update [(z, (k : ℝ))] else s)).E
              (fun d => g (fillWith x d))
        = (∫⋯∫⁻_rest.toFinset, (fun y => gz y * Z (insert z S ∪ rest.toFinset) y) ∂μ)
            (Function.update x z (k : ℝ)) := by
      intro k
      have hE : ((simulateDraws ord (netDraws z v) rowid net rest (Cs.update [(z, (k : ℝ))]) []).bind
            fun s => .pure (if ts.contains z then s.update [(z, (k : ℝ))] else s)).E
              (fun d => g (fillWith x d))
          = (simulateDraws ord (netDraws z v) rowid net rest (Cs.update [(z, (k : ℝ))]) []).E
              (fun s => gz (fillWith (Function.update x z (k : ℝ)) s)) := by
        rw [Draws.E_bind]
        refine E_congr_always (simulateDraws_always ..) fun s hs => ?_
        have hsz : s.get? z = none := by
          rw [Dict.get?_eq_none_iff, hs, hrestmem]
          simp
        simp only [Draws.E, gz]
        by_cases hzt : z ∈ ts
        · rw [if_pos (by simpa using hzt), if_pos hzt]
          congr 1
          funext q
          unfold fillWith
          rw [get?_set_one]
          by_cases hq : q = z
          · subst hq
            simp [hsz]
          · simp [hq]
        · rw [if_neg (by simpa using hzt), if_neg hzt]
          congr 1
          funext q
          unfold fillWith
          by_cases hq : q = z
          · subst hq
            simp [hsz]
          · simp [hq]
      rw [hE, mul_comm, ← hZk]
      by_cases hk0 : Z (insert z S) (Function.update x z (k : ℝ)) = 0
      · rw [hk0, mul_zero]
        refine Eq.symm (lintegral_eq_zero_of_ae_eq_zero (Filter.Eventually.of_forall fun w => ?_))
        set y := Function.updateFinset (Function.update x z (k : ℝ)) rest.toFinset w with hy
        have hyx : ∀ c ∉ rest.toFinset, y c = Function.update x z (k : ℝ) c :=
          fun c hc => by simp only [hy, Function.updateFinset, hc, dite_false]
        have hyz : y z = k := by
          rw [hyx z (by simp [hrestmem])]
          simp
        have hpz : partProd v S k x = 0 := by
          rw [hZk, mul_eq_zero] at hk0
          exact hk0.resolve_left (prior_pos hI k)
        unfold partProd at hpz
        obtain ⟨c, hc, hc0⟩ := Finset.prod_eq_zero_iff.mp hpz
        have hcS : c ∈ S := by
          by_contra hcS
          rw [if_neg hcS] at hc0
          exact one_ne_zero hc0
        rw [if_pos hcS] at hc0
        have hcz : c ≠ z := by
          rintro rfl
          exact hzS hcS
        have hyc : y c = x c := by
          rw [hyx c (by
            rw [List.mem_toFinset, hrestmem]
            exact fun h => (ht c h.1).2 hcS), Function.update_of_ne hcz]
        have : Z (insert z S ∪ rest.toFinset) y = 0 := by
          rw [hZ, outD_in hI hv (by simp), hyz, clusterAt_nat, mul_eq_zero]
          right
          unfold partProd
          refine Finset.prod_eq_zero hc ?_
          rw [if_pos (by simp [hcS]), hyc, hc0]
        show gz y * _ = 0
        rw [this, mul_zero]
      · exact simulate_given hI hv hord hb hnew (Dict.wf_update hw _) (S := insert z S)
          (fun q => by
            rw [← not_iff_not, ← Dict.get?_eq_none_iff, get?_set_one]
            by_cases hq : q = z
            · simp [hq]
            · rw [if_neg hq, Dict.get?_eq_none_iff, hS]
              simp [hq])
          (by
            intro q hq
            rcases Finset.mem_insert.mp hq with rfl | hq
            · simp
            · exact hSo hq)
          (by simp) (hn.filter _) hrest0
          (fun q y hy => by
            rw [get?_set_one] at hy
            by_cases hq : q = z
            · subst hq
              simpa using hy
            · rw [if_neg hq] at hy
              rw [Function.update_of_ne hq]
              exact hx q y hy) hk0 hgz
    rw [heq, Draws.E_bind, ← hsum, pflip_weights hl2 (by rw [hsum]; exact h0),
      ← List.sum_toFinset _ hnd, hset]
    simp only [hone]
    rw [← lintegral_clusterBase v (fun t => (∫⋯∫⁻_rest.toFinset, (fun y => gz y *
      Z (insert z S ∪ rest.toFinset) y) ∂μ) (Function.update x z t)), ← hv.cluster]
    have hgm : Measurable fun y => gz y * Z (insert z S ∪ rest.toFinset) y := hgz.mul (hZm _)
    rw [← lmarginal_insert _ hgm (by simp [hrestmem])]
    by_cases hzt : z ∈ ts
    · have h1 : insert z rest.toFinset = ts.toFinset := by
        ext q
        simp only [Finset.mem_insert, List.mem_toFinset, hrestmem]
        constructor
        · rintro (rfl | h)
          · exact hzt
          · exact h.1
        · intro h
          by_cases hq : q = z
          · exact .inl hq
          · exact .inr ⟨h, hq⟩
      have h2 : insert z S ∪ rest.toFinset = S ∪ ts.toFinset := by
        rw [← h1, Finset.insert_union, Finset.union_insert]
      rw [h1, h2]
      simp only [gz, hzt, if_true]
    · have h1 : rest.toFinset = ts.toFinset := by
        ext q
        simp only [List.mem_toFinset, hrestmem]
        constructor
        · exact fun h => h.1
        · intro h
          refine ⟨h, ?_⟩
          rintro rfl
          exact hzt h
      rw [h1] at hgm ⊢
      rw [lmarginal_insert' _ hgm (by simpa using hzt)]
      refine lintegral_congr fun w => ?_
      set y := Function.updateFinset x ts.toFinset w with hy
      have hyz : y z = x z := by
        have : z ∉ ts.toFinset := by simpa using hzt
        simp only [hy, Function.updateFinset, this, dite_false]
      have hgy : ∀ t : ℝ, gz (Function.update y z t) = g y := by
        intro t
        simp only [gz, hzt, if_false, Function.update_idem]
        rw [← hyz, Function.update_eq_self]
      simp only [hgy]
      have hum : Measurable fun t => Z (insert z S ∪ ts.toFinset) (Function.update y z t) :=
        (hZm _).comp (measurable_update y)
      rw [lintegral_const_mul _ hum]
      congr 1
      have h3 := congrFun (outDensity_lmarginal (μ := μ) (outs := z :: v.dims.keys)
        (clusterRowDensity_measurable hI hv) (S := S ∪ ts.toFinset) (T := {z}) (by
          intro c hc
          rw [Finset.mem_singleton] at hc
          subst hc
          exact ⟨by simp, by simp [hzS, hzt]⟩)) y
      rw [lmarginal_singleton] at h3
      rw [hZ, ← h3]
      have : insert z S ∪ ts.toFinset = S ∪ ts.toFinset ∪ {z} := by
        ext q
        simp only [Finset.mem_union, Finset.mem_insert, Finset.mem_singleton]
        tauto
      rw [this]

end

end Cgpm.Props
