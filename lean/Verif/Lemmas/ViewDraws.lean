import Verif.Spec.ViewDraws
import Verif.Props.NetExact
import Verif.Props.ViewQuery
import Mathlib.MeasureTheory.Function.Floor

/-! The law of the cluster and the values of a row simulated by a view. -/
namespace Cgpm.Props
open Cgpm Cgpm.View Cgpm.Net MeasureTheory
open scoped ENNReal

variable {P : Prim → Prop}

/-! ### choosing with given log weights -/

theorem pflip_weights {K : List Tab} {u : List Fl} {A : Tab → ℝ≥0∞}
    (hu : List.Forall₂ (fun k (a : Fl) => a ≠ .nan ∧ a ≠ .pinf ∧ mass a = A k) K u)
    (h0 : (K.map A).sum ≠ 0) (g : Tab → ℝ≥0∞) :
    (Draws.ofRand (Rand.logPflip u K)).E g * (K.map A).sum = (K.map fun k => A k * g k).sum := by
  set L : List (Tab × Fl) := K.zip u with hL
  have hlen := hu.length_eq
  have hLf : L.map Prod.fst = K := List.map_fst_zip hlen.le
  have hLs : L.map Prod.snd = u := List.map_snd_zip hlen.ge
  have hLm : ∀ i ∈ L, i.2 ≠ .nan ∧ i.2 ≠ .pinf ∧ mass i.2 = A i.1 := by
    intro i hi
    exact List.forall₂_iff_zip.mp hu |>.2 hi
  have hfin : ∀ i ∈ L, mass i.2 ≠ ⊤ := by
    intro i hi
    have := hLm i hi
    cases h : i.2 with
    | nan => exact absurd h this.1
    | pinf => exact absurd h this.2.1
    | ninf => simp [mass]
    | fin r => simp [mass]
  have hA : ∀ f : Tab → ℝ≥0∞, (K.map fun k => A k * f k).sum
      = (L.map fun i => mass i.2 * f i.1).sum := by
    intro f
    rw [← hLf, List.map_map]
    refine congrArg _ (List.map_congr_left fun i hi => ?_)
    rw [Function.comp, (hLm i hi).2.2]
  have hA1 : (K.map A).sum = (L.map fun i => mass i.2).sum := by
    have := hA fun _ => 1
    simpa using this
  have hreal : ENNReal.ofReal (L.map fun i => (mass i.2).toReal).sum = (L.map fun i => mass i.2).sum := by
    clear_value L
    clear hA hA1 hLs hLf hL
    induction L with
    | nil => simp
    | cons i t ih =>
      simp only [List.map_cons, List.sum_cons]
      rw [ENNReal.ofReal_add ENNReal.toReal_nonneg (List.sum_nonneg (by
          intro a ha
          obtain ⟨b, -, rfl⟩ := List.mem_map.mp ha
          exact ENNReal.toReal_nonneg)),
        ENNReal.ofReal_toReal (hfin i List.mem_cons_self),
        ih (fun i hi => hLm i (List.mem_cons_of_mem _ hi)) fun i hi =>
          hfin i (List.mem_cons_of_mem _ hi)]
  have hpos : 0 < (L.map fun i => (mass i.2).toReal).sum := by
    by_contra hc
    rw [ENNReal.ofReal_of_nonpos (not_lt.mp hc)] at hreal
    exact h0 (hA1.trans hreal.symm)
  have hE1 := Draws.E_logPflip (l := L) (a := Prod.snd) (p := fun i => (mass i.2).toReal)
    Prod.fst (fun _ _ => ENNReal.toReal_nonneg)
    (fun i hi => ⟨⟨(hLm i hi).1, (ENNReal.ofReal_toReal (hfin i hi)).symm⟩, (hLm i hi).2.1⟩) hpos g
  rw [hLf, hLs] at hE1
  rw [hE1, hA g, hA1, ← hreal]
  have hZt : ENNReal.ofReal (L.map fun i => (mass i.2).toReal).sum ≠ ⊤ := ENNReal.ofReal_ne_top
  have hZ0 : ENNReal.ofReal (L.map fun i => (mass i.2).toReal).sum ≠ 0 := by
    rw [Ne, ENNReal.ofReal_eq_zero, not_le]; exact hpos
  rw [← List.sum_map_mul_right]
  refine congrArg _ (List.map_congr_left fun i hi => ?_)
  rw [ENNReal.ofReal_div_of_pos hpos, ENNReal.ofReal_toReal (hfin i hi), mul_right_comm,
    ENNReal.div_mul_cancel hZ0 hZt]

/-! ### clusters -/

theorem pyMax_sup_view (l : List Nat) : pyMax l = l.toFinset.sup id := by
  have h : ∀ (t : List Nat) (a : Nat), t.foldl max a = max a (t.toFinset.sup id) := by
    intro t
    induction t with
    | nil => intro a; simp
    | cons b t ih => intro a; simp [ih, max_assoc]
  cases l with
  | nil => rfl
  | cons a t => simp [pyMax, h]

theorem lintegral_clusterBase (v : View (catOf P)) (f : ℝ → ℝ≥0∞) :
    ∫⁻ t, f t ∂clusterBase v = ∑ k ∈ insert (freshTab v) (occupied v), f (k : ℝ) := by
  unfold clusterBase
  rw [lintegral_finsetSum_measure]
  simp [lintegral_dirac]

theorem clusterAt_nat (v : View (catOf P)) (k : Tab) : clusterAt v (k : ℝ) = k := by
  simp [clusterAt]

theorem measurable_clusterAt (v : View (catOf P)) : Measurable (clusterAt v) := by
  unfold clusterAt
  have h : Measurable fun x : ℝ => ((⌊x⌋₊ : ℕ) : ℝ) :=
    (measurable_from_nat (f := fun n : ℕ => (n : ℝ))).comp Nat.measurable_floor
  exact Measurable.ite (measurableSet_eq_fun measurable_id h) Nat.measurable_floor measurable_const

theorem mixture_sum (v : View (catOf P)) (f : Tab → ℝ≥0∞) :
    mixture v f = ∑ k ∈ insert (freshTab v) (occupied v), prior v k * f k := by
  rw [Finset.sum_insert (freshTab_not_mem v), add_comm]
  rfl

instance sigmaFinite_clusterBase (v : View (catOf P)) : IsFiniteMeasure (clusterBase v) := by
  unfold clusterBase
  infer_instance

section
variable {X : (catOf P).Tbl} {v : View (catOf P)} (hI : Inv X v)
include hI

theorem labelOf_eq (x : ℝ) : v.labelOf x = clusterAt v x := by
  have : pyMax v.crp.counts.keys + 1 = freshTab v := by
    unfold freshTab
    rw [pyMax_sup_view]
    congr 2
    ext k
    rw [List.mem_toFinset, mem_occupied hI]
  unfold labelOf clusterAt
  rw [this]

theorem gibbsTables_eq (hne : ∃ r, v.seat r ≠ none) :
    ∃ K, v.crp.gibbsTables none 1 = .ok K ∧ K = v.crp.simulateSupport ∧ K.Nodup ∧
      K.toFinset = insert (freshTab v) (occupied v) := by
  have hf : pyMax v.crp.counts.keys + 1 = freshTab v := by
    unfold freshTab
    rw [pyMax_sup_view]
    congr 2
    ext k
    rw [List.mem_toFinset, mem_occupied hI]
  have hc : ¬ (v.crp.counts.isEmpty = true) := by
    obtain ⟨r, hr⟩ := hne
    obtain ⟨k, hk⟩ := Option.ne_none_iff_exists'.mp hr
    have : k ∈ v.crp.counts.keys := (Crp.occupied_iff hI.crp k).mpr ⟨r, hk⟩
    intro h
    rw [List.isEmpty_iff] at h
    rw [h] at this; simp [Dict.keys] at this
  refine ⟨pySorted v.crp.counts.keys ++ [freshTab v], ?_, ?_, ?_, ?_⟩
  · unfold Crp.gibbsTables
    simp [hc, Crp.singleton, hf]
  · unfold Crp.simulateSupport
    rw [if_neg hc, hf]
  · rw [List.nodup_append]
    refine ⟨(pySorted_perm _).nodup_iff.mpr hI.crp.wfCounts, by simp, ?_⟩
    intro a ha b hb
    rw [List.mem_singleton] at hb
    subst hb
    rintro rfl
    exact freshTab_not_mem v ((mem_occupied hI _).mpr ((pySorted_perm _).mem_iff.mp ha))
  · ext k
    simp only [List.mem_toFinset, List.mem_append, List.mem_singleton, Finset.mem_insert,
      mem_occupied hI, (pySorted_perm _).mem_iff]
    tauto

end

end Cgpm.Props
