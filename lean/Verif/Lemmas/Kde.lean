import Verif.Spec.Kde
import Verif.Lemmas.MvRows
import Verif.Lemmas.Rand
import Mathlib.Data.List.GetD
import Mathlib.Data.Finset.Dedup
import Mathlib.Data.Finset.Card

/-!
What statsmodels computes for a kernel density estimate, in terms of the specification.
-/
namespace Cgpm.Kde
open Cgpm Cgpm.Spec Cgpm.Spec.Kde MeasureTheory

variable {o : Kde}

theorem collect_map {α β : Type} {f : α → Except Exn β} {g : α → β} {l : List α}
    (h : ∀ a ∈ l, f a = .ok (g a)) : Net.collect f l = .ok (l.map g) := by
  induction l with
  | nil => rfl
  | cons a t ih =>
    unfold Net.collect
    rw [h a List.mem_cons_self, ih fun b hb => h b (List.mem_cons_of_mem _ hb)]
    rfl

theorem collect_err {α β : Type} {f : α → Except Exn β} {e : Exn} {l : List α}
    (hf : ∀ a ∈ l, (∃ b, f a = .ok b) ∨ f a = .error e) {a : α} (ha : a ∈ l) (h : f a = .error e) :
    Net.collect f l = .error e := by
  induction l with
  | nil => cases ha
  | cons b t ih =>
    unfold Net.collect
    rcases hf b List.mem_cons_self with ⟨c, hc⟩ | hc
    · rw [hc]
      rcases List.mem_cons.mp ha with rfl | ha
      · rw [h] at hc; cases hc
      · simp only
        rw [ih (fun x hx => hf x (List.mem_cons_of_mem _ hx)) ha]
        rfl
    · rw [hc]

/-- A variable as statsmodels sees it. -/
noncomputable def kvar (o : Kde) (q : Col) : KVar := ⟨typ o q, band o q⟩

theorem index_ok {q : Col} (h : q ∈ o.outputs) : o.index q = .ok (o.outputs.idxOf q) := by
  unfold index; rw [if_pos h]

theorem vars_ok (hV : Valid o) {qs : List Col} (h : ∀ q ∈ qs, q ∈ o.outputs) :
    o.vars qs = .ok (qs.map (kvar o)) := by
  refine collect_map fun q hq => ?_
  have hlt := List.idxOf_lt_length_iff.mpr (h q hq)
  unfold var
  rw [index_ok (h q hq)]
  simp only
  rw [List.getElem?_eq_getElem (by rw [hV.types]; exact hlt),
    List.getElem?_eq_getElem (by rw [hV.bw]; exact hlt)]
  unfold kvar typ band
  rw [List.getD_eq_getElem _ _ (by rw [hV.types]; exact hlt),
    List.getD_eq_getElem _ _ (by rw [hV.bw]; exact hlt)]

theorem dataset_ok (hV : Valid o) {qs : List Col} (h : ∀ q ∈ qs, q ∈ o.outputs) :
    o.dataset qs
      = .ok ((Spec.Kde.exemplars o qs).map fun r => qs.map fun q => (cell o r q).getD 0) := by
  unfold dataset
  rw [collect_map (g := o.outputs.idxOf) fun q hq => index_ok (h q hq)]
  exact congrArg Except.ok (MvRows.complete_eq hV.toFull qs)

/-- The number of distinct values of a variable among some rows. -/
noncomputable def lev (o : Kde) (R : List Row) (q : Col) : Nat :=
  (R.map fun r => (cell o r q).getD 0).dedup.length

theorem columnLevels_eq (R : List Row) (qs : List Col) :
    columnLevels qs.length (R.map fun r => qs.map fun q => (cell o r q).getD 0)
      = qs.map (lev o R) := by
  unfold columnLevels
  refine List.ext_getElem (by simp) fun i h1 h2 => ?_
  have hi : i < qs.length := by simpa using h2
  simp only [List.getElem_map, List.getElem_range, List.map_map]
  unfold lev
  congr 2
  refine List.map_congr_left fun r _ => ?_
  simp only [Function.comp_apply]
  rw [List.getD_eq_getElem _ _ (by simpa using hi), List.getElem_map]

/-- The rows hold all categories of the variables of `qs`. -/
def Levels (o : Kde) (R : List Row) (qs : List Col) : Prop :=
  ∀ q ∈ qs, ∀ k, typ o q = .nominal k → lev o R q = k

theorem levels_of_seen (hV : Valid o) {all qs : List Col} (hk : ∀ q ∈ qs, q ∈ o.outputs)
    (hsub : ∀ q ∈ qs, q ∈ all) (hs : Seen o all qs) : Levels o (Spec.Kde.exemplars o all) qs := by
  intro q hq k hk'
  unfold lev
  have hcell : ∀ r ∈ Spec.Kde.exemplars o all, ∃ v, cell o r q = some v := fun r hr => by
    have := (List.mem_filter.mp hr).2
    exact Option.isSome_iff_exists.mp (List.all_eq_true.mp this q (hsub q hq))
  have hset : ((Spec.Kde.exemplars o all).map fun r => (cell o r q).getD 0).toFinset
      = (Finset.range k).image fun j : Nat => (j : ℝ) := by
    ext x
    simp only [List.mem_toFinset, List.mem_map, Finset.mem_image, Finset.mem_range]
    constructor
    · rintro ⟨r, hr, rfl⟩
      obtain ⟨v, hv⟩ := hcell r hr
      obtain ⟨j, hj, e⟩ := hV.cells q (hk q hq) k hk' r v hv
      exact ⟨j, hj, by rw [hv]; exact e.symm⟩
    · rintro ⟨j, hj, rfl⟩
      obtain ⟨r, hr, e⟩ := hs q hq k hk' j hj
      exact ⟨r, hr, by rw [e]; rfl⟩
  rw [← List.card_toFinset, hset, Finset.card_image_of_injective _ Nat.cast_injective, Finset.card_range]

/-- One row: the product of its kernels. -/
theorem rowKernels_eq (hV : Valid o) {R : List Row} {d : Dict Col ℝ}
    (hk : ∀ q ∈ d.keys, q ∈ o.outputs) (hl : Levels o R d.keys) (r : Row) :
    (rowKernels ((d.keys.map (kvar o)).zip (d.keys.map (lev o R)))
        (d.keys.map fun q => (cell o r q).getD 0) d.vals).map
      (fun ks => ks.prod / contBw (d.keys.map (kvar o)))
      = some (closeness o r d) := by
  have key : ∃ ks, rowKernels ((d.keys.map (kvar o)).zip (d.keys.map (lev o R)))
        (d.keys.map fun q => (cell o r q).getD 0) d.vals = some ks ∧
      ks.prod / contBw (d.keys.map (kvar o)) = closeness o r d := by
    induction d with
    | nil => exact ⟨[], rfl, by simp [contBw, closeness, Dict.keys]⟩
    | cons p t ih =>
      obtain ⟨q, v⟩ := p
      obtain ⟨ks, h1, h2⟩ := ih (fun x hx => hk x (List.mem_cons_of_mem _ hx))
        (fun x hx => hl x (List.mem_cons_of_mem _ hx))
      have hq : q ∈ o.outputs := hk q List.mem_cons_self
      have e2 : closeness o r ((q, v) :: t) = kernel (typ o q) (band o q) ((cell o r q).getD 0) v
          * closeness o r t := by simp [closeness]
      have e3 : contBw ((Dict.keys ((q, v) :: t)).map (kvar o))
          = (match typ o q with | .numerical => band o q | .nominal _ => 1)
            * contBw ((Dict.keys t).map (kvar o)) := by
        rfl
      have e4 : rowKernels (((Dict.keys ((q, v) :: t)).map (kvar o)).zip
            ((Dict.keys ((q, v) :: t)).map (lev o R)))
          ((Dict.keys ((q, v) :: t)).map fun q => (cell o r q).getD 0) (Dict.vals ((q, v) :: t))
          = (kernelValue (kvar o q) (lev o R q) ((cell o r q).getD 0) v).bind fun k => some (k :: ks) := by
        rw [show (Dict.keys ((q, v) :: t)) = q :: Dict.keys t from rfl,
          show (Dict.vals ((q, v) :: t)) = v :: Dict.vals t from rfl]
        simp only [List.map_cons, List.zip_cons_cons, rowKernels]
        rw [h1]; rfl
      rw [e4, e3, e2]
      cases hty : typ o q with
      | numerical =>
        have hb := hV.numerical q hq hty
        have hp : 0 < Real.sqrt (2 * Real.pi) := Real.sqrt_pos.mpr (by positivity)
        unfold kernelValue
        rw [show (kvar o q).type = .numerical from hty]
        refine ⟨_, rfl, ?_⟩
        rw [List.prod_cons, mul_div_mul_comm, h2]
        congr 1
        unfold kernel Rand.normalDensity
        rw [show (kvar o q).h = band o q from rfl, show -(((cell o r q).getD 0) - v) ^ 2 / (band o q ^ 2 * 2)
          = -(v - ((cell o r q).getD 0)) ^ 2 / (2 * band o q ^ 2) by ring]
        field_simp
      | nominal k =>
        obtain ⟨hk2, -, -⟩ := hV.nominal q hq k hty
        have hlev := hl q List.mem_cons_self k hty
        unfold kernelValue
        rw [show (kvar o q).type = .nominal k from hty]
        simp only
        by_cases hc : (cell o r q).getD 0 = v
        · rw [if_pos hc]
          refine ⟨_, rfl, ?_⟩
          rw [List.prod_cons, mul_div_mul_comm, h2]
          unfold kernel
          simp only
          rw [if_pos hc.symm, div_one]
          rfl
        · rw [if_neg hc, if_neg (by omega)]
          refine ⟨_, rfl, ?_⟩
          rw [List.prod_cons, mul_div_mul_comm, h2]
          unfold kernel
          simp only
          rw [if_neg (Ne.symm hc), div_one, hlev]
          rfl
  obtain ⟨ks, h1, h2⟩ := key
  rw [h1, Option.map_some, h2]

/-- The kernels of some rows. -/
theorem gpke_eq (hV : Valid o) {R : List Row} {d : Dict Col ℝ}
    (hk : ∀ q ∈ d.keys, q ∈ o.outputs) (hl : Levels o R d.keys) :
    gpke (d.keys.map (kvar o)) (R.map fun r => d.keys.map fun q => (cell o r q).getD 0) d.vals
      = some (R.map fun r => closeness o r d) := by
  unfold gpke
  rw [List.length_map, columnLevels_eq, List.mapM_map]
  exact MvRows.mapM_some fun r _ => rowKernels_eq hV hk hl r

theorem kernel_pos (hV : Valid o) {q : Col} (hq : q ∈ o.outputs) (c v : ℝ) :
    0 < kernel (typ o q) (band o q) c v := by
  unfold kernel
  split
  · next h => exact Rand.normalDensity_pos _ (hV.numerical q hq h) _
  · next k h =>
    obtain ⟨h1, h2, h3⟩ := hV.nominal q hq k h
    split
    · linarith
    · have : (2 : ℝ) ≤ k := by exact_mod_cast h1
      exact div_pos h2 (by linarith)

theorem closeness_pos (hV : Valid o) {d : Dict Col ℝ} (hk : ∀ q ∈ d.keys, q ∈ o.outputs) (r : Row) :
    0 < closeness o r d := by
  unfold closeness
  refine List.prod_pos fun x hx => ?_
  obtain ⟨p, hp, rfl⟩ := List.mem_map.mp hx
  exact kernel_pos hV (hk p.1 (List.mem_map_of_mem hp)) _ _

theorem sum_pos_of {R : List Row} {f : Row → ℝ} (hR : R ≠ []) (hf : ∀ r, 0 < f r) :
    0 < (R.map f).sum := by
  refine List.sum_pos _ (fun x hx => ?_) (by simpa using hR)
  obtain ⟨r, -, rfl⟩ := List.mem_map.mp hx
  exact hf r

theorem closeness_append (r : Row) (d e : Dict Col ℝ) :
    closeness o r (d ++ e) = closeness o r d * closeness o r e := by
  unfold closeness
  rw [List.map_append, List.prod_append]

theorem closeness_perm {d e : Dict Col ℝ} (h : d.Perm e) (r : Row) :
    closeness o r d = closeness o r e := (h.map _).prod_eq

theorem exemplars_perm {qs qs' : List Col} (h : ∀ q, q ∈ qs ↔ q ∈ qs') :
    Spec.Kde.exemplars o qs = Spec.Kde.exemplars o qs' := by
  unfold Spec.Kde.exemplars Mv.exemplars
  refine List.filter_congr fun r _ => ?_
  rw [Bool.eq_iff_iff, List.all_eq_true, List.all_eq_true]
  exact ⟨fun hh q hq => hh q ((h q).mpr hq), fun hh q hq => hh q ((h q).mp hq)⟩

theorem mixture_perm {T T' C C' : Dict Col ℝ} (h1 : T.Perm T') (h2 : C.Perm C') :
    mixture o T C = mixture o T' C' := by
  have hk : ∀ q, q ∈ T.keys ++ C.keys ↔ q ∈ T'.keys ++ C'.keys := fun q =>
    ((h1.map Prod.fst).append (h2.map Prod.fst)).mem_iff
  unfold mixture
  rw [exemplars_perm hk]
  simp only [closeness_perm h1, closeness_perm h2]

theorem mixture_pos (hV : Valid o) {T C : Dict Col ℝ} (hT : ∀ q ∈ T.keys, q ∈ o.outputs)
    (hC : ∀ q ∈ C.keys, q ∈ o.outputs) (hR : Spec.Kde.exemplars o (T.keys ++ C.keys) ≠ []) :
    0 < mixture o T C := by
  unfold mixture
  exact div_pos (sum_pos_of hR fun r => mul_pos (closeness_pos hV hC r) (closeness_pos hV hT r))
    (sum_pos_of hR fun r => closeness_pos hV hC r)

theorem seen_exemplars {all qs : List Col} (hs : Seen o all qs) {q : Col} (hq : q ∈ qs) {k : Nat}
    (hk : typ o q = .nominal k) (h0 : 0 < k) : Spec.Kde.exemplars o all ≠ [] := by
  obtain ⟨r, hr, -⟩ := hs q hq k hk 0 h0
  exact List.ne_nil_of_mem hr

/-- The density that statsmodels computes is that of the specification. -/
theorem density_eq (hV : Valid o) {T C : Dict Col ℝ} (hT : ∀ q ∈ T.keys, q ∈ o.outputs)
    (hC : ∀ q ∈ C.keys, q ∈ o.outputs) (hs : Seen o (T.keys ++ C.keys) (T.keys ++ C.keys))
    (hR : Spec.Kde.exemplars o (T.keys ++ C.keys) ≠ [])
    (hn : C = [] → T.length < (Spec.Kde.exemplars o T.keys).length) :
    o.density T C = .ok (some (mixture o T C)) := by
  have hl := levels_of_seen hV (fun q hq => by
    rcases List.mem_append.mp hq with h | h
    · exact hT q h
    · exact hC q h) (fun q hq => hq) hs
  unfold density
  by_cases he : C = []
  · subst he
    have e0 : Spec.Kde.exemplars o (T.keys ++ Dict.keys ([] : Dict Col ℝ)) = Spec.Kde.exemplars o T.keys := by
      simp [Dict.keys]
    have hl' : Levels o (Spec.Kde.exemplars o T.keys) T.keys := fun q hq k hk => by
      rw [← e0]; exact hl q (List.mem_append_left _ hq) k hk
    rw [if_pos (by rfl), dataset_ok hV hT, vars_ok hV hT]
    change pdf _ _ _ = _
    unfold pdf
    rw [List.length_map, List.length_map, if_neg (by
      have := hn rfl
      simp only [Dict.keys, List.length_map] at this ⊢
      omega), gpke_eq hV hT hl', Option.map_some]
    unfold mixture
    rw [e0]
    have e1 : ∀ r, closeness o r ([] : Dict Col ℝ) = 1 := fun r => rfl
    simp only [e1, one_mul]
    simp
  · rw [if_neg (by simpa using he), dataset_ok hV (fun q hq => by
      rcases List.mem_append.mp hq with h | h
      · exact hT q h
      · exact hC q h), vars_ok hV hT, vars_ok hV hC]
    change Except.ok (pdfGiven _ _ _ _ _) = _
    unfold pdfGiven
    have h1 := gpke_eq (d := T ++ C) hV (R := Spec.Kde.exemplars o (T.keys ++ C.keys)) (fun q hq => by
      rw [show (T ++ C).keys = T.keys ++ C.keys from List.map_append] at hq
      rcases List.mem_append.mp hq with h | h
      · exact hT q h
      · exact hC q h) (by
      rw [show (T ++ C).keys = T.keys ++ C.keys from List.map_append]; exact hl)
    rw [show (T ++ C).keys = T.keys ++ C.keys from List.map_append,
      show (T ++ C).vals = T.vals ++ C.vals from List.map_append] at h1
    have h2 := gpke_eq (d := C) hV (R := Spec.Kde.exemplars o (T.keys ++ C.keys)) hC
      (fun q hq => hl q (List.mem_append_right _ hq))
    have e1 : ((Spec.Kde.exemplars o (T.keys ++ C.keys)).map fun r =>
          (T.keys ++ C.keys).map fun q => (cell o r q).getD 0).map
          (·.drop (T.keys.map (kvar o)).length)
        = (Spec.Kde.exemplars o (T.keys ++ C.keys)).map fun r =>
          C.keys.map fun q => (cell o r q).getD 0 := by
      rw [List.map_map]
      refine List.map_congr_left fun r _ => ?_
      rw [Function.comp_apply, List.map_append, List.length_map]
      exact List.drop_left' (by simp)
    rw [← List.map_append, h1, e1, h2]
    simp only
    rw [if_neg (sum_pos_of hR fun r => closeness_pos hV hC r).ne']
    unfold mixture
    simp only [closeness_append]
    congr 5
    funext r
    rw [mul_comm]

end Cgpm.Kde
