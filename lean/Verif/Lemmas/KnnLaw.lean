import Verif.Lemmas.KnnNear
import Verif.Lemmas.LogSpace

/-!
The local models of a nearest neighbour model: their densities and their samples.
-/
namespace Cgpm.Knn
open Cgpm Cgpm.Spec Cgpm.Spec.Knn MeasureTheory

variable {o : Knn} {kd : Tree}

/-! ### Logarithms -/

theorem isLog_logOf {p : ℝ} (hp : 0 ≤ p) : IsLog (logOf p) p ∧ logOf p ≠ .pinf := by
  unfold logOf IsLog
  by_cases h : 0 < p
  · rw [if_pos h]
    refine ⟨⟨by simp, ?_⟩, by simp⟩
    simp [Props.mass, Real.exp_log h]
  · rw [if_neg h]
    refine ⟨⟨by simp, ?_⟩, by simp⟩
    rw [le_antisymm (not_lt.mp h) hp]
    simp [Props.mass]

theorem isLog_flSum {ι : Type} (l : List ι) {p : ι → ℝ} (hp : ∀ i ∈ l, 0 ≤ p i) :
    IsLog (flSum (l.map fun i => logOf (p i))) (l.map p).prod ∧
      flSum (l.map fun i => logOf (p i)) ≠ .pinf := by
  have key : ∀ (l : List ι) (a : Fl) (x : ℝ), (∀ i ∈ l, 0 ≤ p i) → 0 ≤ x → IsLog a x → a ≠ .pinf →
      IsLog ((l.map fun i => logOf (p i)).foldl Fl.add a) (x * (l.map p).prod) ∧
        (l.map fun i => logOf (p i)).foldl Fl.add a ≠ .pinf := by
    intro l
    induction l with
    | nil => intro a x _ _ h1 h2; simpa using ⟨h1, h2⟩
    | cons i t ih =>
      intro a x hp hx h1 h2
      have hi := isLog_logOf (hp i List.mem_cons_self)
      have := mass_add h1.1 hi.1.1 h2 hi.2
      rw [List.map_cons, List.foldl_cons, List.map_cons, List.prod_cons, ← mul_assoc]
      refine ih _ _ (fun j hj => hp j (List.mem_cons_of_mem _ hj))
        (mul_nonneg hx (hp i List.mem_cons_self)) ⟨this.2.1, ?_⟩ this.2.2
      rw [this.1, h1.2, hi.1.2, ENNReal.ofReal_mul hx]
  have := key l (.fin 0) 1 hp zero_le_one ⟨by simp, by simp [Props.mass]⟩ (by simp)
  rw [one_mul] at this
  exact this

theorem isLog_average {ι : Type} {l : List ι} (hl : l ≠ []) {a : ι → Fl} {p : ι → ℝ}
    (hp : ∀ i ∈ l, 0 ≤ p i) (ha : ∀ i ∈ l, IsLog (a i) (p i) ∧ a i ≠ .pinf) :
    ∃ s, logsumexp (l.map a) = .ok s ∧
      IsLog (s.sub (.fin (Real.log l.length))) ((l.map p).sum / l.length) := by
  obtain ⟨s, h1, h2, h3⟩ := logsumexp_spec (l := l.map a)
    (fun h => by
      obtain ⟨i, hi, e⟩ := List.mem_map.mp h
      exact (ha i hi).1.1 e)
    (fun h => by
      obtain ⟨i, hi, e⟩ := List.mem_map.mp h.1
      exact (ha i hi).2 e)
  refine ⟨s, h1, ?_⟩
  have ht : Props.total (l.map a) = ENNReal.ofReal (l.map p).sum := by
    clear h1 h3 hl
    unfold Props.total
    induction l with
    | nil => simp
    | cons i t ih =>
      simp only [List.map_cons, List.sum_cons]
      rw [ih (fun j hj => hp j (List.mem_cons_of_mem _ hj))
        (fun j hj => ha j (List.mem_cons_of_mem _ hj)), (ha i List.mem_cons_self).1.2,
        ENNReal.ofReal_add (hp i List.mem_cons_self)]
      refine List.sum_nonneg fun x hx => ?_
      obtain ⟨j, hj, rfl⟩ := List.mem_map.mp hx
      exact hp j (List.mem_cons_of_mem _ hj)
  have hlen : (0 : ℝ) < l.length := by exact_mod_cast List.length_pos_of_ne_nil hl
  have hm := mass_sub_fin (Real.log l.length) h2
  refine ⟨hm.2, ?_⟩
  have e := hm.1
  rw [Real.exp_log hlen, h3, ht] at e
  rw [ENNReal.ofReal_div_of_pos hlen, ← e, ENNReal.mul_div_cancel_right]
  · exact (ENNReal.ofReal_pos.mpr hlen).ne'
  · exact ENNReal.ofReal_ne_top

/-! ### One variable -/

theorem localDensity_nonneg (t : KType) (l : List ℝ) (x : ℝ) : 0 ≤ localDensity t l x := by
  unfold localDensity
  cases t with
  | numerical => exact (Rand.normalDensity_pos _ (lt_max_of_lt_right (by norm_num)) x).le
  | nominal k => positivity

open Classical in
theorem localDensity_nominal (k : Nat) (l : List ℝ) (x : ℝ) :
    localDensity (.nominal k) l x = (l.countP (· = x) : ℝ) / l.length := by
  unfold localDensity
  rfl

/-- The local model of values. -/
noncomputable def localOf (t : KType) (l : List ℝ) : Local :=
  match t with
  | .numerical => .normal (average l) (max (spread l) (1 / 100))
  | .nominal k => .freq ((List.range k).map fun j : Nat => localDensity (.nominal k) l j)

open Classical in
theorem countP_floor {k : Nat} {l : List ℝ} (hl : ∀ v ∈ l, Kde.Sensible (.nominal k) v) (j : Nat) :
    (l.filter fun v => ⌊v⌋₊ = j).length = l.countP (· = (j : ℝ)) := by
  rw [← List.countP_eq_length_filter]
  refine List.countP_congr fun v hv => ?_
  obtain ⟨i, -, rfl⟩ := hl v hv k rfl
  simp

open Classical in
theorem sum_countP {k : Nat} {l : List ℝ} (hl : ∀ v ∈ l, Kde.Sensible (.nominal k) v) :
    ((List.range k).map fun j : Nat => l.countP (· = (j : ℝ))).sum = l.length := by
  induction l with
  | nil => simp
  | cons v t ih =>
    have h1 := ih fun w hw => hl w (List.mem_cons_of_mem _ hw)
    obtain ⟨i, hi, rfl⟩ := hl v List.mem_cons_self k rfl
    simp only [List.countP_cons, List.length_cons]
    rw [List.sum_map_add, h1]
    congr 1
    rw [← List.sum_toFinset _ List.nodup_range, List.toFinset_range]
    simp only [decide_eq_true_eq, Nat.cast_inj]
    rw [Finset.sum_ite_eq, if_pos (Finset.mem_range.mpr hi)]

theorem localModel_eq {t : KType} {l : List ℝ} (hl : ∀ v ∈ l, Kde.Sensible t v) :
    localModel t l = .ok (localOf t l) := by
  classical
  cases t with
  | numerical => rfl
  | nominal k =>
    unfold localModel
    simp only
    rw [if_neg]
    · unfold localOf
      simp only
      congr 2
      rw [List.map_map]
      refine List.map_congr_left fun j _ => ?_
      rw [Function.comp_apply, localDensity_nominal]
      congr 1
      · exact_mod_cast countP_floor hl j
      · have h1 : ((List.range k).map fun j => (l.filter fun v => ⌊v⌋₊ = j).length)
            = (List.range k).map fun j : Nat => l.countP (· = (j : ℝ)) :=
          List.map_congr_left fun j _ => countP_floor hl j
        have := sum_countP hl
        rw [← h1] at this
        exact_mod_cast this
    · rintro ⟨v, hv, h⟩
      obtain ⟨i, hi, rfl⟩ := hl v hv k rfl
      exact h ⟨by positivity, by exact_mod_cast hi⟩

theorem logpdf_localOf {t : KType} (l : List ℝ) {x : ℝ} (hx : Kde.Sensible t x) :
    (localOf t l).logpdf x = .ok (logOf (localDensity t l x)) := by
  cases t with
  | numerical =>
    have hs : (0 : ℝ) < max (spread l) (1 / 100) := lt_max_of_lt_right (by norm_num)
    have hpi : 0 < Real.sqrt (2 * Real.pi) := Real.sqrt_pos.mpr (by positivity)
    unfold localOf Local.logpdf logOf localDensity
    simp only
    rw [if_pos (Rand.normalDensity_pos _ hs x)]
    unfold Rand.normalDensity
    rw [Real.log_div (Real.exp_pos _).ne' (mul_pos hs hpi).ne', Real.log_exp]
  | nominal k =>
    obtain ⟨j, hj, rfl⟩ := hx k rfl
    unfold localOf Local.logpdf
    simp only
    rw [if_neg (by simp), if_pos (by positivity), Int.floor_natCast, Int.toNat_natCast,
      List.getElem?_eq_getElem (by simpa using hj)]
    simp only
    rw [if_neg (by
      rw [not_lt]
      have h0 : (0 : ℝ) ≤ j := by positivity
      simp only [List.length_map, List.length_range]
      have h1 : (0 : ℝ) ≤ k := by positivity
      linarith), List.getElem_map, List.getElem_range]

theorem sum_localDensity {k : Nat} {l : List ℝ} (hl : ∀ v ∈ l, Kde.Sensible (.nominal k) v)
    (h0 : l ≠ []) :
    ((List.range k).map fun j : Nat => localDensity (.nominal k) l j).sum = 1 := by
  classical
  have hlen : (l.length : ℝ) ≠ 0 := by exact_mod_cast (List.length_pos_of_ne_nil h0).ne'
  simp only [localDensity_nominal, div_eq_mul_inv]
  rw [List.sum_map_mul_right]
  have : ((List.range k).map fun j : Nat => (l.countP (· = (j : ℝ)) : ℝ)).sum = l.length := by
    rw [← sum_countP hl, Nat.cast_list_sum, List.map_map]
    rfl
  rw [this, mul_inv_cancel₀ hlen]

theorem expect_localOf {t : KType} {l : List ℝ} (hl : ∀ v ∈ l, Kde.Sensible t v) (h0 : l ≠ [])
    (g : ℝ → ℝ) :
    Rand.expect g (localOf t l).simulate = Spec.Kde.over t fun x => localDensity t l x * g x := by
  cases t with
  | numerical => rfl
  | nominal k =>
    unfold localOf Local.simulate
    simp only
    rw [Rand.expect_bind, Rand.expect_draw]
    · rw [List.length_map, List.length_range]
      unfold Spec.Kde.over
      refine Finset.sum_congr rfl fun i hi => ?_
      have hi' := Finset.mem_range.mp hi
      rw [List.getD_eq_getElem _ _ (by simpa using hi'), List.getElem_map, List.getElem_range]
      rfl
    · intro x hx
      obtain ⟨j, -, rfl⟩ := List.mem_map.mp hx
      exact localDensity_nonneg _ _ _
    · exact sum_localDensity hl h0

theorem over_localDensity {t : KType} {l : List ℝ} (hl : ∀ v ∈ l, Kde.Sensible t v) (h0 : l ≠ []) :
    Spec.Kde.over t (localDensity t l) = 1 := by
  cases t with
  | numerical =>
    exact Rand.integral_normalDensity _ (lt_max_of_lt_right (by norm_num))
  | nominal k =>
    have := sum_localDensity hl h0
    rw [← List.sum_toFinset _ List.nodup_range, List.toFinset_range] at this
    exact this

open Classical in
theorem summable_localDensity (t : KType) (l : List ℝ) {S : Set ℝ} (hS : MeasurableSet S) :
    Kde.Summable t fun x => localDensity t l x * if x ∈ S then 1 else 0 := by
  rintro rfl
  have := (Rand.integrable_normalDensity (average l) (s := max (spread l) (1 / 100))
    (lt_max_of_lt_right (by norm_num))).indicator hS
  refine this.congr (Filter.Eventually.of_forall fun x => ?_)
  change S.indicator _ x = Rand.normalDensity _ _ x * _
  by_cases hx : x ∈ S
  · rw [Set.indicator_of_mem hx, if_pos hx, mul_one]
  · rw [Set.indicator_of_notMem hx, if_neg hx, mul_zero]

/-! ### All targets -/

/-- The joint local model of a locality. -/
noncomputable def jointOf (o : Knn) (T : List Col) (L : List Row) : Dict Col Local :=
  T.map fun q => (q, localOf (typ o q) (values o L q))

/-- The values of a locality are categories where they have to. -/
def Good (o : Knn) (T : List Col) (L : List Row) : Prop :=
  L ≠ [] ∧ ∀ q ∈ T, ∀ r ∈ L, Kde.Sensible (typ o q) (val o r q)

theorem Good.values {T : List Col} {L : List Row} (h : Good o T L) {q : Col} (hq : q ∈ T) :
    (∀ v ∈ values o L q, Kde.Sensible (typ o q) v) ∧ values o L q ≠ [] := by
  refine ⟨fun v hv => ?_, by simpa [Spec.Knn.values] using h.1⟩
  obtain ⟨r, hr, rfl⟩ := List.mem_map.mp hv
  exact h.2 q hq r hr

theorem localJoint_eq {T : List Col} (hk : ∀ q ∈ T, q ∈ o.outputs) {L : List Row} (h : Good o T L) :
    o.localJoint T (L.map fun r => T.map (val o r)) = .ok (jointOf o T L) := by
  unfold localJoint
  rw [if_neg (by simpa using hk)]
  rw [Kde.collect_map (g := fun p => (p.1, localOf (typ o p.1) (values o L p.1)))]
  · congr 1
    unfold jointOf
    rw [show T.zipIdx.map (fun p => (p.1, localOf (typ o p.1) (values o L p.1)))
      = (T.zipIdx.map Prod.fst).map fun q => (q, localOf (typ o q) (values o L q)) by
        rw [List.map_map]; rfl, List.zipIdx_map_fst]
  · rintro ⟨q, i⟩ hp
    have hi := List.mem_zipIdx' hp
    have hvals : ((L.map fun r => T.map (val o r)).map fun row => row.getD i 0) = values o L q := by
      rw [List.map_map]
      unfold Spec.Knn.values
      refine List.map_congr_left fun r _ => ?_
      rw [Function.comp_apply, List.getD_eq_getElem _ _ (by simpa using hi.1), List.getElem_map,
        ← hi.2]
      rfl
    change (localModel (o.typeAt q) _).map _ = _
    rw [hvals]
    have hq : q ∈ T := by rw [hi.2]; exact List.getElem_mem hi.1
    rw [show o.typeAt q = typ o q from rfl, localModel_eq (h.values hq).1]
    rfl

theorem jointOf_get? {T : List Col} {L : List Row} {q : Col} (hq : q ∈ T) :
    (jointOf o T L).get? q = some (localOf (typ o q) (values o L q)) := by
  unfold jointOf
  induction T with
  | nil => cases hq
  | cons a t ih =>
    rw [List.map_cons]
    unfold Dict.get?
    by_cases h : a = q
    · subst h; rw [if_pos rfl]
    · rw [if_neg h]
      rcases List.mem_cons.mp hq with rfl | h'
      · exact absurd rfl h
      · exact ih h'

/-- The density of the targets in a locality. -/
noncomputable def dens (o : Knn) (T : Dict Col ℝ) (L : List Row) : ℝ :=
  (T.map fun p => localDensity (typ o p.1) (values o L p.1) p.2).prod

theorem dens_nonneg (T : Dict Col ℝ) (L : List Row) : 0 ≤ dens o T L := by
  refine List.prod_nonneg fun x hx => ?_
  obtain ⟨p, -, rfl⟩ := List.mem_map.mp hx
  exact localDensity_nonneg _ _ _

theorem jointLogpdf_eq {T : Dict Col ℝ} (hT : T.keys.Nodup) (hp : Proper o T) (L : List Row) :
    ∃ a, jointLogpdf (jointOf o T.keys L) T = .ok a ∧ IsLog a (dens o T L) ∧ a ≠ .pinf := by
  unfold jointLogpdf
  rw [Kde.collect_map (g := fun p => logOf (localDensity (typ o p.1) (values o L p.1) p.2))]
  · refine ⟨_, rfl, ?_⟩
    exact isLog_flSum T fun p _ => localDensity_nonneg _ _ _
  · rintro ⟨q, x⟩ hmem
    have hq : q ∈ T.keys := List.mem_map_of_mem (f := Prod.fst) hmem
    rw [jointOf_get? hq]
    exact logpdf_localOf _ fun k hk => hp (q, x) hmem k hk

open Classical in
/-- The probability that a sample of a locality lies in a box. -/
noncomputable def boxIn (o : Knn) (T : List Col) (S : Col → Set ℝ) (L : List Row) : ℝ :=
  (T.map fun q => Spec.Kde.over (typ o q) fun x =>
    localDensity (typ o q) (values o L q) x * if x ∈ S q then 1 else 0).prod

open Classical in
theorem expect_jointSimulate {T : List Col} (hT : T.Nodup) {L : List Row} (h : Good o T L)
    (S : Col → Set ℝ) :
    Rand.expect (fun d => if Mv.InBox T S d then 1 else 0) (jointSimulate (jointOf o T L) T)
      = boxIn o T S L := by
  unfold jointSimulate
  rw [Rand.expect_bind]
  rw [Rand.expect_always (Rand.always_traverse _)
    (h := Rand.prodFn (T.map fun q x => if x ∈ S q then 1 else 0)) fun xs hxs => by
      change (if Mv.InBox T S (Dict.update [] (T.zip xs)) then (1 : ℝ) else 0) = _
      rw [Kde.zip_append_nodup hT, Kde.inBox_zip T S hxs],
    Rand.expect_traverse, List.map_map]
  have := Kde.prodFn_zip (fun q a => Rand.expect (fun x => if x ∈ S q then (1 : ℝ) else 0)
    (match (jointOf o T L).get? a with
      | some l => l.simulate
      | none => .raise .keyError)) (fun q : Col => q) T
  rw [List.map_id'] at this
  refine this.trans ?_
  unfold boxIn
  congr 1
  refine List.map_congr_left fun q hq => ?_
  rw [jointOf_get? hq]
  exact expect_localOf (h.values hq).1 (h.values hq).2 _

open Classical in
/-- The probability of a box under the mixture. -/
theorem total_box {T : List Col} {Ls : List (List Row)} {S : Col → Set ℝ}
    (hS : ∀ q, MeasurableSet (S q)) :
    Spec.Kde.total (typ o) T (fun d => mixture o Ls d * if Mv.InBox T S d then 1 else 0)
      = (Ls.map (boxIn o T S)).sum / Ls.length := by
  have key := Kde.total_mixture (typ := typ o) (T := T) Ls (fun _ => ((Ls.length : ℝ))⁻¹)
    (φ := fun L q x => localDensity (typ o q) (values o L q) x * if x ∈ S q then 1 else 0)
    fun L _ q _ => summable_localDensity _ _ (hS q)
  rw [show (Ls.map (boxIn o T S)).sum / Ls.length
    = (Ls.map fun L => ((Ls.length : ℝ))⁻¹ * boxIn o T S L).sum by
      rw [List.sum_map_mul_left, div_eq_mul_inv, mul_comm]]
  unfold boxIn
  rw [← key]
  refine Kde.total_congr fun d hd => ?_
  have hm : mixture o Ls d = (Ls.map fun L => ((Ls.length : ℝ))⁻¹ * dens o d L).sum := by
    rw [List.sum_map_mul_left, mul_comm, ← div_eq_mul_inv]
    rfl
  rw [hm, ← List.sum_map_mul_right]
  congr 1
  refine List.map_congr_left fun L _ => ?_
  rw [mul_assoc]
  congr 1
  unfold dens
  have hbox : (if Mv.InBox T S d then (1 : ℝ) else 0)
      = (d.map fun p => if p.2 ∈ S p.1 then (1 : ℝ) else 0).prod := by
    rw [show Mv.InBox T S d ↔ ∀ p ∈ d, p.2 ∈ S p.1 from ⟨fun hh => hh.2, fun hh => ⟨hd, hh⟩⟩]
    clear hd hm
    induction d with
    | nil => simp
    | cons p t ih =>
      rw [List.map_cons, List.prod_cons, ← ih, List.forall_mem_cons]
      by_cases h1 : p.2 ∈ S p.1
      · simp [h1]
      · simp [h1]
  rw [hbox, ← List.prod_map_mul]

end Cgpm.Knn
