import Verif.Lemmas.Kde
import Mathlib.MeasureTheory.Integral.IntegrableOn

/-!
Sums over assignments, and the law of the samples of a kernel density estimate.
-/
namespace Cgpm.Rand
open Cgpm

variable {α β : Type}

/-- Every answer of the program satisfies `P`. -/
def Always (P : α → Prop) : Rand α → Prop
  | pure a => P a
  | raise _ => True
  | choice _ k => ∀ i, Always P (k i)
  | normal _ _ k => ∀ x, Always P (k x)

theorem expect_always {P : α → Prop} {g h : α → ℝ} {m : Rand α} (hm : Always P m)
    (e : ∀ a, P a → g a = h a) : expect g m = expect h m := by
  induction m with
  | pure a => exact e a hm
  | raise e => rfl
  | choice p k ih =>
    unfold expect
    exact Finset.sum_congr rfl fun i _ => by rw [ih i (hm i)]
  | normal a b k ih =>
    unfold expect
    congr 1
    funext x
    rw [ih x (hm x)]

theorem Always.mono {P Q : α → Prop} {m : Rand α} (hm : Always P m) (h : ∀ a, P a → Q a) :
    Always Q m := by
  induction m with
  | pure a => exact h a hm
  | raise e => trivial
  | choice p k ih => exact fun i => ih i (hm i)
  | normal a b k ih => exact fun x => ih x (hm x)

theorem Always.bind {P : α → Prop} {Q : β → Prop} {m : Rand α} {f : α → Rand β} (hm : Always P m)
    (h : ∀ a, P a → Always Q (f a)) : Always Q (m.bind f) := by
  induction m with
  | pure a => exact h a hm
  | raise e => trivial
  | choice p k ih => exact fun i => ih i (hm i)
  | normal a b k ih => exact fun x => ih x (hm x)

theorem always_true (m : Rand α) : Always (fun _ => True) m := by
  induction m with
  | pure a => trivial
  | raise e => trivial
  | choice p k ih => exact ih
  | normal a b k ih => exact ih

theorem always_traverse {f : α → Rand β} (l : List α) :
    Always (fun bs : List β => bs.length = l.length) (traverse f l) := by
  induction l with
  | nil => rfl
  | cons a t ih =>
    unfold traverse
    refine (always_true _).bind fun b _ => ih.bind fun bs h => ?_
    change (b :: bs).length = _
    rw [List.length_cons, h, List.length_cons]

/-- Independent draws from one distribution. -/
theorem expect_draws {p : List ℝ} (h0 : ∀ x ∈ p, 0 ≤ x) (h1 : p.sum = 1)
    (hs : List (Nat → ℝ)) :
    expect (prodFn hs) (traverse (fun _ => draw p) (List.range hs.length))
      = (hs.map fun h => ∑ i ∈ Finset.range p.length, p.getD i 0 * h i).prod := by
  rw [expect_traverse]
  have key : ∀ (gs : List (ℝ)) (l : List Nat), l.length = gs.length →
      prodFn (gs.map fun g (_ : Nat) => g) l = gs.prod := by
    intro gs
    induction gs with
    | nil => intro l hl; cases l with | nil => rfl | cons _ _ => simp at hl
    | cons g gs ih =>
      intro l hl
      cases l with
      | nil => simp at hl
      | cons a t =>
        rw [List.map_cons, prodFn_cons, ih t (by simpa using hl), List.prod_cons]
  have := key (hs.map fun h => expect h (draw p)) (List.range hs.length) (by simp)
  rw [List.map_map] at this
  rw [show (hs.map fun g (_ : Nat) => expect g (draw p))
    = hs.map ((fun g (_ : Nat) => g) ∘ fun h => expect h (draw p)) from rfl, this]
  congr 1
  exact List.map_congr_left fun h _ => expect_draw h0 h1 h

end Cgpm.Rand

namespace Cgpm.Kde
open Cgpm Cgpm.Spec Cgpm.Spec.Kde MeasureTheory

/-! ### Sums over assignments -/

/-- `g` can be summed over the values of a variable. -/
def Summable (t : KType) (g : ℝ → ℝ) : Prop := t = .numerical → Integrable g

theorem over_congr (t : KType) {f g : ℝ → ℝ} (h : ∀ x, f x = g x) : over t f = over t g := by
  rw [funext h]

theorem over_mul_const (t : KType) (g : ℝ → ℝ) (c : ℝ) : (over t fun x => g x * c) = over t g * c := by
  unfold over
  cases t with
  | numerical => exact integral_mul_const c g
  | nominal k => exact (Finset.sum_mul ..).symm

theorem over_const_mul (t : KType) (c : ℝ) (g : ℝ → ℝ) : (over t fun x => c * g x) = c * over t g := by
  rw [mul_comm, ← over_mul_const]
  exact over_congr t fun x => mul_comm _ _

theorem over_sum {ι : Type} (t : KType) (R : List ι) {g : ι → ℝ → ℝ}
    (hg : ∀ r ∈ R, Summable t (g r)) :
    (over t fun x => (R.map fun r => g r x).sum) = (R.map fun r => over t (g r)).sum := by
  cases t with
  | numerical =>
    unfold over
    simp only
    induction R with
    | nil => simp
    | cons r R ih =>
      simp only [List.map_cons, List.sum_cons]
      have h1 : Integrable (g r) := hg r List.mem_cons_self rfl
      have h2 : ∀ R' : List ι, (∀ r ∈ R', Summable .numerical (g r)) →
          Integrable fun x => (R'.map fun r => g r x).sum := by
        intro R' h
        induction R' with
        | nil => simp
        | cons a t iht =>
          simp only [List.map_cons, List.sum_cons]
          exact (h a List.mem_cons_self rfl).add (iht fun r hr => h r (List.mem_cons_of_mem _ hr))
      rw [integral_add h1 (h2 R fun r hr => hg r (List.mem_cons_of_mem _ hr)),
        ih fun r hr => hg r (List.mem_cons_of_mem _ hr)]
  | nominal k =>
    unfold over
    simp only
    induction R with
    | nil => simp
    | cons r R ih =>
      simp only [List.map_cons, List.sum_cons, Finset.sum_add_distrib]
      rw [ih fun r hr => hg r (List.mem_cons_of_mem _ hr)]

theorem total_congr {typ : Col → KType} {T : List Col} {f g : Dict Col ℝ → ℝ}
    (h : ∀ d : Dict Col ℝ, d.keys = T → f d = g d) : total typ T f = total typ T g := by
  induction T generalizing f g with
  | nil => exact h [] rfl
  | cons q T ih =>
    unfold total
    refine over_congr _ fun x => ih fun d hd => h _ ?_
    change q :: d.keys = _
    rw [hd]

/-- The sum of a mixture of products. -/
theorem total_mixture {ι : Type} {typ : Col → KType} {T : List Col} (R : List ι) (a : ι → ℝ)
    {φ : ι → Col → ℝ → ℝ} (hφ : ∀ r ∈ R, ∀ q ∈ T, Summable (typ q) (φ r q)) :
    total typ T (fun d => (R.map fun r => a r * (d.map fun p => φ r p.1 p.2).prod).sum)
      = (R.map fun r => a r * (T.map fun q => over (typ q) (φ r q)).prod).sum := by
  induction T generalizing a with
  | nil => rfl
  | cons q T ih =>
    unfold total
    have h1 : ∀ x, total typ T (fun d => (R.map fun r =>
        a r * (((q, x) :: d).map fun p => φ r p.1 p.2).prod).sum)
        = (R.map fun r => φ r q x * (a r * (T.map fun q => over (typ q) (φ r q)).prod)).sum := by
      intro x
      have := ih (fun r => a r * φ r q x) fun r hr q' hq' => hφ r hr q' (List.mem_cons_of_mem _ hq')
      rw [show (R.map fun r => φ r q x * (a r * (T.map fun q => over (typ q) (φ r q)).prod))
        = R.map fun r => a r * φ r q x * (T.map fun q => over (typ q) (φ r q)).prod from
          List.map_congr_left fun r _ => by ring, ← this]
      refine total_congr fun d _ => ?_
      congr 1
      refine List.map_congr_left fun r _ => ?_
      rw [List.map_cons, List.prod_cons]
      ring
    rw [over_congr _ h1, over_sum]
    · congr 1
      refine List.map_congr_left fun r _ => ?_
      rw [over_mul_const, List.map_cons, List.prod_cons]
      ring
    · intro r hr ht
      exact (hφ r hr q List.mem_cons_self ht).mul_const _

/-! ### Kernels -/

/-- A value that a variable can have. -/
def Sensible (t : KType) (c : ℝ) : Prop := ∀ k, t = .nominal k → ∃ j : Nat, j < k ∧ c = j

/-- A bandwidth that is proper for a type. -/
def ProperBw (t : KType) (h : ℝ) : Prop :=
  match t with
  | .numerical => 0 < h
  | .nominal k => 2 ≤ k ∧ 0 < h ∧ h < 1

theorem kernel_nominal (k : Nat) (h c v : ℝ) [Decidable (v = c)] :
    kernel (.nominal k) h c v = if v = c then 1 - h else h / ((k : ℝ) - 1) := by
  unfold kernel
  simp only
  congr

theorem sum_kernel {k : Nat} (h : ℝ) {j : Nat} (hk : 2 ≤ k) (hj : j < k) (l : ℝ) (hl : l ≠ 1) :
    ∑ i ∈ Finset.range k, (if (i : ℝ) = (j : ℝ) then 1 - h else h / (l - 1))
      = 1 - h + ((k : ℝ) - 1) * h / (l - 1) := by
  rw [← Finset.add_sum_erase _ _ (Finset.mem_range.mpr hj), if_pos rfl]
  rw [Finset.sum_congr rfl (g := fun _ => h / (l - 1)) fun i hi => by
    rw [if_neg fun e => (Finset.mem_erase.mp hi).1 (Nat.cast_injective e)]]
  rw [Finset.sum_const, Finset.card_erase_of_mem (Finset.mem_range.mpr hj), Finset.card_range,
    nsmul_eq_mul, Nat.cast_sub (by omega), Nat.cast_one]
  ring

theorem over_kernel {t : KType} {h c : ℝ} (hb : ProperBw t h) (hc : Sensible t c) :
    over t (kernel t h c) = 1 := by
  cases t with
  | numerical => exact Rand.integral_normalDensity c hb
  | nominal k =>
    obtain ⟨j, hj, rfl⟩ := hc k rfl
    obtain ⟨hk, -, -⟩ := hb
    have h2 : (2 : ℝ) ≤ k := by exact_mod_cast hk
    unfold over
    simp only [kernel_nominal]
    rw [sum_kernel h hk hj (k : ℝ) (by linarith)]
    have : (k : ℝ) - 1 ≠ 0 := by linarith
    field_simp
    ring

theorem summable_kernel {t : KType} {h : ℝ} (hb : ProperBw t h) (c : ℝ) :
    Summable t (kernel t h c) := by
  rintro rfl
  exact Rand.integrable_normalDensity c hb

open Classical in
theorem summable_kernel_box {t : KType} {h : ℝ} (hb : ProperBw t h) (c : ℝ) {S : Set ℝ}
    (hS : MeasurableSet S) : Summable t fun x => kernel t h c x * if x ∈ S then 1 else 0 := by
  rintro rfl
  have := (Rand.integrable_normalDensity c hb).indicator hS
  refine this.congr (Filter.Eventually.of_forall fun x => ?_)
  change S.indicator (Rand.normalDensity c h) x = Rand.normalDensity c h x * _
  by_cases hx : x ∈ S
  · rw [Set.indicator_of_mem hx, if_pos hx, mul_one]
  · rw [Set.indicator_of_notMem hx, if_neg hx, mul_zero]

/-- A draw from a kernel has its law. -/
theorem expect_simulateKernel {v : KVar} (hb : ProperBw v.type v.h) {c : ℝ}
    (hc : Sensible v.type c) (g : ℝ → ℝ) :
    Rand.expect g (simulateKernel v c) = over v.type fun x => kernel v.type v.h c x * g x := by
  obtain ⟨t, h⟩ := v
  cases t with
  | numerical => rfl
  | nominal k =>
    obtain ⟨hk, h0, h1⟩ := hb
    have hk2 : (2 : ℝ) ≤ k := by exact_mod_cast hk
    obtain ⟨j, hj, rfl⟩ := hc k rfl
    unfold simulateKernel
    simp only
    have hsum : ((List.range k).map fun s : Nat =>
        if (s : ℝ) = (j : ℝ) then 1 - h else h / ((k : ℝ) - 1)).sum = 1 := by
      rw [← List.sum_toFinset _ List.nodup_range, List.toFinset_range,
        sum_kernel h hk hj (k : ℝ) (by linarith)]
      have : (k : ℝ) - 1 ≠ 0 := by linarith
      field_simp
      ring
    rw [if_neg (by omega), if_neg (by simpa using hsum), Rand.expect_bind, Rand.expect_draw]
    · rw [List.length_map, List.length_range]
      unfold over
      refine Finset.sum_congr rfl fun i hi => ?_
      have hi' := Finset.mem_range.mp hi
      rw [List.getD_eq_getElem _ _ (by simpa using hi'), List.getElem_map, List.getElem_range]
      change _ = kernel (.nominal k) h j i * g i
      rw [kernel_nominal]
      rfl
    · intro x hx
      obtain ⟨s, -, rfl⟩ := List.mem_map.mp hx
      split
      · linarith
      · exact div_nonneg h0.le (by linarith)
    · exact hsum

variable {o : Kde}

theorem proper_of_valid (hV : Valid o) {q : Col} (hq : q ∈ o.outputs) :
    ProperBw (typ o q) (band o q) := by
  unfold ProperBw
  split
  · next h => exact hV.numerical q hq h
  · next k h => exact hV.nominal q hq k h

theorem sensible_of_exemplar (hV : Valid o) {qs : List Col} {r : Row}
    (hr : r ∈ Spec.Kde.exemplars o qs) {q : Col} (hq : q ∈ qs) (hk : q ∈ o.outputs) :
    Sensible (typ o q) ((cell o r q).getD 0) := by
  intro k hty
  obtain ⟨v, hv⟩ := Option.isSome_iff_exists.mp
    (List.all_eq_true.mp (List.mem_filter.mp hr).2 q hq)
  rw [show cell o r q = some v from hv]
  exact hV.cells q hk k hty r v hv

open Classical in
/-- The probability that the targets of a sample from the kernels of row `r` lie in a box. -/
noncomputable def boxMass (o : Kde) (T : List Col) (S : Col → Set ℝ) (r : Row) : ℝ :=
  (T.map fun q => over (typ o q) fun x =>
    kernel (typ o q) (band o q) ((cell o r q).getD 0) x * if x ∈ S q then 1 else 0).prod

theorem zip_append_nodup {T : List Col} (hT : T.Nodup) (xs : List ℝ) :
    Dict.update [] (T.zip xs) = T.zip xs := by
  have key : ∀ (l : List (Col × ℝ)) (d : Dict Col ℝ), (d.keys ++ l.map Prod.fst).Nodup →
      Dict.update d l = d ++ l := by
    intro l
    induction l with
    | nil => intro d _; simp [Dict.update]
    | cons p t ih =>
      intro d hd
      have hn : d.get? p.1 = none := by
        rw [Dict.get?_eq_none_iff]
        intro hmem
        have := List.disjoint_of_nodup_append hd hmem
        simp at this
      have hset : d.set p.1 p.2 = d ++ [p] := Dict.set_of_not_mem p.2 hn
      have : Dict.update d (p :: t) = Dict.update (d.set p.1 p.2) t := rfl
      rw [this, hset, ih (d ++ [p]) (by
        simpa [Dict.keys] using hd)]
      simp
  have hsub : ((T.zip xs).map Prod.fst).Sublist T := by
    clear hT
    induction T generalizing xs with
    | nil => simp
    | cons a t ih =>
      cases xs with
      | nil => simp
      | cons x xs => exact (ih xs).cons_cons a
  exact key _ [] (by simpa [Dict.keys] using hsub.nodup hT)

theorem prodFn_zip {α β : Type} (f : α → β → ℝ) (h : α → β) (l : List α) :
    Rand.prodFn (l.map f) (l.map h) = (l.map fun a => f a (h a)).prod := by
  induction l with
  | nil => rfl
  | cons a t ih =>
    simp only [List.map_cons, Rand.prodFn_cons, List.prod_cons, ih]

open Classical in
theorem inBox_zip (T : List Col) (S : Col → Set ℝ) {xs : List ℝ} (h : xs.length = T.length) :
    (if Mv.InBox T S (T.zip xs) then (1 : ℝ) else 0)
      = Rand.prodFn (T.map fun q x => if x ∈ S q then 1 else 0) xs := by
  have hkeys : (T.zip xs).map Prod.fst = T := List.map_fst_zip h.ge
  rw [show Mv.InBox T S (T.zip xs) ↔ ∀ p ∈ T.zip xs, p.2 ∈ S p.1 from
    ⟨fun hh => hh.2, fun hh => ⟨hkeys, hh⟩⟩]
  clear hkeys
  induction T generalizing xs with
  | nil =>
    obtain rfl := List.length_eq_zero_iff.mp h
    simp [Rand.prodFn]
  | cons q T ih =>
    cases xs with
    | nil => simp at h
    | cons x xs =>
      rw [List.map_cons, Rand.prodFn_cons, ← ih (by simpa using h), List.zip_cons_cons,
        List.forall_mem_cons]
      by_cases h1 : x ∈ S q
      · simp [h1]
      · simp [h1]

open Classical in
/-- A sample from the kernels of an exemplar. -/
theorem expect_member (hV : Valid o) {T : List Col} (hT : T.Nodup) (hk : ∀ q ∈ T, q ∈ o.outputs)
    {all : List Col} (hall : ∀ q ∈ T, q ∈ all) {r : Row} (hr : r ∈ Spec.Kde.exemplars o all)
    (S : Col → Set ℝ) :
    Rand.expect (fun d => if Mv.InBox T S d then 1 else 0)
        (o.simulateMember T (T.map fun q => (cell o r q).getD 0))
      = boxMass o T S r := by
  unfold simulateMember
  rw [if_neg (by simp), vars_ok hV hk]
  change Rand.expect _ ((Rand.traverse _ _).bind _) = _
  rw [Rand.expect_bind]
  have hz : (T.map (kvar o)).zip (T.map fun q => (cell o r q).getD 0)
      = T.map fun q => (kvar o q, (cell o r q).getD 0) := by
    rw [List.zip_map']
  rw [Rand.expect_always (Rand.always_traverse _)
    (h := Rand.prodFn (T.map fun q x => if x ∈ S q then 1 else 0)) fun xs hxs => by
      change (if Mv.InBox T S (Dict.update [] (T.zip xs)) then (1 : ℝ) else 0) = _
      rw [zip_append_nodup hT, inBox_zip T S (by rw [hxs, hz, List.length_map])],
    Rand.expect_traverse, hz, List.map_map, prodFn_zip]
  unfold boxMass
  congr 1
  refine List.map_congr_left fun q hq => ?_
  exact expect_simulateKernel (v := kvar o q) (proper_of_valid hV (hk q hq))
    (sensible_of_exemplar hV hr (hall q hq) (hk q hq)) _

theorem sum_range_getD {ι : Type} (R : List ι) (F : ι → ℝ) (G : Nat → ℝ)
    (h : ∀ i (hi : i < R.length), G i = F R[i]) :
    ∑ i ∈ Finset.range R.length, G i = (R.map F).sum := by
  induction R generalizing G with
  | nil => simp
  | cons r R ih =>
    rw [List.length_cons, Finset.sum_range_succ', List.map_cons, List.sum_cons,
      ih (fun i => G (i + 1)) fun i hi => h (i + 1) (by simpa using hi), h 0 (by simp), add_comm]
    rfl

theorem weighted_sum {ι : Type} (R : List ι) (w : ι → ℝ) (h : Nat → ℝ) (H : ι → ℝ) (W : ℝ)
    (hH : ∀ i (hi : i < R.length), h i = H R[i]) :
    ∑ i ∈ Finset.range ((R.map w).map fun x => x / W).length,
        ((R.map w).map fun x => x / W).getD i 0 * h i
      = (R.map fun r => w r * H r).sum / W := by
  rw [List.map_map, List.length_map, sum_range_getD R (fun r => w r * H r / W)]
  · rw [div_eq_mul_inv, ← List.sum_map_mul_right]
    simp only [div_eq_mul_inv]
  · intro i hi
    rw [List.getD_eq_getElem _ _ (by simpa using hi), List.getElem_map, hH i hi, Function.comp_apply]
    ring

/-- The choices of exemplars. -/
theorem expect_pflipMany {ι : Type} (R : List ι) (hR : R ≠ []) {w : ι → ℝ} (hw : ∀ r, 0 < w r)
    (hs : List (Nat → ℝ)) (Hs : List (ι → ℝ))
    (hH : List.Forall₂ (fun h H => ∀ i (hi : i < R.length), h i = H R[i]) hs Hs) :
    Rand.expect (Rand.prodFn hs) (pflipMany hs.length R.length (some (R.map w)))
      = (Hs.map fun H => (R.map fun r => w r * H r).sum / (R.map w).sum).prod := by
  have hpos : 0 < (R.map w).sum := by
    refine List.sum_pos _ (fun x hx => ?_) (by simpa using hR)
    obtain ⟨r, -, rfl⟩ := List.mem_map.mp hx
    exact hw r
  have hprod : (hs.map fun h => ∑ i ∈ Finset.range ((R.map w).map fun x => x / (R.map w).sum).length,
        ((R.map w).map fun x => x / (R.map w).sum).getD i 0 * h i).prod
      = (Hs.map fun H => (R.map fun r => w r * H r).sum / (R.map w).sum).prod := by
    induction hH with
    | nil => rfl
    | cons h _ ih => rw [List.map_cons, List.map_cons, List.prod_cons, List.prod_cons, ih,
        weighted_sum R w _ _ _ h]
  rw [← hprod]
  unfold pflipMany
  by_cases h1 : R.length = 1
  · rw [if_pos h1]
    change Rand.prodFn hs (List.replicate hs.length 0) = _
    rw [Rand.prodFn_const hs (c := 0) (by simp) fun b hb => List.eq_of_mem_replicate hb]
    congr 1
    refine List.map_congr_left fun h _ => ?_
    obtain ⟨r, rfl⟩ := List.length_eq_one_iff.mp h1
    simp [(hw r).ne']
  · rw [if_neg h1]
    simp only
    rw [if_neg hpos.ne', Rand.expect_draws]
    · intro x hx
      obtain ⟨y, hy, rfl⟩ := List.mem_map.mp hx
      obtain ⟨r, -, rfl⟩ := List.mem_map.mp hy
      exact (div_pos (hw r) hpos).le
    · rw [show (fun x : ℝ => x / (R.map w).sum) = fun x => x * ((R.map w).sum)⁻¹ from
        funext fun x => div_eq_mul_inv _ _, List.sum_map_mul_right, List.map_id',
        mul_inv_cancel₀ hpos.ne']

/-- The exemplars and their weights. -/
theorem exemplars_eq (hV : Valid o) {T : List Col} (hT : ∀ q ∈ T, q ∈ o.outputs) {C : Dict Col ℝ}
    (hC : ∀ q ∈ C.keys, q ∈ o.outputs) (hs : Seen o (T ++ C.keys) C.keys) :
    o.exemplars T C = .ok
      ((Spec.Kde.exemplars o (T ++ C.keys)).map fun r => T.map fun q => (cell o r q).getD 0,
        some ((Spec.Kde.exemplars o (T ++ C.keys)).map fun r => closeness o r C)) := by
  unfold exemplars
  by_cases he : C = []
  · subst he
    have e0 : Spec.Kde.exemplars o (T ++ Dict.keys ([] : Dict Col ℝ)) = Spec.Kde.exemplars o T := by
      simp [Dict.keys]
    rw [if_pos (by rfl), dataset_ok hV hT, e0]
    change Except.ok _ = _
    rw [List.length_map]
    congr 3
    have e1 : ∀ r, closeness o r ([] : Dict Col ℝ) = 1 := fun r => rfl
    simp only [e1, List.map_const']
  · have hk : ∀ q ∈ T ++ C.keys, q ∈ o.outputs := fun q hq => by
      rcases List.mem_append.mp hq with h | h
      · exact hT q h
      · exact hC q h
    rw [if_neg (by simpa using he), dataset_ok hV hk, vars_ok hV hC]
    change Except.ok _ = _
    have e1 : ((Spec.Kde.exemplars o (T ++ C.keys)).map fun r =>
          (T ++ C.keys).map fun q => (cell o r q).getD 0).map (·.drop T.length)
        = (Spec.Kde.exemplars o (T ++ C.keys)).map fun r =>
          C.keys.map fun q => (cell o r q).getD 0 := by
      rw [List.map_map]
      refine List.map_congr_left fun r _ => ?_
      rw [Function.comp_apply, List.map_append]
      exact List.drop_left' (by simp)
    have e2 : ((Spec.Kde.exemplars o (T ++ C.keys)).map fun r =>
          (T ++ C.keys).map fun q => (cell o r q).getD 0).map (·.take T.length)
        = (Spec.Kde.exemplars o (T ++ C.keys)).map fun r =>
          T.map fun q => (cell o r q).getD 0 := by
      rw [List.map_map]
      refine List.map_congr_left fun r _ => ?_
      rw [Function.comp_apply, List.map_append]
      exact List.take_left' (by simp)
    rw [e1, e2, gpke_eq hV hC (levels_of_seen hV hC (fun q hq => List.mem_append_right _ hq) hs)]

open Classical in
/-- The probability of a box under the mixture. -/
theorem total_box (hV : Valid o) {T : List Col} (hT : ∀ q ∈ T, q ∈ o.outputs) (C : Dict Col ℝ)
    {S : Col → Set ℝ} (hS : ∀ q, MeasurableSet (S q)) :
    total (typ o) T (fun d => mixture o d C * if Mv.InBox T S d then 1 else 0)
      = ((Spec.Kde.exemplars o (T ++ C.keys)).map fun r => closeness o r C * boxMass o T S r).sum
        / ((Spec.Kde.exemplars o (T ++ C.keys)).map fun r => closeness o r C).sum := by
  set R := Spec.Kde.exemplars o (T ++ C.keys) with hR
  set W := (R.map fun r => closeness o r C).sum with hW
  have key := total_mixture (typ := typ o) (T := T) R (fun r => closeness o r C / W)
    (φ := fun r q x => kernel (typ o q) (band o q) ((cell o r q).getD 0) x
      * if x ∈ S q then 1 else 0)
    fun r _ q hq => summable_kernel_box (proper_of_valid hV (hT q hq)) _ (hS q)
  rw [show (R.map fun r => closeness o r C * boxMass o T S r).sum / W
    = (R.map fun r => closeness o r C / W * boxMass o T S r).sum by
      rw [div_eq_mul_inv, ← List.sum_map_mul_right]
      congr 1
      refine List.map_congr_left fun r _ => by ring]
  unfold boxMass
  rw [← key]
  refine total_congr fun d hd => ?_
  have hm : mixture o d C = (R.map fun r => closeness o r C / W * closeness o r d).sum := by
    unfold mixture
    rw [hd, ← hR, ← hW, div_eq_mul_inv, ← List.sum_map_mul_right]
    congr 1
    refine List.map_congr_left fun r _ => by ring
  rw [hm, ← List.sum_map_mul_right]
  congr 1
  refine List.map_congr_left fun r _ => ?_
  rw [mul_assoc]
  congr 1
  unfold closeness
  have hbox : (if Mv.InBox T S d then (1 : ℝ) else 0)
      = (d.map fun p => if p.2 ∈ S p.1 then (1 : ℝ) else 0).prod := by
    rw [show Mv.InBox T S d ↔ ∀ p ∈ d, p.2 ∈ S p.1 from ⟨fun hh => hh.2, fun hh => ⟨hd, hh⟩⟩]
    clear hd hm
    induction d with
    | nil => simp
    | cons p t ih =>
      rw [List.map_cons, List.prod_cons, ← ih, List.forall_mem_cons]
      by_cases h1 : p.2 ∈ S p.1
      · simp [h1]
      · simp [h1]
  rw [hbox, ← List.prod_map_mul]

open Classical in
/-- The density of the mixture adds up to one. -/
theorem total_mixture_eq_one (hV : Valid o) {T : List Col} (hT : ∀ q ∈ T, q ∈ o.outputs)
    {C : Dict Col ℝ} (hC : ∀ q ∈ C.keys, q ∈ o.outputs)
    (hne : Spec.Kde.exemplars o (T ++ C.keys) ≠ []) :
    total (typ o) T (fun d => mixture o d C) = 1 := by
  have h := total_box hV hT C (S := fun _ => Set.univ) fun _ => MeasurableSet.univ
  have e : total (typ o) T (fun d => mixture o d C)
      = total (typ o) T (fun d => mixture o d C * if Mv.InBox T (fun _ => Set.univ) d then 1 else 0) :=
    total_congr fun d hd => by
      rw [if_pos ⟨hd, fun _ _ => Set.mem_univ _⟩, mul_one]
  rw [e, h]
  have hb : ∀ r ∈ Spec.Kde.exemplars o (T ++ C.keys), boxMass o T (fun _ => Set.univ) r = 1 := by
    intro r hr
    unfold boxMass
    rw [List.prod_eq_one]
    intro x hx
    obtain ⟨q, hq, rfl⟩ := List.mem_map.mp hx
    simp only [Set.mem_univ, if_true, mul_one]
    exact over_kernel (proper_of_valid hV (hT q hq))
      (sensible_of_exemplar hV hr (List.mem_append_left _ hq) (hT q hq))
  rw [List.map_congr_left fun r hr => by rw [hb r hr, mul_one]]
  exact div_self (sum_pos_of hne fun r => closeness_pos hV hC r).ne'

open Classical in
/-- The members drawn by `simulate` are independent samples from the mixture. -/
theorem expect_members (hV : Valid o) {T : List Col} (hT : T.Nodup)
    (hk : ∀ q ∈ T, q ∈ o.outputs) {C : Dict Col ℝ} (hC : ∀ q ∈ C.keys, q ∈ o.outputs)
    (hne : Spec.Kde.exemplars o (T ++ C.keys) ≠ []) (Ss : List (Col → Set ℝ))
    (hS : ∀ S ∈ Ss, ∀ q, MeasurableSet (S q)) :
    Rand.expect (Rand.prodFn (Ss.map fun S d => if Mv.InBox T S d then 1 else 0))
        ((pflipMany Ss.length (Spec.Kde.exemplars o (T ++ C.keys)).length
          (some ((Spec.Kde.exemplars o (T ++ C.keys)).map fun r => closeness o r C))).bind fun is =>
          Rand.traverse (fun i => o.simulateMember T
            (((Spec.Kde.exemplars o (T ++ C.keys)).map fun r =>
              T.map fun q => (cell o r q).getD 0).getD i [])) is)
      = (Ss.map fun S => total (typ o) T
          fun d => mixture o d C * if Mv.InBox T S d then 1 else 0).prod := by
  rw [Rand.expect_bind]
  simp only [Rand.expect_traverse]
  rw [List.map_map]
  have hlen : Ss.length = (Ss.map ((fun (g : Dict Col ℝ → ℝ) a =>
      Rand.expect g (o.simulateMember T
        (((Spec.Kde.exemplars o (T ++ C.keys)).map fun r =>
          T.map fun q => (cell o r q).getD 0).getD a [])))
      ∘ fun S d => if Mv.InBox T S d then (1 : ℝ) else 0)).length := by simp
  rw [hlen]
  refine (expect_pflipMany _ hne (fun r => closeness_pos hV hC r) _ (Ss.map (boxMass o T)) ?_).trans ?_
  · rw [List.forall₂_map_left_iff, List.forall₂_map_right_iff, List.forall₂_same]
    intro S _ i hi
    rw [Function.comp_apply, List.getD_eq_getElem _ _ (by simpa using hi), List.getElem_map]
    exact expect_member hV hT hk (fun q hq => List.mem_append_left _ hq) (List.getElem_mem hi) S
  · rw [List.map_map]
    congr 1
    refine List.map_congr_left fun S hSm => ?_
    exact (total_box hV hk C (hS S hSm)).symm

theorem simulate_eq (hV : Valid o) (r : Option Row) {T : List Col} {C Ev : Dict Col ℝ}
    (hne : T ≠ []) (hk : ∀ q ∈ T, q ∈ o.outputs) (hd : ∀ q ∈ T, q ∉ C.keys)
    (hEv : o.rows.populate o.outputs r T C = .ok Ev) (hE : ∀ q ∈ Ev.keys, q ∈ o.outputs)
    (hR : Spec.Kde.exemplars o (T ++ Ev.keys) ≠ [])
    (hs : Seen o (T ++ Ev.keys) Ev.keys) (N : Option Nat) :
    o.simulate r T C [] N
      = ((pflipMany (N.getD 1) (Spec.Kde.exemplars o (T ++ Ev.keys)).length
          (some ((Spec.Kde.exemplars o (T ++ Ev.keys)).map fun r => closeness o r Ev))).bind fun is =>
          (Rand.traverse (fun i => o.simulateMember T
            (((Spec.Kde.exemplars o (T ++ Ev.keys)).map fun r =>
              T.map fun q => (cell o r q).getD 0).getD i [])) is).bind fun l =>
          match N with
          | none => .pure (.inl (l.headD []))
          | some _ => .pure (.inr l)) := by
  unfold simulate
  have hN : o.rows.N ≠ 0 := by
    intro h0
    have := hV.count
    rw [h0] at this
    have hdata : o.rows.data = [] := List.length_eq_zero_iff.mp (by exact_mod_cast this.symm)
    refine hR ?_
    unfold Spec.Kde.exemplars Mv.exemplars
    rw [hdata]
    rfl
  rw [if_neg hN, if_neg (by simp), if_neg (by simpa using hne), if_neg (by simpa using hk),
    if_neg (by
      rw [List.any_eq_true]
      rintro ⟨q, hq, h⟩
      exact hd q hq ((Dict.has_iff _ _).mp h)), hEv]
  change Rand.bind (Rand.ofExcept (o.exemplars T Ev)) _ = _
  rw [exemplars_eq hV hk hE hs]
  change Rand.bind (pflipMany _ _ _) _ = _
  rw [List.length_map]
  rfl

end Cgpm.Kde
