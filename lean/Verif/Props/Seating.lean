import Verif.Lemmas.NetSample
import Verif.Model.Seating
import Verif.Spec.Seating
import Mathlib.Algebra.BigOperators.Group.Finset.Basic
import Mathlib.Analysis.SpecialFunctions.Gamma.Basic
import Mathlib.Data.Nat.Choose.Basic

/-!
C90: probabilities of seats, and binomial coefficients.
-/
namespace Cgpm.Props
open Cgpm Cgpm.Seating

theorem mathLog_pos {x : ℝ} (h : 0 < x) : mathLog x = .ok (Real.log x) := if_pos h

theorem npLog_pos {x : ℝ} (h : 0 < x) : npLog x = ((Real.log x : ℝ) : LogP) := if_pos h

theorem pr_npLog {x d : ℝ} (hx : 0 ≤ x) (hd : 0 < d) :
    pr ((npLog x).map fun y => y - Real.log d) = x / d := by
  rcases hx.eq_or_lt with rfl | h
  · simp only [npLog, lt_irrefl, if_false, zero_div]; rfl
  · rw [npLog_pos h]
    show Real.exp (Real.log x - Real.log d) = x / d
    rw [Real.exp_sub, Real.exp_log h, Real.exp_log hd]

theorem gammaln_succ {x : ℝ} (h : 0 < x) : gammaln (x + 1) = Real.log x + gammaln x := by
  unfold gammaln
  rw [Real.Gamma_add_one h.ne', Real.log_mul h.ne' (Real.Gamma_pos_of_pos h).ne']

theorem sum_div_list (l : List ℝ) (d : ℝ) : (l.map fun x => x / d).sum = l.sum / d := by
  induction l with
  | nil => simp
  | cons a t ih => simp only [List.map_cons, List.sum_cons, ih, add_div]

theorem sum_cast_nat (l : List Nat) : (l.map fun c : Nat => (c : ℝ)).sum = (l.sum : Nat) := by
  induction l with
  | nil => simp
  | cons a t ih => simp only [List.map_cons, List.sum_cons, ih, Nat.cast_add]

theorem fresh_eq {Nk : List Nat} {alpha : PyNum} {m : Nat} {a : ℝ} (ha : 0 < alpha.val)
    (h : alpha.div m = .ok a) :
    logpCrpFresh Nk.sum Nk alpha m = .ok ((Nk.map (fun c : Nat => (c : ℝ)) ++ List.replicate m a).map fun x =>
      (npLog x).map fun y => y - Real.log (Nk.sum + alpha.val)) := by
  have hd : 0 < (Nk.sum : ℝ) + alpha.val := by positivity
  simp only [logpCrpFresh, h, mathLog_pos hd]

/-- C90. The probabilities of a fresh customer: with `m` auxiliary tables, each table is joined with
the probability of the process, the auxiliary tables share the probability of a new table evenly, and
the probabilities add up to one. -/
theorem C90_fresh (Nk : List Nat) {alpha : ℝ} (ha : 0 < alpha) {m : Nat} (hm : 0 < m) :
    ∃ l, logpCrpFresh Nk.sum Nk (.float alpha) m = .ok l ∧ l.length = Nk.length + m ∧
      (∀ (t c : Nat), Nk[t]? = some c → (l[t]?).map pr = some (joins alpha Nk.sum c)) ∧
      (∀ j < m, (l[Nk.length + j]?).map pr = some (opens alpha Nk.sum / m)) ∧
      (l.map pr).sum = 1 := by
  have hd : 0 < (Nk.sum : ℝ) + alpha := by positivity
  have hm' : (0 : ℝ) < m := by exact_mod_cast hm
  refine ⟨_, fresh_eq (a := alpha / m) ha (by simp [PyNum.div, hm.ne']), by simp, fun t c ht => ?_,
    fun j hj => ?_, ?_⟩
  · obtain ⟨hlt, rfl⟩ := List.getElem?_eq_some_iff.mp ht
    rw [List.getElem?_map, List.getElem?_append_left (by simpa using hlt), List.getElem?_map, ht]
    exact congrArg some (pr_npLog (Nat.cast_nonneg _) hd)
  · rw [List.getElem?_map, List.getElem?_append_right (by simp), List.length_map,
      Nat.add_sub_cancel_left, List.getElem?_replicate, if_pos hj]
    refine congrArg some ((pr_npLog (by positivity) hd).trans ?_)
    show alpha / m / (Nk.sum + alpha) = _
    unfold opens
    rw [div_div, div_div, mul_comm]
  · rw [List.map_map]
    have : ∀ x ∈ Nk.map (fun c : Nat => (c : ℝ)) ++ List.replicate m (alpha / m),
        (pr ∘ fun x => (npLog x).map fun y => y - Real.log (Nk.sum + (PyNum.float alpha).val)) x
          = x / (Nk.sum + alpha) := by
      intro x hx
      refine pr_npLog ?_ hd
      rcases List.mem_append.mp hx with h | h
      · obtain ⟨c, -, rfl⟩ := List.mem_map.mp h
        exact Nat.cast_nonneg _
      · rw [List.eq_of_mem_replicate h]; positivity
    rw [List.map_congr_left this, sum_div_list, List.sum_append, sum_cast_nat, List.sum_replicate,
      nsmul_eq_mul, mul_div_cancel₀ _ hm'.ne', div_self hd.ne']

/-- C90. FALSE for a concentration that is a Python integer less than the number of auxiliary tables:
integers divide to 0, no new table is ever opened, and the probabilities do not add up to one. -/
theorem C90_integer_violated (Nk : List Nat) {n m : Nat} (hn : 0 < n) (hm : n < m) :
    ∃ l, logpCrpFresh Nk.sum Nk (.int n) m = .ok l ∧
      (∀ j < m, l[Nk.length + j]? = some ⊥) ∧ (l.map pr).sum = 1 - opens n Nk.sum ∧
      (l.map pr).sum < 1 := by
  have hn' : (0 : ℝ) < n := by exact_mod_cast hn
  have hv : (PyNum.int n).val = (n : ℝ) := by simp [PyNum.val]
  have hd : 0 < (Nk.sum : ℝ) + (PyNum.int n).val := by rw [hv]; positivity
  have h0 : ((n : ℤ) / (m : ℤ) : ℤ) = 0 := Int.ediv_eq_zero_of_lt (by positivity) (by exact_mod_cast hm)
  have hdiv : (PyNum.int n).div m = .ok 0 := by
    simp only [PyNum.div, h0, if_neg (show m ≠ 0 by omega), Int.cast_zero]
  have key : (((Nk.map (fun c : Nat => (c : ℝ)) ++ List.replicate m 0).map fun x =>
      (npLog x).map fun y => y - Real.log (Nk.sum + (PyNum.int n).val)).map pr).sum = 1 - opens n Nk.sum := by
    rw [List.map_map]
    have : ∀ x ∈ Nk.map (fun c : Nat => (c : ℝ)) ++ List.replicate m 0,
        (pr ∘ fun x => (npLog x).map fun y => y - Real.log (Nk.sum + (PyNum.int n).val)) x
          = x / (Nk.sum + n) := by
      intro x hx
      rw [← hv]
      refine pr_npLog ?_ hd
      rcases List.mem_append.mp hx with h | h
      · obtain ⟨c, -, rfl⟩ := List.mem_map.mp h
        exact Nat.cast_nonneg _
      · exact (List.eq_of_mem_replicate h).ge
    rw [hv] at hd
    rw [List.map_congr_left this, sum_div_list, List.sum_append, sum_cast_nat, List.sum_replicate,
      nsmul_zero, add_zero, opens, eq_sub_iff_add_eq, ← add_div, div_self hd.ne']
  refine ⟨_, fresh_eq (by rw [hv]; exact hn') hdiv, fun j hj => ?_, key, ?_⟩
  · rw [List.getElem?_map, List.getElem?_append_right (by simp), List.length_map,
      Nat.add_sub_cancel_left, List.getElem?_replicate, if_pos hj]
    simp [npLog]
  · rw [key, opens]
    rw [hv] at hd
    have : 0 < (n : ℝ) / (Nk.sum + n) := div_pos hn' hd
    linarith

/-- C90. The joint probability of a partition grows by the probability of each seat: joining a table,
or opening one. -/
theorem C90_chain (Nk : List Nat) (hpos : ∀ c ∈ Nk, 0 < c) {alpha : ℝ} (ha : 0 < alpha) :
    (∀ (t c : Nat), Nk[t]? = some c → logpCrp (Nk.sum + 1) (Nk.set t (c + 1)) alpha =
      logpCrp Nk.sum Nk alpha + Real.log (joins alpha Nk.sum c)) ∧
    logpCrp (Nk.sum + 1) (Nk ++ [1]) alpha =
      logpCrp Nk.sum Nk alpha + Real.log (opens alpha Nk.sum) ∧
    logpCrp 0 [] alpha = 0 := by
  have hd : 0 < (Nk.sum : ℝ) + alpha := by positivity
  have hN : gammaln (((Nk.sum + 1 : Nat) : ℝ) + alpha) = Real.log (Nk.sum + alpha) + gammaln (Nk.sum + alpha) := by
    rw [← gammaln_succ hd]; congr 1; push_cast; ring
  refine ⟨fun t c ht => ?_, ?_, by simp [logpCrp]⟩
  · obtain ⟨hlt, hc⟩ := List.getElem?_eq_some_iff.mp ht
    have hc0 : (0 : ℝ) < c := by exact_mod_cast hpos c (hc ▸ List.getElem_mem hlt)
    have hs : ((Nk.set t (c + 1)).map fun c : Nat => gammaln (c : ℝ)).sum
        = (Nk.map fun c : Nat => gammaln (c : ℝ)).sum + Real.log c := by
      clear hN hd hpos
      induction Nk generalizing t with
      | nil => simp at hlt
      | cons a l ih =>
        cases t with
        | zero =>
          simp only [List.getElem?_cons_zero, Option.some.injEq] at ht
          subst ht
          simp only [List.set_cons_zero, List.map_cons, List.sum_cons, Nat.cast_add, Nat.cast_one,
            gammaln_succ hc0]
          ring
        | succ t =>
          simp only [List.set_cons_succ, List.map_cons, List.sum_cons]
          rw [ih t (by simpa using ht) (by simpa using hlt) (by simpa using hc)]
          ring
    unfold logpCrp joins
    rw [hN, hs, List.length_set, Real.log_div hc0.ne' hd.ne']
    ring
  · unfold logpCrp opens
    rw [hN, Real.log_div ha.ne' hd.ne']
    simp [gammaln]
    ring

/-- C90. The unnormalised probability differs from the probability by what does not depend on the
concentration. -/
theorem C90_unorm (N : Nat) (Nk : List Nat) (alpha beta : ℝ) :
    logpCrp N Nk alpha - logpCrpUnorm N Nk.length alpha =
      logpCrp N Nk beta - logpCrpUnorm N Nk.length beta := by
  unfold logpCrp logpCrpUnorm
  ring

/-- C90. The binomial coefficient; for `k > n > 0` the call raises ValueError. -/
theorem C90_choose (n k : Nat) :
    (k ≤ n → logNCk n k = .ok (Real.log (n.choose k))) ∧
    (n < k → n ≠ 0 → logNCk n k = .error .valueError) := by
  have hfac : ∀ a : Nat, 0 < a → Real.log a + gammaln a = Real.log (a.factorial : ℝ) := by
    intro a h
    have h' : (0 : ℝ) < a := by exact_mod_cast h
    rw [← gammaln_succ h', gammaln, Real.Gamma_nat_eq_factorial]
  refine ⟨fun h => ?_, fun h h0 => ?_⟩
  · unfold logNCk
    split_ifs with hc
    · rcases hc with rfl | rfl | rfl
      · cases Nat.le_zero.mp h; simp
      · simp
      · simp
    · push Not at hc
      obtain ⟨h1, h2, h3⟩ := hc
      have hk : (0 : ℝ) < k := by exact_mod_cast Nat.pos_of_ne_zero h2
      have hn : (0 : ℝ) < n := by exact_mod_cast Nat.pos_of_ne_zero h1
      have hs : (n : ℝ) - k = ((n - k : Nat) : ℝ) := (Nat.cast_sub h).symm
      have hnk : (0 : ℝ) < (n : ℝ) - k := by rw [hs]; exact_mod_cast (by omega : 0 < n - k)
      simp only [mathLog_pos hk, mathLog_pos hn, mathLog_pos hnk]
      rw [Nat.choose_eq_factorial_div_factorial h,
        Nat.cast_div (Nat.factorial_mul_factorial_dvd_factorial h) (by positivity),
        Real.log_div (by positivity) (by positivity), Nat.cast_mul,
        Real.log_mul (by positivity) (by positivity), ← hfac n (by omega), ← hfac k (by omega),
        ← hfac (n - k) (by omega), hs]
      congr 1
      ring
  · have hk : (0 : ℝ) < k := by exact_mod_cast (by omega : 0 < k)
    have hn : (0 : ℝ) < n := by exact_mod_cast Nat.pos_of_ne_zero h0
    have hnk : ¬ (0 : ℝ) < (n : ℝ) - k := by
      have : (n : ℝ) < k := by exact_mod_cast h
      linarith
    have : mathLog ((n : ℝ) - k) = .error .valueError := if_neg hnk
    unfold logNCk
    rw [if_neg (by omega)]
    simp only [mathLog_pos hk, mathLog_pos hn, this]

/-- C90. FALSE for `n = 0`: no set of `k > 0` elements can be chosen from nothing, but the call
answers with the logarithm of one. -/
theorem C90_choose_violated {k : Nat} (hk : 0 < k) :
    logNCk 0 k = .ok (Real.log 1) ∧ Nat.choose 0 k = 0 := by
  refine ⟨by simp [logNCk], ?_⟩
  obtain ⟨j, rfl⟩ := Nat.exists_eq_succ_of_ne_zero hk.ne'
  rfl

/-! ### The probabilities of a customer who is seated -/

/-- The weights with which the customers `others` and the concentration pull. -/
noncomputable def pull (others : List Nat) (a : ℝ) (t : Nat) : ℝ :=
  if others.count t = 0 then a else (others.count t : Nat)

theorem gibbs_eq {Nk Z : List Nat} (h : Tallies Nk Z) {i own : Nat} (hi : Z[i]? = some own)
    {alpha : PyNum} (ha : 0 < alpha.val) {m : Nat} (hm : 0 < m) :
    own < Nk.length ∧ (∀ t < Nk.length, t ≠ own → 0 < (Z.eraseIdx i).count t) ∧
    logpCrpGibbs Nk Z i alpha m = .ok (((List.range Nk.length).map (pull (Z.eraseIdx i) (alpha.val / m)) ++
      List.replicate (if (Z.eraseIdx i).count own = 0 then m - 1 else m) (alpha.val / m)).map Real.log) := by
  obtain ⟨hlt, he⟩ := List.getElem?_eq_some_iff.mp hi
  have hm' : (0 : ℝ) < m := by exact_mod_cast hm
  have hcount : ∀ t, Z.count t = (Z.eraseIdx i).count t + if own = t then 1 else 0 := by
    intro t
    have := (List.getElem_cons_eraseIdx_perm hlt).count_eq t
    rw [← this, List.count_cons, he]
    simp
  have hown : own < Nk.length := h.seated own (he ▸ List.getElem_mem hlt)
  have hk : ∀ t (ht : t < Nk.length), Nk[t] = Z.count t ∧ 0 < Nk[t] := fun t ht =>
    h.counts t _ (List.getElem?_eq_getElem ht)
  have hother : ∀ t < Nk.length, t ≠ own → 0 < (Z.eraseIdx i).count t := by
    intro t ht hne
    have := hk t ht
    rw [hcount t, if_neg (Ne.symm hne)] at this
    omega
  have hc := (hk own hown).1
  rw [hcount own, if_pos rfl] at hc
  refine ⟨hown, hother, ?_⟩
  unfold logpCrpGibbs
  simp only [hi, List.getElem?_eq_getElem hown, if_neg hm.ne']
  have hone : (Nk[own] = 1) ↔ (Z.eraseIdx i).count own = 0 := by omega
  have hmap : (List.range Nk.length).map (fun t => if t = own then
        (if Nk[own] = 1 then alpha.val / m else (Nk[own] : ℝ) - 1) else ((Nk[t]?.getD 0 : Nat) : ℝ))
      = (List.range Nk.length).map (pull (Z.eraseIdx i) (alpha.val / m)) := by
    refine List.map_congr_left fun t ht => ?_
    have ht := List.mem_range.mp ht
    unfold pull
    by_cases hto : t = own
    · subst hto
      rw [if_pos rfl]
      by_cases h1 : (Z.eraseIdx i).count t = 0
      · rw [if_pos (hone.mpr h1), if_pos h1]
      · rw [if_neg (fun e => h1 (hone.mp e)), if_neg h1, hc]
        push_cast; ring
    · have := hother t ht hto
      rw [if_neg hto, if_neg (by omega), List.getElem?_eq_getElem ht, Option.getD_some, (hk t ht).1,
        hcount t, if_neg (Ne.symm hto), add_zero]
  rw [hmap]
  simp only [hone]
  refine Net.collect_ok _ _ _ fun x hx => mathLog_pos ?_
  have ha' : 0 < alpha.val / m := div_pos ha hm'
  rcases List.mem_append.mp hx with hx | hx
  · obtain ⟨t, -, rfl⟩ := List.mem_map.mp hx
    unfold pull
    split_ifs with h0
    · exact ha'
    · exact_mod_cast Nat.pos_of_ne_zero h0
  · rw [List.eq_of_mem_replicate hx]; exact ha'

/-- C90. The probabilities of a seated customer, up to a factor: given the other customers, each of
their tables has the probability of the process; the tables they have not taken, the customer's own if
they sit alone and the auxiliary ones, share the probability of a new table evenly; together these are
all seats. -/
theorem C90_gibbs {Nk Z : List Nat} (h : Tallies Nk Z) {i own : Nat} (hi : Z[i]? = some own)
    {alpha : PyNum} (ha : 0 < alpha.val) {m : Nat} (hm : 0 < m) :
    ∃ l : List ℝ, logpCrpGibbs Nk Z i alpha m = .ok l ∧
      (∀ t < Nk.length, 0 < (Z.eraseIdx i).count t →
        (l[t]?).map (fun y => Real.exp y / ((Z.eraseIdx i).length + alpha.val)) =
          some (joins alpha.val (Z.eraseIdx i).length ((Z.eraseIdx i).count t))) ∧
      (∀ t < l.length, (t < Nk.length → (Z.eraseIdx i).count t = 0) →
        (l[t]?).map (fun y => Real.exp y / ((Z.eraseIdx i).length + alpha.val)) =
          some (opens alpha.val (Z.eraseIdx i).length / m)) ∧
      (l.map fun y => Real.exp y / ((Z.eraseIdx i).length + alpha.val)).sum = 1 := by
  obtain ⟨hown, hother, heq⟩ := gibbs_eq h hi ha hm
  have hm' : (0 : ℝ) < m := by exact_mod_cast hm
  have ha' : 0 < alpha.val / m := div_pos ha hm'
  have hsub : ∀ z ∈ Z.eraseIdx i, z < Nk.length := fun z hz => h.seated z (List.mem_of_mem_eraseIdx hz)
  set others := Z.eraseIdx i with ho
  set a := alpha.val / m with hadef
  have hd : 0 < (others.length : ℝ) + alpha.val := by positivity
  have hpull : ∀ t, 0 < pull others a t := by
    intro t
    unfold pull
    split_ifs with h0
    · exact ha'
    · exact_mod_cast Nat.pos_of_ne_zero h0
  have hopen : a / (others.length + alpha.val) = opens alpha.val others.length / m := by
    rw [hadef, opens, div_div, div_div, mul_comm]
  refine ⟨_, heq, fun t ht hc => ?_, fun t ht hc => ?_, ?_⟩
  · rw [List.getElem?_map, List.getElem?_append_left (by simpa using ht), List.getElem?_map,
      List.getElem?_range ht]
    simp only [Option.map_some, Option.some.injEq, Real.exp_log (hpull t)]
    rw [pull, if_neg (by omega), joins]
  · rw [List.getElem?_map]
    by_cases hlt : t < Nk.length
    · rw [List.getElem?_append_left (by simpa using hlt), List.getElem?_map, List.getElem?_range hlt]
      simp only [Option.map_some, Option.some.injEq, Real.exp_log (hpull t)]
      rw [pull, if_pos (hc hlt), hopen]
    · simp only [List.length_map, List.length_append, List.length_range, List.length_replicate] at ht
      rw [List.getElem?_append_right (by simpa using hlt), List.length_map, List.length_range,
        List.getElem?_replicate, if_pos (by omega)]
      simp only [Option.map_some, Option.some.injEq, Real.exp_log ha', hopen]
  · rw [List.map_map]
    have : ∀ x ∈ (List.range Nk.length).map (pull others a) ++
        List.replicate (if others.count own = 0 then m - 1 else m) a,
        ((fun y => Real.exp y / (others.length + alpha.val)) ∘ Real.log) x
          = x / (others.length + alpha.val) := by
      intro x hx
      have hx0 : 0 < x := by
        rcases List.mem_append.mp hx with hx | hx
        · obtain ⟨t, -, rfl⟩ := List.mem_map.mp hx; exact hpull t
        · rw [List.eq_of_mem_replicate hx]; exact ha'
      simp only [Function.comp_apply, Real.exp_log hx0]
    rw [List.map_congr_left this, sum_div_list, List.sum_append, List.sum_replicate, nsmul_eq_mul]
    have hsum : ((List.range Nk.length).map (pull others a)).sum
        = (others.length : ℝ) + if others.count own = 0 then a else 0 := by
      rw [← List.sum_toFinset _ List.nodup_range, List.toFinset_range]
      have hp : ∀ t ∈ Finset.range Nk.length, pull others a t =
          (others.count t : ℝ) + if t = own then (if others.count own = 0 then a else 0) else 0 := by
        intro t ht
        unfold pull
        by_cases hto : t = own
        · subst hto
          by_cases h0 : others.count t = 0
          · simp [h0]
          · simp only [if_neg h0, if_true, add_zero]
        · have := hother t (Finset.mem_range.mp ht) hto
          rw [if_neg (by omega), if_neg hto, add_zero]
      rw [Finset.sum_congr rfl hp, Finset.sum_add_distrib, Finset.sum_ite_eq' (Finset.range Nk.length),
        if_pos (Finset.mem_range.mpr hown), ← Nat.cast_sum]
      congr 2
      have := Multiset.sum_count_eq_card (s := Finset.range Nk.length) (m := (others : Multiset Nat))
        (fun z hz => Finset.mem_range.mpr (hsub z (by simpa using hz)))
      simpa using this
    rw [hsum]
    have hma : (m : ℝ) * a = alpha.val := by rw [hadef]; exact mul_div_cancel₀ _ hm'.ne'
    split_ifs with h0
    · rw [Nat.cast_sub hm, Nat.cast_one, div_eq_one_iff_eq hd.ne']
      linarith
    · rw [div_eq_one_iff_eq hd.ne']
      linarith

/-- C90. The calls that are refused: no auxiliary tables, an unknown customer. -/
theorem C90_refused (N : Nat) (Nk Z : List Nat) (i : Nat) (alpha : PyNum) (m : Nat) :
    logpCrpFresh N Nk alpha 0 = .error .zeroDivision ∧
    (Z.length ≤ i → logpCrpGibbs Nk Z i alpha m = .error .indexError) := by
  refine ⟨by simp [logpCrpFresh, PyNum.div], fun h => ?_⟩
  simp only [logpCrpGibbs, List.getElem?_eq_none h]

/-! ### The hypotheses can be met -/

/-- Three customers, one of whom sits alone. -/
example : Tallies [2, 1] [0, 1, 0] ∧ ([0, 1, 0] : List Nat)[1]? = some 1 ∧
    ([0, 1, 0] : List Nat)[2]? = some 0 ∧ 0 < (PyNum.float 2).val ∧ 0 < (PyNum.int 1).val := by
  refine ⟨⟨by decide, fun t c h => ?_⟩, rfl, rfl, by simp [PyNum.val], by simp [PyNum.val]⟩
  rcases t with _ | _ | t
  · cases h; decide
  · cases h; decide
  · simp at h

example : (∀ c ∈ ([2, 1] : List Nat), 0 < c) ∧ (0 : Nat) < 1 ∧ (1 : Nat) < 2 := by decide

end Cgpm.Props
