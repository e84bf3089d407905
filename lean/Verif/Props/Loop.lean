import Verif.Model.Loop
import Mathlib.Tactic.Linarith
import Mathlib.Tactic.FieldSimp
import Mathlib.Data.List.Basic
import Mathlib.Data.List.Count
import Mathlib.Data.List.Nodup

/-!
Property C32: what the inference loop runs (src/crosscat/state.py:727-905).
-/
namespace Cgpm.Props
open Cgpm Cgpm.Loop

variable {σ : Type}

/-- SPEC. What the loop does: it runs a kernel, or records diagnostics. -/
inductive Act
  | kernel (j : Nat)
  | diag
  deriving DecidableEq, Repr

/-- SPEC. A complete sweep over `K` kernels, the `it`-th, with diagnostics after every
`checkpoint`-th one. -/
def sweepActs (K checkpoint it : Nat) : List Act :=
  (List.range K).map .kernel ++
    if checkpoint ≠ 0 ∧ it % checkpoint = 0 then [.diag] else []

/-- SPEC. The first `n` kernel runs: complete sweeps, then the beginning of a last one. -/
def plan (K checkpoint n : Nat) : List Act :=
  (List.range (n / K)).flatMap (fun it => sweepActs K checkpoint (it + 1)) ++
    (List.range (n % K)).map .kernel

/-- SPEC. Do these things in order; an exception ends it. -/
def runActs (kernels : List (σ → Out σ)) (diag : σ → Out σ) : List Act → σ → Out σ
  | [], s => .ok s
  | a :: t, s =>
    match (match a with
      | .kernel j => (match kernels[j]? with
        | some k => k s
        | none => .ok s)
      | .diag => diag s) with
    | .err e s' => .err e s'
    | .ok s' => runActs kernels diag t s'

/-- SPEC. The budget is used up at the `n`-th reading of the clock, before which `n` kernels have
run: `N` sweeps are complete, or `S` seconds have passed. -/
def UsedUp (N : Option Nat) (S : Option ℝ) (K : Nat) (clock : Nat → ℝ) (n : Nat) : Prop :=
  (∃ m, N = some m ∧ m * K ≤ n) ∨ ∃ t, S = some t ∧ t ≤ clock n

/-- run a list of kernels -/
def runAll : List (σ → Out σ) → σ → Out σ
  | [], s => .ok s
  | k :: t, s => match k s with
    | .err e s' => .err e s'
    | .ok s' => runAll t s'

theorem runActs_append (kernels : List (σ → Out σ)) (diag : σ → Out σ) (a b : List Act) (s : σ) :
    runActs kernels diag (a ++ b) s = match runActs kernels diag a s with
      | .err e s' => .err e s'
      | .ok s' => runActs kernels diag b s' := by
  induction a generalizing s with
  | nil => rfl
  | cons x a ih =>
    simp only [List.cons_append, runActs]
    split
    · rfl
    · exact ih _

theorem runActs_range' (kernels : List (σ → Out σ)) (diag : σ → Out σ) (m p : Nat) (s : σ)
    (h : p + m ≤ kernels.length) :
    runActs kernels diag ((List.range' p m).map .kernel) s = runAll ((kernels.drop p).take m) s := by
  induction m generalizing p s with
  | zero => simp [runActs, runAll]
  | succ m ih =>
    have hp : p < kernels.length := by omega
    rw [List.range'_succ, List.map_cons, List.drop_eq_getElem_cons hp, List.take_succ_cons]
    simp only [runActs, runAll, List.getElem?_eq_getElem hp]
    split
    · rfl
    · exact ih _ _ (by omega)

theorem runActs_range (kernels : List (σ → Out σ)) (diag : σ → Out σ) (m : Nat) (s : σ)
    (h : m ≤ kernels.length) :
    runActs kernels diag ((List.range m).map .kernel) s = runAll (kernels.take m) s := by
  rw [List.range_eq_range', runActs_range' kernels diag m 0 s (by omega)]
  rfl

section
variable {N : Option Nat} {S : Option ℝ} {clock : Nat → ℝ}

theorem done_iff (hN : N ≠ some 0) (hS : ∀ t, S = some t → 0 < t) (iters : Nat) (e : ℝ) :
    ∃ p, proportionDone N S iters e = .ok p ∧
      (1 ≤ p ↔ (∃ m, N = some m ∧ m ≤ iters) ∨ ∃ t, S = some t ∧ t ≤ e) := by
  have h1 : ∀ m : Nat, m ≠ 0 → ((1 : ℝ) ≤ (iters : ℝ) / m ↔ m ≤ iters) := by
    intro m hm
    have : (0 : ℝ) < m := by exact_mod_cast Nat.pos_of_ne_zero hm
    rw [one_le_div this]
    exact_mod_cast Iff.rfl
  have h2 : ∀ t : ℝ, 0 < t → (1 ≤ e / t ↔ t ≤ e) := fun t ht => one_le_div ht
  have h3 : ¬ (1 : ℝ) ≤ 0 := by norm_num
  cases N with
  | none =>
    cases S with
    | none => exact ⟨_, rfl, by simp [h3]⟩
    | some t =>
      have ht := hS t rfl
      exact ⟨max 0 (e / t), by simp [proportionDone, ht.ne'], by simp [h2 t ht, h3]⟩
  | some m =>
    have hm : m ≠ 0 := by rintro rfl; exact hN rfl
    cases S with
    | none =>
      exact ⟨max (iters / m) 0, by simp [proportionDone, hm], by simp [h1 m hm, h3]⟩
    | some t =>
      have ht := hS t rfl
      exact ⟨max (iters / m) (e / t), by simp [proportionDone, hm, ht.ne'],
        by simp [h1 m hm, h2 t ht]⟩

theorem sweep_spec (hN : N ≠ some 0) (hS : ∀ t, S = some t → 0 < t) (iters : Nat)
    (ks : List (σ → Out σ)) (reads : Nat) (s : σ)
    (hgo : ∀ i < ks.length,
      ¬ ((∃ m, N = some m ∧ m ≤ iters) ∨ ∃ t, S = some t ∧ t ≤ clock (reads + i))) :
    sweep N S clock iters ks reads s = match runAll ks s with
      | .err e s' => .raised e s'
      | .ok s' => .complete s' (reads + ks.length) := by
  induction ks generalizing reads s with
  | nil => rfl
  | cons k ks ih =>
    obtain ⟨p, hp, hiff⟩ := done_iff (e := clock reads) hN hS iters
    have hnot := hgo 0 (by simp)
    rw [Nat.add_zero, ← hiff] at hnot
    simp only [sweep, hp, hnot, if_false, runAll]
    cases k s with
    | err e s' => rfl
    | ok s' =>
      simp only []
      rw [ih (reads + 1) s' (fun i hi => by
        have := hgo (i + 1) (by simpa using hi)
        rwa [Nat.add_assoc, Nat.add_comm 1 i])]
      cases runAll ks s' with
      | err e s'' => rfl
      | ok s'' => simp only [List.length_cons]; congr 1; omega

theorem sweep_stop (hN : N ≠ some 0) (hS : ∀ t, S = some t → 0 < t) (iters : Nat)
    (ks : List (σ → Out σ)) (reads : Nat) (s : σ) (j : Nat) (hj : j < ks.length)
    (hgo : ∀ i < j,
      ¬ ((∃ m, N = some m ∧ m ≤ iters) ∨ ∃ t, S = some t ∧ t ≤ clock (reads + i)))
    (hst : (∃ m, N = some m ∧ m ≤ iters) ∨ ∃ t, S = some t ∧ t ≤ clock (reads + j)) :
    sweep N S clock iters ks reads s = match runAll (ks.take j) s with
      | .err e s' => .raised e s'
      | .ok s' => .broke s' := by
  induction ks generalizing reads s j with
  | nil => simp at hj
  | cons k ks ih =>
    obtain ⟨p, hp, hiff⟩ := done_iff (e := clock reads) hN hS iters
    cases j with
    | zero =>
      rw [Nat.add_zero, ← hiff] at hst
      simp only [sweep, hp, hst, if_true, List.take_zero, runAll]
    | succ j =>
      have hnot := hgo 0 (by simp)
      rw [Nat.add_zero, ← hiff] at hnot
      simp only [sweep, hp, hnot, if_false, List.take_succ_cons, runAll]
      cases k s with
      | err e s' => rfl
      | ok s' =>
        simp only []
        exact ih (reads + 1) s' j (by simpa using hj) (fun i hi => by
          have := hgo (i + 1) (by omega)
          rwa [Nat.add_assoc, Nat.add_comm 1 i])
          (by rwa [Nat.add_assoc, Nat.add_comm 1 j])

theorem loop_spec {kernels : List (σ → Out σ)} {diag : σ → Out σ} {checkpoint : Nat}
    (hk : kernels ≠ []) (hN : N ≠ some 0) (hS : ∀ t, S = some t → 0 < t) (n : Nat)
    (hgo : ∀ i < n, ¬ UsedUp N S kernels.length clock i)
    (hst : UsedUp N S kernels.length clock n) (d : Nat) (iters : Nat)
    (hd : iters + d = n / kernels.length) (fuel : Nat) (hf : d < fuel) (s : σ) :
    loop kernels diag N S checkpoint clock fuel iters (iters * kernels.length) s =
      some (runActs kernels diag ((List.range' iters d).flatMap
        (fun it => sweepActs kernels.length checkpoint (it + 1)) ++
          (List.range (n % kernels.length)).map .kernel) s) := by
  have hK : 0 < kernels.length := List.length_pos_of_ne_nil hk
  have hdm := Nat.div_add_mod n kernels.length
  have hml := Nat.mod_lt n hK
  have conv : ∀ it i, i < kernels.length → (UsedUp N S kernels.length clock
      (it * kernels.length + i) ↔ ((∃ m, N = some m ∧ m ≤ it) ∨ ∃ t, S = some t ∧
        t ≤ clock (it * kernels.length + i))) := by
    intro it i hi
    unfold UsedUp
    refine or_congr_left (exists_congr fun m => and_congr_right fun _ => ?_)
    constructor
    · intro h
      by_contra hlt
      have : (it + 1) * kernels.length ≤ m * kernels.length :=
        Nat.mul_le_mul_right _ (by omega)
      rw [Nat.add_mul] at this
      omega
    · intro h
      have : m * kernels.length ≤ it * kernels.length := Nat.mul_le_mul_right _ h
      omega
  induction d generalizing iters fuel s with
  | zero =>
    obtain ⟨fuel, rfl⟩ := Nat.exists_eq_add_of_lt hf
    rw [Nat.zero_add]
    simp only [List.range'_zero, List.flatMap_nil, List.nil_append]
    have hn : n = iters * kernels.length + n % kernels.length := by
      rw [← Nat.add_zero iters, hd, Nat.mul_comm]; omega
    have h1 := sweep_stop hN hS iters kernels (iters * kernels.length) s (n % kernels.length) hml
      (clock := clock) (fun i hi => by
        rw [← conv iters i (by omega)]
        exact hgo _ (by omega)) (by rw [← conv iters _ hml, ← hn]; exact hst)
    rw [runActs_range _ _ _ _ hml.le]
    simp only [loop, h1]
    cases runAll (kernels.take (n % kernels.length)) s <;> rfl
  | succ d ih =>
    obtain ⟨fuel, rfl⟩ : ∃ g, fuel = g + 1 := ⟨fuel - 1, by omega⟩
    have hle : (iters + 1) * kernels.length ≤ n := by
      have : (iters + 1) * kernels.length ≤ (n / kernels.length) * kernels.length :=
        Nat.mul_le_mul_right _ (by omega)
      have := Nat.div_mul_le_self n kernels.length
      omega
    have h1 := sweep_spec hN hS iters kernels (iters * kernels.length) s (clock := clock)
      (fun i hi => by
        rw [← conv iters i hi]
        refine hgo _ ?_
        rw [Nat.add_mul] at hle
        omega)
    have hreads : iters * kernels.length + kernels.length = (iters + 1) * kernels.length := by
      rw [Nat.add_mul, Nat.one_mul]
    rw [List.range'_succ, List.flatMap_cons, List.append_assoc, runActs_append]
    have h2 : runActs kernels diag (sweepActs kernels.length checkpoint (iters + 1)) s =
        match runAll kernels s with
        | .err e s' => .err e s'
        | .ok s' => if checkpoint ≠ 0 ∧ (iters + 1) % checkpoint = 0 then diag s' else .ok s' := by
      unfold sweepActs
      rw [runActs_append, runActs_range _ _ _ _ le_rfl, List.take_length]
      cases runAll kernels s with
      | err e s' => rfl
      | ok s' =>
        simp only []
        split
        · simp only [runActs]
          cases diag s' <;> rfl
        · rfl
    rw [h2]
    simp only [loop, h1]
    cases runAll kernels s with
    | err e s' => rfl
    | ok s' =>
      simp only [hreads]
      split
      · cases diag s' with
        | err e s'' => rfl
        | ok s'' => exact ih (iters + 1) (by omega) fuel (by omega) s''
      · exact ih (iters + 1) (by omega) fuel (by omega) s'

end

/-! ### C32 -/

variable (kernels : List (σ → Out σ)) (diag : σ → Out σ) (checkpoint : Nat) (clock : Nat → ℝ)

/-- **C32.** With an iteration budget, a time budget, or both: if the budget is used up for the first
time before the `n`-th kernel run, then the loop runs exactly `n` kernels, in complete sweeps in the
given order followed by the beginning of one, records diagnostics after complete sweeps only, and
stops (an exception ends it at once).  `fuel` bounds the number of sweeps of the model: any bound
that is large enough will do. -/
theorem C32_loop {N : Option Nat} {S : Option ℝ} (hk : kernels ≠ []) (hN : N ≠ some 0)
    (hS : ∀ t, S = some t → 0 < t) (hNS : N ≠ none ∨ S ≠ none) (n : Nat)
    (hgo : ∀ i < n, ¬ UsedUp N S kernels.length clock i)
    (hst : UsedUp N S kernels.length clock n) (fuel : Nat) (hf : n / kernels.length < fuel)
    (s : σ) :
    transitionGeneric kernels diag N S checkpoint clock fuel s =
      some (runActs kernels diag (plan kernels.length checkpoint n) s) := by
  have hne : ¬ (N = none ∧ S = none) := fun h => hNS.elim (fun h' => h' h.1) fun h' => h' h.2
  unfold transitionGeneric
  simp only [hne, hk, if_false]
  have := loop_spec (diag := diag) (checkpoint := checkpoint) hk hN hS n hgo hst
    (n / kernels.length) 0 (Nat.zero_add _) fuel hf s
  rw [Nat.zero_mul] at this
  rw [this, plan, List.range_eq_range' (n := n / kernels.length)]

/-- **C32.** With an iteration budget `N` and no time budget: exactly `N` complete sweeps. -/
theorem C32_iterations (hk : kernels ≠ []) (N : Nat) (hN : 0 < N) (fuel : Nat) (hf : N < fuel)
    (s : σ) :
    transitionGeneric kernels diag (some N) none checkpoint clock fuel s =
      some (runActs kernels diag
        ((List.range N).flatMap fun it => sweepActs kernels.length checkpoint (it + 1)) s) := by
  have hK : 0 < kernels.length := List.length_pos_of_ne_nil hk
  have hdiv : N * kernels.length / kernels.length = N := Nat.mul_div_cancel _ hK
  have := C32_loop kernels diag checkpoint clock (N := some N) (S := none) hk (by simp; omega)
    (by simp) (by simp) (N * kernels.length) (fun i hi => by
      unfold UsedUp
      rintro (⟨m, hm, hle⟩ | ⟨t, ht, -⟩)
      · cases hm; omega
      · cases ht) (Or.inl ⟨N, rfl, le_rfl⟩) fuel (by rw [hdiv]; exact hf) s
  rw [this, plan, hdiv, Nat.mul_mod_left]
  simp

/-- **C32.** Without any budget: one sweep. -/
theorem C32_default (hk : kernels ≠ []) (fuel : Nat) (hf : 1 < fuel) (s : σ) :
    transitionGeneric kernels diag none none checkpoint clock fuel s =
      some (runActs kernels diag (sweepActs kernels.length checkpoint 1) s) := by
  have h := C32_iterations kernels diag checkpoint clock hk 1 one_pos fuel hf s
  unfold transitionGeneric at h ⊢
  simpa using h

/-- **C32.** With a time budget only: the loop stops before the first kernel at which the time is
used up, whatever the clock does. -/
theorem C32_time (hk : kernels ≠ []) (S : ℝ) (hS : 0 < S) (n : Nat) (hgo : ∀ i < n, clock i < S)
    (hst : S ≤ clock n) (fuel : Nat) (hf : n / kernels.length < fuel) (s : σ) :
    transitionGeneric kernels diag none (some S) checkpoint clock fuel s =
      some (runActs kernels diag (plan kernels.length checkpoint n) s) := by
  refine C32_loop kernels diag checkpoint clock hk (by simp) (fun t ht => by cases ht; exact hS)
    (by simp) n (fun i hi => ?_) (Or.inr ⟨S, rfl, hst⟩) fuel hf s
  rintro (⟨m, hm, -⟩ | ⟨t, ht, hle⟩)
  · cases hm
  · cases ht; exact absurd hle (not_le.mpr (hgo i hi))

/-- **C32.** How often: among the first `n` kernel runs, each kernel ran `n / K` times or, if it is
among the first `n % K`, once more; diagnostics were recorded once for every `checkpoint` complete
sweeps. -/
theorem C32_counts (K checkpoint n : Nat) (hK : 0 < K) :
    (∀ j < K, (plan K checkpoint n).count (.kernel j) = n / K + if j < n % K then 1 else 0) ∧
    (plan K checkpoint n).count .diag = if checkpoint = 0 then 0 else n / K / checkpoint := by
  have hr : ∀ m j, ((List.range m).map Act.kernel).count (.kernel j) = if j < m then 1 else 0 := by
    intro m j
    rw [List.count_map_of_injective _ _ (fun a b e => by cases e; rfl)]
    by_cases h : j < m
    · rw [if_pos h, List.count_eq_one_of_mem List.nodup_range (List.mem_range.mpr h)]
    · rw [if_neg h, List.count_eq_zero_of_not_mem (by simpa using h)]
  have hd : ∀ m, ((List.range m).map Act.kernel).count .diag = 0 := by
    intro m
    rw [List.count_eq_zero]
    simp
  have hs1 : ∀ it j, j < K → (sweepActs K checkpoint it).count (.kernel j) = 1 := by
    intro it j hj
    unfold sweepActs
    rw [List.count_append, hr, if_pos hj]
    split <;> simp
  have hs2 : ∀ it, (sweepActs K checkpoint it).count .diag =
      if checkpoint ≠ 0 ∧ it % checkpoint = 0 then 1 else 0 := by
    intro it
    unfold sweepActs
    rw [List.count_append, hd]
    split <;> simp
  constructor
  · intro j hj
    unfold plan
    rw [List.count_append, hr]
    congr 1
    generalize n / K = q
    induction q with
    | zero => simp
    | succ q ih =>
      rw [List.range_succ, List.flatMap_append, List.count_append, ih]
      simp [hs1 _ j hj]
  · unfold plan
    rw [List.count_append, hd, Nat.add_zero]
    generalize n / K = q
    induction q with
    | zero => split <;> simp
    | succ q ih =>
      rw [List.range_succ, List.flatMap_append, List.count_append, ih]
      simp only [List.flatMap_cons, List.flatMap_nil, List.append_nil, hs2]
      by_cases hc : checkpoint = 0
      · simp [hc]
      · simp only [hc, if_false, ne_eq, not_false_eq_true, true_and]
        rw [Nat.succ_div]
        simp only [Nat.dvd_iff_mod_eq_zero]

/-- **C32.** Through the public entry point: columns that the state does not have are refused; all
six kernels run by default, in the documented order; a list of kernels without elements is refused;
otherwise the loop is as above. -/
theorem C32_transition (outputs cols : List Nat) (run : Kernel → σ → Out σ) (N : Option Nat)
    (S : Option ℝ) (ks : Option (List Kernel)) (fuel : Nat) (s : σ) :
    ((∃ c ∈ cols, c ∉ outputs) →
      transition outputs run diag N S ks cols checkpoint clock fuel s = some (.err .valueError s)) ∧
    ((∀ c ∈ cols, c ∈ outputs) → ks = some [] →
      transition outputs run diag N S ks cols checkpoint clock fuel s = some (.err .assertion s)) ∧
    ((∀ c ∈ cols, c ∈ outputs) → ks ≠ some [] →
      transition outputs run diag N S ks cols checkpoint clock fuel s =
        transitionGeneric ((ks.getD [.alpha, .viewAlphas, .columnParams, .columnHypers, .rows,
          .columns]).map run) diag N S checkpoint clock fuel s) := by
  have hany : (cols.any fun c => !outputs.contains c) = true ↔ ∃ c ∈ cols, c ∉ outputs := by
    simp
  unfold transition
  refine ⟨fun h => by rw [if_pos (hany.mpr h)], fun h hks => ?_, fun h hks => ?_⟩
  · rw [if_neg (by rw [hany]; push Not; exact h), hks]; rfl
  · rw [if_neg (by rw [hany]; push Not; exact h)]
    have : ((ks.getD defaultKernels).map run) ≠ [] := by
      cases ks with
      | none => simp [defaultKernels]
      | some l => cases l with
        | nil => exact absurd rfl hks
        | cons a t => simp
    simp only [this, if_false]
    rfl

/-- Two kernels, three iterations, diagnostics every second sweep; and a clock that runs out before
the fifth run. -/
example : plan 2 2 6 = [.kernel 0, .kernel 1, .kernel 0, .kernel 1, .diag, .kernel 0, .kernel 1] ∧
    plan 2 2 5 = [.kernel 0, .kernel 1, .kernel 0, .kernel 1, .diag, .kernel 0] := by decide

example : (∀ i < 5, (fun n : ℕ => (n : ℝ)) i < 5) ∧ (5 : ℝ) ≤ (fun n : ℕ => (n : ℝ)) 5 := by
  refine ⟨fun i hi => ?_, by norm_num⟩
  show (i : ℝ) < 5
  exact_mod_cast hi

end Cgpm.Props
