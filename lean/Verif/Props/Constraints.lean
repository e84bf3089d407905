import Verif.Lemmas.CrpLaw

/-!
C22: constrained column initialisation.  C23: constraint validation.  C24: the score of a
partition under dependence constraints.
-/
namespace Cgpm.Props
open Cgpm Classical MeasureTheory

/-! ### C23 -/

/-- **C23.** `validate_dependency_constraints` accepts exactly the constraint sets of the
documentation and refuses all others with ValueError. -/
theorem C23_accepts_exactly (N : Nat) (Cd : Blocks) (Ci : Pairs) :
    (ValidConstraints N Cd Ci → validateDependency (some N) Cd Ci = .ok ()) ∧
    (¬ ValidConstraints N Cd Ci → validateDependency (some N) Cd Ci = .error .valueError) := by
  refine ⟨(validateDependency_iff (some N) Cd Ci).mpr, fun h => ?_⟩
  have hcb : ∀ (b : List Nat) (d : Dict Nat Nat) (e : Exn), checkBlock N b d = .error e →
      e = .valueError := by
    intro b
    induction b with
    | nil => intro d e h; cases h
    | cons c t ih =>
      intro d e h
      simp only [checkBlock] at h
      split at h
      · cases h; rfl
      · split at h
        · cases h; rfl
        · exact ih _ _ h
  have hcbs : ∀ (Cd : Blocks) (d : Dict Nat Nat) (e : Exn), checkBlocks N Ci Cd d = .error e →
      e = .valueError := by
    intro Cd
    induction Cd with
    | nil => intro d e h; cases h
    | cons b t ih =>
      intro d e h
      simp only [checkBlocks] at h
      split at h
      · cases h; rfl
      · split at h
        · rename_i e' he
          cases h; exact hcb _ _ _ he
        · split at h
          · cases h; rfl
          · exact ih _ _ h
  have hcp : ∀ (Ci : Pairs) (e : Exn), checkPairs N Ci = .error e → e = .valueError := by
    intro Ci
    induction Ci with
    | nil => intro e h; cases h
    | cons p t ih =>
      intro e h
      simp only [checkPairs] at h
      split at h
      · cases h; rfl
      · split at h
        · cases h; rfl
        · exact ih _ h
  cases hv : validateDependency (some N) Cd Ci with
  | ok u => exact absurd ((validateDependency_iff (some N) Cd Ci).mp hv) h
  | error e =>
    unfold validateDependency at hv
    simp only [Option.getD_some] at hv
    split at hv
    · rename_i e' he; cases hv; rw [hcbs _ _ _ he]
    · rw [hcp _ _ hv]

/-- **C23.** Every accepted constraint set is satisfied by some partition of the columns. -/
theorem C23_satisfiable (N : Nat) (Cd : Blocks) (Ci : Pairs)
    (h : validateDependency (some N) Cd Ci = .ok ()) : ∃ Z : Nat → Nat, Meets Z Cd Ci := by
  have hv := (validateDependency_iff (some N) Cd Ci).mp h
  let c : Con := ⟨Cd, Ci, [], []⟩
  -- table = least member of the block
  refine ⟨fun i => ((c.friends i).headD 0), fun b hb x hx y hy => ?_, fun p hp he => ?_⟩
  · simp only [c.friends_of_block hv.once hb hx, c.friends_of_block hv.once hb hy]
  · have hx := c.mem_friends hv.once p.1
    have hy := c.mem_friends hv.once p.2
    have h1 := c.friends_eq hv.once (headD_mem (List.ne_nil_of_mem hx))
    have h2 := c.friends_eq hv.once (headD_mem (List.ne_nil_of_mem hy))
    have h3 : c.friends p.1 = c.friends p.2 := by
      rw [← h1, ← h2]; exact congrArg c.friends he
    rcases c.friends_cases hv.once p.1 with ⟨b, hb, hpb, e⟩ | ⟨hn, e⟩
    · refine hv.noPairInBlock p hp b hb ⟨hpb, ?_⟩
      rw [← e, h3]; exact hy
    · rw [← h3, e] at hy
      exact hv.pairNe p hp (List.mem_singleton.mp hy).symm

example : ValidConstraints 5 [[0, 3], [4, 1]] [(0, 4), (2, 3)] := by
  constructor <;> decide

/-! ### C22 -/

/-- **C22.** Constrained initialisation with both kinds of constraints, on columns and on the
rows inside the columns: for all random outcomes the call succeeds, gives every column a
table, keeps every block together and separates every independent pair; two columns whose row
constraints clash never share a table. -/
theorem C22_constrained (c : Con) (N : Nat) (alpha : ℝ) (us : Nat → ℝ)
    (hus : ∀ i, 0 ≤ us i ∧ us i < 1) (hN : 0 < N) (ha : 0 < alpha)
    (hv : c.validateInput N = .ok ()) :
    ∃ Z : List Nat, c.simulate N alpha us = .ok (Z.map some) ∧ Z.length = N ∧
      Meets (fun i => Z.getD i 0) c.Cd c.Ci ∧ (∀ t ∈ Z, t < N) ∧
      ∀ a < N, ∀ b < N, a ≠ b → Z.getD a 0 = Z.getD b 0 → c.compatible a b = true := by
  have hg := GoodCon.of hv
  obtain ⟨W, e, hI⟩ := seatLoop_ok hg ha us hus N 0 (by omega) (Z := List.replicate N none)
    ⟨by simp, fun j hj => by omega, fun j t h => by
      rw [List.getElem?_replicate] at h; split at h <;> simp at h, fun j t h => by
      rw [List.getElem?_replicate] at h; split at h <;> simp at h, fun j b t h => by
      rw [List.getElem?_replicate] at h; split at h <;> simp at h⟩
  have hsome : ∀ j < N, ∃ t, W[j]? = some (some t) ∧ t < N := by
    intro j hj
    have hjl : j < W.length := by rw [hI.len]; exact hj
    cases hw : W[j] with
    | none => exact absurd (by rw [List.getElem?_eq_getElem hjl, hw]) (hI.done j hj)
    | some t =>
      have h1 : W[j]? = some (some t) := by rw [List.getElem?_eq_getElem hjl, hw]
      exact ⟨t, h1, hI.table j t h1⟩
  let Z : List Nat := W.map fun z => z.getD 0
  have hZW : Z.map some = W := by
    apply List.ext_getElem?
    intro j
    by_cases hj : j < N
    · obtain ⟨t, ht, -⟩ := hsome j hj
      simp [Z, ht]
    · rw [List.getElem?_eq_none (by simp [Z, hI.len]; omega),
        List.getElem?_eq_none (by rw [hI.len]; omega)]
  have hget : ∀ j < N, W[j]? = some (some (Z.getD j 0)) := by
    intro j hj
    obtain ⟨t, ht, -⟩ := hsome j hj
    simp [Z, ht]
  have hmeet : Meets (fun i => Z.getD i 0) c.Cd c.Ci := by
    constructor
    · intro b hb x hx y hy
      have hxN := hg.valid.range b hb x hx
      have hyN := hg.valid.range b hb y hy
      have h1 := hI.friend x _ (hget x hxN) y
        (by rw [c.friends_of_block hg.valid.once hb hx]; exact hy)
      rw [hget y hyN] at h1
      simpa using h1.symm
    · intro p hp he
      obtain ⟨h1, h2⟩ := hg.valid.pairRange p hp
      have h3 := hget p.1 h1
      simp only at he
      rw [he] at h3
      have := hI.compat p.1 p.2 _ h3 (hget p.2 h2) (hg.valid.pairNe p hp)
      unfold Con.compatible at this
      rw [if_pos (.inl hp)] at this
      cases this
  refine ⟨Z, ?_, by simp [Z, hI.len], hmeet, ?_, ?_⟩
  · unfold Con.simulate
    rw [hv]
    simp only
    rw [if_neg (by rintro (h | h); omega; linarith), List.range_eq_range', e]
    simp only
    rw [if_neg, if_pos, hZW]
    · unfold Con.validatePartition
      rw [decide_eq_true_eq]
      refine ⟨fun b hb => ⟨fun x hx => ?_, fun p hp => ?_⟩, fun p hp => ?_⟩
      · have hne : b ≠ [] := List.ne_nil_of_mem hx
        have h1 := hmeet.1 b hb _ (headD_mem hne) x hx
        change (W[b.headD 0]?).join = (W[x]?).join
        rw [hget _ (hg.valid.range b hb _ (headD_mem hne)), hget _ (hg.valid.range b hb x hx)]
        simpa using h1
      · obtain ⟨ha', hb'⟩ := of_mem_combinations2 hp
        have hbn : b.Nodup := by
          have := hg.valid.once
          rw [List.nodup_flatten] at this
          exact this.1 b hb
        refine hg.inner b hb _ ha' _ hb' ?_
        clear * - hp hbn
        induction b with
        | nil => cases hp
        | cons x t ih =>
          simp only [combinations2, List.mem_append, List.mem_map] at hp
          rcases hp with ⟨y, hy, rfl⟩ | hp
          · intro e
            change x = y at e
            exact (List.nodup_cons.mp hbn).1 (e ▸ hy)
          · exact ih hp (List.nodup_cons.mp hbn).2
      · obtain ⟨h1, h2⟩ := hg.valid.pairRange p hp
        change (W[p.1]?).join ≠ (W[p.2]?).join
        rw [hget _ h1, hget _ h2]
        simpa using hmeet.2 p hp
    · rw [not_not]
      intro z hz
      obtain ⟨j, hj, rfl⟩ := List.getElem_of_mem hz
      obtain ⟨t, ht, htN⟩ := hsome j (by rw [← hI.len]; exact hj)
      rw [List.getElem?_eq_getElem hj] at ht
      exact ⟨t, Option.some.inj ht, htN⟩
  · intro t ht
    obtain ⟨j, hj, rfl⟩ := List.getElem_of_mem ht
    have hjN : j < N := by simpa [Z, hI.len] using hj
    obtain ⟨t, h1, h2⟩ := hsome j hjN
    have h3 := hget j hjN
    rw [h1] at h3
    have h4 : t = Z.getD j 0 := by simpa using h3
    rw [List.getD_eq_getElem?_getD, List.getElem?_eq_getElem hj, Option.getD_some] at h4
    rw [← h4]; exact h2
  · intro a ha b hb hab he
    have h1 := hget a ha
    rw [he] at h1
    exact hI.compat a b _ h1 (hget b hb) hab

/-- **C22.** In the form used when a State is created (no row constraints): every constraint
set of the documentation is accepted and satisfied. -/
theorem C22_constrained_columns (Cd : Blocks) (Ci : Pairs) (N : Nat) (alpha : ℝ) (us : Nat → ℝ)
    (hus : ∀ i, 0 ≤ us i ∧ us i < 1) (hN : 0 < N) (ha : 0 < alpha)
    (hv : ValidConstraints N Cd Ci) :
    ∃ Z : List Nat, (Con.mk Cd Ci [] []).simulate N alpha us = .ok (Z.map some) ∧ Z.length = N ∧
      Meets (fun i => Z.getD i 0) Cd Ci := by
  have hin : (Con.mk Cd Ci [] []).validateInput N = .ok () := by
    unfold Con.validateInput
    rw [(validateDependency_iff (some N) Cd Ci).mpr hv]
    simp only
    rw [if_neg (by simp), if_neg]
    rintro ⟨b, hb, p, hp, hc⟩
    obtain ⟨h1, h2⟩ := of_mem_combinations2 hp
    unfold Con.compatible at hc
    rw [if_neg] at hc
    · simp [Dict.has] at hc
    · rintro (h | h)
      · exact hv.noPairInBlock _ h b hb ⟨h1, h2⟩
      · exact hv.noPairInBlock _ h b hb ⟨h2, h1⟩
  obtain ⟨Z, e, h1, h2, -⟩ := C22_constrained _ N alpha us hus hN ha hin
  exact ⟨Z, e, h1, h2⟩

/-- **C22.** Initialisation under dependence constraints only, without empty blocks: the blocks
are kept together, and the tables of the blocks (first) and of the free columns (next, in
increasing order) are those of an unconstrained draw with one customer for each of them. -/
theorem C22_dependent (Cd : Blocks) (N : Nat) (alpha : ℝ) (us : Nat → ℝ)
    (hus : ∀ i, 0 ≤ us i ∧ us i < 1) (hN : 0 < N) (ha : 0 < alpha)
    (hv : ValidConstraints N Cd []) (hne : ∀ b ∈ Cd, b ≠ []) :
    ∃ Z : List Nat, simulateDependent N alpha Cd us = .ok Z ∧ Z.length = N ∧
      Meets (fun i => Z.getD i 0) Cd [] ∧ (∀ t ∈ Z, t < N) ∧
      ∃ crp, simulateCrp (N - Cd.flatten.length + Cd.length) alpha us = .ok crp ∧
        (Cd.map (fun b => b.headD 0) ++ (List.range N).filter fun c => c ∉ Cd.flatten).map
          (fun c => Z.getD c 0) = crp := by
  obtain ⟨Z, e, h1, h2, h3, h4⟩ := simulateDependent_ok hN ha hv hne us hus
  refine ⟨Z, e, h1, ⟨fun b hb x hx y hy => ?_, by simp⟩, h3, h4⟩
  simp only [List.getD_eq_getElem?_getD, h2 b hb x hx y hy]

/-- **C22.** Initialisation without constraints: a table for every column, and the tables used
are `0, ..., K-1`. -/
theorem C22_unconstrained (N : Nat) (alpha : ℝ) (us : Nat → ℝ)
    (hus : ∀ i, 0 ≤ us i ∧ us i < 1) (hN : 0 < N) (ha : 0 < alpha) :
    ∃ (Z : List Nat) (K : Nat), simulateCrp N alpha us = .ok Z ∧ Z.length = N ∧
      ∀ t, t ∈ Z ↔ t < K := simulateCrp_ok hN ha us hus

/-- **C22.** `simulate_crp` samples from the Chinese restaurant process: a partition `z` whose
tables are numbered in order of appearance comes out, over independent uniform draws, with
probability the exponential of its CRP score (which C03 identifies with the chain of
predictives). -/
theorem C22_crp_law (alpha : ℝ) (ha : 0 < alpha) (z : List Nat) (hz : z ≠ [])
    (hord : ∀ (k : Nat) (hk : k < z.length), ∀ t < z[k], t ∈ z.take k) :
    volume {us : Fin z.length → ℝ | (∀ k, 0 ≤ us k ∧ us k < 1) ∧
      simulateCrp z.length alpha (fun i => if h : i < z.length then us ⟨i, h⟩ else 0) = .ok z}
    = ENNReal.ofReal (Real.exp ((Crp.init alpha).run
        (seatAll ((List.range z.length).zip z))).logpdfScore) := by
  cases z with
  | nil => exact absurd rfl hz
  | cons a zs =>
    have h0 : a = 0 := by
      by_contra hc
      have := hord 0 (by simp) 0 (by simpa using Nat.pos_of_ne_zero hc)
      simp at this
    subst h0
    refine crp_law ha zs (order_lengths zs [0] [1] (by simp) fun k hk t ht => ?_)
    have := hord (k + 1) (by simpa using hk) t (by simpa using ht)
    simpa using this

/-- What fails of C22: an empty block passes validation, but initialisation under dependence
constraints can then fail with an AssertionError, whatever the random outcomes. -/
theorem C22_empty_blocks_violated (alpha : ℝ) (ha : 0 < alpha) (us : Nat → ℝ) :
    validateDependency (some 1) [[], []] [] = .ok () ∧
    simulateDependent 1 alpha [[], []] us = .error .assertion := by
  have h : validateDependency (some 1) [[], []] [] = .ok () :=
    (validateDependency_iff _ _ _).mpr (by constructor <;> simp)
  refine ⟨h, ?_⟩
  unfold simulateDependent
  rw [h]
  simp only
  rw [if_neg (by rintro (h | h); omega; linarith)]
  simp [numEffective]

/-- And scoring any partition against a set with an empty block raises IndexError, although the
set is accepted and the partition breaks no block. -/
theorem C22_empty_block_score_violated (alpha : ℝ) (ha : 0 < alpha) :
    validateDependency (some 2) [[]] [] = .ok () ∧
    logpDependent [(0, 0), (1, 1)] alpha [[]] = .error .indexError := by
  refine ⟨(validateDependency_iff _ _ _).mpr (by constructor <;> simp), ?_⟩
  unfold logpDependent
  rw [if_neg (by simp [Con.validatePartition, combinations2]), if_neg (by linarith)]
  simp [numEffective, partitionCounts, countBlocks]

example : ∀ (k : Nat) (hk : k < [0, 1, 0, 2, 1].length), ∀ t < [0, 1, 0, 2, 1][k],
    t ∈ [0, 1, 0, 2, 1].take k := by decide
example : ValidConstraints 4 [[0, 2]] [(0, 1), (3, 2)] := by constructor <;> decide
example : ValidConstraints 4 [[0, 2], [3, 1]] [] ∧ ∀ b ∈ [[0, 2], [3, 1]], b ≠ [] :=
  ⟨by constructor <;> decide, by decide⟩

/-! ### C24 -/

/-- **C24.** The score is minus infinity exactly when the partition breaks a block; otherwise
it is the score of a Chinese restaurant in which each block is one customer. -/
theorem C24_score (Z : Dict Row Tab) (hZ : Z.WF) (alpha : ℝ) (ha : 0 < alpha) (Cd : Blocks)
    (hnd : Cd.flatten.Nodup) (hne : ∀ b ∈ Cd, b ≠ []) (hk : ∀ c ∈ Cd.flatten, c ∈ Z.keys) :
    ((∃ b ∈ Cd, ∃ x ∈ b, ∃ y ∈ b, Z.get? x ≠ Z.get? y) → logpDependent Z alpha Cd = .ok ⊥) ∧
    ((∀ b ∈ Cd, ∀ x ∈ b, ∀ y ∈ b, Z.get? x = Z.get? y) →
      logpDependent Z alpha Cd =
        .ok ((((Crp.init alpha).run (seatAll (collapse Z Cd))).logpdfScore : ℝ) : LogP)) :=
  ⟨logpDependent_broken, logpDependent_spec hZ ha hnd hne hk⟩

/-- **C24.** The collapsed seating has one customer for each block and each free column, at
the table of that block or column. -/
theorem C24_collapse (Z : Dict Row Tab) (hZ : Z.WF) (Cd : Blocks) (hnd : Cd.flatten.Nodup)
    (hne : ∀ b ∈ Cd, b ≠ []) (hk : ∀ c ∈ Cd.flatten, c ∈ Z.keys) :
    numEffective Z.length Cd = .ok (collapse Z Cd).length ∧
    (collapse Z Cd).length = Z.length - Cd.flatten.length + Cd.length ∧
    (∀ p ∈ collapse Z Cd, Z.get? p.1 = some p.2) ∧
    (∀ c ∈ Z.keys, c ∉ Cd.flatten → c ∈ (collapse Z Cd).map Prod.fst) ∧
    ∀ b ∈ Cd, ∃! c, c ∈ b ∧ c ∈ (collapse Z Cd).map Prod.fst := by
  obtain ⟨hle, hlen⟩ := effList_length hZ hnd hk
  have hp := effList_perm hZ hnd hne hk
  have hlf := length_le_flatten hne
  refine ⟨?_, by rw [← hp.length_eq, hlen], ?_, ?_, ?_⟩
  · unfold numEffective
    rw [show (Cd.map List.length).sum = Cd.flatten.length from List.length_flatten.symm]
    simp only
    rw [if_pos ⟨hle, by omega⟩, ← hp.length_eq, hlen]
  · intro p hp
    exact Dict.get?_of_mem hZ (List.mem_filter.mp hp).1
  · intro c hc hf
    obtain ⟨z, hz⟩ := Dict.exists_of_mem_keys hc
    refine List.mem_map.mpr ⟨(c, z), List.mem_filter.mpr ⟨Dict.mem_of_get? hz, ?_⟩, rfl⟩
    simp only [decide_eq_true_eq]
    exact .inr hf
  · intro b hb
    have hm := headD_mem (hne b hb)
    have hfl : b.headD 0 ∈ Cd.flatten := List.mem_flatten.mpr ⟨b, hb, hm⟩
    have hh : b.head? = some (b.headD 0) := by
      cases b with
      | nil => exact absurd rfl (hne _ hb)
      | cons x t => rfl
    obtain ⟨z, hz⟩ := Dict.exists_of_mem_keys (hk _ hfl)
    refine ⟨b.headD 0, ⟨hm, List.mem_map.mpr ⟨(b.headD 0, z), List.mem_filter.mpr
      ⟨Dict.mem_of_get? hz, ?_⟩, rfl⟩⟩, ?_⟩
    · simp only [decide_eq_true_eq]
      exact .inl ⟨b, hb, hh⟩
    · rintro c ⟨hc, hcm⟩
      obtain ⟨p, hp, rfl⟩ := List.mem_map.mp hcm
      have h2 := (List.mem_filter.mp hp).2
      simp only [decide_eq_true_eq] at h2
      rcases h2 with ⟨b', hb', e⟩ | h2
      · have hmem : p.1 ∈ b' := List.mem_of_mem_head? e
        have := block_unique hnd hb hb' hc hmem
        subst this
        rw [hh] at e
        exact (Option.some.inj e).symm
      · exact absurd (List.mem_flatten.mpr ⟨b, hb, hc⟩) h2

example : Dict.WF ([(0, 0), (1, 0), (2, 1), (3, 0)] : Dict Row Tab) ∧
    (List.flatten [[1, 3]]).Nodup ∧
    ((∀ b ∈ [[1, 3]], ∀ x ∈ b, ∀ y ∈ b, Dict.get? ([(0, 0), (1, 0), (2, 1), (3, 0)] : Dict Row Tab) x
      = Dict.get? ([(0, 0), (1, 0), (2, 1), (3, 0)] : Dict Row Tab) y)) := by
  refine ⟨by unfold Dict.WF; decide, by decide, by decide⟩

end Cgpm.Props
