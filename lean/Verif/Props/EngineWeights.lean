import Verif.Props.Engine
import Verif.Props.LogSpace
import Verif.Lemmas.StateSimulate

/-
C39: likelihood-weighted resampling and integration in an Engine.
-/
namespace Cgpm.Props
open Cgpm Cgpm.Spec Cgpm.Engine
variable {σ β V : Type}

theorem drawIndexes_ok {N : Nat} {choose : Nat → List Nat} (k : Nat) {ns : List Nat}
    (h : ∀ n ∈ ns, n ≤ N) :
    drawIndexes N choose k ns = .ok ((List.range' k ns.length).map choose) := by
  induction ns generalizing k with
  | nil => rfl
  | cons n t ih =>
    unfold drawIndexes
    rw [if_neg (not_lt.mpr (h n (by simp))), ih (k + 1) fun n hn => h n (by simp [hn])]
    rfl

theorem pick_ok {s : List β} {is : List Nat} (h : ∀ i ∈ is, i < s.length) :
    ∃ l, pick s is = .ok l ∧ List.Forall₂ (fun i x => s[i]? = some x) is l := by
  induction is with
  | nil => exact ⟨[], rfl, .nil⟩
  | cons i t ih =>
    obtain ⟨l, h1, h2⟩ := ih fun i hi => h i (by simp [hi])
    have hi := h i (by simp)
    refine ⟨s[i] :: l, ?_, .cons (List.getElem?_eq_getElem hi) h2⟩
    unfold pick
    rw [List.getElem?_eq_getElem hi, h1]
    rfl

/-- `part k` are the samples of list `k` at the indices `choose k`. -/
def Parts (samples : List (List β)) (choose : Nat → List Nat) (part : Nat → List β) : Prop :=
  ∀ k (h : k < samples.length), List.Forall₂ (fun i x => samples[k][i]? = some x) (choose k) (part k)

theorem gather_ok {samples : List (List β)} {choose : Nat → List Nat} {m : Nat}
    (h : ∀ k (h : k < samples.length), ∀ i ∈ choose k, i < samples[k].length)
    (hm : ∀ k, m ≤ k → choose k = []) :
    ∃ part, Parts samples choose part ∧
      gather samples ((List.range' 0 m).map choose) =
        .ok ((List.range samples.length).map part).flatten := by
  have key : ∀ (ss : List (List β)) (c : Nat → List Nat) (m o : Nat),
      (∀ k (h : k < ss.length), ∀ i ∈ c (o + k), i < ss[k].length) →
      (∀ k, m ≤ k → c (o + k) = []) →
      ∃ part : Nat → List β, (∀ k (h : k < ss.length),
          List.Forall₂ (fun i x => ss[k][i]? = some x) (c (o + k)) (part k)) ∧
        gather ss ((List.range' o m).map c) = .ok ((List.range ss.length).map part).flatten := by
    intro ss
    induction ss with
    | nil =>
      intro c m o _ _
      refine ⟨fun _ => [], fun k h => absurd h (by simp), ?_⟩
      cases (List.range' o m).map c <;> rfl
    | cons s t ih =>
      intro c m o h hm
      cases m with
      | zero =>
        refine ⟨fun _ => [], fun k hk => ?_, ?_⟩
        · rw [hm k (Nat.zero_le k)]; exact .nil
        · simp only [List.range'_zero, List.map_nil]
          unfold gather
          simp
      | succ m =>
        obtain ⟨part, h1, h2⟩ := ih c m (o + 1)
          (fun k hk i hi => by
            have := h (k + 1) (by simpa using hk) i (by rwa [Nat.add_right_comm] at hi)
            simpa using this)
          (fun k hk => by rw [Nat.add_right_comm]; exact hm (k + 1) (by omega))
        obtain ⟨l, h3, h4⟩ := pick_ok (s := s) (is := c o) fun i hi => by
          have := h 0 (by simp) i hi
          simpa using this
        refine ⟨fun k => match k with | 0 => l | k + 1 => part k, fun k hk => ?_, ?_⟩
        · cases k with
          | zero => exact h4
          | succ k =>
            have := h1 k (by simpa using hk)
            rw [Nat.add_right_comm] at this
            exact this
        · rw [List.range'_succ, List.map_cons]
          unfold gather
          rw [h3, h2]
          simp [List.range_succ_eq_map, List.map_map, Function.comp_def]
  obtain ⟨part, h1, h2⟩ := key samples choose m 0 (by simpa using h) (by simpa using hm)
  exact ⟨part, fun k hk => by simpa using h1 k hk, h2⟩

theorem bincount_le {ks : List Nat} : ∀ n ∈ bincount ks, n ≤ ks.length := by
  intro n hn
  obtain ⟨k, -, rfl⟩ := List.mem_map.mp hn
  exact List.count_le_length

theorem bincount_length_le {ks : List Nat} {k : Nat} (h : (bincount ks).length ≤ k) :
    ks.count k = 0 := by
  rw [List.count_eq_zero]
  intro hk
  have : ∀ l : List Nat, k ∈ l → k < l.foldr (fun k m => max (k + 1) m) 0 := by
    intro l
    induction l with
    | nil => simp
    | cons a t ih =>
      intro hm
      rw [List.foldr_cons]
      rcases List.mem_cons.mp hm with rfl | hm
      · omega
      · have := ih hm; omega
  have := this ks hk
  unfold bincount at h
  simp at h
  omega

/-- The choices that `rng.choice(N, size=n, replace=False)` can return: `n` distinct numbers below
`N`, for the number `n` of times that the model was drawn. -/
def ValidChoices (N : Nat) (ks : List Nat) (choose : Nat → List Nat) : Prop :=
  ∀ k, (choose k).Nodup ∧ (choose k).length = ks.count k ∧ ∀ i ∈ choose k, i < N

theorem sum_count {ks : List Nat} {n : Nat} (h : ∀ k ∈ ks, k < n) :
    ((List.range n).map fun k => ks.count k).sum = ks.length := by
  induction ks with
  | nil => simp
  | cons a t ih =>
    have ha : a < n := h a (by simp)
    have e : ((List.range n).map fun k => (a :: t).count k) =
        (List.range n).map fun k => t.count k + if k = a then 1 else 0 := by
      refine List.map_congr_left fun k _ => ?_
      rw [List.count_cons]
      congr 1
      by_cases hk : a = k
      · simp [hk]
      · simp [hk, Ne.symm hk]
    rw [e, List.sum_map_add, ih fun k hk => h k (by simp [hk]), List.length_cons]
    congr 1
    have : ((List.range n).map fun k => if k = a then 1 else 0).sum = (List.range n).count a := by
      induction List.range n with
      | nil => rfl
      | cons b t ih =>
        rw [List.map_cons, List.sum_cons, ih, List.count_cons, add_comm]
        by_cases hk : b = a <;> simp [hk]
    rw [this, List.count_eq_one_of_mem List.nodup_range (List.mem_range.mpr ha)]

theorem parts_length {samples : List (List β)} {choose : Nat → List Nat} {part : Nat → List β}
    {N : Nat} {ks : List Nat} (hp : Parts samples choose part) (hc : ValidChoices N ks choose) :
    (((List.range samples.length).map part).flatten).length =
      ((List.range samples.length).map fun k => ks.count k).sum := by
  rw [List.length_flatten, List.map_map]
  congr 1
  refine List.map_congr_left fun k hk => ?_
  have := (hp k (List.mem_range.mp hk)).length_eq
  rw [Function.comp_apply, ← this, (hc k).2.1]

/-- Log weights that are numbers or minus infinity, not all of them minus infinity. -/
def ProperWeights (w : List Fl) : Prop := (∀ a ∈ w, a ≠ .nan ∧ a ≠ .pinf) ∧ total w ≠ 0

theorem draws_exist {w : List Fl} (hw : ProperWeights w) {N : Nat} {u : Nat → ℝ}
    (hu : ∀ i, 0 ≤ u i ∧ u i < 1) :
    ∃ ks : List Nat, logPflipMany w (List.range w.length) ((List.range N).map u) = .ok ks ∧
      ks.length = N ∧
      (∀ i (h : i < ks.length), logPflip w (List.range w.length) (u i) = .ok ks[i]) ∧
      ∀ k ∈ ks, ∃ h : k < w.length, mass w[k] ≠ 0 := by
  have hd : ∀ v : ℝ, 0 ≤ v → v < 1 → ∃ k, logPflip w (List.range w.length) v = .ok k ∧
      ∃ h : k < w.length, mass w[k] ≠ 0 := by
    intro v h0 h1
    obtain ⟨i, h, h', e, hm⟩ := C36_draw_has_positive_weight w (List.range w.length) hw.1 hw.2
      (by simp) v h0 h1
    exact ⟨i, by simpa using e, h', hm⟩
  choose! p hp using hd
  refine ⟨((List.range N).map u).map p, logPflipMany_ok ?_, by simp, ?_, ?_⟩
  · intro v hv
    obtain ⟨i, -, rfl⟩ := List.mem_map.mp hv
    exact (hp _ (hu i).1 (hu i).2).1
  · intro i h
    simpa using (hp _ (hu i).1 (hu i).2).1
  · intro k hk
    simp only [List.mem_map] at hk
    obtain ⟨v, ⟨i, -, rfl⟩, rfl⟩ := hk
    exact (hp _ (hu i).1 (hu i).2).2

theorem redraw_eq {samples : List (List β)} {w : List Fl} {N : Nat} {u : Nat → ℝ}
    {choose : Nat → List Nat} {ks : List Nat}
    (hd : logPflipMany w (List.range w.length) ((List.range N).map u) = .ok ks)
    (hl : ks.length = N) (hs : ∀ s ∈ samples, s.length = N) (hc : ValidChoices N ks choose) :
    ∃ part, Parts samples choose part ∧
      redraw samples w N u choose = .ok ((List.range samples.length).map part).flatten := by
  obtain ⟨part, h1, h2⟩ := gather_ok (samples := samples) (choose := choose)
    (m := (bincount ks).length)
    (fun k hk i hi => by rw [hs _ (List.getElem_mem hk)]; exact (hc k).2.2 i hi)
    (fun k hk => by
      rw [← List.length_eq_zero_iff, (hc k).2.1]
      exact bincount_length_le hk)
  refine ⟨part, h1, ?_⟩
  unfold redraw
  rw [hd]
  simp only
  rw [drawIndexes_ok 0 fun n hn => hl ▸ bincount_le n hn]
  exact h2

theorem resample_eq {logpdf : LogpdfMethod σ V} {multi : Bool} {samples : List (List β)}
    {constraints inputs : Option (Dict Nat V)} {statenos : Option (List Int)} {u : Nat → ℝ}
    {choose : Nat → List Nat} {e e' : Engine σ} {w : List Fl} {N : Nat}
    (ha : match statenos with | none => samples.length = e.states.length | some l => l ≠ [])
    (hne : samples ≠ []) (hs : ∀ s ∈ samples, s.length = N)
    (hw : e.resampleWeights logpdf multi samples.length constraints inputs statenos = .ok w e') :
    e.resample logpdf multi samples constraints inputs statenos u choose =
      match redraw samples w N u choose with
      | .error er => .err er e'
      | .ok l => .ok l e' := by
  have hla : lengthAssertion samples.length e statenos = true := by
    cases statenos with
    | none => simpa [lengthAssertion] using ha
    | some l => simpa [lengthAssertion] using ha
  unfold resample
  rw [if_neg (by simp [hla])]
  cases samples with
  | nil => exact absurd rfl hne
  | cons s0 rest =>
    have h0 : s0.length = N := hs s0 (by simp)
    have hany : (rest.any fun s => s.length != s0.length) = false := by
      rw [List.any_eq_false]
      intro s hs'
      simp [hs s (by simp [hs']), h0]
    simp only [hany, Bool.false_eq_true, if_false]
    simp only [List.length_cons] at hw
    rw [hw]
    simp only [h0]
    rfl

/-- **C39.** Resampling `N` samples per model: each of `N` draws picks a model with positive weight
(with probability proportional to the weight, `C36_draw_probability`). The result has exactly `N`
samples: they are, model after model, the samples at the chosen indices of the model's own list, as
many as the model was drawn, no index twice. -/
theorem C39_resample (logpdf : LogpdfMethod σ V) (multi : Bool) {samples : List (List β)}
    {constraints inputs : Option (Dict Nat V)} {statenos : Option (List Int)} {u : Nat → ℝ}
    {e e' : Engine σ} {w : List Fl} {N : Nat}
    (ha : match statenos with | none => samples.length = e.states.length | some l => l ≠ [])
    (hne : samples ≠ []) (hs : ∀ s ∈ samples, s.length = N)
    (hw : e.resampleWeights logpdf multi samples.length constraints inputs statenos = .ok w e')
    (hlen : w.length = samples.length) (hp : ProperWeights w) (hu : ∀ i, 0 ≤ u i ∧ u i < 1) :
    ∃ ks : List Nat, ks.length = N ∧
      (∀ i (h : i < ks.length), logPflip w (List.range w.length) (u i) = .ok ks[i]) ∧
      (∀ k ∈ ks, ∃ h : k < w.length, mass w[k] ≠ 0) ∧
      ∀ choose, ValidChoices N ks choose → ∃ l part,
        e.resample logpdf multi samples constraints inputs statenos u choose = .ok l e' ∧
        l.length = N ∧ Parts samples choose part ∧
        l = ((List.range samples.length).map part).flatten := by
  obtain ⟨ks, hd, hl, hk1, hk2⟩ := draws_exist hp (N := N) hu
  refine ⟨ks, hl, hk1, hk2, fun choose hc => ?_⟩
  obtain ⟨part, h1, h2⟩ := redraw_eq hd hl hs hc
  refine ⟨_, part, ?_, ?_, h1, rfl⟩
  · rw [resample_eq ha hne hs hw, h2]
  · rw [parts_length h1 hc, sum_count fun k hk => hlen ▸ (hk2 k hk).1, hl]

/-- **C39.** Every sample that resampling returns is one of the samples given to it. -/
theorem C39_members {samples : List (List β)} {choose : Nat → List Nat} {part : Nat → List β}
    (hp : Parts samples choose part) :
    ∀ x ∈ ((List.range samples.length).map part).flatten, ∃ s ∈ samples, x ∈ s := by
  intro x hx
  obtain ⟨l, hl, hxl⟩ := List.mem_flatten.mp hx
  obtain ⟨k, hk, rfl⟩ := List.mem_map.mp hl
  have hk' := List.mem_range.mp hk
  obtain ⟨j, hj, rfl⟩ := List.getElem_of_mem hxl
  have hF := hp k hk'
  have := (List.forall₂_iff_get.mp hF).2 j (hF.length_eq ▸ hj) hj
  exact ⟨samples[k], List.getElem_mem hk', List.mem_of_getElem? this⟩

/-- **C39.** The weights: equal when there are no constraints, and the log densities of the
constraints in the requested states, in order, when there are (and no inputs). The Engine stays as
it was. -/
theorem C39_weights (logpdf : LogpdfMethod σ V) (multi : Bool) {e : Engine σ} {n : Nat}
    {statenos : Option (List Int)} {ks : List Nat} (hr : Requested e.states.length statenos ks) :
    (∀ inputs, e.resampleWeights logpdf multi n none inputs statenos =
        .ok (List.replicate n (.fin 0)) e ∧
      e.resampleWeights logpdf multi n (some []) inputs statenos =
        .ok (List.replicate n (.fin 0)) e) ∧
    ∀ (c : Dict Nat V) w, c ≠ [] → Answers (logpdf c none none) e.states ks w →
      (multi = true ∨ ∀ x ∈ e.states, ReadOnly (logpdf c none none) x) →
      e.resampleWeights logpdf multi n (some c) none statenos = .ok w e := by
  refine ⟨fun inputs => ⟨rfl, rfl⟩, fun c w hc ha hro => ?_⟩
  cases c with
  | nil => exact absurd rfl hc
  | cons p t => exact C33_query multi hr ha hro

/-- **C39.** Integration: without constraints the logarithm of the mean of the densities, with them
(and no inputs) that of their mean weighted by the densities of the constraints. -/
theorem C39_integrate (logpdf : LogpdfMethod σ V) (multi : Bool) {e : Engine σ} {logpdfs : List Fl}
    {statenos : Option (List Int)} {ks : List Nat} (hr : Requested e.states.length statenos ks)
    (hlen : logpdfs.length = ks.length) (hfin : ∀ a ∈ logpdfs, a ≠ .nan ∧ a ≠ .pinf) :
    (logpdfs ≠ [] → ∀ inputs, ∃ r, e.integrate logpdf multi logpdfs none inputs statenos = .ok r e ∧
      r ≠ .nan ∧ mass r = total logpdfs / logpdfs.length) ∧
    ∀ (c : Dict Nat V) w, c ≠ [] → Answers (logpdf c none none) e.states ks w → ProperWeights w →
      (multi = true ∨ ∀ x ∈ e.states, ReadOnly (logpdf c none none) x) →
      ∃ r, e.integrate logpdf multi logpdfs (some c) none statenos = .ok r e ∧ r ≠ .nan ∧
        mass r * total w = (List.zipWith (fun w a => mass w * mass a) w logpdfs).sum := by
  have hla : lengthAssertion logpdfs.length e statenos = true := by
    cases statenos with
    | none =>
      cases hr
      simpa [lengthAssertion] using hlen
    | some l => simpa [lengthAssertion] using hr.1
  constructor
  · intro hne inputs
    obtain ⟨r, h1, h2, -, h3⟩ := C35_logmeanexp logpdfs (fun h => (hfin _ h).1 rfl)
    refine ⟨r, ?_, h2, h3 hne⟩
    unfold integrate
    rw [if_neg (by simp [hla])]
    simp only [given, h1]
  · intro c w hc ha hw hro
    have hwl : w.length = logpdfs.length := by rw [hlen]; exact ha.length_eq.symm
    obtain ⟨r, h1, h2, h3⟩ := (C35_logmeanexp_weighted logpdfs w).2 hwl hfin hw.1 hw.2
    refine ⟨r, ?_, h2, h3⟩
    cases c with
    | nil => exact absurd rfl hc
    | cons p t =>
      unfold integrate
      rw [if_neg (by simp [hla])]
      simp only [given, weights, C33_query multi hr ha hro, h1]

/-! ### Where the claim fails -/

/-- **C39 does not hold when the samples are fewer than the requested states.** The assertion that
should refuse this checks nothing when `statenos` is given: here the draws pick the second state,
which has no samples, and nothing is returned instead of three samples. -/
theorem C39_assertion_violated (u : Nat → ℝ) (hu : ∀ i, 0 ≤ u i ∧ u i < 1) :
    ∃ choose, (⟨[Fl.ninf, .fin 0]⟩ : Engine Fl).resample (V := Unit) (fun _ _ _ x => .ok x x) true
      [["a", "b", "c"]] (some [(0, ())]) none (some [0, 1]) u choose =
        .ok [] ⟨[Fl.ninf, .fin 0]⟩ := by
  have hp : ProperWeights [Fl.ninf, .fin 0] :=
    ⟨by intro a ha; rcases List.mem_cons.mp ha with rfl | ha
        · simp
        · simp only [List.mem_singleton] at ha; subst ha; simp,
     by simp [total, mass]⟩
  obtain ⟨ks, hd, hl, -, hk2⟩ := draws_exist hp (N := 3) hu
  have hks : ∀ k ∈ ks, k = 1 := by
    intro k hk
    obtain ⟨h, hm⟩ := hk2 k hk
    have : k < 2 := h
    have : k = 0 ∨ k = 1 := by omega
    rcases this with rfl | rfl
    · simp [mass] at hm
    · rfl
  have hrep : ks = List.replicate 3 1 := List.eq_replicate_iff.mpr ⟨hl, hks⟩
  subst hrep
  have hc : ValidChoices 3 (List.replicate 3 1) fun k => if k = 1 then [0, 1, 2] else [] := by
    intro k
    by_cases hk : k = 1
    · subst hk; decide
    · simp [hk, List.count_replicate, Ne.symm hk]
  refine ⟨fun k => if k = 1 then [0, 1, 2] else [], ?_⟩
  obtain ⟨part, h1, h2⟩ := redraw_eq (samples := [["a", "b", "c"]]) hd hl (by simp) hc
  rw [resample_eq (N := 3) (w := [Fl.ninf, .fin 0]) (e' := ⟨[Fl.ninf, .fin 0]⟩) (by simp) (by simp)
    (by simp) rfl, h2]
  have := h1 0 (by simp)
  simp only [Nat.zero_ne_one, if_false] at this
  cases hp0 : part 0 with
  | nil => simp [hp0]
  | cons a t => rw [hp0] at this; cases this

/-- **C39 does not hold with inputs.** The weights are not the densities of the constraints given the
inputs: the inputs are passed as constraints, and the states see no inputs. -/
theorem C39_inputs_violated : ∃ (logpdf : LogpdfMethod Unit Bool) (c i : Dict Nat Bool) (w w' : Fl),
    Answers (logpdf c none (some i)) [()] [0] [w] ∧ w ≠ w' ∧
    (⟨[()]⟩ : Engine Unit).resampleWeights logpdf true 1 (some c) (some i) none =
      .ok [w'] ⟨[()]⟩ := by
  refine ⟨fun _ _ i x => .ok (if i.isSome then .fin 0 else .fin 1) x, [(0, true)], [(7, true)],
    .fin 0, .fin 1, .cons ⟨(), (), rfl, rfl⟩ .nil, by simp, rfl⟩

/-! ### The hypotheses can be met -/

/-- Two states that give the densities 1 and 2 to the constraint. -/
example : (⟨[.fin 0, .fin (Real.log 2)]⟩ : Engine Fl).resampleWeights (V := Unit)
      (fun _ _ _ x => .ok x x) false 2 (some [(0, ())]) none none =
    .ok [.fin 0, .fin (Real.log 2)] ⟨[.fin 0, .fin (Real.log 2)]⟩ :=
  (C39_weights (σ := Fl) (fun _ _ _ x => .ok x x) false (e := ⟨[.fin 0, .fin (Real.log 2)]⟩)
    (statenos := none) (ks := [0, 1]) rfl).2 [(0, ())] _ (by simp)
    (.cons ⟨_, _, rfl, rfl⟩ (.cons ⟨_, _, rfl, rfl⟩ .nil)) (.inr fun _ _ => rfl)

example : ProperWeights [.fin 0, .fin (Real.log 2)] := by
  refine ⟨?_, ?_⟩
  · intro a ha
    rcases List.mem_cons.mp ha with rfl | ha
    · simp
    · simp only [List.mem_singleton] at ha; subst ha; simp
  · simp [total, mass]

example : ValidChoices 3 [1, 0, 1] fun k => if k = 0 then [2] else if k = 1 then [0, 2] else [] := by
  intro k
  by_cases h0 : k = 0
  · subst h0; decide
  · by_cases h1 : k = 1
    · subst h1; decide
    · simp [h0, h1, Ne.symm h0, Ne.symm h1]

end Cgpm.Props
