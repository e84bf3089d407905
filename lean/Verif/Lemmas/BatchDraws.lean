import Verif.Lemmas.Batch
import Verif.Lemmas.DrawsMany
import Verif.Lemmas.StateDraws
import Verif.Spec.BatchDraws

/-! Batches of draws: their laws. -/
namespace Cgpm.Batch
open Cgpm MeasureTheory Cgpm.Props
open scoped ENNReal

variable {X : Type} [MeasurableSpace X] {α ι : Type}

theorem many_always (m : Draws α) (n : Nat) : (m.many n).Always fun l => l.length = n := by
  induction n with
  | zero => rfl
  | succ n ih =>
    refine always_bind (always_true _) fun a _ => always_bind ih fun l hl => ?_
    show (a :: l).length = n + 1
    rw [List.length_cons, hl]

/-- Repeated calls of a program. -/
theorem many_seqE {m : Draws α} {φ : α → X} {ν : Measure X} [SFinite ν] (h : m.HasLaw φ ν) (n : Nat)
    {F : List X → ℝ≥0∞} (hF : MeasL n F) :
    (m.many n).E (fun l => F (l.map φ)) = seqE (List.replicate n ν) F := by
  induction n generalizing F with
  | zero => rfl
  | succ n ih =>
    simp only [Draws.many, List.replicate_succ, seqE]
    rw [Draws.E_bind]
    have h1 : ∀ a, ((m.many n).bind fun l => Draws.pure (a :: l)).E (fun l => F (l.map φ))
        = (fun x => seqE (List.replicate n ν) fun l => F (x :: l)) (φ a) := by
      intro a
      rw [Draws.E_bind]
      exact ih (hF.cons.at (φ a))
    simp only [h1]
    refine h _ (measurable_seqE (List.replicate n ν) (G := fun x l => F (x :: l)) (fun μ hμ => ?_) ?_)
    · rw [List.eq_of_mem_replicate hμ]; infer_instance
    · rw [List.length_replicate]; exact hF.cons

/-- Repeated draws of labels. -/
theorem many_labE {m : Draws ι} {K : Finset ι} {w : ι → ℝ≥0∞}
    (h : ∀ g, m.E g = ∑ k ∈ K, w k * g k) (n : Nat) (G : List ι → ℝ≥0∞) :
    (m.many n).E G = labE K w n G := by
  induction n generalizing G with
  | zero => rfl
  | succ n ih =>
    simp only [Draws.many, labE]
    rw [Draws.E_bind, h]
    refine Finset.sum_congr rfl fun k _ => ?_
    rw [Draws.E_bind]
    exact congrArg _ (ih _)

/-- What `log_pflip` draws is one of finitely many elements. -/
theorem logPflip_finite [DecidableEq ι] (lp : List Fl) (K : List ι) :
    ∃ w : ι → ℝ≥0∞, (∀ k, w k ≠ ⊤) ∧
      ∀ g, (Draws.ofRand (Rand.logPflip lp K)).E g = ∑ k ∈ K.toFinset, w k * g k := by
  have hraise : ∀ e, ∃ w : ι → ℝ≥0∞, (∀ k, w k ≠ ⊤) ∧
      ∀ g, (Draws.ofRand (Rand.raise e : Rand ι)).E g = ∑ k ∈ K.toFinset, w k * g k :=
    fun e => ⟨fun _ => 0, fun _ => ENNReal.zero_ne_top, fun g => by simp [Draws.ofRand, Draws.E]⟩
  unfold Rand.logPflip
  split
  · exact hraise _
  split
  · rename_i a t _
    refine ⟨fun k => if k = a then 1 else 0, fun k => by by_cases h : k = a <;> simp [h], fun g => ?_⟩
    rw [Finset.sum_eq_single a]
    · simp [Draws.ofRand, Draws.E]
    · intro b _ hb; simp [hb]
    · intro h; exact absurd (by simp) h
  split
  · exact hraise _
  rename_i p _
  split
  · exact hraise _
  rename_i hp
  have hlen : p.length = K.length := by
    by_contra h; exact hp (Or.inr h)
  unfold Rand.draw
  split
  swap
  · exact hraise _
  set q : List ℝ := p.map fun x => x / p.sum with hq
  have hql : q.length = K.length := by rw [hq, List.length_map, hlen]
  have hqr : q = (List.finRange K.length).map fun i : Fin K.length => q.getD i.val 0 := by
    rw [← List.ofFn_eq_map]
    apply List.ext_getElem
    · simp [hql]
    · intro i h1 h2
      rw [List.getElem_ofFn]
      exact (List.getD_eq_getElem _ _ h1).symm
  refine ⟨fun a => ∑ i ∈ (Finset.univ : Finset (Fin K.length)).filter fun i => K[i] = a,
    ENNReal.ofReal (q.getD i 0), fun a => ENNReal.sum_ne_top.mpr fun _ _ => ENNReal.ofReal_ne_top,
    fun g => ?_⟩
  have hE := Draws.E_choice (List.finRange K.length) (fun i : Fin K.length => q.getD i.val 0)
    (fun i => Draws.ofRand (match K[i]? with
      | some a => Rand.pure a
      | none => Rand.raise .indexError)) (fun i => g K[i]) g (by
        intro i hi
        have hi' : i < K.length := by simpa using hi
        rw [List.getElem?_eq_getElem hi', List.getElem_finRange]
        rfl)
  rw [← hqr] at hE
  refine Eq.trans hE ?_
  rw [← List.ofFn_eq_map, List.sum_ofFn]
  rw [← Finset.sum_fiberwise_of_maps_to (s := Finset.univ) (t := K.toFinset) (g := fun i => K[i])
    (fun i _ => by simp)]
  refine Finset.sum_congr rfl fun a _ => ?_
  rw [Finset.sum_mul]
  refine Finset.sum_congr rfl fun i hi => ?_
  rw [(Finset.mem_filter.mp hi).2]

/-- The programs `ms`, one after the other. -/
def chained : List (Draws (List α)) → Draws (List α)
  | [] => .pure []
  | m :: t => m.bind fun l => (chained t).bind fun l' => .pure (l ++ l')

/-- The answers of the program, seen through `φ`, are independent draws from the laws `νs`. -/
structure SeqLaw (φ : α → X) (m : Draws (List α)) (νs : List (Measure X)) : Prop where
  length : m.Always fun l => l.length = νs.length
  law : ∀ F : List X → ℝ≥0∞, MeasL νs.length F → m.E (fun l => F (l.map φ)) = seqE νs F

theorem chained_law {φ : α → X} {ms : List (Draws (List α))} {νs : List (List (Measure X))}
    (h : List.Forall₂ (SeqLaw φ) ms νs) (hν : ∀ l ∈ νs, ∀ ν ∈ l, SFinite ν) :
    SeqLaw φ (chained ms) νs.flatten := by
  induction h with
  | nil => exact ⟨rfl, fun F _ => rfl⟩
  | cons hm _ ih =>
    rename_i m νm ms νs _
    have ih := ih fun l hl => hν l (List.mem_cons_of_mem _ hl)
    constructor
    · refine always_bind hm.length fun l hl => always_bind ih.length fun l' hl' => ?_
      show (l ++ l').length = _
      rw [List.length_append, hl, hl', List.flatten_cons, List.length_append]
    intro F hF
    simp only [chained, List.flatten_cons, List.length_append] at hF ⊢
    have hs : ∀ ν ∈ νs.flatten, SFinite ν := by
      intro ν hm
      obtain ⟨l, hl, hm⟩ := List.mem_flatten.mp hm
      exact hν l (List.mem_cons_of_mem _ hl) ν hm
    rw [seqE_append, ← hm.law _ (MeasL.average hs hF), Draws.E_bind]
    refine E_congr_always hm.length fun l hl => ?_
    rw [Draws.E_bind]
    simp only [Draws.E, List.map_append]
    exact ih.law (fun l' => F (l.map φ ++ l')) (MeasL.append_at _ (by rw [List.length_map, hl]; exact hF))

theorem many_law {m : Draws α} {φ : α → X} {ν : Measure X} [SFinite ν] (h : m.HasLaw φ ν) (n : Nat) :
    SeqLaw φ (m.many n) (List.replicate n ν) :=
  ⟨by rw [List.length_replicate]; exact many_always m n,
    fun F hF => many_seqE h n (by rwa [List.length_replicate] at hF)⟩

/-- Occurrences of the labels of a list, label after label. -/
theorem flatMap_count_perm [DecidableEq ι] {ks L : List ι} (hL : L.Nodup) (hm : ∀ k ∈ ks, k ∈ L) :
    (L.flatMap fun k => List.replicate (ks.count k) k).Perm ks := by
  rw [List.perm_iff_count]
  intro a
  rw [List.count_flatMap]
  have : (List.map (List.count a ∘ fun k => List.replicate (List.count k ks) k) L).sum
      = if a ∈ L then ks.count a else 0 := by
    clear hm
    induction L with
    | nil => simp
    | cons b t ih =>
      have hb := List.nodup_cons.mp hL
      simp only [List.map_cons, List.sum_cons, ih hb.2, Function.comp, List.count_replicate,
        List.mem_cons]
      by_cases h : b = a
      · subst h; simp [hb.1]
      · have : ¬ a = b := fun e => h e.symm
        simp [h, this]
  rw [this]
  split
  · rfl
  · rename_i h
    exact (List.count_eq_zero.mpr fun h' => h (hm a h')).symm

/-- Labels are drawn, then for each label in turn as many samples as it was drawn: up to order, these
are independent draws from the mixture. -/
theorem grouped_law [DecidableEq ι] {φ : α → X} {m : Draws ι} {K : Finset ι} {w : ι → ℝ≥0∞}
    (hw : ∀ k ∈ K, w k ≠ ⊤) (hm : ∀ g, m.E g = ∑ k ∈ K, w k * g k) {ν : ι → Measure X}
    (hν : ∀ k, SFinite (ν k)) {N : Nat} {sub : List ι → Draws (List α)}
    (hsub : ∀ ks : List ι, ks.length = N → (∀ k ∈ ks, k ∈ K) → ∃ L : List ι, L.Nodup ∧
      (∀ k, k ∈ L ↔ k ∈ ks) ∧
      SeqLaw φ (sub ks) (L.flatMap fun k => List.replicate (ks.count k) (ν k)))
    {F : List X → ℝ≥0∞} (hs : Symm F) (hF : MeasL N F) :
    ((m.many N).bind sub).E (fun l => F (l.map φ))
      = seqE (List.replicate N (∑ k ∈ K, w k • ν k)) F := by
  rw [Draws.E_bind, many_labE hm, seqE_mixture K w hw ν hν N hF]
  refine labE_congr fun ks hks hK => ?_
  obtain ⟨L, h1, h2, h3⟩ := hsub ks hks hK
  have hp : (L.flatMap fun k => List.replicate (ks.count k) (ν k)).Perm (ks.map ν) := by
    have := (flatMap_count_perm h1 fun k => (h2 k).mpr).map ν
    rwa [List.map_flatMap, show (fun a => List.map ν (List.replicate (List.count a ks) a))
      = fun k => List.replicate (ks.count k) (ν k) from funext fun k => List.map_replicate] at this
  have hlen : (L.flatMap fun k => List.replicate (ks.count k) (ν k)).length = N := by
    rw [hp.length_eq, List.length_map, hks]
  rw [h3.law F (by rw [hlen]; exact hF)]
  refine seqE_perm hp (fun μ hμ => ?_) hs (by rw [hlen]; exact hF)
  obtain ⟨k, -, rfl⟩ := List.mem_map.mp (hp.mem_iff.mp hμ)
  exact hν k

theorem seqLaw_iid {φ : α → X} {m : Draws (List α)} {ν : Measure X} [SigmaFinite ν] {N : Nat}
    (h : ∀ F : List X → ℝ≥0∞, Symm F → MeasL N F →
      m.E (fun l => F (l.map φ)) = seqE (List.replicate N ν) F) : IidUpToOrder N ν φ m := by
  intro F hs hF
  rw [h F hs hF, seqE_pi ν N hF]

end Cgpm.Batch
