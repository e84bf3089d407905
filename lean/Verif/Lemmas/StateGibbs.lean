import Verif.Lemmas.StateDim
import Verif.Props.LogSpace
import Verif.Lemmas.Constraints2
import Verif.Lemmas.CrpProps

/-! The Gibbs transition of a column. -/
namespace Cgpm
theorem forall2_left {α β : Type} {R : α → β → Prop} {a : List α} {b : List β}
    (h : List.Forall₂ R a b) {i : Nat} {x : α} (hx : a[i]? = some x) :
    ∃ y, b[i]? = some y ∧ R x y := by
  induction h generalizing i with
  | nil => simp at hx
  | cons hr _ ih =>
    cases i with
    | zero => simp at hx ⊢; subst hx; exact hr
    | succ i => simp at hx ⊢; exact ih hx

theorem forall2_right {α β : Type} {R : α → β → Prop} {a : List α} {b : List β}
    (h : List.Forall₂ R a b) {i : Nat} {y : β} (hy : b[i]? = some y) :
    ∃ x, a[i]? = some x ∧ R x y := by
  induction h generalizing i with
  | nil => simp at hy
  | cons hr _ ih =>
    cases i with
    | zero => simp at hy ⊢; subst hy; exact hr
    | succ i => simp at hy ⊢; exact ih hy

namespace State
variable {C : Cat}
open View

theorem forbid_ok {zv : Col → Option Nat} {keys : List Nat} (hnd : keys.Nodup) {as : List Col}
    (h : ∀ a ∈ as, ∃ v, zv a = some v ∧ v ∈ keys) (w : List LogP) :
    ∃ w', forbid zv keys as w = .ok w' ∧ w'.length = w.length ∧
      (∀ i : Nat, (∃ a ∈ as, ∃ v, zv a = some v ∧ keys[i]? = some v) → i < w.length →
        w'[i]? = some ⊥) ∧
      (∀ i : Nat, (¬ ∃ a ∈ as, ∃ v, zv a = some v ∧ keys[i]? = some v) → w'[i]? = w[i]?) := by
  induction as generalizing w with
  | nil => exact ⟨w, rfl, rfl, by simp, by simp⟩
  | cons a as ih =>
    obtain ⟨v, hv, hk⟩ := h a (by simp)
    obtain ⟨w', h1, h2, h3, h4⟩ := ih (fun b hb => h b (by simp [hb])) (w.set (keys.idxOf v) ⊥)
    have hidx : ∀ i : Nat, keys[i]? = some v ↔ keys.idxOf v = i := by
      intro i
      constructor
      · intro hi
        obtain ⟨hlt, he⟩ := List.getElem?_eq_some_iff.mp hi
        rw [← he]; exact hnd.idxOf_getElem i hlt
      · rintro rfl
        exact List.getElem?_idxOf hk
    refine ⟨w', by simp only [forbid, hv, if_pos hk, h1], by simpa using h2, ?_, ?_⟩
    · rintro i ⟨b, hb, u, hu, hi⟩ hlt
      by_cases hex : ∃ a ∈ as, ∃ v, zv a = some v ∧ keys[i]? = some v
      · exact h3 i hex (by simpa using hlt)
      · rw [h4 i hex]
        rcases List.mem_cons.mp hb with rfl | hb
        · rw [hv] at hu; cases hu
          rw [(hidx i).mp hi, List.getElem?_set_self hlt]
        · exact absurd ⟨b, hb, u, hu, hi⟩ hex
    · intro i hno
      have hno' : ¬ ∃ a ∈ as, ∃ v, zv a = some v ∧ keys[i]? = some v := by
        rintro ⟨b, hb, rest⟩; exact hno ⟨b, by simp [hb], rest⟩
      rw [h4 i hno']
      have : keys.idxOf v ≠ i := fun e => hno ⟨a, by simp, v, hv, (hidx i).mpr e⟩
      rw [List.getElem?_set_ne this]

/-- The number of auxiliary views. -/
def mAux (s : State C) (col : Col) (m : Nat) : Nat :=
  if s.crp.singleton (some col) then m - 1 else m

/-- The candidate views. -/
def candidates (s : State C) (col : Col) (m : Nat) : List Nat :=
  pySorted s.crp.counts.keys ++
    (List.range (s.mAux col m)).map fun i => pyMax s.crp.counts.keys + 1 + i

theorem Inv.keys_perm {s : State C} (h : Inv s) : s.crp.counts.keys.Perm s.views.keys := by
  refine (List.perm_ext_iff_of_nodup h.crp.wfCounts h.views.wf).mpr fun v => ?_
  rw [Crp.occupied_iff h.crp, h.occ]; rfl

theorem Inv.counts_ne {s : State C} (h : Inv s) : s.crp.counts.isEmpty = false := by
  obtain ⟨c, t, e⟩ := List.exists_cons_of_ne_nil h.data.ne
  obtain ⟨v, -, -, hz, -⟩ := h.dim (c := c) (by rw [e]; simp)
  obtain ⟨nv, hn⟩ := h.counts hz
  cases hc : s.crp.counts with
  | nil => rw [hc] at hn; simp at hn
  | cons a b => rfl

theorem Inv.gibbsTables {s : State C} (h : Inv s) (col : Col) {m : Nat} (hm : 0 < m) :
    s.crp.gibbsTables (some col) m = .ok (s.candidates col m) := by
  unfold Crp.gibbsTables
  rw [if_neg (by omega)]
  simp only [h.counts_ne, Bool.false_eq_true, false_and, if_false]
  rfl

theorem Inv.length_views {s : State C} (h : Inv s) :
    (pySorted s.crp.counts.keys).length = s.views.length := by
  rw [(Props.pySorted_perm _).length_eq, h.keys_perm.length_eq]
  simp [Dict.keys]

theorem pyMax_perm {a b : List Nat} (h : a.Perm b) : pyMax a = pyMax b := by
  by_cases ha : a = []
  · subst ha; rw [List.nil_perm.mp h]
  · have hb : b ≠ [] := by rintro rfl; exact ha (List.perm_nil.mp h)
    apply le_antisymm
    · exact pyMax_le ha fun x hx => Props.le_pyMax (h.mem_iff.mp hx)
    · exact pyMax_le hb fun x hx => Props.le_pyMax (h.mem_iff.mpr hx)

/-- What `_gibbs_transition_dim` computes before it draws. -/
theorem Inv.gibbsDimScore_ok {cfg : Cfg C} {s : State C} (h : Inv s) {col : Col} {d : Dim C}
    (hd : s.dimFor col = .ok d) {m : Nat} (hm : 0 < m) {aux : Nat → ℝ × (Row → Tab)}
    (haux : ∀ j, 0 < (aux j).1) (hCi : ∀ a ∈ avoid s.Ci col, a ∈ s.outputs) {own : Nat}
    (hown : s.Zv col = some own) :
    ∃ (ps : List (Dim C × ℝ)) (auxs : List (View C × Dim C × ℝ)) (w : List LogP),
      s.gibbsDimScore cfg col m aux = .ok (s.candidates col m,
        ps.map Prod.fst ++ auxs.map (fun p => p.2.1), auxs.map (fun p => p.1), w)
        { s with views := dropCol col s.views } ∧
      List.Forall₂ (fun (p : Nat × View C) (q : Dim C × ℝ) =>
        Dim.Frame d q.1 ∧ DimOk s.tbl p.2.seat col q.1 ∧ q.2 = q.1.score) s.views ps ∧
      List.Forall₂ (fun (j : Nat) (q : View C × Dim C × ℝ) =>
        View.Inv s.tbl q.1 ∧ q.1.dims = [] ∧ q.1.crp.alpha = (aux j).1 ∧
        (∀ r, q.1.seat r = ((List.range s.nRows).map (aux j).2)[r]?) ∧
        Dim.Frame d q.2.1 ∧ DimOk s.tbl q.1.seat col q.2.1 ∧ q.2.2 = q.2.1.score)
        (List.range (s.mAux col m)) auxs ∧
      w.length = (s.candidates col m).length ∧
      (∀ i : Nat, (∃ a ∈ avoid s.Ci col, ∃ v, s.Zv a = some v ∧ s.views.keys[i]? = some v) →
        i < w.length → w[i]? = some ⊥) ∧
      (∀ i : Nat, (¬ ∃ a ∈ avoid s.Ci col, ∃ v, s.Zv a = some v ∧ s.views.keys[i]? = some v) →
        w[i]? = (List.zipWith (fun a b : ℝ => ((a + b : ℝ) : LogP))
          (ps.map Prod.snd ++ auxs.map fun p => p.2.2)
          ((s.candidates col m).map fun t => Real.log (s.crp.gibbsWeight own m t)))[i]?) := by
  obtain ⟨i0, v0, hz, hv0, hd0⟩ := dimFor_ok hd
  have ho0 := h.views.view i0 v0 hv0
  have hdo := ho0.inv.dim (col, d) (Dict.mem_of_get? hd0)
  have hacc : ∀ r, r < s.nRows → Accepts s.tbl d r := fun r hr => by
    obtain ⟨k, hk⟩ := Option.ne_none_iff_exists'.mp ((ho0.rows r).mpr hr)
    exact hdo.acc r k hk
  obtain ⟨ps, h1, h2⟩ := proposeAll_ok (cfg := cfg) (X := s.tbl) hdo.index hdo.hyp (vs := s.views)
    (by
      rintro ⟨i, v⟩ hp
      have hg := Dict.get?_of_mem h.views.wf hp
      have ho := h.views.view i v hg
      refine ⟨ho.inv, fun r hr => hacc r ((ho.rows r).mp hr), Or.inr fun hc => ?_⟩
      have : s.Zv col = some i := (ho.dims col).mp hc
      rw [hz] at this
      cases this
      rw [hv0] at hg; cases hg
      exact hdo) (Dim.Frame.refl d) (Or.inr rfl)
  have hlps : ps.length = s.views.length := h2.length_eq.symm
  set d' := (ps.getLast?.map Prod.fst).getD d with hd'
  have hf' : Dim.Frame d d' := by
    rw [hd']
    cases hl : ps.getLast? with
    | none => exact Dim.Frame.refl d
    | some q =>
      obtain ⟨i, hi⟩ := List.getElem?_of_mem (List.mem_of_getLast? hl)
      obtain ⟨p, -, hp⟩ := forall2_right h2 hi
      exact hp.1
  obtain ⟨auxs, h3, h4⟩ := proposeAux_ok (cfg := cfg) (X := s.tbl) (n := s.nRows) (d := d')
    (hf'.index.trans hdo.index) (by rw [hf'.fam, hf'.hyp]; exact hdo.hyp)
    (fun r hr => (accepts_frame hf' r).mpr (hacc r hr)) haux (List.range (s.mAux col m))
  have hnum : (s.candidates col m).length - s.views.length = s.mAux col m := by
    unfold candidates
    rw [List.length_append, h.length_views]; simp
  have hown' : s.crp.data.get? col = some own := hown
  have hlogps : s.crp.gibbsLogps col m = .ok
      ((s.candidates col m).map fun t => Real.log (s.crp.gibbsWeight own m t)) := by
    unfold Crp.gibbsLogps
    simp only [hown', h.gibbsTables col hm]
  have hlen : (ps.map Prod.snd ++ auxs.map fun p => p.2.2).length =
      ((s.candidates col m).map fun t => Real.log (s.crp.gibbsWeight own m t)).length := by
    have := h4.length_eq
    rw [List.length_range] at this
    simp only [List.length_append, List.length_map, hlps, ← this, candidates, h.length_views,
      List.length_range]
  obtain ⟨w, g1, g2, g3, g4⟩ := forbid_ok (zv := s.Zv) h.views.wf (as := avoid s.Ci col) (by
      intro a ha
      obtain ⟨v, va, da, hza, hva, _⟩ := h.dim (hCi a ha)
      exact ⟨v, hza, Dict.mem_keys_of_get? hva⟩)
    (List.zipWith (fun a b : ℝ => ((a + b : ℝ) : LogP))
      (ps.map Prod.snd ++ auxs.map fun p => p.2.2)
      ((s.candidates col m).map fun t => Real.log (s.crp.gibbsWeight own m t)))
  have hwl : w.length = (s.candidates col m).length := by
    rw [g2, List.length_zipWith, hlen]; simp
  refine ⟨ps, auxs, w, ?_, h2, ?_, hwl, ?_, g4⟩
  · unfold gibbsDimScore
    simp only [hd, h1, h.gibbsTables col hm, hnum, ← hd', h3, hlogps]
    rw [if_neg (by rw [hlen]; simp)]
    simp only [g1]
  · exact h4.imp fun j q hq => ⟨hq.1, hq.2.1, hq.2.2.1, hq.2.2.2.1, hf'.trans hq.2.2.2.2.1,
      hq.2.2.2.2.2⟩
  · intro i hi hlt
    exact g3 i hi (by rw [← g2]; exact hlt)

end State
end Cgpm
