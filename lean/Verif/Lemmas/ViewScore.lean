import Verif.Lemmas.ViewRun

/-! The weights of a row transition are the joint scores, up to a common constant. -/
namespace Cgpm

variable {C : Cat}

namespace Dim

theorem Core.clusterOr_holds {d : Dim C} {m : Filing C} (h : Core d m) (k : Tab) :
    (d.clusterOr k).Holds d.fam (fun r => valIn k (m r)) := by
  have := (h.ensure k).cl k _ (ensure_clusterOr d k)
  rwa [ensure_fam] at this

theorem Shared.clusterOr {d : Dim C} (h : Shared d) (k : Tab) : (d.clusterOr k).hyp = d.hyp := by
  have := (h.ensure k).cl k _ (ensure_clusterOr d k)
  rwa [ensure_hyp] at this

/-- Predictive densities only depend on the filing, the type and the hyperparameters. -/
theorem logpdf_congr (hL : C.Lawful) {a b : Dim C} {m : Filing C} (ha : Core a m) (hb : Core b m)
    (sa : Shared a) (sb : Shared b) (hf : Frame a b) {r : Row} {k : Tab}
    (hr : valIn k (m r) = none) (x : C.Cell) (ins : List C.Cell) :
    a.logpdf (some r) k x ins = b.logpdf (some r) k x ins := by
  rw [ha.logpdf_ok hr, hb.logpdf_ok hr]
  have h2 := hb.clusterOr_holds k
  rw [hf.fam] at h2
  have hs := ((ha.clusterOr_holds k).stat_unique (hL _) h2).2
  rw [sa.clusterOr, sb.clusterOr, hf.hyp, hs, hf.fam]

end Dim

namespace View
open Cgpm.Props

/-- Same columns with the same schema, in the same order. -/
def Frames (a b : Dict Col (Dim C)) : Prop :=
  List.Forall₂ (fun p q : Col × Dim C => q.1 = p.1 ∧ Dim.Frame p.2 q.2) a b

theorem Step.frames {X : C.Tbl} {s' : Row → Option Tab} {occ' : Tab → Prop}
    {ds ds' : Dict Col (Dim C)} (h : Step X s' occ' ds ds') : Frames ds ds' :=
  List.Forall₂.imp (fun _ _ h => ⟨h.1, h.2.1⟩) h

theorem frame_symm {a b : Dim C} (h1 : Dim.Frame a b) : Dim.Frame b a :=
  ⟨h1.index.symm, h1.inputs.symm, h1.kind.symm, h1.hyp.symm⟩

theorem Frames.symm {a b : Dict Col (Dim C)} (h : Frames a b) : Frames b a := by
  unfold Frames at *
  induction h with
  | nil => exact List.Forall₂.nil
  | cons h _ ih => exact List.Forall₂.cons ⟨h.1.symm, frame_symm h.2⟩ ih

theorem Frames.trans {a b c : Dict Col (Dim C)} (h : Frames a b) (h' : Frames b c) :
    Frames a c := by
  unfold Frames at *
  induction h generalizing c with
  | nil => cases h'; exact List.Forall₂.nil
  | cons h _ ih =>
    cases h' with
    | cons g t => exact List.Forall₂.cons ⟨g.1.trans h.1, h.2.trans g.2⟩ (ih t)

/-- The total score of the columns. -/
noncomputable def lik (ds : Dict Col (Dim C)) : ℝ := (ds.vals.map Dim.score).sum

theorem lik_cons (c : Col) (d : Dim C) (t : Dict Col (Dim C)) :
    lik ((c, d) :: t) = d.score + lik t := by simp [lik, Dict.vals]

/-- The value computed for one cell, relative to any column describing the data without
the row. -/
theorem cellGibbs_value' (hL : C.Lawful) (hCh : C.Chain) {X : C.Tbl} {s : Row → Option Tab}
    {occ : Tab → Prop} {c : Col} {d d0 : Dim C} (h : DimOk X s c d) {r : Row} {own : Tab}
    (hr : s r = some own) (h0 : DimOk' X (upd s r none) occ c d0) (hf : Dim.Frame d d0)
    {k : Tab} {lp : LogP} {d' dk : Dim C} (hg : cellGibbs X (some own) r k d = .ok lp d')
    (hk : d0.incorporate r k (X c r) (inputsOf X d0 r) = .ok dk) :
    lp = ((dk.score - d0.score : ℝ) : LogP) := by
  obtain ⟨d1, h1, h2, h3⟩ := h.unc hL (r := r) (by simp [hr])
  have hacc : Accepts X d1 r := (accepts_frame h2 r).mpr (h.acc r own hr)
  obtain ⟨d1k, h4, h5, h6⟩ := h3.inc (r := r) (by simp) hacc k
  rw [inputsOf_frame h2] at h4
  have e1 := cellGibbs_value hL hCh h hr hg h1 h4
  have hf1 : Dim.Frame d1 d0 := (frame_symm h2).trans hf
  have c1 := h3.core.chain hCh h3.shared h3.hyp (stored_isStored _ _ _) (by simp [filing]) h4
  have c0 := h0.core.chain hCh h0.shared h0.hyp (stored_isStored _ _ _) (by simp [filing]) hk
  have h0c := h0.core
  rw [filing_frame hf1] at h0c
  have := Dim.logpdf_congr hL h3.core h0c h3.shared h0.shared hf1 (r := r) (k := k)
    (by simp [filing]) (X c r) (inputsOf X d r)
  rw [inputsOf_frame hf] at c0
  rw [c1, c0] at this
  rw [e1]; exact Except.ok.inj this

theorem rowGibbsDims_value (hL : C.Lawful) (hCh : C.Chain) {X : C.Tbl} {s : Row → Option Tab}
    {occ : Tab → Prop} {r : Row} {own : Tab} (hr : s r = some own) {k : Tab}
    {obs : Dict Col C.Cell} {ds ds0 dsk ds' : Dict Col (Dim C)} {lp : LogP}
    (h : ∀ p ∈ ds, DimOk X s p.1 p.2) (h0 : ∀ p ∈ ds0, DimOk' X (upd s r none) occ p.1 p.2)
    (hobs : ∀ p ∈ ds0, obs.get? p.1 = some (X p.1 r))
    (hf : Frames ds ds0) (hk : incDims X r k obs ds0 = .ok dsk)
    (hg : rowGibbsDims X (some own) r k ds = .ok lp ds') :
    lp = ((lik dsk - lik ds0 : ℝ) : LogP) := by
  unfold Frames at hf
  induction hf generalizing lp ds' dsk with
  | nil =>
    simp only [incDims] at hk
    simp only [rowGibbsDims] at hg
    cases hk; cases hg
    simp
  | @cons p q t t0 hpq _ ih =>
    obtain ⟨c, d⟩ := p
    obtain ⟨c0, d0⟩ := q
    obtain ⟨e, hf⟩ := hpq
    simp only at e hf
    subst e
    simp only [rowGibbsDims] at hg
    split at hg
    · cases hg
    · rename_i lp1 d1 hg1
      split at hg
      · cases hg
      · rename_i lps t' hg2
        simp only [incDims] at hk
        have ho := hobs (c0, d0) (by simp)
        simp only at ho
        rw [ho] at hk
        simp only at hk
        split at hk
        · cases hk
        · rename_i dk hk1
          split at hk
          · cases hk
          · rename_i tk hk2
            cases hk; cases hg
            have i1 := ih (fun p hp => h p (by simp [hp])) (fun p hp => h0 p (by simp [hp]))
              (fun p hp => hobs p (by simp [hp])) hk2 hg2
            have i2 := cellGibbs_value' hL hCh (h (c0, d) (by simp)) hr (h0 (c0, d0) (by simp)) hf
              hg1 hk1
            rw [i1, i2, lik_cons, lik_cons, ← WithBot.coe_add]
            congr 1; ring

theorem rowGibbs_value (hL : C.Lawful) (hCh : C.Chain) {X : C.Tbl} {s : Row → Option Tab}
    {occ : Tab → Prop} {r : Row} {own : Tab} (hr : s r = some own) (K : List Tab)
    {obs : Dict Col C.Cell} {ds ds0 ds' : Dict Col (Dim C)} {lps : List LogP}
    {dsk : Tab → Dict Col (Dim C)}
    (h : ∀ p ∈ ds, DimOk X s p.1 p.2) (h0 : ∀ p ∈ ds0, DimOk' X (upd s r none) occ p.1 p.2)
    (hobs : ∀ p ∈ ds0, obs.get? p.1 = some (X p.1 r))
    (hf : Frames ds ds0) (hk : ∀ k, incDims X r k obs ds0 = .ok (dsk k))
    (hg : rowGibbs X (some own) r K ds = .ok lps ds') :
    lps = K.map fun k => ((lik (dsk k) - lik ds0 : ℝ) : LogP) := by
  induction K generalizing ds lps ds' with
  | nil => simp only [rowGibbs] at hg; cases hg; rfl
  | cons k K ih =>
    simp only [rowGibbs] at hg
    split at hg
    · cases hg
    · rename_i lp ds1 hg1
      split at hg
      · cases hg
      · rename_i lps1 ds2 hg2
        cases hg
        have i1 := rowGibbsDims_value hL hCh hr h h0 hobs hf (hk k) hg1
        obtain ⟨lp', ds1', g1, g2⟩ := rowGibbsDims_ok hL hr k h
        rw [hg1] at g1
        cases g1
        have i2 := ih g2.ok (g2.frames.symm.trans hf) hg2
        rw [i1, i2]; rfl

/-- The weights computed for a row: for each candidate cluster, once, the score of the
view with the row moved there, plus a constant. -/
theorem gibbsScore_value (hL : C.Lawful) (hCh : C.Chain) {X : C.Tbl} {v : View C} (h : Inv X v)
    {r : Row} (hr : v.seat r ≠ none) :
    ∃ ws v1 c, v.gibbsScore X r = .ok ws v1 ∧ (ws.map Prod.fst).Nodup ∧
      v.crp.gibbsTables (some r) 1 = .ok (ws.map Prod.fst) ∧
      ∀ p ∈ ws, ∃ vk, v.migrateRow X r p.1 = .ok vk ∧ p.2 = ((vk.score + c : ℝ) : LogP) := by
  obtain ⟨own, hown⟩ := Option.ne_none_iff_exists'.mp hr
  obtain ⟨v0, h1, h2, h3, h4, h5, h6⟩ := unincorporate_ok hL h hr
  have hr0 : v0.seat r = none := by rw [h3]; simp
  obtain ⟨K, w, hK, hw, hnd, -, -, hwv⟩ := Crp.gibbs_one h.crp hown h5
  obtain ⟨lps, ds', g1, g2, g3⟩ := rowGibbs_ok hL hown K h.dim
  have hobs := mem_dims_map v0 h2.wf X r
  have hinc : ∀ k, ∃ vk, v0.incorporateAt X r (v0.dims.map fun p => (p.1, X p.1 r)) k = .ok vk ∧
      incDims X r k (v0.dims.map fun p => (p.1, X p.1 r)) v0.dims = .ok vk.dims ∧
      v0.crp.incorporate r k = .ok vk.crp := by
    intro k
    obtain ⟨vk, i1, -, -, -, i5, -⟩ := incorporateAt_ok h2 hr0 k
      (h6.accepts (accepts_seated h hr)) hobs
    refine ⟨vk, i1, ?_, i5⟩
    have hh : v0.crp.data.has r = false := (Dict.has_false_iff _ _).mpr hr0
    simp only [incorporateAt, hh, Bool.false_eq_true, if_false, i5] at i1
    split at i1
    · cases i1
    · rename_i ds hds
      rw [hds, ← congrArg View.dims (Out.ok.inj i1)]
  choose vk hvk1 hvk2 hvk3 using hinc
  have hdim0 : ∀ p ∈ v0.dims, DimOk' X (upd v.seat r none) (Occ v0.seat) p.1 p.2 := by
    rw [← h3]; exact h2.dim
  have hval := rowGibbs_value hL hCh hown K h.dim hdim0 hobs h6.frames hvk2 g1
  refine ⟨K.zip (List.zipWith (fun (a : LogP) (b : ℝ) => a + (b : LogP)) lps (K.map w)),
    { v with dims := ds' }, Real.log (v0.crp.N + v0.crp.alpha) - lik v0.dims - v0.crp.logpdfScore,
    ?_, ?_, ?_, ?_⟩
  · simp only [gibbsScore, hK, hw, hown, g1]
  · rw [List.map_fst_zip]
    · exact hnd
    · simp [g3]
  · rw [List.map_fst_zip]
    · exact hK
    · simp [g3]
  · intro p hp
    rw [hval, List.zipWith_map, List.zipWith_self, List.zip_map_right] at hp
    obtain ⟨⟨k, k'⟩, hkk, rfl⟩ := List.mem_map.mp hp
    have hkk' : k = k' ∧ k ∈ K := by
      have : (k, k') ∈ K.map fun x => (x, x) := by rwa [List.zip, List.zipWith_self] at hkk
      obtain ⟨x, hx, he⟩ := List.mem_map.mp this
      cases he; exact ⟨rfl, hx⟩
    obtain ⟨rfl, hmem⟩ := hkk'
    refine ⟨vk k, by simp only [migrateRow, h1, Out.bind_ok, Prod.map, id, hvk1], ?_⟩
    simp only [Prod.map]
    rw [← WithBot.coe_add]
    congr 1
    rw [hwv k hmem]
    have hsc := score_incorporate h2.crp h2.alpha (r := r) (x := k) hr0
    rw [hvk3 k, Out.state_ok] at hsc
    have : (vk k).score = (vk k).crp.logpdfScore + lik (vk k).dims := rfl
    rw [this, hsc]; ring

end View
end Cgpm
