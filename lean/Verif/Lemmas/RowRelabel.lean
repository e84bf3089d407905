import Verif.Lemmas.ViewSpec

/-! The score of a consistent view depends on the partition of its rows, not on the labels of the
clusters. -/
namespace Cgpm

variable {C : Cat}

/-- Two dicts that agree up to a renaming of the keys have the same values. -/
theorem Dict.vals_perm_of_relabel {V : Type} {d e : Dict Tab V} (hd : d.WF) (he : e.WF)
    (ρ : Tab → Tab) (hinj : ∀ k ∈ d.keys, ∀ k' ∈ d.keys, ρ k = ρ k' → k = k')
    (h : ∀ k ∈ d.keys, e.get? (ρ k) = d.get? k) (hs : ∀ k' ∈ e.keys, ∃ k ∈ d.keys, ρ k = k') :
    d.vals.Perm e.vals := by
  have hk : (d.map fun p => ((ρ p.1, p.2) : Tab × V)).Perm e := by
    refine Dict.perm_of_get? (K := Tab) (V := V) ?_ he (fun k' => ?_)
    · unfold Dict.WF Dict.keys
      rw [List.map_map]
      change (d.map (fun p => ρ p.1)).Nodup
      have : d.map (fun p => ρ p.1) = d.keys.map ρ := by simp [Dict.keys, Function.comp_def]
      rw [this]
      exact List.Nodup.map_on (fun x hx y hy e => hinj x hx y hy e) hd
    · have key : ∀ (l : Dict Tab V), (∀ k ∈ l.keys, ∀ k' ∈ l.keys, ρ k = ρ k' → k = k') →
          ∀ k ∈ l.keys, Dict.get? (l.map fun p => ((ρ p.1, p.2) : Tab × V)) (ρ k) = l.get? k := by
        intro l
        induction l with
        | nil => intro _ k hk; simp [Dict.keys] at hk
        | cons p t ih =>
          obtain ⟨a, b⟩ := p
          intro hi k hk
          simp only [List.map_cons, Dict.get?_cons]
          by_cases e : a = k
          · subst e; simp
          · have : ρ a ≠ ρ k := fun h' => e (hi a (by simp [Dict.keys]) k hk h')
            rw [if_neg this, if_neg e]
            have hkt : k ∈ Dict.keys t := by
              simp only [Dict.keys, List.map_cons, List.mem_cons] at hk
              rcases hk with h' | h'
              · exact absurd h'.symm e
              · exact h'
            exact ih (fun x hx y hy => hi x (by simp only [Dict.keys, List.map_cons, List.mem_cons]; exact Or.inr hx)
              y (by simp only [Dict.keys, List.map_cons, List.mem_cons]; exact Or.inr hy)) k hkt
      by_cases hk' : k' ∈ e.keys
      · obtain ⟨k, hk, rfl⟩ := hs k' hk'
        rw [key d hinj k hk, h k hk]
      · rw [(Dict.get?_eq_none_iff e k').mpr hk', Dict.get?_eq_none_iff]
        intro hm
        simp only [Dict.keys, List.map_map, List.mem_map, Function.comp] at hm
        obtain ⟨p, hp, rfl⟩ := hm
        have hkd : p.1 ∈ d.keys := List.mem_map_of_mem (f := Prod.fst) hp
        apply hk'
        rw [← Dict.get?_isSome_iff, h _ hkd, Dict.get?_isSome_iff]
        exact hkd
  have := hk.map Prod.snd
  simpa [Dict.vals, Function.comp_def] using this

namespace View
open Cgpm.Props

/-- `ρ` renames the clusters of `s` to those of `t`. -/
structure Relabel (ρ : Tab → Tab) (s t : Row → Option Tab) : Prop where
  map : ∀ r, t r = (s r).map ρ
  inj : ∀ k k', Occ s k → Occ s k' → ρ k = ρ k' → k = k'

theorem Relabel.fwd {ρ : Tab → Tab} {s t : Row → Option Tab} (h : Relabel ρ s t) {r : Row} {k : Tab}
    (hr : s r = some k) : t r = some (ρ k) := by rw [h.map, hr]; rfl

theorem Relabel.bwd {ρ : Tab → Tab} {s t : Row → Option Tab} (h : Relabel ρ s t) {r : Row} {k' : Tab}
    (hr : t r = some k') : ∃ k, s r = some k ∧ ρ k = k' := by
  rw [h.map, Option.map_eq_some_iff] at hr; exact hr

theorem Relabel.iff {ρ : Tab → Tab} {s t : Row → Option Tab} (h : Relabel ρ s t) {k : Tab}
    (hk : Occ s k) (r : Row) : t r = some (ρ k) ↔ s r = some k := by
  constructor
  · intro hr
    obtain ⟨k', h1, h2⟩ := h.bwd hr
    rw [h1, h.inj k' k ⟨r, h1⟩ hk h2]
  · exact h.fwd

theorem Relabel.occ {ρ : Tab → Tab} {s t : Row → Option Tab} (h : Relabel ρ s t) {k' : Tab}
    (hk : Occ t k') : ∃ k, Occ s k ∧ ρ k = k' := by
  obtain ⟨r, hr⟩ := hk
  obtain ⟨k, h1, h2⟩ := h.bwd hr
  exact ⟨k, ⟨r, h1⟩, h2⟩

/-- Two assignments of the same rows with the same blocks differ by a renaming. -/
theorem exists_relabel {s t : Row → Option Tab} (hrows : ∀ r, t r ≠ none ↔ s r ≠ none)
    (hp : ∀ r r', s r ≠ none → s r' ≠ none → (s r = s r' ↔ t r = t r')) :
    ∃ ρ, Relabel ρ s t := by
  classical
  refine ⟨fun k => if h : ∃ r, s r = some k then (t h.choose).getD 0 else 0, ?_, ?_⟩
  · intro r
    cases hr : s r with
    | none => exact not_not.mp fun h => (hrows r).mp h hr
    | some k =>
      have hex : ∃ r, s r = some k := ⟨r, hr⟩
      simp only [Option.map_some, dif_pos hex]
      have h1 := hex.choose_spec
      have h2 : t r = t hex.choose :=
        (hp r _ (by simp [hr]) (by simp [h1])).mp (hr.trans h1.symm)
      obtain ⟨k', hk'⟩ := Option.ne_none_iff_exists'.mp ((hrows r).mpr (by simp [hr]))
      rw [← h2, hk']; rfl
  · intro k k' hk hk' e
    have hk : ∃ r, s r = some k := hk
    have hk' : ∃ r, s r = some k' := hk'
    rw [dif_pos hk, dif_pos hk'] at e
    have h1 := hk.choose_spec
    have h2 := hk'.choose_spec
    have n1 : s hk.choose ≠ none := by simp [h1]
    have n2 : s hk'.choose ≠ none := by simp [h2]
    obtain ⟨x, hx⟩ := Option.ne_none_iff_exists'.mp ((hrows _).mpr n1)
    obtain ⟨y, hy⟩ := Option.ne_none_iff_exists'.mp ((hrows _).mpr n2)
    rw [hx, hy] at e
    have : t hk.choose = t hk'.choose := by rw [hx, hy]; simpa using e
    have := (hp _ _ n1 n2).mpr this
    rw [h1, h2] at this
    exact Option.some.inj this

theorem crp_score_relabel {a b : Crp} (ha : Crp.Inv a) (hb : Crp.Inv b) (hα : a.alpha = b.alpha)
    {ρ : Tab → Tab} (h : Relabel ρ (fun r => a.data.get? r) (fun r => b.data.get? r)) :
    a.logpdfScore = b.logpdfScore := by
  have hset : ∀ {k}, Occ (fun r => a.data.get? r) k →
      nSeated b.data (ρ k) = nSeated a.data k := by
    intro k hk
    rw [← ncard_get? ha.wfData k, ← ncard_get? hb.wfData (ρ k)]
    congr 1
    ext r
    exact h.iff hk r
  refine score_congr hα ?_ ?_
  · rw [ha.hN, hb.hN]
    have h1 := ncard_get?_total ha.wfData
    have h2 := ncard_get?_total hb.wfData
    rw [← h1, ← h2]
    congr 2
    ext r
    have := h.map r
    simp [this]
  · refine Dict.vals_perm_of_relabel ha.wfCounts hb.wfCounts ρ ?_ ?_ ?_
    · intro k hk k' hk' e
      exact h.inj k k' ((Crp.occupied_iff ha k).mp hk) ((Crp.occupied_iff ha k').mp hk') e
    · intro k hk
      rw [ha.hCounts, hb.hCounts, countOf, countOf, hset ((Crp.occupied_iff ha k).mp hk)]
    · intro k' hk'
      obtain ⟨k, h1, h2⟩ := h.occ (k' := k') ((Crp.occupied_iff hb k').mp hk')
      exact ⟨k, (Crp.occupied_iff ha k).mpr h1, h2⟩

theorem dim_score_relabel (hL : C.Lawful) {X : C.Tbl} {s t : Row → Option Tab} {c : Col}
    {d d' : Dim C} (h : DimOk X s c d) (h' : DimOk X t c d') (hf : Dim.Frame d d')
    {ρ : Tab → Tab} (hρ : Relabel ρ s t) : d.score = d'.score := by
  rw [Dim.score_eq, Dim.score_eq]
  refine (Dict.vals_perm_of_relabel (Dim.scores_wf h.core.wfC) (Dim.scores_wf h'.core.wfC) ρ
    ?_ ?_ ?_).sum_eq
  · intro k hk k' hk' e
    unfold Dim.scores at hk hk'
    rw [Dict.keys_map_val] at hk hk'
    exact hρ.inj k k' ((h.keys k).mp hk) ((h.keys k').mp hk') e
  · intro k hk
    unfold Dim.scores at hk
    rw [Dict.keys_map_val] at hk
    have hocc := (h.keys k).mp hk
    have hk' : ρ k ∈ d'.clusters.keys := by
      rw [h'.keys]
      obtain ⟨r, hr⟩ := hocc
      exact ⟨r, hρ.fwd hr⟩
    obtain ⟨cl, hcl⟩ := Dict.exists_of_mem_keys hk
    obtain ⟨cl', hcl'⟩ := Dict.exists_of_mem_keys hk'
    rw [Dim.scores_get?, Dim.scores_get?, hcl, hcl']
    have h1 := h.core.cl k cl hcl
    have h2 := h'.core.cl (ρ k) cl' hcl'
    rw [hf.fam, filing_frame hf] at h2
    have h3 : cl'.Holds d.fam (fun r => valIn k (filing X s d r)) := by
      refine h2.congr fun r => ?_
      unfold filing
      cases hs : s r with
      | none =>
        have : t r = none := by rw [hρ.map, hs]; rfl
        rw [this]; rfl
      | some k0 =>
        rw [hρ.fwd hs]
        simp only [Option.map_some]
        cases stored X d r with
        | none => rfl
        | some o =>
          simp only [valIn_val]
          by_cases e : k0 = k
          · subst e; simp
          · rw [if_neg e, if_neg fun e' => e (hρ.inj k0 k ⟨r, hs⟩ hocc e')]
    have hst := (h1.stat_unique (hL _) h3).2
    simp only [Option.map_some, Comp.score, h.shared.cl k cl hcl, h'.shared.cl _ cl' hcl', hf.hyp,
      hst, hf.fam]
  · intro k' hk'
    unfold Dim.scores at hk'
    rw [Dict.keys_map_val] at hk'
    obtain ⟨k, h1, h2⟩ := hρ.occ ((h'.keys k').mp hk')
    refine ⟨k, ?_, h2⟩
    unfold Dim.scores
    rw [Dict.keys_map_val]
    exact (h.keys k).mpr h1

/-- The score of a view does not depend on the labels of its clusters. -/
theorem score_relabel (hL : C.Lawful) {X : C.Tbl} {a b : View C} (ha : Inv X a) (hb : Inv X b)
    (hα : a.crp.alpha = b.crp.alpha) (hS : Same a b) {ρ : Tab → Tab}
    (hρ : Relabel ρ a.seat b.seat) : a.score = b.score := by
  unfold View.score likelihood
  rw [crp_score_relabel ha.crp hb.crp hα hρ]
  congr 1
  refine sum_rel ha.wf hb.wf (R := fun x y => ∃ c, DimOk X a.seat c x ∧ DimOk X b.seat c y ∧
    Dim.Frame x y) (fun c => ?_) (fun x y ⟨c, h1, h2, h3⟩ => dim_score_relabel hL h1 h2 h3 hρ)
  have h := hS c
  cases hA : a.dims.get? c with
  | none =>
    cases hB : b.dims.get? c with
    | none => exact Option.Rel.none
    | some d' => rw [hA, hB] at h; cases h
  | some d =>
    cases hB : b.dims.get? c with
    | none => rw [hA, hB] at h; cases h
    | some d' =>
      rw [hA, hB] at h
      cases h with
      | some hf =>
        exact Option.Rel.some ⟨c, ha.dim (c, d) (Dict.mem_of_get? hA),
          hb.dim (c, d') (Dict.mem_of_get? hB), hf⟩

end View
end Cgpm
