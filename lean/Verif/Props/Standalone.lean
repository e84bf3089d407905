import Verif.Spec.Standalone
import Verif.Props.DummyCode

/-!
Property C42: the row bookkeeping of the stand-alone models is exact; and the part of C38 about
the regressions: their covariates have the declared width.
-/
namespace Cgpm.Props
open Cgpm Cgpm.Net

/-! ### Histories -/

theorem kept_snoc {O S : Type} (acc : O → Option S) (ops : List (RowOp O)) (op : RowOp O) :
    kept acc (ops ++ [op]) = match op with
      | .inc r o => fun r' => if r' = r ∧ kept acc ops r = none then acc o else kept acc ops r'
      | .unc r => fun r' => if r' = r then none else kept acc ops r' := by
  unfold kept
  rw [List.foldl_append]
  cases op <;> rfl

theorem runRows_snoc {σ O : Type} (inc : σ → Row → O → Out σ) (unc : σ → Row → Out σ) (s : σ)
    (ops : List (RowOp O)) (op : RowOp O) :
    runRows inc unc s (ops ++ [op]) = match op with
      | .inc r o => (inc (runRows inc unc s ops) r o).state
      | .unc r => (unc (runRows inc unc s ops) r).state := by
  unfold runRows
  rw [List.foldl_append]
  cases op <;> rfl

/-- The number of rows of a dict. -/
theorem dict_ncard {S : Type} {d : Dict Row S} (hw : d.WF) {m : Row → Option S}
    (h : ∀ r, d.get? r ≠ none ↔ m r ≠ none) : d.length = Set.ncard {r | m r ≠ none} := by
  have e : {r | m r ≠ none} = ((d.keys.toFinset : Finset Row) : Set Row) := by
    ext r
    simp only [Set.mem_setOf_eq, List.coe_toFinset]
    rw [← h r]
    rw [← Dict.get?_isSome_iff, Option.isSome_iff_ne_none]
  rw [e, Set.ncard_coe_finset, List.toFinset_card_of_nodup hw]
  simp [Dict.keys]

/-! ### Regressions -/

/-- Invariant of the rows of a regression. -/
structure RegInv {X : Type} (s : RegRows X) (m : Row → Option (X × List (Option ℝ))) : Prop where
  wx : s.x.WF
  wy : s.Y.WF
  holds : ∀ r, RegHolds s r (m r)
  size : s.N = (s.x.length : ℤ)

theorem reg_has {X : Type} {s : RegRows X} {m : Row → Option (X × List (Option ℝ))}
    (h : RegInv s m) (r : Row) : (s.x.has r = true ↔ m r ≠ none) ∧ (s.Y.has r = true ↔ m r ≠ none) := by
  obtain ⟨h1, h2⟩ := h.holds r
  rw [Dict.has_iff, Dict.has_iff, ← Dict.get?_isSome_iff, ← Dict.get?_isSome_iff, h1, h2]
  cases m r <;> simp

theorem reg_inc {X : Type} {s : RegRows X} {m : Row → Option (X × List (Option ℝ))}
    (h : RegInv s m) (r : Row) (prep : Except Exn (X × List (Option ℝ)))
    (v : Option (X × List (Option ℝ)))
    (hp : ∀ a, prep = .ok a ↔ v = some a) :
    RegInv (s.incorporate r prep).state (fun r' => if r' = r ∧ m r = none then v else m r') ∧
    ((s.incorporate r prep).isOk = true ↔ m r = none ∧ v ≠ none) ∧
    ∀ e s', s.incorporate r prep = .err e s' → s' = s := by
  obtain ⟨hx, hy⟩ := reg_has h r
  by_cases hm : m r = none
  · have h1 : s.x.has r = false := by
      rw [← Bool.not_eq_true, hx]; simp [hm]
    have h2 : s.Y.has r = false := by
      rw [← Bool.not_eq_true, hy]; simp [hm]
    unfold RegRows.incorporate
    rw [h1, h2]
    cases hpr : prep with
    | error e =>
      have hv : v = none := by
        cases v with
        | none => rfl
        | some a => have := (hp a).mpr rfl; rw [hpr] at this; cases this
      refine ⟨?_, by simp [hv], fun e' s' he => by cases he; rfl⟩
      have : (fun r' => if r' = r ∧ m r = none then v else m r') = m := by
        funext r'
        by_cases hr : r' = r
        · subst hr; rw [if_pos ⟨rfl, hm⟩, hv, hm]
        · rw [if_neg fun hh => hr hh.1]
      rw [this]
      exact h
    | ok a =>
      obtain ⟨x, y⟩ := a
      have hv : v = some (x, y) := (hp (x, y)).mp hpr
      have g1 : s.x.get? r = none := (Dict.has_false_iff _ _).mp h1
      have g2 : s.Y.get? r = none := (Dict.has_false_iff _ _).mp h2
      refine ⟨⟨Dict.wf_set h.wx _ _, Dict.wf_set h.wy _ _, fun r' => ?_, ?_⟩, by simp [hv, hm],
        fun e' s' he => by cases he⟩
      · show (s.x.set r x).get? r' = _ ∧ (s.Y.set r y).get? r' = _
        rw [Dict.get?_set, Dict.get?_set]
        by_cases hr : r' = r
        · subst hr
          rw [if_pos rfl, if_pos rfl, if_pos ⟨rfl, hm⟩, hv]
          exact ⟨rfl, rfl⟩
        · rw [if_neg hr, if_neg hr, if_neg fun hh => hr hh.1]
          exact h.holds r'
      · show s.N + 1 = ((s.x.set r x).length : ℤ)
        rw [Dict.set_of_not_mem x g1, h.size]
        simp
  · have h1 : s.x.has r = true := hx.mpr hm
    unfold RegRows.incorporate
    rw [h1]
    refine ⟨?_, by simp [hm], fun e' s' he => by cases he; rfl⟩
    have : (fun r' => if r' = r ∧ m r = none then v else m r') = m := by
      funext r'
      rw [if_neg fun hh => hm hh.2]
    rw [this]
    exact h

theorem reg_unc {X : Type} {s : RegRows X} {m : Row → Option (X × List (Option ℝ))}
    (h : RegInv s m) (r : Row) :
    RegInv (s.unincorporate r).state (fun r' => if r' = r then none else m r') ∧
    ((s.unincorporate r).isOk = true ↔ m r ≠ none) ∧
    ∀ e s', s.unincorporate r = .err e s' → s' = s := by
  obtain ⟨hx, hy⟩ := reg_has h r
  unfold RegRows.unincorporate
  by_cases hm : m r = none
  · have h1 : s.x.has r = false := by
      rw [← Bool.not_eq_true, hx]; simp [hm]
    rw [h1]
    refine ⟨?_, by simp [hm], fun e' s' he => by cases he; rfl⟩
    have : (fun r' => if r' = r then none else m r') = m := by
      funext r'
      by_cases hr : r' = r
      · subst hr; rw [if_pos rfl, hm]
      · rw [if_neg hr]
    rw [this]
    exact h
  · have h1 : s.x.has r = true := hx.mpr hm
    have h2 : s.Y.has r = true := hy.mpr hm
    simp only [h1, h2, if_true]
    refine ⟨⟨Dict.wf_erase h.wx _, Dict.wf_erase h.wy _, fun r' => ?_, ?_⟩, by simp [hm],
      fun e' s' he => by cases he⟩
    · show (s.x.erase r).get? r' = _ ∧ (s.Y.erase r).get? r' = _
      by_cases hr : r' = r
      · subst hr
        rw [if_pos rfl, Dict.get?_erase_self, Dict.get?_erase_self]
        exact ⟨rfl, rfl⟩
      · rw [if_neg hr, Dict.get?_erase_ne _ hr, Dict.get?_erase_ne _ hr]
        exact h.holds r'
    · show s.N - 1 = ((s.x.erase r).length : ℤ)
      obtain ⟨v, hv⟩ := Option.ne_none_iff_exists'.mp hm
      have := (h.holds r).1
      rw [hv] at this
      have hl := Dict.length_erase h.wx this
      rw [h.size, hl]
      push_cast
      ring

theorem reg_run {X O : Type} (prep : O → Except Exn (X × List (Option ℝ)))
    (acc : O → Option (X × List (Option ℝ))) (hp : ∀ o a, prep o = .ok a ↔ acc o = some a)
    (ops : List (RowOp O)) :
    RegInv (runRows (fun (s : RegRows X) r o => s.incorporate r (prep o)) RegRows.unincorporate
      .empty ops) (kept acc ops) := by
  induction ops using List.reverseRecOn with
  | nil => exact ⟨Dict.wf_nil, Dict.wf_nil, fun r => ⟨rfl, rfl⟩, rfl⟩
  | append_singleton ops op ih =>
    rw [runRows_snoc, kept_snoc]
    cases op with
    | inc r o => exact (reg_inc ih r (prep o) (acc o) (hp o)).1
    | unc r => exact (reg_unc ih r).1

theorem reg_exact {X O : Type} (prep : O → Except Exn (X × List (Option ℝ)))
    (acc : O → Option (X × List (Option ℝ))) (hp : ∀ o a, prep o = .ok a ↔ acc o = some a)
    {s : RegRows X} {m : Row → Option (X × List (Option ℝ))} (h : RegInv s m) :
    ExactRows (fun s r o => s.incorporate r (prep o)) RegRows.unincorporate acc RegHolds
      RegRows.N s m where
  rows := h.holds
  size := by
    have h1 := dict_ncard h.wx (m := fun r => (m r).map Prod.fst) fun r => by
      rw [(h.holds r).1]
    have h2 : {r | (m r).map Prod.fst ≠ none} = {r | m r ≠ none} := by
      ext r
      cases m r <;> simp
    rw [h.size, h1, h2]
  inc_accepted := fun r o => (reg_inc h r (prep o) (acc o) (hp o)).2.1
  inc_refused := fun r o => (reg_inc h r (prep o) (acc o) (hp o)).2.2
  unc_accepted := fun r => (reg_unc h r).2.1
  unc_refused := fun r => (reg_unc h r).2.2

/-! ### Schemas -/

theorem discretesOf_get? (counts : List (Option Nat)) (i : Nat) :
    (RegSchema.discretesOf counts).get? i =
      match counts[i]? with
      | some (some (c + 1)) => some (c + 1)
      | _ => none := by
  suffices H : ∀ (l : List (Option Nat)) n i, Dict.get? ((l.zipIdx n).filterMap fun q =>
      match q.1 with
      | some (c + 1) => some (q.2, c + 1)
      | _ => none) (n + i) =
      match l[i]? with
      | some (some (c + 1)) => some (c + 1)
      | _ => none by
    have := H counts 0 i
    rwa [Nat.zero_add] at this
  intro l
  induction l with
  | nil => intro n i; simp
  | cons a t ih =>
    intro n i
    rw [List.zipIdx_cons]
    have hlow : ∀ (u : List (Option Nat)) k j, j < k → Dict.get? ((u.zipIdx k).filterMap fun q =>
        match q.1 with
        | some (c + 1) => some (q.2, c + 1)
        | _ => none) j = none := by
      intro u k j hj
      rw [Dict.get?_eq_none_iff]
      intro hm
      simp only [Dict.keys, List.mem_map, List.mem_filterMap] at hm
      obtain ⟨p, ⟨⟨q1, q2⟩, hq, hq2⟩, hp⟩ := hm
      have hge := (List.mem_zipIdx hq).1
      dsimp only at hq2
      split at hq2
      · cases hq2
        simp only at hp
        omega
      · cases hq2
    cases i with
    | zero =>
      rw [Nat.add_zero]
      match a with
      | none =>
        simp only [List.filterMap_cons]
        rw [hlow _ _ _ (by omega)]
        rfl
      | some 0 =>
        simp only [List.filterMap_cons]
        rw [hlow _ _ _ (by omega)]
        rfl
      | some (c + 1) =>
        simp only [List.filterMap_cons]
        rw [Dict.get?_cons, if_pos (by omega)]
        rfl
    | succ i =>
      have := ih (n + 1) i
      rw [show n + 1 + i = n + (i + 1) by omega] at this
      rw [List.getElem?_cons_succ, ← this]
      match a with
      | none => simp only [List.filterMap_cons]
      | some 0 => simp only [List.filterMap_cons]
      | some (c + 1) =>
        simp only [List.filterMap_cons]
        rw [Dict.get?_cons, if_neg (by omega)]

/-- What a schema knows about its inputs. -/
structure SchemaOk (levels : Nat → Option Nat) (out : Col) (inputs : List Col) (g : RegSchema) :
    Prop where
  outp : g.output = out
  inp : g.inputs = inputs
  apart : out ∉ inputs
  lev : g.discretes.get? = levels
  width : g.p = rowWidth levels inputs.length + 1

theorem schema_ok {count : InputType → Except Exn (Nat × Option Nat)} {levels : Nat → Option Nat}
    {out : Col} {inputs : List Col} {types : List InputType} {g : RegSchema}
    (hg : RegSchema.new count out inputs types = .ok g)
    (hc : ∀ (i : Nat) t a, types[i]? = some t → count t = .ok a →
      levels i = (match a.2 with
        | some (c + 1) => some (c + 1)
        | _ => none) ∧ cellWidth levels i = a.1)
    (hn : ∀ i, types[i]? = none → levels i = none) : SchemaOk levels out inputs g := by
  unfold RegSchema.new at hg
  split at hg
  · cases hg
  · split at hg
    · cases hg
    · rename_i h2
      split at hg
      · cases hg
      · rename_i h3
        cases hl : collect count types with
        | error e => rw [hl] at hg; cases hg
        | ok l =>
          rw [hl] at hg
          cases hg
          have hf := collect_inv hl
          have hlen : types.length = l.length := hf.length_eq
          have hget : ∀ (i : Nat) t, types[i]? = some t → ∃ a, l[i]? = some a ∧ count t = .ok a := by
            intro i t ht
            obtain ⟨hi, ht'⟩ := List.getElem?_eq_some_iff.mp ht
            refine ⟨l[i]'(hlen ▸ hi), List.getElem?_eq_getElem _, ?_⟩
            have := (List.forall₂_iff_get.mp hf).2 i hi (hlen ▸ hi)
            simpa [ht'] using this
          refine ⟨rfl, rfl, by simpa using h2, ?_, ?_⟩
          · funext i
            show (RegSchema.discretesOf (l.map Prod.snd)).get? i = levels i
            rw [discretesOf_get?, List.getElem?_map]
            cases ht : types[i]? with
            | none =>
              have : l[i]? = none := by
                rw [List.getElem?_eq_none_iff] at ht ⊢
                omega
              rw [this, hn i ht]
              rfl
            | some t =>
              obtain ⟨a, ha, hca⟩ := hget i t ht
              rw [ha, (hc i t a ht hca).1]
              rcases a with ⟨a1, _ | _ | c⟩ <;> rfl
          · show (l.map Prod.fst).sum + 1 = _
            congr 2
            have h3' : types.length = inputs.length := by simpa using h3
            refine List.ext_getElem (by simp; omega) fun i h4 h5 => ?_
            rw [List.length_map] at h4
            obtain ⟨a, ha, hca⟩ := hget i types[i] (List.getElem?_eq_getElem (by omega))
            have : l[i] = a := by
              rw [List.getElem?_eq_getElem h4] at ha
              exact Option.some.inj ha
            rw [List.getElem_map, List.getElem_map, List.getElem_range, this,
              (hc i _ a (List.getElem?_eq_getElem (by omega)) hca).2]

theorem linreg_schema {out : Col} {inputs : List Col} {types : List InputType} {g : RegSchema}
    (hg : RegSchema.new LinReg.predictorCount out inputs types = .ok g) :
    SchemaOk (linregLevels types) out inputs g := by
  refine schema_ok hg (fun i t a ht ha => ?_) fun i hi => ?_
  · unfold cellWidth linregLevels
    rw [ht]
    match t with
    | .numeric => cases ha; exact ⟨rfl, rfl⟩
    | .nominal (some k) => cases ha; exact ⟨rfl, rfl⟩
    | .nominal none => cases ha
  · unfold linregLevels; rw [hi]

theorem ols_schema {out : Col} {inputs : List Col} {types : List InputType} {g : RegSchema}
    (hk : ∀ k, .nominal (some k) ∈ types → 0 < k)
    (hg : RegSchema.new Ols.predictorCount out inputs types = .ok g) :
    SchemaOk (olsLevels types) out inputs g := by
  refine schema_ok hg (fun i t a ht ha => ?_) fun i hi => ?_
  · unfold cellWidth olsLevels
    rw [ht]
    match t with
    | .numeric => cases ha; exact ⟨rfl, rfl⟩
    | .nominal (some k) =>
      cases ha
      have := hk k (List.mem_of_getElem? ht)
      obtain ⟨c, rfl⟩ : ∃ c, k = c + 1 := ⟨k - 1, by omega⟩
      exact ⟨rfl, rfl⟩
    | .nominal none => cases ha
  · unfold olsLevels; rw [hi]

theorem sameKeys_iff (g : RegSchema) (ins : Vals) :
    g.sameKeys ins = true ↔ ∀ c, c ∈ ins.keys ↔ c ∈ g.inputs := by
  unfold RegSchema.sameKeys
  simp only [Bool.and_eq_true, List.all_eq_true, List.contains_iff_mem, Dict.has_iff]
  exact ⟨fun h c => ⟨h.1 c, h.2 c⟩, fun h => ⟨fun c => (h c).mp, fun c => (h c).mpr⟩⟩

theorem linreg_prep {levels : Nat → Option Nat} {out : Col} {inputs : List Col} {g : RegSchema}
    (h : SchemaOk levels out inputs g) (o : Vals × Option Vals) (a : ℝ × List (Option ℝ)) :
    LinReg.prep g o.1 o.2 = .ok a ↔ linregKeeps out inputs levels o = some a := by
  obtain ⟨obs, ins⟩ := o
  unfold LinReg.prep LinReg.preprocess
  rw [h.outp, h.inp]
  cases ins with
  | none => split <;> simp [linregKeeps]
  | some ins =>
    simp only [linregKeeps]
    cases hx : obs.get? out with
    | none =>
      have : obs.has out = false := (Dict.has_false_iff _ _).mpr hx
      simp [this]
    | some v =>
      have h1 : obs.has out = true := by
        rw [Dict.has_iff, ← Dict.get?_isSome_iff, hx]; rfl
      have h2 : obs.isEmpty = false := by
        cases obs with
        | nil => simp at hx
        | cons p t => rfl
      rw [h1, h2]
      cases v with
      | none => simp
      | some x =>
        simp only [Bool.not_true, Bool.false_eq_true, if_false]
        by_cases hk : ∀ c, c ∈ ins.keys ↔ c ∈ inputs
        · have h3 : ins.has out = false := by
            rw [← Bool.not_eq_true, Dict.has_iff, hk out]; exact h.apart
          have h4 : g.sameKeys ins = true := (sameKeys_iff g ins).mpr (by rw [h.inp]; exact hk)
          simp only [h3, h4, Bool.not_true, Bool.false_eq_true, if_false]
          by_cases hv : ValidRow levels (inputRow inputs ins)
          · rw [if_pos ⟨hk, hv⟩]
            have hv' : ValidRow g.discretes.get? (inputs.map fun i => (ins.get? i).getD none) := by
              rw [h.lev]; exact hv
            have hw := C38_width _ _ _ (C38_code _ _ hv')
            rw [C38_code _ _ hv']
            have hw2 : ¬ ((inputs.map fun i => (ins.get? i).getD none).zipIdx.flatMap fun p =>
                codeOf g.discretes.get? p.2 p.1).length ≠ g.p - 1 := by
              rw [not_not, hw, h.width, h.lev, List.length_map]; rfl
            simp only [if_neg hw2]
            rw [h.lev]
            simp only [rowCode, inputRow, Except.ok.injEq, Option.some.injEq]
          · rw [if_neg fun hh => hv hh.2]
            have hv' : ¬ ValidRow g.discretes.get? (inputs.map fun i => (ins.get? i).getD none) := by
              rw [h.lev]; exact hv
            rcases C38_rejects _ _ hv' with e | e <;> rw [e] <;> simp
        · rw [if_neg (c := (∀ c, c ∈ ins.keys ↔ c ∈ inputs) ∧ _) fun hh => hk hh.1]
          have h4 : g.sameKeys ins = false := by
            rw [← Bool.not_eq_true, sameKeys_iff, h.inp]; exact hk
          by_cases h3 : ins.has out = true <;> simp [h3, h4]

theorem ols_prep {levels : Nat → Option Nat} {out : Col} {inputs : List Col} {g : RegSchema}
    (h : SchemaOk levels out inputs g) (o : Vals × Option Vals) (a : ℝ × List (Option ℝ)) :
    Ols.prep g o.1 o.2 = .ok a ↔ olsKeeps out inputs levels o = some a := by
  obtain ⟨obs, ins⟩ := o
  unfold Ols.prep Ols.preprocess
  rw [h.outp, h.inp]
  cases ins with
  | none => split <;> simp [olsKeeps]
  | some ins =>
    simp only [olsKeeps]
    cases hx : obs.get? out with
    | none =>
      have : obs.has out = false := (Dict.has_false_iff _ _).mpr hx
      simp [this]
    | some v =>
      have h1 : obs.has out = true := by
        rw [Dict.has_iff, ← Dict.get?_isSome_iff, hx]; rfl
      have h2 : obs.isEmpty = false := by
        cases obs with
        | nil => simp at hx
        | cons p t => rfl
      rw [h1, h2]
      cases v with
      | none => simp
      | some x =>
        simp only [Bool.not_true, Bool.false_eq_true, if_false]
        by_cases hk : ∀ c, c ∈ ins.keys ↔ c ∈ inputs
        · have h3 : ins.has out = false := by
            rw [← Bool.not_eq_true, Dict.has_iff, hk out]; exact h.apart
          have h4 : g.sameKeys ins = true := (sameKeys_iff g ins).mpr (by rw [h.inp]; exact hk)
          simp only [h3, h4, Bool.not_true, Bool.false_eq_true, if_false]
          have hn : ((inputs.map fun i => (ins.get? i).getD none).any Option.isNone) = true ↔
              none ∈ inputRow inputs ins := by
            rw [List.any_eq_true]
            constructor
            · rintro ⟨v, hv, h0⟩
              cases v with
              | none => exact hv
              | some _ => cases h0
            · exact fun hv => ⟨none, hv, rfl⟩
          by_cases hm : none ∈ inputRow inputs ins
          · rw [if_neg (c := (∀ c, c ∈ ins.keys ↔ c ∈ inputs) ∧ _) fun hh => hh.2.2 hm]
            rw [hn.mpr hm]
            simp
          · have hn' : ((inputs.map fun i => (ins.get? i).getD none).any Option.isNone) = false := by
              rw [← Bool.not_eq_true, hn]; exact hm
            simp only [hn', Bool.false_eq_true, if_false]
            by_cases hv : ValidRow levels (inputRow inputs ins)
            · rw [if_pos ⟨hk, hv, hm⟩]
              have hv' : ValidRow g.discretes.get? (inputs.map fun i => (ins.get? i).getD none) := by
                rw [h.lev]; exact hv
              have hw := C38_width _ _ _ (C38_code _ _ hv')
              rw [C38_code _ _ hv']
              have hw2 : ¬ ((inputs.map fun i => (ins.get? i).getD none).zipIdx.flatMap fun p =>
                  codeOf g.discretes.get? p.2 p.1).length ≠ g.p - 1 := by
                rw [not_not, hw, h.width, h.lev, List.length_map]; rfl
              simp only [if_neg hw2]
              rw [h.lev]
              simp only [rowCode, inputRow, Except.ok.injEq, Option.some.injEq]
            · rw [if_neg fun hh => hv hh.2.1]
              have hv' : ¬ ValidRow g.discretes.get? (inputs.map fun i => (ins.get? i).getD none) := by
                rw [h.lev]; exact hv
              rcases C38_rejects _ _ hv' with e | e <;> rw [e] <;> simp
        · rw [if_neg (c := (∀ c, c ∈ ins.keys ↔ c ∈ inputs) ∧ _) fun hh => hk hh.1]
          have h4 : g.sameKeys ins = false := by
            rw [← Bool.not_eq_true, sameKeys_iff, h.inp]; exact hk
          by_cases h3 : ins.has out = true <;> simp [h3, h4]

/-- **C42** A linear regression keeps exactly the rows of its history: the value of each, and the
constant 1 followed by the code of its inputs. -/
theorem C42_linreg {out : Col} {inputs : List Col} {types : List InputType} {g : RegSchema}
    (hg : RegSchema.new LinReg.predictorCount out inputs types = .ok g)
    (ops : List (RowOp (Vals × Option Vals))) :
    ExactRows (fun s r o => s.incorporate r (LinReg.prep g o.1 o.2)) RegRows.unincorporate
      (linregKeeps out inputs (linregLevels types)) RegHolds RegRows.N (LinReg.run g ops)
      (kept (linregKeeps out inputs (linregLevels types)) ops) :=
  reg_exact _ _ (linreg_prep (linreg_schema hg)) (reg_run _ _ (linreg_prep (linreg_schema hg)) ops)

/-- **C42** An ordinary least squares regression keeps exactly the rows of its history. -/
theorem C42_ols {out : Col} {inputs : List Col} {types : List InputType} {g : RegSchema}
    (hk : ∀ k, .nominal (some k) ∈ types → 0 < k)
    (hg : RegSchema.new Ols.predictorCount out inputs types = .ok g)
    (ops : List (RowOp (Vals × Option Vals))) :
    ExactRows (fun s r o => s.incorporate r (Ols.prep g o.1 o.2)) RegRows.unincorporate
      (olsKeeps out inputs (olsLevels types)) RegHolds RegRows.N (Ols.run g ops)
      (kept (olsKeeps out inputs (olsLevels types)) ops) :=
  reg_exact _ _ (ols_prep (ols_schema hk hg)) (reg_run _ _ (ols_prep (ols_schema hk hg)) ops)

/-- The width of the coded covariates. -/
theorem rowCode_length (levels : Nat → Option Nat) (x : List (Option ℝ)) :
    (rowCode levels x).length = rowWidth levels x.length :=
  flatMap_zip_length levels x

/-! ### Random forest -/

theorem forest_prep {out : Col} {inputs : List Col} {n k : Nat} {g : Forest.Schema}
    (hg : Forest.new out inputs n k = .ok g) (o : Vals × Option Vals) (a : ℕ × List (Option ℝ)) :
    Forest.preprocess g o.1 o.2 = .ok a ↔ forestKeeps out inputs k o = some a := by
  obtain ⟨obs, ins⟩ := o
  have hg' : g = ⟨out, inputs, k, n⟩ ∧ n = inputs.length := by
    unfold Forest.new at hg
    split at hg
    · cases hg
    · split at hg
      · cases hg
      · split at hg
        · cases hg
        · rename_i h; cases hg; exact ⟨rfl, not_not.mp h⟩
  obtain ⟨rfl, rfl⟩ := hg'
  cases ins with
  | none => simp [Forest.preprocess, forestKeeps]
  | some ins =>
    simp only [Forest.preprocess, forestKeeps]
    have hno : ins.has out = true ↔ out ∈ ins.keys := Dict.has_iff _ _
    have hall : inputs.all ins.has = true ↔ ∀ c ∈ inputs, c ∈ ins.keys := by
      simp only [List.all_eq_true, Dict.has_iff]
    have hany : (((ins.keys.mergeSort (· ≤ ·)).map fun c => (ins.get? c).getD none).any
        Option.isNone) = false ↔ ∀ c ∈ ins.keys, ∃ x : ℝ, ins.get? c = some (some x) := by
      rw [← Bool.not_eq_true, List.any_eq_true]
      constructor
      · intro hh c hc
        by_contra hx
        refine hh ⟨none, List.mem_map.mpr ⟨c, List.mem_mergeSort.mpr hc, ?_⟩, rfl⟩
        obtain ⟨v, hv⟩ := Dict.exists_of_mem_keys hc
        cases v with
        | none => rw [hv]; rfl
        | some x => exact absurd ⟨x, hv⟩ hx
      · rintro hh ⟨v, hv, h0⟩
        obtain ⟨c, hc, rfl⟩ := List.mem_map.mp hv
        obtain ⟨x, hx⟩ := hh c (List.mem_mergeSort.mp hc)
        rw [hx] at h0
        cases h0
    have hlen : ((ins.keys.mergeSort (· ≤ ·)).map fun c => (ins.get? c).getD none).length =
        ins.length := by
      rw [List.length_map, List.length_mergeSort]
      simp [Dict.keys]
    by_cases h1 : out ∈ ins.keys
    · rw [if_pos (hno.mpr h1)]
      simp [h1]
    rw [if_neg (fun hh => h1 (hno.mp hh))]
    cases hx : obs.get? out with
    | none => simp
    | some v =>
      cases v with
      | none => simp
      | some x =>
        simp only [Bool.not_eq_true']
        by_cases h2 : ∀ c ∈ inputs, c ∈ ins.keys
        · have h2' := hall.mpr h2
          rw [if_neg (by rw [h2']; simp)]
          by_cases h3 : ∀ c ∈ ins.keys, ∃ x : ℝ, ins.get? c = some (some x)
          · rw [if_neg (by rw [hany.mpr h3]; simp), hlen]
            by_cases h4 : ins.length = inputs.length
            · rw [if_neg (not_not.mpr h4)]
              by_cases h5 : x = (⌊x⌋ : ℝ) ∧ 0 ≤ x ∧ x < k
              · rw [if_neg (not_not.mpr h5)]
                have h0 : 0 ≤ ⌊x⌋ := Int.floor_nonneg.mpr h5.2.1
                have hxn : x = (⌊x⌋.toNat : ℝ) := by
                  have h7 : ((⌊x⌋.toNat : ℤ) : ℝ) = (⌊x⌋ : ℝ) := by rw [Int.toNat_of_nonneg h0]
                  rw [Int.cast_natCast] at h7
                  exact h5.1.trans h7.symm
                have hex : ∃ n : ℕ, n < k ∧ some (some x) = some (some (n : ℝ)) :=
                  ⟨⌊x⌋.toNat, by
                    have := h5.2.2
                    rw [hxn] at this
                    exact_mod_cast this, by rw [← hxn]⟩
                rw [dif_pos hex, if_pos ⟨h1, h2, h4, h3⟩]
                have hch : hex.choose = ⌊x⌋.toNat := by
                  have := hex.choose_spec.2
                  rw [Option.some.injEq, Option.some.injEq] at this
                  have h6 := this.symm.trans hxn
                  exact_mod_cast h6
                rw [hch]
                simp [inputRow]
              · rw [if_pos h5]
                have hne : ¬ ∃ n : ℕ, n < k ∧ some (some x) = some (some (n : ℝ)) := by
                  rintro ⟨n, hn, he⟩
                  rw [Option.some.injEq, Option.some.injEq] at he
                  subst he
                  exact h5 ⟨by simp, by positivity, by exact_mod_cast hn⟩
                rw [dif_neg hne]
                simp
            · rw [if_pos h4]
              simp [h4]
          · have : ¬ (((ins.keys.mergeSort (· ≤ ·)).map fun c => (ins.get? c).getD none).any
                Option.isNone) = false := fun hh => h3 (hany.mp hh)
            rw [if_pos (by simpa using this)]
            simp [h3]
        · have : inputs.all ins.has = false := by
            rw [← Bool.not_eq_true, hall]; exact h2
          rw [if_pos this]
          simp [h2]

theorem forest_inc {g : Forest.Schema} (s : Forest.Obj) (r : Row) (o : Vals × Option Vals) :
    (s.incorporate g r o.1 o.2).state.rows =
      (s.rows.incorporate r (Forest.preprocess g o.1 o.2)).state ∧
    (s.incorporate g r o.1 o.2).isOk = (s.rows.incorporate r (Forest.preprocess g o.1 o.2)).isOk ∧
    ∀ e s', s.incorporate g r o.1 o.2 = .err e s' →
      s'.counts = s.counts ∧ s.rows.incorporate r (Forest.preprocess g o.1 o.2) = .err e s'.rows := by
  unfold Forest.Obj.incorporate
  cases hi : s.rows.incorporate r (Forest.preprocess g o.1 o.2) with
  | err e rows => exact ⟨rfl, rfl, fun e' s' he => by cases he; exact ⟨rfl, rfl⟩⟩
  | ok rows =>
    cases hp : Forest.preprocess g o.1 o.2 with
    | error e =>
      rw [hp] at hi
      unfold RegRows.incorporate at hi
      split at hi
      · cases hi
      · split at hi <;> cases hi
    | ok a => exact ⟨rfl, rfl, fun e' s' he => by cases he⟩

theorem forest_unc (s : Forest.Obj) (r : Row) :
    (s.unincorporate r).state.rows = (s.rows.unincorporate r).state ∧
    (s.unincorporate r).state.counts = s.counts ∧
    (s.unincorporate r).isOk = (s.rows.unincorporate r).isOk ∧
    ∀ e s', s.unincorporate r = .err e s' →
      s'.counts = s.counts ∧ s.rows.unincorporate r = .err e s'.rows := by
  unfold Forest.Obj.unincorporate
  cases s.rows.unincorporate r with
  | err e rows => exact ⟨rfl, rfl, rfl, fun e' s' he => by cases he; exact ⟨rfl, rfl⟩⟩
  | ok rows => exact ⟨rfl, rfl, rfl, fun e' s' he => by cases he⟩

theorem forest_ext {s t : Forest.Obj} (h1 : s.rows = t.rows) (h2 : s.counts = t.counts) : s = t := by
  cases s; cases t; cases h1; cases h2; rfl

/-- **C42** A random forest keeps exactly the rows of its history: the category of each, and its
inputs. -/
theorem C42_forest {out : Col} {inputs : List Col} {n k : Nat} {g : Forest.Schema}
    (hg : Forest.new out inputs n k = .ok g) (ops : List (RowOp (Vals × Option Vals))) :
    ExactRows (fun s r o => s.incorporate g r o.1 o.2) Forest.Obj.unincorporate
      (forestKeeps out inputs k) (fun s => RegHolds s.rows) (fun s => s.rows.N) (Forest.run g ops)
      (kept (forestKeeps out inputs k) ops) := by
  have hrun : (Forest.run g ops).rows = runRows (fun (s : RegRows ℕ) r o => s.incorporate r
      (Forest.preprocess g o.1 o.2)) RegRows.unincorporate .empty ops := by
    unfold Forest.run
    induction ops using List.reverseRecOn with
    | nil => rfl
    | append_singleton ops op ih =>
      rw [runRows_snoc, runRows_snoc, ← ih]
      cases op with
      | inc r o => exact (forest_inc _ r o).1
      | unc r => exact (forest_unc _ r).1
  have hi := reg_run _ _ (forest_prep hg) ops
  rw [← hrun] at hi
  have he := reg_exact _ _ (forest_prep hg) hi
  refine ⟨he.rows, he.size, fun r o => ?_, fun r o e s' h => ?_, fun r => ?_, fun r e s' h => ?_⟩
  · show (Forest.Obj.incorporate g _ r o.1 o.2).isOk = true ↔ _
    rw [(forest_inc _ r o).2.1]
    exact he.inc_accepted r o
  · obtain ⟨h1, h2⟩ := (forest_inc _ r o).2.2 e s' h
    exact forest_ext (he.inc_refused r o e _ h2) h1
  · rw [(forest_unc _ r).2.2.1]
    exact he.unc_accepted r
  · obtain ⟨h1, h2⟩ := (forest_unc _ r).2.2.2 e s' h
    exact forest_ext (he.unc_refused r e _ h2) h1

/-- **C42** The table of counts of a random forest always has one entry per category (its length
is what the densities are computed from). -/
theorem C42_forest_counts {g : Forest.Schema} (ops : List (RowOp (Vals × Option Vals))) :
    (Forest.run g ops).counts.length = g.k := by
  unfold Forest.run
  induction ops using List.reverseRecOn with
  | nil => exact List.length_replicate
  | append_singleton ops op ih =>
    rw [runRows_snoc]
    cases op with
    | inc r o =>
      show (Forest.Obj.incorporate g _ r o.1 o.2).state.counts.length = g.k
      rw [← ih]
      generalize runRows _ _ _ ops = s
      unfold Forest.Obj.incorporate
      cases s.rows.incorporate r (Forest.preprocess g o.1 o.2) with
      | err e rows => rfl
      | ok rows =>
        cases Forest.preprocess g o.1 o.2 with
        | error e => rfl
        | ok a => exact List.length_modify _ _ _
    | unc r =>
      show (Forest.Obj.unincorporate _ r).state.counts.length = g.k
      rw [(forest_unc _ r).2.1]
      exact ih

/-- **C42** A remark beyond the property: the counts of a random forest, unlike its rows, are not exact.  Removing a row does not lower
the count of its category, so a forest without rows can have a positive count. -/
theorem C42_forest_counts_stale : ∃ (g : Forest.Schema) (ops : List (RowOp (Vals × Option Vals))),
    Forest.new 0 [1] 1 2 = .ok g ∧ (∀ r, kept (forestKeeps 0 [1] 2) ops r = none) ∧
    (Forest.run g ops).rows.N = 0 ∧ (Forest.run g ops).counts = [0, 1] := by
  have hp : Forest.preprocess ⟨0, [1], 2, 1⟩ [(0, some 1)] (some [(1, some 5)]) =
      .ok (1, [some 5]) := by
    have h1 : ((1 : ℝ) = (⌊(1 : ℝ)⌋ : ℝ) ∧ (0 : ℝ) ≤ 1 ∧ (1 : ℝ) < (2 : ℕ)) := by
      refine ⟨by simp, by norm_num, by norm_num⟩
    simp only [Forest.preprocess]
    simp [Dict.has, Dict.get?, Dict.keys]
  refine ⟨⟨0, [1], 2, 1⟩, [.inc 4 ([(0, some 1)], some [(1, some 5)]), .unc 4], rfl, fun r => ?_,
    ?_, ?_⟩
  · show (if r = 4 then none else _) = none
    by_cases hr : r = 4
    · rw [if_pos hr]
    · rw [if_neg hr]
      show (if r = 4 ∧ _ then _ else none) = none
      rw [if_neg fun hh => hr hh.1]
  · simp only [Forest.run, runRows, List.foldl, Forest.Obj.incorporate, hp]
    rfl
  · simp only [Forest.run, runRows, List.foldl, Forest.Obj.incorporate, hp]
    rfl

/-! ### Multivariate models -/

/-- Invariant of the rows of a multivariate model. -/
structure MvInv (s : MvRows) (m : Row → Option (List (Option ℝ))) : Prop where
  wf : s.data.WF
  holds : ∀ r, s.data.get? r = m r
  size : s.N = (s.data.length : ℤ)

theorem mv_inc (outputs latents stored : List Col) {s : MvRows}
    {m : Row → Option (List (Option ℝ))} (h : MvInv s m) (r : Row) (o : Vals × Vals) :
    MvInv (s.incorporate outputs latents stored r o.1 o.2).state
      (fun r' => if r' = r ∧ m r = none then mvKeeps outputs latents stored o else m r') ∧
    ((s.incorporate outputs latents stored r o.1 o.2).isOk = true ↔
      m r = none ∧ mvKeeps outputs latents stored o ≠ none) ∧
    ∀ e s', s.incorporate outputs latents stored r o.1 o.2 = .err e s' → s' = s := by
  obtain ⟨obs, ins⟩ := o
  by_cases hm : m r = none
  · have g1 : s.data.get? r = none := (h.holds r).trans hm
    have h1 : s.data.has r = false := (Dict.has_false_iff _ _).mpr g1
    by_cases hk : ins = [] ∧ obs ≠ [] ∧ ∀ c ∈ obs.keys, c ∈ outputs ∧ c ∉ latents
    · have hv : mvKeeps outputs latents stored (obs, ins) = some (inputRow stored obs) := by
        simp only [mvKeeps]
        exact if_pos hk
      have hinc : s.incorporate outputs latents stored r obs ins =
          .ok { data := s.data.set r (inputRow stored obs), N := s.N + 1 } := by
        have h2 : ins.isEmpty = true := by rw [hk.1]; rfl
        have h3 : obs.isEmpty = false := by
          cases obs with
          | nil => exact absurd rfl hk.2.1
          | cons p t => rfl
        have h4 : (obs.keys.any fun q => !outputs.contains q) = false := by
          rw [List.any_eq_false]
          intro q hq
          simp [(hk.2.2 q hq).1]
        have h5 : obs.keys.any latents.contains = false := by
          rw [List.any_eq_false]
          intro q hq
          simp [(hk.2.2 q hq).2]
        unfold MvRows.incorporate
        rw [h1, h2, h3, h4, h5]
        rfl
      rw [hv]
      show MvInv (s.incorporate outputs latents stored r obs ins).state _ ∧
        ((s.incorporate outputs latents stored r obs ins).isOk = true ↔ _) ∧
        ∀ e s', s.incorporate outputs latents stored r obs ins = .err e s' → _
      rw [hinc]
      refine ⟨⟨Dict.wf_set h.wf _ _, fun r' => ?_, ?_⟩, by simp [hm], fun e s' he => by cases he⟩
      · show (s.data.set r _).get? r' = _
        rw [Dict.get?_set]
        by_cases hr : r' = r
        · subst hr
          rw [if_pos rfl, if_pos ⟨rfl, hm⟩]
        · rw [if_neg hr, if_neg fun hh => hr hh.1]
          exact h.holds r'
      · show s.N + 1 = ((s.data.set r _).length : ℤ)
        rw [Dict.set_of_not_mem _ g1, h.size]
        simp
    · have hv : mvKeeps outputs latents stored (obs, ins) = none := by
        simp only [mvKeeps]
        exact if_neg hk
      have hinc : s.incorporate outputs latents stored r obs ins = .err .valueError s := by
        unfold MvRows.incorporate
        rw [h1]
        by_contra hne
        apply hk
        split at hne
        · exact absurd rfl hne
        · split at hne
          · exact absurd rfl hne
          · rename_i h2
            split at hne
            · exact absurd rfl hne
            · rename_i h3
              split at hne
              · exact absurd rfl hne
              · rename_i h4
                split at hne
                · exact absurd rfl hne
                · rename_i h5
                  refine ⟨by simpa using h2, by simpa using h3, fun c hc => ?_⟩
                  rw [Bool.not_eq_true, List.any_eq_false] at h4 h5
                  exact ⟨by simpa using h4 c hc, by simpa using h5 c hc⟩
      rw [hv]
      show MvInv (s.incorporate outputs latents stored r obs ins).state _ ∧
        ((s.incorporate outputs latents stored r obs ins).isOk = true ↔ _) ∧
        ∀ e s', s.incorporate outputs latents stored r obs ins = .err e s' → _
      rw [hinc]
      refine ⟨?_, by simp, fun e s' he => by cases he; rfl⟩
      have : (fun r' => if r' = r ∧ m r = none then none else m r') = m := by
        funext r'
        by_cases hr : r' = r
        · subst hr; rw [if_pos ⟨rfl, hm⟩, hm]
        · rw [if_neg fun hh => hr hh.1]
      rw [this]
      exact h
  · have h1 : s.data.has r = true := by
      rw [Dict.has_iff, ← Dict.get?_isSome_iff, h.holds r, Option.isSome_iff_ne_none]
      exact hm
    unfold MvRows.incorporate
    rw [h1]
    refine ⟨?_, by simp [hm], fun e' s' he => by cases he; rfl⟩
    have : (fun r' => if r' = r ∧ m r = none then mvKeeps outputs latents stored (obs, ins)
        else m r') = m := by
      funext r'
      rw [if_neg fun hh => hm hh.2]
    rw [this]
    exact h

theorem mv_unc {s : MvRows} {m : Row → Option (List (Option ℝ))} (h : MvInv s m) (r : Row) :
    MvInv (s.unincorporate r).state (fun r' => if r' = r then none else m r') ∧
    ((s.unincorporate r).isOk = true ↔ m r ≠ none) ∧
    ∀ e s', s.unincorporate r = .err e s' → s' = s := by
  unfold MvRows.unincorporate
  by_cases hm : m r = none
  · have g1 : s.data.get? r = none := (h.holds r).trans hm
    have h1 : s.data.has r = false := (Dict.has_false_iff _ _).mpr g1
    rw [h1]
    refine ⟨?_, by simp [hm], fun e' s' he => by cases he; rfl⟩
    have : (fun r' => if r' = r then none else m r') = m := by
      funext r'
      by_cases hr : r' = r
      · subst hr; rw [if_pos rfl, hm]
      · rw [if_neg hr]
    rw [this]
    exact h
  · have h1 : s.data.has r = true := by
      rw [Dict.has_iff, ← Dict.get?_isSome_iff, h.holds r, Option.isSome_iff_ne_none]
      exact hm
    rw [h1]
    refine ⟨⟨Dict.wf_erase h.wf _, fun r' => ?_, ?_⟩, by simp [hm], fun e' s' he => by cases he⟩
    · show (s.data.erase r).get? r' = _
      by_cases hr : r' = r
      · subst hr
        rw [if_pos rfl, Dict.get?_erase_self]
      · rw [if_neg hr, Dict.get?_erase_ne _ hr]
        exact h.holds r'
    · show s.N - 1 = ((s.data.erase r).length : ℤ)
      obtain ⟨v, hv⟩ := Option.ne_none_iff_exists'.mp hm
      have hl := Dict.length_erase h.wf ((h.holds r).trans hv)
      rw [h.size, hl]
      push_cast
      ring

/-- **C42** A multivariate model keeps exactly the rows of its history: a kernel density estimate
or a nearest neighbours model with `latents = []` and `stored = outputs`; a factor analysis with its
latent variables and `stored` its observable variables. -/
theorem C42_mv (outputs latents stored : List Col) (ops : List (RowOp (Vals × Vals))) :
    ExactRows (fun s r o => s.incorporate outputs latents stored r o.1 o.2) MvRows.unincorporate
      (mvKeeps outputs latents stored) MvHolds MvRows.N (MvRows.run outputs latents stored ops)
      (kept (mvKeeps outputs latents stored) ops) := by
  have h : MvInv (MvRows.run outputs latents stored ops)
      (kept (mvKeeps outputs latents stored) ops) := by
    unfold MvRows.run
    induction ops using List.reverseRecOn with
    | nil => exact ⟨Dict.wf_nil, fun r => rfl, rfl⟩
    | append_singleton ops op ih =>
      rw [runRows_snoc, kept_snoc]
      cases op with
      | inc r o => exact (mv_inc outputs latents stored ih r o).1
      | unc r => exact (mv_unc ih r).1
  refine ⟨h.holds, ?_, fun r o => (mv_inc outputs latents stored h r o).2.1,
    fun r o => (mv_inc outputs latents stored h r o).2.2, fun r => (mv_unc h r).2.1,
    fun r => (mv_unc h r).2.2⟩
  rw [h.size, dict_ncard h.wf]
  intro r
  rw [h.holds r]

/-! ### Widths of the coded covariates -/

theorem kept_from {O S : Type} (acc : O → Option S) (ops : List (RowOp O)) (r : Row) (v : S)
    (h : kept acc ops r = some v) : ∃ o, .inc r o ∈ ops ∧ acc o = some v := by
  induction ops using List.reverseRecOn with
  | nil => cases h
  | append_singleton ops op ih =>
    rw [kept_snoc] at h
    have old : kept acc ops r = some v → ∃ o, .inc r o ∈ ops ++ [op] ∧ acc o = some v := fun h' =>
      (ih h').imp fun o ho => ⟨List.mem_append_left _ ho.1, ho.2⟩
    cases op with
    | inc r1 o =>
      dsimp only at h
      split at h
      · rename_i hr
        exact ⟨o, List.mem_append_right _ (by rw [hr.1]; exact List.mem_singleton.mpr rfl), h⟩
      · exact old h
    | unc r1 =>
      dsimp only at h
      split at h
      · cases h
      · exact old h

/-- **C38** The covariates of every row kept by a linear regression have the width of its
parameters: the constant, one entry per numeric input, `k` entries per nominal input with `k`
declared categories. -/
theorem C38_linreg_width {out : Col} {inputs : List Col} {types : List InputType} {g : RegSchema}
    (hg : RegSchema.new LinReg.predictorCount out inputs types = .ok g)
    (ops : List (RowOp (Vals × Option Vals))) (r : Row) (y : List (Option ℝ))
    (h : (LinReg.run g ops).Y.get? r = some y) :
    y.length = g.p ∧ g.p = 1 + rowWidth (linregLevels types) inputs.length := by
  have hs := linreg_schema hg
  have h2 := ((C42_linreg hg ops).rows r).2
  rw [h] at h2
  obtain ⟨⟨x, y'⟩, hv, rfl⟩ := Option.map_eq_some_iff.mp h2.symm
  obtain ⟨⟨obs, ins⟩, -, ho⟩ := kept_from _ _ _ _ hv
  refine ⟨?_, by rw [hs.width]; omega⟩
  cases ins with
  | none => cases ho
  | some ins =>
    simp only [linregKeeps] at ho
    split at ho
    · split at ho
      · cases ho
        rw [List.length_cons, rowCode_length, hs.width]
        simp [inputRow]
      · cases ho
    · cases ho

/-- **C38** The covariates of every row kept by an ordinary least squares regression have the
declared width. -/
theorem C38_ols_width {out : Col} {inputs : List Col} {types : List InputType} {g : RegSchema}
    (hk : ∀ k, .nominal (some k) ∈ types → 0 < k)
    (hg : RegSchema.new Ols.predictorCount out inputs types = .ok g)
    (ops : List (RowOp (Vals × Option Vals))) (r : Row) (y : List (Option ℝ))
    (h : (Ols.run g ops).Y.get? r = some y) :
    y.length = rowWidth (olsLevels types) inputs.length := by
  have h2 := ((C42_ols hk hg ops).rows r).2
  rw [h] at h2
  obtain ⟨⟨x, y'⟩, hv, rfl⟩ := Option.map_eq_some_iff.mp h2.symm
  obtain ⟨⟨obs, ins⟩, -, ho⟩ := kept_from _ _ _ _ hv
  cases ins with
  | none => cases ho
  | some ins =>
    simp only [olsKeeps] at ho
    split at ho
    · split at ho
      · cases ho
        rw [rowCode_length]
        simp [inputRow]
      · cases ho
    · cases ho

/-! ### A concrete case -/

/-- A regression of column 0 on a numeric column 1 and a nominal column 2 with 3 categories. -/
example : RegSchema.new LinReg.predictorCount 0 [1, 2] [.numeric, .nominal (some 3)] =
    .ok ⟨0, [1, 2], 5, [(1, 4)]⟩ := rfl

example : RegSchema.new Ols.predictorCount 0 [1, 2] [.numeric, .nominal (some 3)] =
    .ok ⟨0, [1, 2], 4, [(1, 3)]⟩ := rfl

example : ∀ k, InputType.nominal (some k) ∈ [InputType.numeric, .nominal (some 3)] → 0 < k := by
  simp

/-- An observation that it keeps: the category 1 is coded as 0, 1, 0. -/
example : linregKeeps 0 [1, 2] (linregLevels [.numeric, .nominal (some 3)])
    ([(0, some 7)], some [(1, some 5), (2, some 1)]) =
    some (7, [some 1, some 5, some 0, some 1, some 0]) := by
  simp only [linregKeeps]
  rw [show Dict.get? ([(0, some 7)] : Vals) 0 = some (some 7) from rfl]
  have hv : ValidRow (linregLevels [.numeric, .nominal (some 3)])
      (inputRow [1, 2] [(1, some 5), (2, some 1)]) := by
    intro i v hi
    match i with
    | 0 => trivial
    | 1 =>
      rw [show (inputRow [1, 2] ([(1, some 5), (2, some 1)] : Vals))[1]? = some (some 1) from rfl] at hi
      cases hi
      exact ⟨1, by norm_num, by norm_num⟩
    | i + 2 => simp [inputRow] at hi
  refine (if_pos ⟨by simp [Dict.keys], hv⟩).trans ?_
  simp [rowCode, inputRow, codeOf, linregLevels, Dict.get?, List.zipIdx]
  rw [show List.range 3 = [0, 1, 2] from rfl]
  norm_num

end Cgpm.Props
