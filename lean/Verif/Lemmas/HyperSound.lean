import Verif.Lemmas.HyperConfig
import Verif.Model.HyperSweep
import Verif.Props.HyperGrid
import Verif.Lemmas.RowDemo

/-!
Inference of the hyperparameters of one column of a State.
-/
namespace Cgpm.Spec.Hyper
open Cgpm Cgpm.Hyper Cgpm.Props

/-- What inference needs to know of a component type `i` and grids: `val` reads the hyperparameters
off a dictionary. -/
structure Sound {C : Cat} (lib : HyperLib C) (i : C.ι) (grids : Grids) (val : Hypers → C.H)
    (Adm : Hypers → Prop) : Prop where
  good : ∀ cl0 : Dict Tab C.Cl, Good (lib.api i) grids Adm
    (fun a b => a.data = b.data ∧ a.stat = b.stat) (fun c h => c.hyp = val h)
    (fun h c => (C.F i).score (val h) c.stat) cl0
  adm : ∀ κ : Config grids, Adm κ.hypers
  fresh : ∀ κ : Config grids,
    (lib.api i).fresh κ.hypers = .ok (Comp.init (C.F i) (val κ.hypers))
  ok : ∀ κ : Config grids, (C.F i).hypOk (val κ.hypers)
  dict : ∀ κ : Config grids, lib.dict i (val κ.hypers) = κ.hypers
  inj : ∀ (κ : Config grids) (h : C.H), (C.F i).hypOk h → lib.dict i h = κ.hypers →
    h = val κ.hypers

/-- Names in any order are positions of the grids in some order. -/
theorem exists_nameList {grids : Grids} (hwf : grids.WF) {l : List String}
    (hl : l.Perm grids.keys) : ∃ js : List (Fin grids.length), nameList grids js = l ∧
      js.length = grids.length ∧ ∀ j, j ∈ js := by
  have key : ∀ l : List String, (∀ n ∈ l, n ∈ grids.keys) →
      ∃ js : List (Fin grids.length), nameList grids js = l := by
    intro l
    induction l with
    | nil => intro _; exact ⟨[], rfl⟩
    | cons n l ih =>
      intro h
      obtain ⟨js, hjs⟩ := ih fun m hm => h m (by simp [hm])
      obtain ⟨p, hp, rfl⟩ := List.mem_map.mp (h n (by simp))
      obtain ⟨j, hj, e⟩ := List.getElem_of_mem hp
      exact ⟨⟨j, hj⟩ :: js, by rw [← hjs]; simp [nameList, e]⟩
  obtain ⟨js, hjs⟩ := key l fun n hn => hl.mem_iff.mp hn
  refine ⟨js, hjs, ?_, fun j => ?_⟩
  · have h1 : (nameList grids js).length = js.length := List.length_map _
    have h2 : grids.keys.length = grids.length := List.length_map _
    rw [← h1, hjs, hl.length_eq, h2]
  · have hm : grids[j].1 ∈ nameList grids js := by
      rw [hjs]
      exact hl.mem_iff.mpr (List.mem_map_of_mem (f := Prod.fst) (List.getElem_mem j.2))
    obtain ⟨k, hk, e⟩ := List.mem_map.mp hm
    have : k = j := by
      have hnd : (grids.map Prod.fst).Nodup := hwf
      have := (List.Nodup.getElem_inj_iff hnd (i := k.1) (j := j.1)
        (hi := by simp) (hj := by simp)).mp (by simpa using e)
      exact Fin.ext this
    exact this ▸ hk

section
variable {C : Cat} {lib : HyperLib C} {i : C.ι} {grids : Grids} {val : Hypers → C.H}
  {Adm : Hypers → Prop}

theorem transitionHypers_score (d : Dim C) (h : C.H) :
    (d.transitionHypers h).score = (d.clusters.map fun kc => d.fam.score h kc.2.stat).sum := by
  simp only [Dim.score, Dim.transitionHypers, Dict.vals, List.map_map]
  rfl

/-- The outcome of a pass over the hyperparameters of a column. -/
theorem Sound.outcome (S : Sound lib i grids val Adm) (d : Dim C) (hi : d.kind = i)
    (js : List (Fin grids.length)) (κ : Config grids) (hd : lib.dict i d.hyp = κ.hypers)
    {us : List ℝ} (hu : ∀ u ∈ us, 0 ≤ u ∧ u < 1) (hl : us.length = js.length) :
    ∃ κ' : Config grids, (Hyper.transitionHypers (lib.api i) ((nameList grids js).zip us)
        ⟨κ.hypers, grids, d.clusters, d.aux⟩).state.hypers = κ'.hypers ∧
      d.drawHypers lib grids ((nameList grids js).zip us)
        = .ok (d.transitionHypers (val κ'.hypers)) := by
  subst hi
  have G := S.good d.clusters
  obtain ⟨κ', cl', aux', e1, e2, e3, e4⟩ := G.outcome S.adm js d.aux
    (cl := d.clusters) (sameAll_refl fun _ _ => ⟨rfl, rfl⟩) κ hu hl
  refine ⟨κ', by rw [e1]; rfl, ?_⟩
  unfold Dim.drawHypers
  rw [hd, e1]
  rw [S.fresh] at e4
  have ha := Except.ok.inj e4
  have hc : cl' = d.clusters.map fun kc => (kc.1, kc.2.withHyp (val κ'.hypers)) := by
    refine forall₂_clusters (f := fun c => c.withHyp (val κ'.hypers)) e2 fun kc hm c0 hs => ?_
    have ht := e3 kc hm
    obtain ⟨k, ⟨da, st, hy⟩⟩ := kc
    obtain ⟨da0, st0, hy0⟩ := c0
    obtain ⟨h1, h2⟩ := hs
    simp only at h1 h2 ht
    subst h1 h2 ht
    rfl
  subst hc ha
  rfl

/-- The law of a pass over the hyperparameters of a column. -/
theorem Sound.law (S : Sound lib i grids val Adm) (d : Dim C) (hi : d.kind = i)
    (js : List (Fin grids.length)) (κ : Config grids) (hd : lib.dict i d.hyp = κ.hypers)
    (F : Dim C → ℝ) :
    average js.length (fun us =>
        F (d.drawHypers lib grids ((nameList grids js).zip us)).state)
      = cfgPass (fun κ => Real.exp (d.transitionHypers (val κ.hypers)).score) js
          (fun κ => F (d.transitionHypers (val κ.hypers))) κ := by
  have h1 : ∀ us : List ℝ, us.length = js.length → (∀ u ∈ us, 0 ≤ u ∧ u < 1) →
      F (d.drawHypers lib grids ((nameList grids js).zip us)).state
        = F (d.transitionHypers (val (Hyper.transitionHypers (lib.api i) ((nameList grids js).zip us)
          ⟨κ.hypers, grids, d.clusters, d.aux⟩).state.hypers)) := by
    intro us hl hu
    obtain ⟨κ', e1, e2⟩ := S.outcome d hi js κ hd hu hl
    rw [e1, e2]; rfl
  rw [average_congr h1]
  rw [(S.good d.clusters).average_config S.adm js (fun h => F (d.transitionHypers (val h)))
    (cl := d.clusters) d.aux (sameAll_refl fun _ _ => ⟨rfl, rfl⟩) κ]
  congr 1
  funext κ
  rw [transitionHypers_score, ← hi]
  rfl

end

/-! ### the primitives -/

/-- The hyperparameters of a column of type `i`, read off a dictionary. -/
noncomputable def primVal {P : Prim → Prop} (i : (catOf P).ι) (h : Hypers) : (catOf P).H :=
  ⟨i.1, assign h i.1 i.1.someH⟩

theorem untag_self (p : Prim) (h : p.H) : p.untag ⟨p, h⟩ = h := by
  unfold Prim.untag
  rw [dif_pos rfl]

theorem assign_collapsed {p : Prim} (hp : p.collapsed) (h : Hypers) (a b : p.H) :
    assign h p a = assign h p b := by
  cases p <;> first | rfl | exact absurd hp id

theorem dict_eq_of_keys {h : Hypers} (hw : h.WF) :
    h = h.keys.map fun n => (n, (h.get? n).getD 0) := by
  unfold Dict.keys
  rw [List.map_map]
  conv_lhs => rw [← List.map_id h]
  refine List.map_congr_left fun p hp => ?_
  simp only [id, Function.comp]
  rw [Dict.get?_of_mem hw hp]
  rfl

theorem grids_keys {p : Prim} {kappa : Option ℝ} {X : List ℝ} {n : ℕ} {grids : Grids}
    (hg : constructHyperGrids p kappa X n = .ok grids) : grids.keys = (p.toDict p.someH).keys := by
  have hb : ∀ {α β : Type} {x : Except Exn α} {f : α → Except Exn β} {b : β},
      (x >>= f) = .ok b → ∃ a, x = .ok a ∧ f a = .ok b := by
    intro α β x f b h
    cases x with
    | error e => cases h
    | ok a => exact ⟨a, rfl, h⟩
  cases p <;> simp only [constructHyperGrids] at hg <;> (try split_ifs at hg) <;>
    first
    | (cases hg; rfl)
    | (obtain ⟨_, h, -⟩ := hb hg; cases h; done)
    | (obtain ⟨_, _, hg⟩ := hb hg; first
        | (cases hg; rfl)
        | (obtain ⟨_, _, hg⟩ := hb hg; first
          | (cases hg; rfl)
          | (obtain ⟨_, _, hg⟩ := hb hg; first
            | (cases hg; rfl)
            | (obtain ⟨_, _, hg⟩ := hb hg; first
              | (cases hg; rfl)
              | (obtain ⟨_, _, hg⟩ := hb hg; cases hg; rfl)))))

theorem toDict_assign {p : Prim} (hp : p.collapsed) (h : Hypers) (old : p.H) :
    p.toDict (assign h p old)
      = (p.toDict p.someH).keys.map fun n => (n, (h.get? n).getD 0) := by
  cases p <;> first | rfl | exact absurd hp id

theorem assign_toDict {p : Prim} (hp : p.collapsed) (k old : p.H) :
    assign (p.toDict k) p old = k := by
  cases p <;> first | rfl | exact absurd hp id

/-- The collapsed primitives on the grids built from data. -/
theorem prim_sound (i : colCat.ι) {kappa : Option ℝ} {X : List ℝ} (hX : X ≠ [])
    (hsup : ∀ x ∈ X, ∃ y, i.1.fam.prep x = .ok y) {n : ℕ} (hn : 0 < n)
    (hk : ∀ f, i.1 = .vonmises f → kappa ≠ some 0) {grids : Grids}
    (hg : constructHyperGrids i.1 kappa X n = .ok grids) :
    Sound (hyperLib Prim.collapsed) i grids (primVal i) (Admissible i.1) := by
  obtain ⟨p, hp⟩ := i
  obtain ⟨grids', e, hw, hperm, hne, hpos, hvm⟩ := grids_ok p kappa hX hsup hn hk
  rw [hg] at e
  simp only [Except.ok.injEq] at e
  subst e
  have hadm := fun κ : Config grids => config_admissible hw hperm hpos hvm κ
  have G := prim_good p p.someH hw hne hpos hvm ([] : Dict Tab (Comp ℝ p.S p.H))
  refine ⟨fun cl0 => ⟨hw, fun _ _ => ⟨rfl, rfl⟩, ?_, G.closed, hne, ?_⟩, hadm, ?_, ?_, ?_, ?_⟩
  · intro h hh kc hkc c hs
    refine ⟨c.withHyp ⟨p, assign h p p.someH⟩, ?_, hs, rfl, ?_⟩
    · simp only [hyperLib, Prim.liftApi, readHypers_ok hh]
      rw [assign_collapsed hp h _ p.someH]
      rfl
    · simp only [hyperLib, Prim.liftApi, Comp.score, Comp.withHyp, hs.2]
      rfl
  · intro h hh
    exact ⟨_, by simp only [hyperLib, Prim.liftApi, newHypers_ok hh]; rfl⟩
  · intro κ
    simp only [hyperLib, Prim.liftApi, newHypers_ok (hadm κ)]
    rfl
  · intro κ
    exact ⟨rfl, admissible_hypOk (hadm κ) _⟩
  · intro κ
    simp only [hyperLib, primVal, untag_self]
    rw [toDict_assign hp, ← grids_keys hg, ← Config.keys_hypers κ]
    refine (dict_eq_of_keys ?_).symm
    change κ.hypers.keys.Nodup
    rw [Config.keys_hypers κ]
    exact hw
  · intro κ h hh he
    obtain ⟨q, k⟩ := h
    obtain ⟨e, -⟩ := hh
    simp only at e
    subst e
    simp only [hyperLib, untag_self] at he
    simp only [primVal]
    rw [← he, assign_toDict hp]

end Cgpm.Spec.Hyper
