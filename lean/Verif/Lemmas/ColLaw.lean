import Verif.Lemmas.ColLatent

/-! The law of a column transition. -/
namespace Cgpm.State
open Cgpm.View Cgpm.Spec Cgpm.Props
variable {C : Cat}

/-! ### The weight of a State -/

/-- The posterior weight of a State, without constraints. -/
noncomputable def freeWeight (t : State C) : ℝ :=
  concentrationPrior (colsOf t).card t.crp.alpha *
    (t.views.vals.map fun v => concentrationPrior (rowsOf t).card v.crp.alpha).prod *
    Real.exp t.score

/-- The log prior of a concentration and a row partition. -/
noncomputable def crpLog (n : ℕ) (c : Crp) : ℝ := Real.log (labelLaw n (crpLabel n c))

theorem labelLaw_crp {n : ℕ} {c : Crp} (h : Crp.Inv c) (hr : ∀ r, c.data.get? r ≠ none ↔ r < n) :
    labelLaw n (crpLabel n c) = concentrationPrior n c.alpha * Real.exp c.logpdfScore := by
  unfold labelLaw crpLabel
  rw [crpWeightOf_score c.alpha n c h rfl hr]

theorem freeWeight_eq {t : State C} (h : Inv t) {n : ℕ} (hn : t.nRows = n)
    (hg : ∀ i v, t.views.get? i = some v → v.crp.alpha ∈ concentrations n) :
    freeWeight t = concentrationPrior (colsOf t).card t.crp.alpha *
      Real.exp (t.crp.logpdfScore + t.likelihood) *
      Real.exp (fsum (fun v => crpLog n v.crp) t.views) := by
  subst hn
  have hrows : (rowsOf t).card = t.nRows := Finset.card_range _
  have key : ∀ l : List (View C), (∀ v ∈ l, labelLaw t.nRows (crpLabel t.nRows v.crp) =
        concentrationPrior t.nRows v.crp.alpha * Real.exp v.crp.logpdfScore ∧
        0 < labelLaw t.nRows (crpLabel t.nRows v.crp)) →
      (l.map fun v => concentrationPrior t.nRows v.crp.alpha).prod *
        Real.exp ((l.map View.score).sum) = Real.exp ((l.map View.likelihood).sum) *
        Real.exp ((l.map fun v => crpLog t.nRows v.crp).sum) := by
    intro l
    induction l with
    | nil => simp
    | cons v l ih =>
      intro hl
      have h1 := ih fun w hw => hl w (List.mem_cons_of_mem _ hw)
      obtain ⟨h2, h3⟩ := hl v List.mem_cons_self
      have h4 : Real.exp (crpLog t.nRows v.crp) =
          concentrationPrior t.nRows v.crp.alpha * Real.exp v.crp.logpdfScore := by
        unfold crpLog; rw [Real.exp_log h3, h2]
      simp only [List.map_cons, List.prod_cons, List.sum_cons, Real.exp_add, View.score, h4]
      calc _ = concentrationPrior t.nRows v.crp.alpha * Real.exp v.crp.logpdfScore *
            Real.exp v.likelihood * ((l.map fun v => concentrationPrior t.nRows v.crp.alpha).prod *
              Real.exp ((l.map View.score).sum)) := by ring
        _ = _ := by rw [h1]; ring
  have hv : ∀ v ∈ t.views.vals, labelLaw t.nRows (crpLabel t.nRows v.crp) =
        concentrationPrior t.nRows v.crp.alpha * Real.exp v.crp.logpdfScore ∧
        0 < labelLaw t.nRows (crpLabel t.nRows v.crp) := by
    intro v hv
    obtain ⟨⟨i, v'⟩, hm, rfl⟩ := List.mem_map.mp hv
    have hget := Dict.get?_of_mem h.views.wf hm
    have ho := h.views.view i v' hget
    exact ⟨labelLaw_crp ho.inv.crp ho.rows, labelLaw_pos (mem_labels.mpr (hg i v' hget))⟩
  unfold freeWeight State.score
  rw [hrows, Real.exp_add, Real.exp_add]
  calc _ = concentrationPrior (colsOf t).card t.crp.alpha * Real.exp t.crp.logpdfScore *
        ((t.views.vals.map fun v => concentrationPrior t.nRows v.crp.alpha).prod *
          Real.exp ((t.views.vals.map View.score).sum)) := by ring
    _ = _ := by
      rw [key _ hv]
      show _ = _ * (_ * Real.exp ((t.views.vals.map View.likelihood).sum)) *
        Real.exp ((t.views.vals.map fun v => crpLog t.nRows v.crp).sum)
      ring

/-- The concentrations of the views of a State on the grid. -/
theorem views_onGrid {t : State C} (h : Inv t) {cols : Finset Col}
    (hcols : ∀ c, c ∈ cols ↔ c ∈ t.outputs) {n : ℕ}
    (hg : (latentOf cols (Finset.range n) t).OnGrid) :
    ∀ i v, t.views.get? i = some v → v.crp.alpha ∈ concentrations n := by
  intro i v hv
  obtain ⟨c, hz⟩ := (h.occ i).mp (Dict.mem_keys_of_get? hv)
  have hc : c ∈ cols := (hcols c).mpr ((h.cols c).mp (by rw [hz]; simp))
  have := hg.2 ⟨c, hc⟩
  rw [latent_view cols n hz hv, Finset.card_range] at this
  exact this

/-! ### The transition -/

/-- A column that may not be in the view where it is. -/
def Clash (Ci : Pairs) (col : Col) (t : State C) : Prop :=
  ∃ a ∈ avoid Ci col, t.Zv a = t.Zv col

theorem sum_filter_split {α : Type} (l : List α) (p : α → Bool) (G : α → ℝ) :
    (l.map G).sum = ((l.filter p).map G).sum + ((l.filter fun x => !p x).map G).sum := by
  induction l with
  | nil => simp
  | cons a l ih =>
    cases hp : p a <;> simp [hp, ih] <;> ring

theorem Inv.candidates_nodup {s : State C} (h : Inv s) (col : Col) (m : Nat) :
    (s.candidates col m).Nodup := by
  unfold candidates
  rw [List.nodup_append]
  refine ⟨(pySorted_perm _).nodup_iff.mpr h.crp.wfCounts, ?_, ?_⟩
  · refine (List.nodup_range).map fun a b e => Nat.add_left_cancel e
  · intro a ha b hb
    obtain ⟨j, -, rfl⟩ := List.mem_map.mp hb
    have := Props.le_pyMax ((pySorted_perm _).mem_iff.mp ha)
    omega

/-- The candidate views in which the column would be alone: its own, if it is alone in it, and the
auxiliary ones. -/
theorem Inv.alone_candidates {s : State C} (h : Inv s) {col : Col} {cur : Nat}
    (hcur : s.Zv col = some cur) {m : Nat} (hs : s.Sorted) (p : Nat → Bool)
    (hp : ∀ new, p new = true ↔ ∀ a, a ≠ col → s.Zv a ≠ some new) :
    (s.candidates col m).filter p =
      (if p cur = true then [cur] else []) ++
        (List.range (s.mAux col m)).map (fun i => pyMax s.views.keys + 1 + i) := by
  unfold candidates
  rw [List.filter_append, h.sorted_keys hs, pyMax_perm h.keys_perm]
  congr 1
  · have hcm : cur ∈ s.views.keys := (h.occ cur).mpr ⟨col, hcur⟩
    have hnd : s.views.keys.Nodup := h.views.wf
    split
    · rename_i hpc
      refine List.perm_singleton.mp ((List.perm_ext_iff_of_nodup (hnd.filter _)
        (List.nodup_singleton _)).mpr fun x => ?_)
      rw [List.mem_filter, List.mem_singleton]
      constructor
      · rintro ⟨hx, hpx⟩
        obtain ⟨a, ha⟩ := (h.occ x).mp hx
        by_contra hne
        refine (hp x).mp hpx a ?_ ha
        rintro rfl
        rw [hcur] at ha
        exact hne (Option.some.inj ha).symm
      · rintro rfl; exact ⟨hcm, hpc⟩
    · rename_i hpc
      rw [List.filter_eq_nil_iff]
      intro x hx hpx
      obtain ⟨a, ha⟩ := (h.occ x).mp hx
      by_cases hac : a = col
      · subst hac
        rw [hcur] at ha
        rw [← Option.some.inj ha] at hpx
        exact hpc hpx
      · exact (hp x).mp hpx a hac ha
  · rw [List.filter_eq_self]
    intro x hx
    obtain ⟨j, -, rfl⟩ := List.mem_map.mp hx
    rw [hp]
    intro a _ ha
    exact mem_le_pyMax ((h.occ _).mpr ⟨a, ha⟩) (by omega)

theorem getD_pos {n : ℕ} (hn : 0 < n) {l : List (ℝ × (Row → Tab))}
    (hl : ∀ x ∈ l, x.1 ∈ concentrations n) (j : ℕ) :
    0 < ((l[j]?).getD (1, fun _ => 0)).1 := by
  cases hj : l[j]? with
  | none => simp
  | some x =>
    obtain ⟨-, -, hpos⟩ := concentrations_ok hn
    exact hpos _ (hl x (List.mem_of_getElem? hj))

open Classical in
/-- Averaged over the draw of `log_pflip`, a column transition is one step of Neal's algorithm 8. -/
theorem Inv.dim_law (hL : C.Lawful) {cfg : Cfg C} {t : State C} (h : Inv t) (hs : t.Sorted)
    {col : Col} {d : Dim C} (hd : t.dimFor col = .ok d) (hc : t.anyConditional cfg = false)
    (hCd : t.Cd = []) {m : Nat} (hm : 0 < m) (hCi : ∀ a ∈ avoid t.Ci col, a ∈ t.outputs)
    {n : ℕ} (hn : t.nRows = n) {cols : Finset Col} (hcols : ∀ c, c ∈ cols ↔ c ∈ t.outputs)
    (hcol : col ∈ cols) (hgrid : (latentOf cols (Finset.range n) t).OnGrid)
    {l : List (ℝ × (Row → Tab))} (hl : l.length = m) (hlg : ∀ x ∈ l, x.1 ∈ concentrations n)
    {W : Latent cols (Finset.range n) → ℝ}
    (hW : ∀ cur new va s', Moved t col d cur new va s' → Inv s' →
      (latentOf cols (Finset.range n) s').OnGrid →
      W (latentOf cols (Finset.range n) s') = if Clash t.Ci col s' then 0 else freeWeight s')
    (f : Latent cols (Finset.range n) → ℝ) :
    ∫ u in (0 : ℝ)..1, f (latentOf cols (Finset.range n)
        (t.gibbsTransitionDim cfg col m (fun j => (l[j]?).getD (1, fun _ => 0)) u).state)
      = Aux.step {y ∈ latents cols (Finset.range n) |
            (latentOf cols (Finset.range n) t).Off ⟨col, hcol⟩ y ∧ ¬ y.Alone ⟨col, hcol⟩}
          (fun l => (latentOf cols (Finset.range n) t).alone ⟨col, hcol⟩ l) W
          (fun l => W ((latentOf cols (Finset.range n) t).alone ⟨col, hcol⟩ l) / labelLaw n l) m f
          (if (latentOf cols (Finset.range n) t).Alone ⟨col, hcol⟩ then
            (latentOf cols (Finset.range n) t).view ⟨col, hcol⟩ :: (l.map (labelOf n)).take (m - 1)
          else l.map (labelOf n)) := by
  have hn0 : 0 < n := hn ▸ h.pos
  obtain ⟨tables, dims, auxViews, w, s1, const, cur, g1, g2, g3, hcur, g4⟩ :=
    h.gibbsDimScore_full (cfg := cfg) hL hd hm (aux := fun j => (l[j]?).getD (1, fun _ => 0))
      (getD_pos hn0 hlg) hCi hs
  obtain ⟨cur', vcur, hcur', hvcur, -⟩ := dimFor_ok hd
  rw [hcur] at hcur'
  obtain rfl := Option.some.inj hcur'
  set L := latentOf cols (Finset.range n) t with hLdef
  set c : {c // c ∈ cols} := ⟨col, hcol⟩ with hcdef
  set K := t.candidates col m with hK
  subst g2
  have hnd : K.Nodup := h.candidates_nodup col m
  -- the outcome for each candidate
  have g5 : ∀ new, ∃ s' va, new ∈ K →
      s1.gibbsDimMove cfg col K dims auxViews (K.idxOf new) = .ok s' ∧ Inv s' ∧
      Moved t col d cur new va s' ∧
      (new ∈ t.views.keys ∨ ∃ j, j < t.mAux col m ∧ new = pyMax t.views.keys + 1 + j ∧
        va.crp.alpha = ((l[j]?).getD (1, fun _ => 0)).1 ∧
        ∀ r, va.seat r = ((List.range t.nRows).map ((l[j]?).getD (1, fun _ => 0)).2)[r]?) ∧
      ((∃ a ∈ avoid t.Ci col, t.Zv a = some new) → w[K.idxOf new]? = some ⊥) ∧
      ((¬ ∃ a ∈ avoid t.Ci col, t.Zv a = some new) → w[K.idxOf new]? = some
        ((s'.crp.logpdfScore + s'.likelihood + const -
          (if ∀ a, a ≠ col → t.Zv a ≠ some new then Real.log m else 0) : ℝ) : LogP)) := fun new => by
    by_cases hnew : new ∈ K
    · obtain ⟨s', va, e1, e2, e3, e4, e5, e6⟩ := g4 (K.idxOf new) new (List.getElem?_idxOf hnew)
      refine ⟨s', va, fun _ => ⟨e1, e2, e3, ?_, e5, e6⟩⟩
      rcases e4 with e4 | ⟨j, j1, j2, -, -, j3, j4⟩
      · exact Or.inl e4
      · exact Or.inr ⟨j, j1, j2, j3, j4⟩
    · exact ⟨t, vcur, fun hh => absurd hh hnew⟩
  choose S VA hS using g5
  obtain ⟨y, hy⟩ : ∃ y : Nat → Latent cols (Finset.range n),
      ∀ new, y new = latentOf cols (Finset.range n) (S new) := ⟨_, fun _ => rfl⟩
  obtain ⟨p, hp⟩ : ∃ p : Nat → Bool, ∀ new, p new = true ↔ ∀ a, a ≠ col → t.Zv a ≠ some new :=
    ⟨fun new => decide (∀ a, a ≠ col → t.Zv a ≠ some new), fun new => by simp⟩
  have hne : ∀ a : {c // c ∈ cols}, a ≠ c → a.1 ≠ col := fun a ha e => ha (Subtype.ext e)
  have hoff : ∀ new ∈ K, L.Off c (y new) := fun new hnew => by
    rw [hy]; exact ((hS new hnew).2.2.1.latent h hcur hcols hcol n).1
  have hpart : ∀ new ∈ K, ∀ a, a ≠ c → ((y new).part.r a c ↔ t.Zv a.1 = some new) :=
    fun new hnew a ha => by
      rw [hy]; exact ((hS new hnew).2.2.1.latent h hcur hcols hcol n).2.1 a ha
  have hout : ∀ a v, t.Zv a = some v → a ∈ cols := fun a v ha =>
    (hcols a).mpr ((h.cols a).mp (by rw [ha]; simp))
  have halone : ∀ new ∈ K, ((y new).Alone c ↔ p new = true) := fun new hnew => by
    rw [hp]
    constructor
    · intro hal a hac hz
      exact hac (congrArg Subtype.val
        (hal ⟨a, hout a new hz⟩ ((hpart new hnew ⟨a, hout a new hz⟩
          (fun e => hac (congrArg Subtype.val e))).mpr hz)))
    · intro hno a hr
      by_contra hac
      exact hno a.1 (hne a hac) ((hpart new hnew a hac).mp hr)
  have hLalone : L.Alone c ↔ p cur = true := by
    rw [hp]
    constructor
    · intro hal a hac hz
      refine hac (congrArg Subtype.val (hal ⟨a, hout a cur hz⟩ ?_))
      show t.Zv a = t.Zv col
      rw [hz, hcur]
    · intro hno a hr
      have hr' : t.Zv a.1 = t.Zv col := hr
      by_contra hac
      exact hno a.1 (hne a hac) (hr'.trans hcur)
  -- the labels
  have hlabold : ∀ new ∈ K, ∀ v, t.views.get? new = some v → (y new).view c = crpLabel n v.crp :=
    fun new hnew v hv => by
      rw [hy]; exact ((hS new hnew).2.2.1.latent h hcur hcols hcol n).2.2.2 v hv
  have hlen : t.mAux col m ≤ m := by unfold mAux; split <;> omega
  have hlabnew : ∀ j, j < t.mAux col m → pyMax t.views.keys + 1 + j ∈ K →
      (l.map (labelOf n))[j]? = some ((y (pyMax t.views.keys + 1 + j)).view c) ∧
      crpLabel n (VA (pyMax t.views.keys + 1 + j)).crp =
        (y (pyMax t.views.keys + 1 + j)).view c := fun j hj hnew => by
    have hlt : pyMax t.views.keys < pyMax t.views.keys + 1 + j := by omega
    have e := ((hS _ hnew).2.2.1.latent h hcur hcols hcol n).2.2.1 hlt
    rcases (hS _ hnew).2.2.2.1 with hmem | ⟨j', j1, j2, j3, j4⟩
    · exact absurd hlt (mem_le_pyMax hmem)
    · obtain rfl : j = j' := by omega
      have hjl : j < l.length := by omega
      rw [hy, e]
      refine ⟨?_, rfl⟩
      rw [List.getElem?_eq_getElem hjl] at j3 j4
      rw [List.getElem?_map, List.getElem?_eq_getElem hjl]
      simp only [Option.map_some, Option.some.injEq, Option.getD_some] at j3 j4 ⊢
      unfold labelOf crpLabel
      rw [j3]
      congr 1
      refine Setoid.ext fun a b => ?_
      have ha := Finset.mem_range.mp a.2
      have hb := Finset.mem_range.mp b.2
      have e1 : (VA (pyMax t.views.keys + 1 + j)).crp.data.get? a.1 = some (l[j].2 a.1) := by
        have := j4 a.1
        rw [hn, List.getElem?_map, List.getElem?_range ha] at this
        exact this
      have e2 : (VA (pyMax t.views.keys + 1 + j)).crp.data.get? b.1 = some (l[j].2 b.1) := by
        have := j4 b.1
        rw [hn, List.getElem?_map, List.getElem?_range hb] at this
        exact this
      show l[j].2 a.1 = l[j].2 b.1 ↔ (VA (pyMax t.views.keys + 1 + j)).crp.data.get? a.1 =
        (VA (pyMax t.views.keys + 1 + j)).crp.data.get? b.1
      rw [e1, e2, Option.some.injEq]
  have hygrid : ∀ new ∈ K, (y new).OnGrid := fun new hnew => by
    refine (hoff new hnew).onGrid hgrid ?_
    rw [Finset.card_range]
    rcases (hS new hnew).2.2.2.1 with hmem | ⟨j, j1, j2, -⟩
    · obtain ⟨v, hv⟩ := Dict.exists_of_mem_keys hmem
      rw [hlabold new hnew v hv]
      exact views_onGrid h hcols hgrid new v hv
    · subst j2
      have := (hlabnew j j1 hnew).1
      have := List.mem_of_getElem? this
      obtain ⟨x, hx, e⟩ := List.mem_map.mp this
      rw [← e]
      exact hlg x hx
  have hyalone : ∀ new ∈ K, p new = true → y new = L.alone c ((y new).view c) :=
    fun new hnew hpn => Latent.eq_alone (hoff new hnew) ((halone new hnew).mpr hpn)
  have hKcases : ∀ new ∈ K, new ∈ t.views.keys ∨
      ∃ j, j < t.mAux col m ∧ new = pyMax t.views.keys + 1 + j := fun new hnew => by
    rcases (hS new hnew).2.2.2.1 with hmem | ⟨j, j1, j2, -⟩
    · exact Or.inl hmem
    · exact Or.inr ⟨j, j1, j2⟩
  -- the weights
  obtain ⟨na, hna⟩ := h.counts hcur
  have hone : t.crp.counts.get? cur = some 1 ↔ p cur = true := by
    rw [hna, Option.some.injEq, count_one_iff h.crp hcur hna, hp]
    constructor
    · intro hh a hac hz; exact hac (hh a hz)
    · intro hh a hz; by_contra hac; exact hh a hac hz
  obtain ⟨O, hO⟩ : ∃ O, O = fsum (fun v => crpLog n v.crp) t.views -
      (if p cur = true then crpLog n vcur.crp else 0) := ⟨_, rfl⟩
  have hcurK : cur ∈ t.views.keys := (h.occ cur).mpr ⟨col, hcur⟩
  have hfs : ∀ new ∈ K, fsum (fun v => crpLog n v.crp) (S new).views = O +
      (if p new = true then Real.log (labelLaw n ((y new).view c)) else 0) := fun new hnew => by
    rw [(hS new hnew).2.2.1.fsum_crp h (crpLog n) hvcur, hO]
    simp only [hone]
    rcases hKcases new hnew with hmem | ⟨j, j1, j2⟩
    · rw [if_neg (mem_le_pyMax hmem)]
      by_cases e : cur = new
      · subst e
        have hlab := hlabold cur hnew vcur hvcur
        rw [hlab]
        by_cases hpc : p cur = true
        · simp [hpc, crpLog]
        · simp [hpc]
      · have hpn : ¬ p new = true := fun hpn => by
          obtain ⟨a, ha⟩ := (h.occ new).mp hmem
          refine (hp new).mp hpn a ?_ ha
          rintro rfl
          rw [hcur] at ha
          exact e (Option.some.inj ha)
        by_cases hpc : p cur = true
        · simp [hpc, hpn, e]
        · simp [hpc, hpn]
    · subst j2
      have hlt : pyMax t.views.keys < pyMax t.views.keys + 1 + j := by omega
      have e : cur ≠ pyMax t.views.keys + 1 + j := by
        intro e; rw [← e] at hlt; exact mem_le_pyMax hcurK hlt
      have hpn : p (pyMax t.views.keys + 1 + j) = true := by
        rw [hp]
        intro a _ ha
        exact mem_le_pyMax ((h.occ _).mpr ⟨a, ha⟩) hlt
      rw [if_pos hlt, if_pos hpn, ← (hlabnew j j1 hnew).2]
      by_cases hpc : p cur = true
      · simp [hpc, e, crpLog]
      · simp [hpc, crpLog]
  have hlabgrid : ∀ new ∈ K, 0 < labelLaw n ((y new).view c) := fun new hnew => by
    have := (hygrid new hnew).2 c
    rw [Finset.card_range] at this
    exact labelLaw_pos (mem_labels.mpr this)
  have hcolsOf : colsOf t = cols := by
    ext a; rw [hcols, colsOf, List.mem_toFinset]
  obtain ⟨A, hA⟩ : ∃ A, A = concentrationPrior cols.card t.crp.alpha * Real.exp O := ⟨_, rfl⟩
  have hApos : 0 < A := by
    rw [hA]; exact mul_pos (concentrationPrior_pos hgrid.1) (Real.exp_pos _)
  have hfree : ∀ new ∈ K, freeWeight (S new) =
      A * Real.exp ((S new).crp.logpdfScore + (S new).likelihood) *
        (if p new = true then labelLaw n ((y new).view c) else 1) := fun new hnew => by
    obtain ⟨-, hinv, hmv, -⟩ := hS new hnew
    have hnr : (S new).nRows = n := by
      rw [← hn]; unfold State.nRows; rw [hmv.X, hmv.outputs]
    have hco : ∀ a, a ∈ cols ↔ a ∈ (S new).outputs := by rw [hmv.outputs]; exact hcols
    have hcc : colsOf (S new) = cols := by
      ext a; rw [hco, colsOf, List.mem_toFinset]
    rw [freeWeight_eq hinv hnr (views_onGrid hinv hco (by rw [← hy]; exact hygrid new hnew)),
      hfs new hnew, hcc, hmv.alpha, hA, Real.exp_add O]
    by_cases hpn : p new = true
    · rw [if_pos hpn, if_pos hpn, Real.exp_log (hlabgrid new hnew)]; ring
    · rw [if_neg hpn, if_neg hpn, Real.exp_zero]; ring
  have hclash : ∀ new ∈ K, (Clash t.Ci col (S new) ↔ ∃ a ∈ avoid t.Ci col, t.Zv a = some new) :=
    fun new hnew => by
      have hz := (hS new hnew).2.2.1.Zv
      unfold Clash
      refine exists_congr fun a => and_congr_right fun ha => ?_
      rw [hz, upd_ne _ _ (mem_avoid.mp ha).1, upd_self]
  have hWy : ∀ new ∈ K, W (y new) = if ∃ a ∈ avoid t.Ci col, t.Zv a = some new then 0 else
      A * Real.exp ((S new).crp.logpdfScore + (S new).likelihood) *
        (if p new = true then labelLaw n ((y new).view c) else 1) := fun new hnew => by
    rw [← hfree new hnew, hy, hW cur new (VA new) (S new) (hS new hnew).2.2.1 (hS new hnew).2.1
      (by rw [← hy]; exact hygrid new hnew)]
    simp only [hclash new hnew]
  have hnoclash : ∀ new ∈ K, p new = true → ¬ ∃ a ∈ avoid t.Ci col, t.Zv a = some new := by
    rintro new hnew hpn ⟨a, ha, hz⟩
    exact (hp new).mp hpn a (mem_avoid.mp ha).1 hz
  obtain ⟨ω, hω⟩ : ∃ ω : Nat → ℝ, ∀ new, ω new = if p new = true then
      W (L.alone c ((y new).view c)) / labelLaw n ((y new).view c) / m else W (y new) :=
    ⟨_, fun _ => rfl⟩
  have hmR : (0 : ℝ) < m := by exact_mod_cast hm
  have hpr : ∀ new ∈ K, ∃ x, w[K.idxOf new]? = some x ∧ pr x = Real.exp const / A * ω new := by
    intro new hnew
    obtain ⟨-, -, -, -, hbl, hfr⟩ := hS new hnew
    by_cases hcl : ∃ a ∈ avoid t.Ci col, t.Zv a = some new
    · refine ⟨⊥, hbl hcl, ?_⟩
      have hpn : ¬ p new = true := fun hpn => hnoclash new hnew hpn hcl
      rw [hω, if_neg hpn, hWy new hnew, if_pos hcl]
      simp [pr]
    · refine ⟨_, hfr hcl, ?_⟩
      show Real.exp _ = _
      rw [hω]
      by_cases hpn : p new = true
      · rw [if_pos hpn, ← hyalone new hnew hpn, hWy new hnew, if_neg hcl, if_pos hpn,
          if_pos ((hp new).mp hpn), Real.exp_sub, Real.exp_add _ const, Real.exp_log hmR]
        have := (hlabgrid new hnew).ne'
        field_simp
      · rw [if_neg hpn, hWy new hnew, if_neg hcl, if_neg hpn,
          if_neg (fun hh => hpn ((hp new).mpr hh)), Real.exp_sub, Real.exp_add _ const,
          Real.exp_zero]
        field_simp
  have hωpos : ∀ new ∈ K, p new = true → 0 < ω new := fun new hnew hpn => by
    rw [hω, if_pos hpn, ← hyalone new hnew hpn, hWy new hnew, if_neg (hnoclash new hnew hpn),
      if_pos hpn]
    have := hlabgrid new hnew
    positivity
  -- the draw
  obtain ⟨F, hF⟩ : ∃ F : Except Exn ℕ → ℝ, (∀ u, f (latentOf cols (Finset.range n)
      (t.gibbsTransitionDim cfg col m (fun j => (l[j]?).getD (1, fun _ => 0)) u).state)
        = F (logPflip (w.map Fl.ofLogP) (List.range w.length) u)) ∧
      ∀ k, F (.ok k) = f (latentOf cols (Finset.range n)
        (s1.gibbsDimMove cfg col K dims auxViews k).state) := by
    refine ⟨fun r => match r with
      | .error e => f (latentOf cols (Finset.range n) s1)
      | .ok k => f (latentOf cols (Finset.range n)
        (s1.gibbsDimMove cfg col K dims auxViews k).state), fun u => ?_, fun k => rfl⟩
    unfold gibbsTransitionDim
    rw [hc, if_neg (by simp), if_neg (by simp [hCd]), g1]
    simp only [g3, ne_eq, not_true_eq_false, if_false]
    cases logPflip (w.map Fl.ofLogP) (List.range K.length) u <;> rfl
  simp only [hF.1]
  obtain ⟨κ, hκ⟩ : ∃ κ, κ = Real.exp const / A := ⟨_, rfl⟩
  have hκpos : 0 < κ := hκ ▸ div_pos (Real.exp_pos _) hApos
  have hwi : ∀ (i : ℕ) (hi : i < w.length) (hi' : i < K.length), pr w[i] = κ * ω K[i] := by
    intro i hi hi'
    obtain ⟨x, e1, e2⟩ := hpr K[i] (List.getElem_mem hi')
    rw [hnd.idxOf_getElem i hi', List.getElem?_eq_getElem hi] at e1
    rw [Option.some.inj e1, e2, hκ]
  have hFi : ∀ (i : ℕ) (hi' : i < K.length), F (.ok i) = f (y K[i]) := by
    intro i hi'
    have e := (hS K[i] (List.getElem_mem hi')).1
    rw [hnd.idxOf_getElem i hi'] at e
    rw [hF.2, e, hy]; rfl
  have hwmap : w.map pr = K.map fun new => κ * ω new := by
    refine List.ext_getElem (by simp [g3]) fun i h1 h2 => ?_
    simp only [List.getElem_map]
    exact hwi i (by simpa using h1) (by simpa using h2)
  have hsplit : ∀ G : Nat → ℝ, (K.map G).sum = ((K.filter p).map G).sum +
      ((K.filter fun x => !p x).map G).sum := fun G => sum_filter_split K p G
  have hKp := h.alone_candidates hcur (m := m) hs p hp
  rw [← hK] at hKp
  -- the labels of the views in which the column is alone
  obtain ⟨ls, hls⟩ : ∃ ls, ls = (if L.Alone c then L.view c :: (l.map (labelOf n)).take (m - 1)
      else l.map (labelOf n)) := ⟨_, rfl⟩
  rw [← hls]
  have hcurlab : cur ∈ K → (y cur).view c = L.view c := fun hck => by
    rw [hlabold cur hck vcur hvcur, hLdef, latent_view cols n hcur hvcur]
  have hmA : t.mAux col m = if p cur = true then m - 1 else m := by
    unfold mAux
    have : t.crp.singleton (some col) = true ↔ p cur = true := by
      rw [← hone]
      unfold Crp.singleton
      have hcur' : t.crp.data.get? col = some cur := hcur
      simp [hcur']
    simp only [this]
  have hlsmap : (K.filter p).map (fun new => (y new).view c) = ls := by
    have hfresh : ((List.range (t.mAux col m)).map (fun i => pyMax t.views.keys + 1 + i)).map
        (fun new => (y new).view c) = (l.map (labelOf n)).take (t.mAux col m) := by
      refine List.ext_getElem (by simp [hl]; omega) fun j h1 h2 => ?_
      have hj : j < t.mAux col m := by simpa using h1
      have hmem : pyMax t.views.keys + 1 + j ∈ K := by
        have : pyMax t.views.keys + 1 + j ∈ K.filter p := by
          rw [hKp]
          exact List.mem_append_right _ (List.mem_map.mpr ⟨j, List.mem_range.mpr hj, rfl⟩)
        exact List.mem_of_mem_filter this
      obtain ⟨e1, e2⟩ := List.getElem?_eq_some_iff.mp (hlabnew j hj hmem).1
      simp only [List.getElem_map, List.getElem_range, List.getElem_take] at e2 ⊢
      exact e2.symm
    rw [hKp, List.map_append, hfresh, hls]
    by_cases hpc : p cur = true
    · have hck : cur ∈ K := by
        have : cur ∈ K.filter p := by rw [hKp, if_pos hpc]; simp
        exact List.mem_of_mem_filter this
      rw [if_pos hpc, if_pos (hLalone.mpr hpc), hmA, if_pos hpc]
      simp [hcurlab hck]
    · rw [if_neg hpc, if_neg (fun hh => hpc (hLalone.mp hh)), hmA, if_neg hpc]
      simp [hl]
  have hlsum : ∀ G : (ℝ × RowPartition (Finset.range n)) → ℝ,
      ((K.filter p).map fun new => G ((y new).view c)).sum = (ls.map G).sum := fun G => by
    rw [← hlsmap, List.map_map]; rfl
  -- the views with other columns
  have hJsum : ∀ G : Latent cols (Finset.range n) → ℝ,
      ((K.filter fun x => !p x).map fun new => G (y new)).sum =
        ∑ z ∈ latents cols (Finset.range n) with L.Off c z ∧ ¬ z.Alone c, G z := fun G => by
    rw [← List.sum_toFinset _ (hnd.filter _)]
    have hmemK : ∀ x, x ∈ (K.filter fun x => !p x).toFinset ↔ x ∈ K ∧ ¬ p x = true := by
      intro x; simp
    refine Finset.sum_bij (fun new _ => y new) ?_ ?_ ?_ (fun _ _ => rfl)
    · intro new hnew
      obtain ⟨h1, h2⟩ := (hmemK new).mp hnew
      rw [Finset.mem_filter]
      exact ⟨Latent.mem_latents.mpr (hygrid new h1), hoff new h1, fun hh => h2 ((halone new h1).mp hh)⟩
    · intro a ha b hb e
      obtain ⟨h1, h2⟩ := (hmemK a).mp ha
      obtain ⟨h3, -⟩ := (hmemK b).mp hb
      rw [hp] at h2
      push Not at h2
      obtain ⟨x, hx, hz⟩ := h2
      have hxc : (⟨x, hout x a hz⟩ : {c // c ∈ cols}) ≠ c := fun e => hx (congrArg Subtype.val e)
      have h5 := (hpart a h1 ⟨x, hout x a hz⟩ hxc).mpr hz
      have e' : y a = y b := e
      rw [e'] at h5
      have h6 := (hpart b h3 ⟨x, hout x a hz⟩ hxc).mp h5
      have h7 : some a = some b := hz.symm.trans h6
      exact Option.some.inj h7
    · intro z hz
      rw [Finset.mem_filter] at hz
      obtain ⟨hz1, hz2, hz3⟩ := hz
      unfold Latent.Alone at hz3
      push Not at hz3
      obtain ⟨a, hr, hac⟩ := hz3
      obtain ⟨i, v, -, hzi, hvi, -⟩ := h.dim ((hcols a.1).mp a.2)
      have hik : i ∈ K := by
        rw [hK]; unfold candidates
        rw [List.mem_append]
        left
        rw [h.sorted_keys hs]
        exact Dict.mem_keys_of_get? hvi
      have hpi : ¬ p i = true := fun hh => (hp i).mp hh a.1 (hne a hac) hzi
      refine ⟨i, (hmemK i).mpr ⟨hik, hpi⟩, ?_⟩
      refine Latent.Off.ext (c := c) ((hoff i hik).symm.trans hz2) (fun b hb => ?_) ?_
      · rw [hpart i hik b hb]
        have h8 : L.part.r b a ↔ t.Zv b.1 = some i := by
          show t.Zv b.1 = t.Zv a.1 ↔ _
          rw [hzi]
        rw [← h8, hz2.part b a hb hac]
        exact ⟨fun h9 => z.part.trans h9 hr, fun h9 => z.part.trans h9 (z.part.symm hr)⟩
      · rw [hlabold i hik v hvi, ← z.same a c hr, ← hz2.view a hac, hLdef,
          latent_view cols n hzi hvi]
  -- the sums
  have hsum : ∀ φ : Latent cols (Finset.range n) → ℝ,
      (K.map fun new => κ * ω new * φ (y new)).sum = κ * (
        ∑ z ∈ latents cols (Finset.range n) with L.Off c z ∧ ¬ z.Alone c, W z * φ z +
        (ls.map fun l => W (L.alone c l) / labelLaw n l / m * φ (L.alone c l)).sum) := by
    intro φ
    have e0 : (K.map fun new => κ * ω new * φ (y new)) = K.map fun new => κ * (ω new * φ (y new)) :=
      List.map_congr_left fun new _ => by ring
    rw [e0, List.sum_map_mul_left, hsplit, add_comm]
    congr 2
    · rw [← hJsum]
      congr 1
      refine List.map_congr_left fun new hnew => ?_
      have : ¬ p new = true := by simpa using (List.mem_filter.mp hnew).2
      rw [hω, if_neg this]
    · rw [← hlsum]
      congr 1
      refine List.map_congr_left fun new hnew => ?_
      obtain ⟨hk, hpn⟩ := List.mem_filter.mp hnew
      rw [hω, if_pos hpn, ← hyalone new hk hpn]
  have hnumer : ∑ i : Fin w.length, pr w[i] * F (.ok i) =
      (K.map fun new => κ * ω new * f (y new)).sum := by
    rw [← List.sum_ofFn]
    congr 1
    refine List.ext_getElem (by simp [g3]) fun i h1 h2 => ?_
    have hi : i < w.length := by simpa using h1
    have hi' : i < K.length := by simpa using h2
    simp only [List.getElem_ofFn, List.getElem_map, Fin.getElem_fin]
    rw [hwi i hi hi', hFi i hi']
  have hdenom : (w.map pr).sum = κ * (
        ∑ z ∈ latents cols (Finset.range n) with L.Off c z ∧ ¬ z.Alone c, W z +
        (ls.map fun l => W (L.alone c l) / labelLaw n l / m).sum) := by
    rw [hwmap]
    have := hsum fun _ => 1
    simpa using this
  have hpos : 0 < (w.map pr).sum := by
    rw [hwmap, hsplit]
    have hnn : 0 ≤ ((K.filter fun x => !p x).map fun new => κ * ω new).sum := by
      refine List.sum_nonneg ?_
      intro x hx
      obtain ⟨new, hnew, rfl⟩ := List.mem_map.mp hx
      obtain ⟨hk, hpn⟩ := List.mem_filter.mp hnew
      have hpn' : ¬ p new = true := by simpa using hpn
      rw [hω, if_neg hpn', hWy new hk]
      split
      · simp
      · positivity
    refine add_pos_of_pos_of_nonneg ?_ hnn
    refine List.sum_pos _ ?_ ?_
    · intro x hx
      obtain ⟨new, hnew, rfl⟩ := List.mem_map.mp hx
      obtain ⟨hk, hpn⟩ := List.mem_filter.mp hnew
      exact mul_pos hκpos (hωpos new hk hpn)
    · intro hnil
      have h1 : (K.filter p).map (fun new => (y new).view c) = [] := by
        rw [List.map_eq_nil_iff] at hnil ⊢; exact hnil
      rw [hlsmap, hls] at h1
      split at h1
      · cases h1
      · rw [List.map_eq_nil_iff] at h1
        rw [h1] at hl
        simp at hl
        omega
  rw [flip_average w hpos, hnumer, hdenom, hsum, mul_div_mul_left _ _ hκpos.ne']
  rfl

open Spec.Hyper in
/-- The law of a column transition. -/
theorem Inv.gibbsDim_law (hL : C.Lawful) {cfg : Cfg C} {t : State C} (h : Inv t) (hs : t.Sorted)
    {col : Col} {d : Dim C} (hd : t.dimFor col = .ok d) (hc : t.anyConditional cfg = false)
    (hCd : t.Cd = []) (k : Nat) (hCi : ∀ a ∈ avoid t.Ci col, a ∈ t.outputs)
    {n : ℕ} (hn : t.nRows = n) {cols : Finset Col} (hcols : ∀ c, c ∈ cols ↔ c ∈ t.outputs)
    (hcol : col ∈ cols) (hgrid : (latentOf cols (Finset.range n) t).OnGrid)
    {W : Latent cols (Finset.range n) → ℝ}
    (hW : ∀ cur new va s', Moved t col d cur new va s' → Inv s' →
      (latentOf cols (Finset.range n) s').OnGrid →
      (Clash t.Ci col s' → W (latentOf cols (Finset.range n) s') = 0) ∧
      (¬ Clash t.Ci col s' → W (latentOf cols (Finset.range n) s') = freeWeight s'))
    (f : Latent cols (Finset.range n) → ℝ) :
    average (t.dimDraws (k + 1)) (fun us => f (latentOf cols (Finset.range n)
        (t.gibbsDim cfg col (k + 1) us).state))
      = colRedraw W ⟨col, hcol⟩ k f (latentOf cols (Finset.range n) t) := by
  classical
  have hn0 : 0 < n := hn ▸ h.pos
  set L := latentOf cols (Finset.range n) t with hLdef
  unfold dimDraws
  rw [average_append]
  obtain ⟨F, hF1, hF2⟩ : ∃ F : Except Exn (List (ℝ × (Row → Tab))) → ℝ,
      (∀ us : List ℝ, us.length = (k + 1) * (t.nRows + 1) →
        average 1 (fun vs => f (latentOf cols (Finset.range n)
          (t.gibbsDim cfg col (k + 1) (us ++ vs)).state)) = F (auxViews t.nRows (k + 1) us)) ∧
      ∀ l, F (.ok l) = ∫ u in (0 : ℝ)..1, f (latentOf cols (Finset.range n)
        (t.gibbsTransitionDim cfg col (k + 1) (fun j => (l[j]?).getD (1, fun _ => 0)) u).state) := by
    refine ⟨fun r => match r with
      | .error e => f L
      | .ok l => ∫ u in (0 : ℝ)..1, f (latentOf cols (Finset.range n)
        (t.gibbsTransitionDim cfg col (k + 1) (fun j => (l[j]?).getD (1, fun _ => 0)) u).state),
      fun us hus => ?_, fun l => rfl⟩
    have e : ∀ u, t.gibbsDim cfg col (k + 1) (us ++ [u]) =
        match auxViews t.nRows (k + 1) us with
        | .error e => .err e t
        | .ok l => t.gibbsTransitionDim cfg col (k + 1) (fun j => (l[j]?).getD (1, fun _ => 0)) u := by
      intro u
      unfold gibbsDim
      rw [List.take_left' hus, List.drop_left' hus]
      cases auxViews t.nRows (k + 1) us <;> rfl
    show ∫ u in (0 : ℝ)..1, f (latentOf cols (Finset.range n)
          (t.gibbsDim cfg col (k + 1) (us ++ [u])).state) = _
    simp only [e]
    cases auxViews t.nRows (k + 1) us with
    | error e => simp [Out.state, hLdef]
    | ok l => rfl
  rw [average_congr fun us hus _ => hF1 us hus]
  have hW' : ∀ cur new va s', Moved t col d cur new va s' → Inv s' →
      (latentOf cols (Finset.range n) s').OnGrid →
      W (latentOf cols (Finset.range n) s') = if Clash t.Ci col s' then 0 else freeWeight s' := by
    intro cur new va s' h1 h2 h3
    obtain ⟨a, b⟩ := hW cur new va s' h1 h2 h3
    split
    · exact a ‹_›
    · exact b ‹_›
  have hlaw := fun (l : List (ℝ × (Row → Tab))) (hl : l.length = k + 1)
    (hlg : ∀ x ∈ l, x.1 ∈ concentrations n) => h.dim_law hL hs hd hc hCd (Nat.succ_pos k) hCi hn
      hcols hcol hgrid hl hlg hW' f
  subst hn
  refine (auxViews_average h.pos (k + 1) F (fun ls => Aux.step
      {y ∈ latents cols (Finset.range t.nRows) | L.Off ⟨col, hcol⟩ y ∧ ¬ y.Alone ⟨col, hcol⟩}
      (fun l => L.alone ⟨col, hcol⟩ l) W
      (fun l => W (L.alone ⟨col, hcol⟩ l) / labelLaw t.nRows l) (k + 1) f
      (if L.Alone ⟨col, hcol⟩ then L.view ⟨col, hcol⟩ :: ls.take k else ls))
    fun l hl hlg => ?_).trans ?_
  · rw [hF2, hlaw l hl hlg]
    rfl
  unfold colRedraw
  by_cases hal : L.Alone ⟨col, hcol⟩
  · simp only [if_pos hal]
    exact Aux.iterSum_take (labelLaw_sum h.pos) k (fun ls => Aux.step
      {y ∈ latents cols (Finset.range t.nRows) | L.Off ⟨col, hcol⟩ y ∧ ¬ y.Alone ⟨col, hcol⟩}
      (fun l => L.alone ⟨col, hcol⟩ l) W
      (fun l => W (L.alone ⟨col, hcol⟩ l) / labelLaw t.nRows l) (k + 1) f
      (L.view ⟨col, hcol⟩ :: ls))
  · simp only [if_neg hal]

end Cgpm.State
