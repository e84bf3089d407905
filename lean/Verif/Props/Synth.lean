import Verif.Spec.Synth
import Verif.Lemmas.HyperPrim
import Verif.Lemmas.Constraints
import Mathlib.Tactic.Positivity
import Mathlib.Tactic.NormNum

/-! C92: synthetic tables. -/
namespace Cgpm.Props
open Cgpm Cgpm.Synth Cgpm.Comp Cgpm.Hyper Cgpm.Spec.Hyper

variable {Ω : Type}

theorem entry_ok {α : Type} {l : List α} {c : ℕ} (h : c < l.length) : entry l c = .ok l[c] := by
  simp [entry, List.getElem?_eq_getElem h]

theorem checked_ok {α : Type} {p : Prop} (h : p) (x : α) : checked p x = .ok x := by
  simp [checked, h]

theorem collect_either {α β : Type} {f : α → Except Exn β} {P : α → β → Prop} {e : Exn} {l : List α}
    {Q : Prop} (h : ∀ a ∈ l, (∃ b, f a = .ok b ∧ P a b) ∨ (f a = .error e ∧ Q)) :
    (∃ r, Net.collect f l = .ok r ∧ List.Forall₂ P l r) ∨ (Net.collect f l = .error e ∧ Q) := by
  induction l with
  | nil => exact Or.inl ⟨[], rfl, .nil⟩
  | cons a t ih =>
    simp only [Net.collect]
    rcases h a (by simp) with ⟨b, h1, h2⟩ | ⟨h1, h2⟩
    · rw [h1]
      rcases ih fun a ha => h a (by simp [ha]) with ⟨r, h3, h4⟩ | ⟨h3, h4⟩
      · rw [h3]
        exact Or.inl ⟨b :: r, rfl, .cons h2 h4⟩
      · rw [h3]
        exact Or.inr ⟨rfl, h4⟩
    · rw [h1]
      exact Or.inr ⟨rfl, h2⟩

/-! ### partitions -/

/-- **C92.** A random partition has the length asked for, and each of the parts that were asked for has
an element. -/
theorem C92_partition {n : ℕ} {w : List ℝ} (hw : Weights w) (hn : w.length ≤ n) {us : ℕ → ℝ}
    (hu : ∀ i, 0 ≤ us i ∧ us i < 1) {shuffle : List ℕ → List ℕ} (hs : ∀ l, (shuffle l).Perm l) :
    ∃ Z, genPartition n w us shuffle = .ok Z ∧ PartitionInto Z n w.length := by
  have h1 : ¬ ∃ x ∈ w, x = 0 := by
    rintro ⟨x, hx, rfl⟩
    exact lt_irrefl _ (hw.pos 0 hx)
  rcases collect_either (f := fun i => pflip w (List.range w.length) (us i))
      (P := fun _ b => b < w.length) (e := .assertion) (Q := False) (l := List.range (n - w.length))
      (fun i _ => by
        obtain ⟨a, ha, h2, -⟩ := pflip_range (fun x hx => (hw.pos x hx).le)
          (by rw [hw.sum]; exact one_pos) (hu i).1 (hu i).2
        exact Or.inl ⟨a, h2, ha⟩) with ⟨r, h2, h3⟩ | ⟨-, h2⟩
  · refine ⟨shuffle (List.range w.length ++ r), ?_, ?_, fun c => ?_⟩
    · unfold genPartition
      rw [if_neg h1, if_neg (by rw [hw.sum]; norm_num), if_neg (not_not.mpr hn), h2]
      rfl
    · rw [(hs _).length_eq, List.length_append, List.length_range, ← h3.length_eq,
        List.length_range]
      omega
    · rw [(hs _).mem_iff, List.mem_append, List.mem_range]
      refine ⟨fun h => h.elim id fun h => ?_, Or.inl⟩
      obtain ⟨hl, hg⟩ := List.forall₂_iff_get.mp h3
      obtain ⟨i, hi, rfl⟩ := List.mem_iff_getElem.mp h
      exact hg i (by omega) hi
  · exact h2.elim

/-- **C92.** A weight of zero, weights that do not add up to one, and more parts than things are
refused. -/
theorem C92_partition_refused {n : ℕ} {w : List ℝ} (us : ℕ → ℝ) (shuffle : List ℕ → List ℕ)
    (h : 0 ∈ w ∨ 1 / 10000 < |w.sum - 1| ∨ n < w.length) :
    genPartition n w us shuffle = .error .assertion := by
  unfold genPartition
  rcases h with h | h | h
  · rw [if_pos ⟨0, h, rfl⟩]
  · split
    · rfl
    · rw [if_pos]
      intro h'
      have := lt_of_lt_of_le h h'
      norm_num at this
  · split
    · rfl
    · split
      · rfl
      · rw [if_pos (not_le.mpr h)]

/-! ### cells -/

theorem half_bounds {sep v : ℝ} {K : ℕ} (h0 : 0 < sep) (h1 : sep ≤ 1)
    (hv : v ∈ linspace (1 / 2 - 1 / 2 * sep * (85 / 100)) (1 / 2 + 1 / 2 * sep * (85 / 100)) K) :
    0 < v ∧ v < 1 := by
  obtain ⟨h2, h3⟩ := linspace_bounds hv
  rw [min_eq_left (by linarith)] at h2
  rw [max_eq_right (by linarith)] at h3
  constructor <;> linarith

theorem normPdf_pos (x m : ℝ) {s : ℝ} (hs : 0 < s) : 0 < normPdf x m s := by
  unfold normPdf
  have := Real.pi_pos
  positivity

theorem truncMeans_length (l h sep : ℝ) (K : ℕ) : (truncMeans l h sep K).length = K := by
  simp [truncMeans, linspace_length]

theorem truncLoop_spec (l h : ℝ) (draw : ℕ → ℝ) (n i : ℕ) :
    (∃ x, truncLoop l h draw n i = .ok x ∧ l ≤ x ∧ x ≤ h) ∨
      truncLoop l h draw n i = .error .valueError := by
  induction n generalizing i with
  | zero => exact Or.inr rfl
  | succ n ih =>
    unfold truncLoop
    split
    · rename_i hx
      exact Or.inl ⟨_, rfl, hx⟩
    · exact ih (i + 1)

theorem truncLoop_draw {l h : ℝ} {draw : ℕ → ℝ} {n i : ℕ} {x : ℝ}
    (e : truncLoop l h draw n i = .ok x) : ∃ j, i ≤ j ∧ j < i + n ∧ x = draw j := by
  induction n generalizing i with
  | zero => cases e
  | succ n ih =>
    unfold truncLoop at e
    split at e
    · injection e with e
      exact ⟨i, le_rfl, by omega, e.symm⟩
    · obtain ⟨j, h1, h2, h3⟩ := ih e
      exact ⟨j, by omega, by omega, h3⟩

theorem cell_ok {S : Sampler Ω} (hS : SamplerOk S) {p : Prim} {sep : ℝ} (hp : ColumnOk p sep)
    {K c : ℕ} (hc : c < K) (δ ω : ℕ → Ω) :
    (∃ x, cell S sep K c δ ω p = .ok x ∧ support p x) ∨
      (cell S sep K c δ ω p = .error .valueError ∧ isTruncated p) := by
  obtain ⟨h0, h1, hk⟩ := hp
  have hcr : (0 : ℝ) ≤ c := Nat.cast_nonneg c
  cases p with
  | bernoulli =>
    have hl : c < (linspace 0 sep K).length := by rw [linspace_length]; exact hc
    refine Or.inl ⟨if S.rand (ω 0) < (linspace 0 sep K)[c] then 1 else 0, ?_, ?_⟩
    · simp only [cell]
      rw [entry_ok hl]
      rfl
    · show _ = (0 : ℝ) ∨ _ = (1 : ℝ)
      split
      · exact Or.inr rfl
      · exact Or.inl rfl
  | categorical k =>
    have hs : 0 < 1 - (if 95 / 100 < sep then 95 / 100 else sep) := by
      split
      · norm_num
      · rename_i h; linarith
    have hk' : k ≠ 0 := Nat.ne_of_gt hk
    obtain ⟨d1, d2, d3⟩ := hS.dirichlet (List.replicate k
      (1 - (if 95 / 100 < sep then 95 / 100 else sep))) (δ c) (by simpa using hk')
      (fun x hx => by rw [(List.mem_replicate.mp hx).2]; exact hs)
    obtain ⟨a, ha, h2, -⟩ := pflip_range d2 (by rw [d3]; exact one_pos) (hS.rand (ω 0)).1
      (hS.rand (ω 0)).2
    refine Or.inl ⟨(a : ℝ), ?_, a, ?_, rfl⟩
    · simp only [cell]
      rw [checked_ok ⟨hk', hs⟩]
      show (pflip _ _ _ >>= _) = _
      rw [h2]
      rfl
    · rw [d1, List.length_replicate] at ha
      exact ha
  | exponential =>
    have hm : 0 < (c : ℝ) * (4 * sep) + 1 := by positivity
    exact Or.inl ⟨_, by simp only [cell]; rw [checked_ok hm], hS.exponential _ _ hm⟩
  | geometric =>
    have hl : c < (linspace (1 / 2 - 1 / 2 * sep * (85 / 100)) (1 / 2 + 1 / 2 * sep * (85 / 100))
      K).length := by rw [linspace_length]; exact hc
    obtain ⟨b1, b2⟩ := half_bounds h0 h1 (List.getElem_mem hl)
    have hg := hS.geometric _ (ω 0) b1 b2.le
    refine Or.inl ⟨_, by
      simp only [cell]
      rw [entry_ok hl]
      show checked _ _ = _
      rw [checked_ok ⟨b1, b2.le⟩], S.geometric (linspace (1 / 2 - 1 / 2 * sep * (85 / 100))
        (1 / 2 + 1 / 2 * sep * (85 / 100)) K)[c] (ω 0) - 1, ?_⟩
    rw [Nat.cast_sub hg, Nat.cast_one]
  | poisson =>
    have hm : 0 ≤ (c : ℝ) * (4 * sep) + 1 := by positivity
    exact Or.inl ⟨_, by simp only [cell]; rw [checked_ok hm], _, rfl⟩
  | normal => exact Or.inl ⟨_, rfl, trivial⟩
  | lognormal =>
    have hs : 0 < (1 - (if 9 / 10 < sep then 9 / 10 else sep)) / ((c : ℝ) + 1) := by
      have : 0 < 1 - (if 9 / 10 < sep then 9 / 10 else sep) := by
        split
        · norm_num
        · rename_i h; linarith
      positivity
    exact Or.inl ⟨_, by simp only [cell]; rw [checked_ok hs], hS.lognormal _ _ _ hs⟩
  | vonmises f =>
    set std := 2 * Real.pi / K / (5 * sep ^ (75 / 100 : ℝ)) with hstd
    have hk0 : 0 ≤ 1 / (std * std) := by
      have := mul_self_nonneg std
      positivity
    have hl : c < ((List.range K).map fun i : ℕ => (i : ℝ) * (2 * Real.pi / K)).length := by
      simpa using hc
    have hv := hS.vonmises (((List.range K).map fun i : ℕ => (i : ℝ) * (2 * Real.pi / K))[c])
      (1 / (std * std)) (ω 0) hk0
    refine Or.inl ⟨S.vonmises (((List.range K).map fun i : ℕ => (i : ℝ) * (2 * Real.pi / K))[c])
      (1 / (std * std)) (ω 0) + Real.pi, ?_, ?_, ?_⟩
    · simp only [cell]
      rw [if_neg (not_lt.mpr h0.le), if_neg h0.ne', ← hstd, entry_ok hl]
      show (checked _ _ >>= _) = _
      rw [checked_ok hk0]
      rfl
    · linarith [hv.1]
    · linarith [hv.2]
  | normalTrunc l h f g =>
    have hl : c < (truncMeans l h sep K).length := by rw [truncMeans_length]; exact hc
    have e : cell S sep K c δ ω (.normalTrunc l h f g) =
        truncLoop l h (fun i => S.normal (truncMeans l h sep K)[c] 1 (ω i)) 101 0 := by
      simp only [cell]
      rw [entry_ok hl]
      rfl
    rw [e]
    rcases truncLoop_spec l h (fun i => S.normal (truncMeans l h sep K)[c] 1 (ω i)) 101 0 with
      ⟨x, h2, h3⟩ | h2
    · exact Or.inl ⟨x, h2, h3⟩
    · exact Or.inr ⟨h2, trivial⟩
  | beta f =>
    have hl : c < (linspace (1 / 2 - 1 / 2 * sep * (85 / 100)) (1 / 2 + 1 / 2 * sep * (85 / 100))
      K).length := by rw [linspace_length]; exact hc
    obtain ⟨b1, b2⟩ := half_bounds h0 h1 (List.getElem_mem hl)
    set a := (linspace (1 / 2 - 1 / 2 * sep * (85 / 100)) (1 / 2 + 1 / 2 * sep * (85 / 100)) K)[c]
    have hd := normPdf_pos a (1 / 2) (s := 1 / 4) (by norm_num)
    have p1 : 0 < a * (20 * normPdf a (1 / 2) (1 / 4)) := by positivity
    have p2 : 0 < (1 - a) * 20 * normPdf a (1 / 2) (1 / 4) := by
      have : 0 < 1 - a := by linarith
      positivity
    refine Or.inl ⟨_, by
      simp only [cell]
      rw [entry_ok hl]
      show checked _ _ = _
      exact checked_ok ⟨p1, p2⟩ _, hS.beta _ _ _ p1 p2⟩

theorem le_foldr_max {Z : List ℕ} {c : ℕ} (h : c ∈ Z) : c ≤ Z.foldr max 0 := by
  induction Z with
  | nil => cases h
  | cons a t ih =>
    rcases List.mem_cons.mp h with rfl | h
    · simp
    · exact le_trans (ih h) (by simp)

theorem column_ok {S : Sampler Ω} (hS : SamplerOk S) {p : Prim} {sep : ℝ} (hp : ColumnOk p sep)
    (Z : List ℕ) (δ : ℕ → Ω) (ω : ℕ → ℕ → Ω) :
    (∃ col, column S p sep Z δ ω = .ok col ∧ col.length = Z.length ∧ (∀ x ∈ col, support p x) ∧
      ∀ r (h : r < Z.length) (h' : r < col.length),
        cell S sep (Z.foldr max 0 + 1) Z[r] δ (ω r) p = .ok col[r]) ∨
      (column S p sep Z δ ω = .error .valueError ∧ isTruncated p) := by
  rcases collect_either (f := fun x : ℕ × ℕ => cell S sep (Z.foldr max 0 + 1) x.1 δ (ω x.2) p)
      (P := fun x b => cell S sep (Z.foldr max 0 + 1) x.1 δ (ω x.2) p = .ok b ∧ support p b)
      (e := .valueError) (Q := isTruncated p) (l := Z.zipIdx) (fun x hx => by
        have hm : x.1 ∈ Z := (List.mem_zipIdx (x := x.1) (i := x.2) hx).2.2 ▸ List.getElem_mem _
        rcases cell_ok hS hp (Nat.lt_succ_of_le (le_foldr_max hm)) δ (ω x.2) with ⟨b, h1, h2⟩ | h1
        · exact Or.inl ⟨b, h1, h1, h2⟩
        · exact Or.inr h1) with ⟨col, h1, h2⟩ | h1
  · obtain ⟨hl, hg⟩ := List.forall₂_iff_get.mp h2
    have hl' : col.length = Z.length := by rw [← hl]; simp
    refine Or.inl ⟨col, h1, hl', fun x hx => ?_, fun r h h' => ?_⟩
    · obtain ⟨i, hi, rfl⟩ := List.mem_iff_getElem.mp hx
      exact (hg i (by omega) hi).2
    · simpa using (hg r (by omega) h').1
  · exact Or.inr h1

/-! ### tables -/

theorem partition_max {Z : List ℕ} {n k : ℕ} (h : PartitionInto Z n k) (hk : 0 < k) :
    Z.foldr max 0 + 1 = k := by
  have h1 : k - 1 ≤ Z.foldr max 0 := le_foldr_max ((h.labels (k - 1)).mpr (by omega))
  have h2 : ∀ l : List ℕ, (∀ c ∈ l, c < k) → l.foldr max 0 < k := by
    intro l
    induction l with
    | nil => intro _; simpa using hk
    | cons a t ih =>
      intro hl
      simp only [List.foldr_cons]
      exact max_lt (hl a (by simp)) (ih fun c hc => hl c (by simp [hc]))
  have := h2 Z fun c hc => (h.labels c).mp hc
  omega

theorem partition_dedup {Z : List ℕ} {n k : ℕ} (h : PartitionInto Z n k) : Z.dedup.length = k := by
  have : Z.dedup.Perm (List.range k) := by
    rw [List.perm_ext_iff_of_nodup (List.nodup_dedup Z) List.nodup_range]
    intro c
    rw [List.mem_dedup, h.labels, List.mem_range]
  rw [this.length_eq, List.length_range]

theorem table_main {S : Sampler Ω} (hS : SamplerOk S) {d : Draws Ω} (hd : DrawsOk d) {n : ℕ}
    {vw : List ℝ} {cw : List (List ℝ)} {cols : List (Prim × ℝ)} {vp : List ℕ}
    (h : TableArgs n vw cw cols vp) :
    (∃ t, genDataTable S n vw cw cols vp d = .ok t ∧ t.T.length = cols.length ∧
      PartitionInto t.Zv cols.length cw.length ∧ (vp ≠ [] → t.Zv = vp) ∧
      t.Zc.length = cw.length ∧
      (∀ (v : ℕ) (w : List ℝ) (Z : List ℕ), cw[v]? = some w → t.Zc[v]? = some Z → PartitionInto Z n w.length) ∧
      ∀ (c : ℕ) p sep, cols[c]? = some (p, sep) → ∃ (v : ℕ) (w : List ℝ) (Z : List ℕ) (col : List ℝ), t.Zv[c]? = some v ∧ cw[v]? = some w ∧
        t.Zc[v]? = some Z ∧ t.T[c]? = some col ∧ col.length = n ∧ (∀ x ∈ col, support p x) ∧
        ∀ r (h : r < Z.length) (h' : r < col.length),
          cell S sep w.length Z[r] (d.clusters c) (d.cells c r) p = .ok col[r]) ∨
    (genDataTable S n vw cw cols vp d = .error .valueError ∧ ∃ q ∈ cols, isTruncated q.1) := by
  obtain ⟨Zv, z1, z2, z3⟩ : ∃ Zv, (if vp ≠ [] then Except.ok vp
      else genPartition cols.length vw d.views d.shuffleViews) = .ok Zv ∧
      PartitionInto Zv cols.length cw.length ∧ (vp ≠ [] → Zv = vp) := by
    rcases h.views with ⟨h1, h2, h3, h4⟩ | ⟨h1, h2⟩
    · obtain ⟨Z, g1, g2⟩ := C92_partition h2 h3 hd.views hd.shuffleViews
      exact ⟨Z, by rw [if_neg (not_not.mpr h1), g1], h4 ▸ g2, fun e => absurd h1 e⟩
    · exact ⟨vp, if_pos h1, h2, fun _ => rfl⟩
  have hpos : 0 < cw.length := by
    rcases h.views with ⟨-, h2, -, h4⟩ | ⟨h1, h2⟩
    · rw [← h4, List.length_pos_iff]
      rintro rfl
      have := h2.sum
      simp at this
    · obtain ⟨x, hx⟩ := List.exists_mem_of_ne_nil vp h1
      have := (h2.labels x).mp hx
      omega
  obtain ⟨Zc, y1, y2⟩ : ∃ Zc, Net.collect (fun x : List ℝ × ℕ =>
      genPartition n x.1 (d.rows x.2) (d.shuffleRows x.2)) cw.zipIdx = .ok Zc ∧
      List.Forall₂ (fun (x : List ℝ × ℕ) Z => PartitionInto Z n x.1.length) cw.zipIdx Zc := by
    rcases collect_either (f := fun x : List ℝ × ℕ =>
        genPartition n x.1 (d.rows x.2) (d.shuffleRows x.2))
        (P := fun (x : List ℝ × ℕ) Z => PartitionInto Z n x.1.length) (e := .assertion)
        (Q := False) (l := cw.zipIdx) (fun x hx => by
          have hm : x.1 ∈ cw := (List.mem_zipIdx (x := x.1) (i := x.2) hx).2.2 ▸ List.getElem_mem _
          exact Or.inl (C92_partition (h.clusters _ hm).1 (h.clusters _ hm).2 (hd.rows _)
            (hd.shuffleRows _))) with g | ⟨-, g⟩
    · exact g
    · exact g.elim
  obtain ⟨yl, yg⟩ := List.forall₂_iff_get.mp y2
  have yl' : Zc.length = cw.length := by rw [← yl]; simp
  have hZc : ∀ (v : ℕ) (w : List ℝ) (Z : List ℕ), cw[v]? = some w → Zc[v]? = some Z → PartitionInto Z n w.length := by
    intro v w Z hw hZ
    obtain ⟨a1, rfl⟩ := List.getElem?_eq_some_iff.mp hw
    obtain ⟨a2, rfl⟩ := List.getElem?_eq_some_iff.mp hZ
    simpa using yg v (by simpa using a1) a2
  have hz0 : (Zc[0]'(by omega)).length = n :=
    (hZc 0 (cw[0]) (Zc[0]'(by omega)) (List.getElem?_eq_getElem hpos)
      (List.getElem?_eq_getElem (by omega))).length
  have hcol : ∀ x ∈ cols.zipIdx, (∃ col, (do
        let v ← entry Zv x.2
        let Z ← entry Zc v
        column S x.1.1 x.1.2 Z (d.clusters x.2) (d.cells x.2)) = .ok col ∧
      ∃ (v : ℕ) (w : List ℝ) (Z : List ℕ), Zv[x.2]? = some v ∧ cw[v]? = some w ∧ Zc[v]? = some Z ∧ col.length = n ∧
        (∀ y ∈ col, support x.1.1 y) ∧ ∀ r (h : r < Z.length) (h' : r < col.length),
          cell S x.1.2 w.length Z[r] (d.clusters x.2) (d.cells x.2 r) x.1.1 = .ok col[r]) ∨
      ((do
        let v ← entry Zv x.2
        let Z ← entry Zc v
        column S x.1.1 x.1.2 Z (d.clusters x.2) (d.cells x.2)) = .error .valueError ∧
        ∃ q ∈ cols, isTruncated q.1) := by
    intro x hx
    obtain ⟨-, hx1, hx2⟩ := List.mem_zipIdx (x := x.1) (i := x.2) hx
    have hm : x.1 ∈ cols := hx2 ▸ List.getElem_mem _
    have hlt : x.2 < Zv.length := by rw [z2.length]; omega
    have hv : Zv[x.2] < cw.length := (z2.labels _).mp (List.getElem_mem hlt)
    have hv' : Zv[x.2] < Zc.length := by omega
    have hp := hZc Zv[x.2] cw[Zv[x.2]] Zc[Zv[x.2]] (List.getElem?_eq_getElem hv)
      (List.getElem?_eq_getElem hv')
    have hwpos : 0 < (cw[Zv[x.2]]).length := by
      rw [List.length_pos_iff]
      intro e
      have := (h.clusters _ (List.getElem_mem hv)).1.sum
      rw [e] at this
      simp at this
    rw [entry_ok hlt]
    show (∃ col, (entry Zc Zv[x.2] >>= _) = _ ∧ _) ∨ ((entry Zc Zv[x.2] >>= _) = _ ∧ _)
    rw [entry_ok hv']
    rcases column_ok hS (h.columns _ hm) Zc[Zv[x.2]] (d.clusters x.2) (d.cells x.2) with
      ⟨col, g1, g2, g3, g4⟩ | ⟨g1, g2⟩
    · refine Or.inl ⟨col, g1, Zv[x.2], cw[Zv[x.2]], Zc[Zv[x.2]], List.getElem?_eq_getElem hlt,
        List.getElem?_eq_getElem hv, List.getElem?_eq_getElem hv', by rw [g2, hp.length], g3, ?_⟩
      rw [partition_max hp hwpos] at g4
      exact g4
    · exact Or.inr ⟨g1, _, hm, g2⟩
  rcases collect_either hcol with ⟨T, t1, t2⟩ | ⟨t1, t2⟩
  · refine Or.inl ⟨⟨T, Zv, Zc⟩, ?_, ?_, z2, z3, yl', hZc, fun c p sep hc => ?_⟩
    · unfold genDataTable
      rw [z1]
      show (Net.collect _ _ >>= _) = _
      rw [y1]
      show (if _ then _ else _) = _
      rw [if_neg (not_not.mpr z2.length), if_neg (not_not.mpr (by rw [yl', partition_dedup z2])),
        entry_ok (show 0 < Zc.length by omega)]
      show (if _ then _ else _) = _
      rw [if_neg (not_not.mpr hz0)]
      show (Net.collect _ _ >>= _) = _
      rw [t1]
      rfl
    · have := t2.length_eq
      simpa using this.symm
    · obtain ⟨tl, tg⟩ := List.forall₂_iff_get.mp t2
      obtain ⟨a1, a2⟩ := List.getElem?_eq_some_iff.mp hc
      have hT : c < T.length := by rw [← tl]; simpa using a1
      obtain ⟨v, w, Z, q1, q2, q3, q4, q5, q6⟩ := tg c (by simpa using a1) hT
      simp only [List.get_eq_getElem, List.getElem_zipIdx, Nat.zero_add, a2] at q1 q4 q5 q6
      exact ⟨v, w, Z, T[c], q1, q2, q3, List.getElem?_eq_getElem hT, q4, q5, q6⟩
  · refine Or.inr ⟨?_, t2⟩
    unfold genDataTable
    rw [z1]
    show (Net.collect _ _ >>= _) = _
    rw [y1]
    show (if _ then _ else _) = _
    rw [if_neg (not_not.mpr z2.length), if_neg (not_not.mpr (by rw [yl', partition_dedup z2])),
      entry_ok (show 0 < Zc.length by omega)]
    show (if _ then _ else _) = _
    rw [if_neg (not_not.mpr hz0)]
    show (Net.collect _ _ >>= _) = _
    rw [t1]
    rfl

/-- **C92.** With documented arguments the table has a column for each type and a value for each row
in it.  The partition of the columns and the partitions of the rows have the parts that were asked
for, none of them empty, and a partition of the columns that was given is used.  All values are in the
support of the type of their column.  The only failure is that of a truncated normal column, with
ValueError. -/
theorem C92_table {S : Sampler Ω} (hS : SamplerOk S) {d : Draws Ω} (hd : DrawsOk d) {n : ℕ}
    {vw : List ℝ} {cw : List (List ℝ)} {cols : List (Prim × ℝ)} {vp : List ℕ}
    (h : TableArgs n vw cw cols vp) :
    (∃ t, genDataTable S n vw cw cols vp d = .ok t ∧ t.T.length = cols.length ∧
      PartitionInto t.Zv cols.length cw.length ∧ (vp ≠ [] → t.Zv = vp) ∧
      t.Zc.length = cw.length ∧
      (∀ (v : ℕ) (w : List ℝ) (Z : List ℕ), cw[v]? = some w → t.Zc[v]? = some Z → PartitionInto Z n w.length) ∧
      ∀ (c : ℕ) p sep, cols[c]? = some (p, sep) → ∃ col : List ℝ, t.T[c]? = some col ∧ col.length = n ∧
        ∀ x ∈ col, support p x) ∨
    (genDataTable S n vw cw cols vp d = .error .valueError ∧ ∃ q ∈ cols, isTruncated q.1) := by
  rcases table_main hS hd h with ⟨t, h1, h2, h3, h4, h5, h6, h7⟩ | h1
  · refine Or.inl ⟨t, h1, h2, h3, h4, h5, h6, fun c p sep hc => ?_⟩
    obtain ⟨-, -, -, col, -, -, -, g1, g2, g3, -⟩ := h7 c p sep hc
    exact ⟨col, g1, g2, g3⟩
  · exact Or.inr h1

/-- **C92.** Hence a State with columns of these types can hold the table. -/
theorem C92_accepted {p : Prim} {x : ℝ} (h : support p x) : remembered p x ≠ none := by
  cases p with
  | beta f =>
    simp only [remembered]
    obtain ⟨h0, h1⟩ := h
    rw [if_pos]
    · simp
    · split
      · norm_num
      · split
        · norm_num
        · exact ⟨h0, h1⟩
  | _ => simpa [remembered] using h

/-- **C92.** The law of a cell is that of the cluster of its row in the view of its column: the mean of
a normal column is five, that of a Poisson or exponential column one plus four, times the separation
times the cluster; the weight of ones in a column of zeros and ones grows evenly with the cluster, from
zero to the separation, and that of a geometric column within 0.425 times the separation of one half;
angles have the centres of the clusters spread evenly over the circle; a log-normal column has the
separation capped at 0.9; a column of shares has the mean of a geometric column; and a nominal column
has weights of its own for each cluster. -/
theorem C92_law {S : Sampler Ω} (hS : SamplerOk S) {d : Draws Ω} (hd : DrawsOk d) {n : ℕ}
    {vw : List ℝ} {cw : List (List ℝ)} {cols : List (Prim × ℝ)} {vp : List ℕ}
    (h : TableArgs n vw cw cols vp) {t : Table} (ht : genDataTable S n vw cw cols vp d = .ok t)
    {c r : ℕ} {p : Prim} {sep : ℝ} (hc : cols[c]? = some (p, sep)) (hr : r < n) :
    ∃ (v : ℕ) (w : List ℝ) (Z : List ℕ) (k : ℕ) (col : List ℝ) (x : ℝ), t.Zv[c]? = some v ∧ cw[v]? = some w ∧ t.Zc[v]? = some Z ∧ Z[r]? = some k ∧
      t.T[c]? = some col ∧ col[r]? = some x ∧
      match p with
      | .normal => x = S.normal (5 * sep * k) 1 (d.cells c r 0)
      | .poisson => x = S.poisson (1 + 4 * sep * k) (d.cells c r 0)
      | .exponential => x = S.exponential (1 + 4 * sep * k) (d.cells c r 0)
      | .bernoulli => (x = 1 ↔ S.rand (d.cells c r 0) < sep * k / (w.length - 1))
      | .geometric => x = (S.geometric
          (1 / 2 + 85 / 100 * sep * (k / (w.length - 1) - 1 / 2)) (d.cells c r 0) : ℝ) - 1
      | .lognormal => x = S.lognormal (9 / 10 * (min sep (9 / 10)) ^ 2 * k)
          ((1 - min sep (9 / 10)) / (k + 1)) (d.cells c r 0)
      | .vonmises _ => x = S.vonmises (2 * Real.pi * k / w.length)
          (25 * (sep ^ (3 / 4 : ℝ)) ^ 2 * (w.length / (2 * Real.pi)) ^ 2) (d.cells c r 0) + Real.pi
      | .normalTrunc l h _ _ => ∃ i ≤ 100, x = S.normal
          ((l + h) / 2 + sep * (h - l) * ((k + 1 / 2) / w.length - 1 / 2)) 1 (d.cells c r i)
      | .beta _ => ∃ m q : ℝ, m = 1 / 2 + 85 / 100 * sep * (k / (w.length - 1) - 1 / 2) ∧
          q = 80 / Real.sqrt (2 * Real.pi) * Real.exp (-8 * (m - 1 / 2) ^ 2) ∧
          x = S.beta (m * q) ((1 - m) * q) (d.cells c r 0)
      | .categorical j => ∃ (a : ℕ) (q : List ℝ), x = a ∧
          q = S.dirichlet (List.replicate j (1 - min sep (95 / 100))) (d.clusters c k) ∧
          pflip q (List.range q.length) (S.rand (d.cells c r 0)) = .ok a := by
  rcases table_main hS hd h with ⟨t', h1, h2, h3, h4, h5, h6, h7⟩ | ⟨h1, -⟩
  swap
  · rw [h1] at ht; cases ht
  rw [h1] at ht
  cases ht
  obtain ⟨v, w, Z, col, g1, g2, g3, g4, g5, -, g7⟩ := h7 c p sep hc
  have hZ := (h6 v w Z g2 g3).length
  have hrZ : r < Z.length := by omega
  have hrc : r < col.length := by omega
  have hcell := g7 r hrZ hrc
  have hk : Z[r] < w.length := ((h6 v w Z g2 g3).labels _).mp (List.getElem_mem hrZ)
  refine ⟨v, w, Z, Z[r], col, col[r], g1, g2, g3, List.getElem?_eq_getElem hrZ, g4,
    List.getElem?_eq_getElem hrc, ?_⟩
  have h0 := (h.columns _ (List.mem_of_getElem? hc)).1
  simp only at h0
  cases p with
  | normal =>
    simp only [cell, Except.ok.injEq] at hcell
    simp only
    rw [← hcell]
    ring_nf
  | poisson =>
    have hm : 0 ≤ ((Z[r] : ℕ) : ℝ) * (4 * sep) + 1 := by positivity
    simp only [cell] at hcell
    rw [checked_ok hm] at hcell
    simp only [Except.ok.injEq] at hcell
    simp only
    rw [← hcell]
    ring_nf
  | exponential =>
    have hm : 0 < ((Z[r] : ℕ) : ℝ) * (4 * sep) + 1 := by positivity
    simp only [cell] at hcell
    rw [checked_ok hm] at hcell
    simp only [Except.ok.injEq] at hcell
    simp only
    rw [← hcell]
    ring_nf
  | bernoulli =>
    simp only [cell] at hcell
    rw [entry_ok (by rw [linspace_length]; exact hk)] at hcell
    have hcell' : (if S.rand (d.cells c r 0) < (linspace 0 sep w.length)[Z[r]]'(by
        rw [linspace_length]; exact hk) then (1 : ℝ) else 0) = col[r] := by
      injection hcell
    simp only
    rw [← hcell']
    have e : (linspace 0 sep w.length)[Z[r]]'(by rw [linspace_length]; exact hk) =
        sep * (Z[r] : ℕ) / ((w.length : ℝ) - 1) := by
      simp only [linspace, List.getElem_map, List.getElem_range]
      ring
    rw [e]
    split
    · rename_i hx; simp [hx]
    · rename_i hx; simp [hx]
  | geometric =>
    have hl : Z[r] < (linspace (1 / 2 - 1 / 2 * sep * (85 / 100)) (1 / 2 + 1 / 2 * sep * (85 / 100))
      w.length).length := by rw [linspace_length]; exact hk
    simp only [cell] at hcell
    rw [entry_ok hl] at hcell
    obtain ⟨b1, b2⟩ := half_bounds h0 (h.columns _ (List.mem_of_getElem? hc)).2.1
      (List.getElem_mem hl)
    change checked _ _ = _ at hcell
    rw [checked_ok ⟨b1, b2.le⟩] at hcell
    simp only [Except.ok.injEq] at hcell
    simp only
    rw [← hcell]
    have e : (linspace (1 / 2 - 1 / 2 * sep * (85 / 100)) (1 / 2 + 1 / 2 * sep * (85 / 100))
        w.length)[Z[r]] = 1 / 2 + 85 / 100 * sep * ((Z[r] : ℕ) / ((w.length : ℝ) - 1) - 1 / 2) := by
      simp only [linspace, List.getElem_map, List.getElem_range]
      ring
    rw [e]
  | lognormal =>
    have e : (if 9 / 10 < sep then 9 / 10 else sep) = min sep (9 / 10) := by
      split
      · rename_i h'; rw [min_eq_right h'.le]
      · rename_i h'; rw [min_eq_left (not_lt.mp h')]
    simp only [cell, e] at hcell
    have hs : 0 < (1 - min sep (9 / 10)) / (((Z[r] : ℕ) : ℝ) + 1) := by
      have : 0 < 1 - min sep (9 / 10) := by
        have := min_le_right sep (9 / 10 : ℝ)
        linarith
      positivity
    rw [checked_ok hs] at hcell
    simp only [Except.ok.injEq] at hcell
    simp only
    rw [← hcell]
    ring_nf
  | vonmises f =>
    simp only [cell] at hcell
    have hl : Z[r] < ((List.range w.length).map fun i : ℕ =>
      (i : ℝ) * (2 * Real.pi / w.length)).length := by simpa using hk
    rw [if_neg (not_lt.mpr h0.le), if_neg h0.ne'] at hcell
    change (entry _ _ >>= _) = _ at hcell
    rw [entry_ok hl] at hcell
    change (checked _ _ >>= _) = _ at hcell
    rw [checked_ok (one_div_nonneg.mpr (mul_self_nonneg _))] at hcell
    injection hcell with hcell
    simp only
    rw [← hcell]
    simp only [List.getElem_map, List.getElem_range]
    have hs : (0 : ℝ) < sep ^ (3 / 4 : ℝ) := Real.rpow_pos_of_pos h0 _
    have hw : (0 : ℝ) < w.length := by
      have : 0 < w.length := by omega
      exact_mod_cast this
    have hpi := Real.pi_pos
    have e1 : (75 / 100 : ℝ) = 3 / 4 := by norm_num
    rw [e1]
    congr 2
    · ring
    · field_simp
      ring
  | normalTrunc l u f g =>
    have hl : Z[r] < (truncMeans l u sep w.length).length := by rw [truncMeans_length]; exact hk
    simp only [cell] at hcell
    rw [entry_ok hl] at hcell
    change truncLoop _ _ _ _ _ = _ at hcell
    have hw : (0 : ℝ) < w.length := by
      have : 0 < w.length := by omega
      exact_mod_cast this
    have e : (truncMeans l u sep w.length)[Z[r]] =
        (l + u) / 2 + sep * (u - l) * (((Z[r] : ℕ) + 1 / 2) / w.length - 1 / 2) := by
      simp only [truncMeans, linspace, List.getElem_map, List.getElem_zipWith, List.getElem_tail,
        List.getElem_range]
      push_cast
      rw [add_sub_cancel_right]
      field_simp
      ring
    rw [e] at hcell
    obtain ⟨i, -, h8, h9⟩ := truncLoop_draw hcell
    exact ⟨i, by omega, h9⟩
  | beta f =>
    have hl : Z[r] < (linspace (1 / 2 - 1 / 2 * sep * (85 / 100)) (1 / 2 + 1 / 2 * sep * (85 / 100))
      w.length).length := by rw [linspace_length]; exact hk
    simp only [cell] at hcell
    rw [entry_ok hl] at hcell
    obtain ⟨b1, b2⟩ := half_bounds h0 (h.columns _ (List.mem_of_getElem? hc)).2.1
      (List.getElem_mem hl)
    have e : (linspace (1 / 2 - 1 / 2 * sep * (85 / 100)) (1 / 2 + 1 / 2 * sep * (85 / 100))
        w.length)[Z[r]] = 1 / 2 + 85 / 100 * sep * ((Z[r] : ℕ) / ((w.length : ℝ) - 1) - 1 / 2) := by
      simp only [linspace, List.getElem_map, List.getElem_range]
      ring
    rw [e] at hcell b1 b2
    refine ⟨_, _, rfl, rfl, ?_⟩
    set m := 1 / 2 + 85 / 100 * sep * ((Z[r] : ℕ) / ((w.length : ℝ) - 1) - 1 / 2) with hm
    have hd := normPdf_pos m (1 / 2) (s := 1 / 4) (by norm_num)
    have p1 : 0 < m * (20 * normPdf m (1 / 2) (1 / 4)) := by positivity
    have p2 : 0 < (1 - m) * 20 * normPdf m (1 / 2) (1 / 4) := by
      have : 0 < 1 - m := by linarith
      positivity
    change checked _ _ = _ at hcell
    rw [checked_ok ⟨p1, p2⟩] at hcell
    simp only [Except.ok.injEq] at hcell
    have hq : 20 * normPdf m (1 / 2) (1 / 4) =
        80 / Real.sqrt (2 * Real.pi) * Real.exp (-8 * (m - 1 / 2) ^ 2) := by
      have : -((m - 1 / 2) / (1 / 4)) ^ 2 / 2 = -8 * (m - 1 / 2) ^ 2 := by ring
      rw [normPdf, this]
      have hsq : Real.sqrt (2 * Real.pi) ≠ 0 :=
        (Real.sqrt_pos.mpr (by have := Real.pi_pos; positivity)).ne'
      field_simp
      norm_num
    rw [← hcell, ← hq, mul_assoc (1 - m) 20]
  | categorical j =>
    have e : (if 95 / 100 < sep then 95 / 100 else sep) = min sep (95 / 100) := by
      split
      · rename_i h'; rw [min_eq_right h'.le]
      · rename_i h'; rw [min_eq_left (not_lt.mp h')]
    simp only [cell, e] at hcell
    have hj : 0 < j := (h.columns _ (List.mem_of_getElem? hc)).2.2
    have hs : 0 < 1 - min sep (95 / 100) := by
      have := min_le_right sep (95 / 100 : ℝ)
      linarith
    rw [checked_ok ⟨Nat.ne_of_gt hj, hs⟩] at hcell
    change (pflip _ _ _ >>= _) = _ at hcell
    cases hf : pflip (S.dirichlet (List.replicate j (1 - min sep (95 / 100))) (d.clusters c Z[r]))
      (List.range (S.dirichlet (List.replicate j (1 - min sep (95 / 100)))
        (d.clusters c Z[r])).length) (S.rand (d.cells c r 0)) with
    | error e => rw [hf] at hcell; cases hcell
    | ok a =>
      rw [hf] at hcell
      injection hcell with hcell
      exact ⟨a, _, hcell.symm, rfl, hf⟩

/-- **C92 (violated).** With labels that do not count the views from zero, a partition of the columns
that was given fails: IndexError, for a single view labelled one. -/
theorem C92_labels_violated {S : Sampler Ω} {d : Draws Ω} (hd : DrawsOk d) {n : ℕ} {w vw : List ℝ}
    (hw : Weights w) (hn : w.length ≤ n) (q : Prim × ℝ) :
    genDataTable S n vw [w] [q] [1] d = .error .indexError := by
  obtain ⟨Z, h1, h2⟩ := C92_partition hw hn (hd.rows 0) (hd.shuffleRows 0)
  have h3 := h2.length
  simp [genDataTable, Net.collect, h1, entry, h3, bind, Except.bind, Except.map]

/-- **C92 (violated).** A column of angles with separation zero, which the documentation allows, cannot
be generated: ZeroDivisionError. -/
theorem C92_separation_violated (S : Sampler Ω) (f : ℝ → ℝ) (k : ℕ) (Z : List ℕ) (δ : ℕ → Ω)
    (ω : ℕ → ℕ → Ω) : column S (.vonmises f) 0 (k :: Z) δ ω = .error .zeroDivision := by
  simp only [column, List.zipIdx_cons, Net.collect, cell, lt_irrefl, if_false, if_true]
  rfl

/-- **C92 (violated).** A column of zeros and ones with a single cluster is zero throughout, whatever
the separation and the draws. -/
theorem C92_single_violated {S : Sampler Ω} (hS : SamplerOk S) (sep : ℝ) (n : ℕ) (δ : ℕ → Ω)
    (ω : ℕ → ℕ → Ω) :
    column S .bernoulli sep (List.replicate n 0) δ ω = .ok (List.replicate n 0) := by
  have hmax : (List.replicate n 0).foldr max 0 = 0 := by
    induction n with
    | zero => rfl
    | succ n ih => simp [List.replicate_succ, ih]
  unfold column
  rw [hmax]
  have : ∀ m i, Net.collect (fun x : ℕ × ℕ => cell S sep (0 + 1) x.1 δ (ω x.2) .bernoulli)
      ((List.replicate m 0).zipIdx i) = .ok (List.replicate m (0 : ℝ)) := by
    intro m
    induction m with
    | zero => intro i; rfl
    | succ m ih =>
      intro i
      simp only [List.replicate_succ, List.zipIdx_cons, Net.collect, ih]
      have : cell S sep (0 + 1) 0 δ (ω i) .bernoulli = .ok 0 := by
        simp only [cell]
        rw [entry_ok (by rw [linspace_length]; omega)]
        have h0 : ¬ S.rand (ω i 0) < 0 := not_lt.mpr (hS.rand _).1
        simp only [linspace, List.getElem_map, List.getElem_range]
        simp [h0, bind, Except.bind]
      rw [this]
      rfl
  exact this n 0

/-! ### the hypotheses are met -/

/-- A sampler with constant values. -/
noncomputable def constSampler : Sampler Unit where
  rand _ := 1 / 2
  normal m _ _ := m
  lognormal _ _ _ := 1
  beta _ _ _ := 1 / 2
  vonmises _ _ _ := 0
  exponential m _ := m
  poisson _ _ := 3
  geometric _ _ := 1
  dirichlet a _ := a.map fun _ => 1 / (a.length : ℝ)

theorem constSampler_ok : SamplerOk constSampler where
  rand _ := by norm_num [constSampler]
  lognormal _ _ _ _ := by norm_num [constSampler]
  beta _ _ _ _ _ := by norm_num [constSampler]
  vonmises _ _ _ _ := by
    have := Real.pi_pos
    constructor <;> simp only [constSampler] <;> linarith
  exponential m _ h := h.le
  geometric _ _ _ _ := le_rfl
  dirichlet a _ h _ := by
    refine ⟨by simp [constSampler], fun x hx => ?_, ?_⟩
    · simp only [constSampler, List.mem_map] at hx
      obtain ⟨-, -, rfl⟩ := hx
      positivity
    · have : (a.length : ℝ) ≠ 0 := by
        simpa using h
      simp [constSampler, List.map_const', this]

/-- Draws that do not shuffle. -/
noncomputable def constDraws : Draws Unit :=
  ⟨fun _ => 1 / 2, id, fun _ _ => 1 / 2, fun _ => id, fun _ _ => (), fun _ _ _ => ()⟩

theorem constDraws_ok : DrawsOk constDraws where
  views _ := by norm_num [constDraws]
  rows _ _ := by norm_num [constDraws]
  shuffleViews _ := List.Perm.refl _
  shuffleRows _ _ := List.Perm.refl _

theorem exampleArgs : TableArgs 4 [1 / 4, 3 / 4] [[1 / 2, 1 / 2], [1]]
    [(.normal, 1 / 2), (.bernoulli, 1), (.categorical 3, 1 / 2)] [] where
  clusters w hw := by
    simp only [List.mem_cons, List.not_mem_nil, or_false] at hw
    rcases hw with rfl | rfl
    · exact ⟨⟨by norm_num, by norm_num⟩, by simp⟩
    · exact ⟨⟨by norm_num, by norm_num⟩, by simp⟩
  columns c hc := by
    simp only [List.mem_cons, List.not_mem_nil, or_false] at hc
    rcases hc with rfl | rfl | rfl <;> norm_num [ColumnOk]
  views := Or.inl ⟨rfl, ⟨by norm_num, by norm_num⟩, by simp, rfl⟩

example : ∃ t, genDataTable constSampler 4 [1 / 4, 3 / 4] [[1 / 2, 1 / 2], [1]]
    [(.normal, 1 / 2), (.bernoulli, 1), (.categorical 3, 1 / 2)] [] constDraws = .ok t ∧
    t.T.length = 3 ∧ t.Zc.length = 2 := by
  rcases C92_table constSampler_ok constDraws_ok exampleArgs with
    ⟨t, h1, h2, -, -, h3, -⟩ | ⟨-, q, hq, h⟩
  · exact ⟨t, h1, h2, h3⟩
  · simp only [List.mem_cons, List.not_mem_nil, or_false] at hq
    rcases hq with rfl | rfl | rfl <;> exact h.elim

/-- A partition of the columns is given. -/
example : TableArgs 4 [] [[1 / 2, 1 / 2], [1]] [(.normal, 1 / 2), (.poisson, 1)] [1, 0] where
  clusters := exampleArgs.clusters
  columns c hc := by
    simp only [List.mem_cons, List.not_mem_nil, or_false] at hc
    rcases hc with rfl | rfl <;> norm_num [ColumnOk]
  views := Or.inr ⟨by simp, rfl, fun c => by
    simp only [List.mem_cons, List.not_mem_nil, or_false, List.length_cons, List.length_nil]
    omega⟩

example : genPartition 1 [1 / 2, 1 / 2] (fun _ => 0) id = .error .assertion :=
  C92_partition_refused _ _ (Or.inr (Or.inr (by simp)))

end Cgpm.Props
