import Verif.Lemmas.SweepReach
import Verif.Spec.Sweep

/-! Schedules of kernels converge to the posterior. -/
namespace Cgpm.State
open Cgpm.View Cgpm.Spec Cgpm.Props Cgpm.Mix Cgpm.Spec.Hyper
variable {C : Cat} {cfg : Cfg C} {s : State C}

/-- The chains of kernel calls, one after another. -/
def passOver (Pk : Kernel → Orders → (Latent (colsOf s) (rowsOf s) → ℝ) →
    Latent (colsOf s) (rowsOf s) → ℝ) : List (Kernel × Orders) →
    (Latent (colsOf s) (rowsOf s) → ℝ) → Latent (colsOf s) (rowsOf s) → ℝ
  | [], f => f
  | k :: ks, f => Pk k.1 k.2 (passOver Pk ks f)

theorem passOver_append (Pk : Kernel → Orders → (Latent (colsOf s) (rowsOf s) → ℝ) →
    Latent (colsOf s) (rowsOf s) → ℝ) (a b : List (Kernel × Orders))
    (f : Latent (colsOf s) (rowsOf s) → ℝ) :
    passOver Pk (a ++ b) f = passOver Pk a (passOver Pk b f) := by
  induction a with
  | nil => rfl
  | cons k a ih => simp only [List.cons_append, passOver, ih]

theorem passOver_chain {Pk : Kernel → Orders → (Latent (colsOf s) (rowsOf s) → ℝ) →
    Latent (colsOf s) (rowsOf s) → ℝ} {W : Latent (colsOf s) (rowsOf s) → ℝ}
    (hP : ∀ k o, Orders.Lists s none none o → IsChain s W (s.kernelDraws none none k)
      (fun t us => t.callKernel cfg none none o us k) (Pk k o)) (ks : List (Kernel × Orders))
    (hk : ∀ k ∈ ks, Orders.Lists s none none k.2) :
    IsChain s W (ks.map fun k => s.kernelDraws none none k.1).sum
      (fun t us => callKernels cfg none none ks t us) (passOver Pk ks) := by
  induction ks with
  | nil => exact ⟨fun t ht us _ _ => ⟨t, rfl, ht⟩, fun t _ f => rfl, fun f => rfl, fun _ _ _ _ _ => rfl⟩
  | cons k ks ih =>
    rw [List.map_cons, List.sum_cons]
    refine ((hP k.1 k.2 (hk k (by simp))).comp (ih fun k' hk' => hk k' (by simp [hk']))).congr
      fun t ht us => ?_
    simp only [callKernels, kernelDraws_eq ht]

theorem Toward.trans {k : Kernel} {ks : List Kernel} {L' x x' x'' : Latent (colsOf s) (rowsOf s)}
    (h : Toward [k] L' x x') (h' : Toward ks L' x' x'') : Toward (k :: ks) L' x x'' := by
  have key : ∀ (j : Kernel) (X : Prop), j ∈ k :: ks ∨ X → j ∈ ks ∨ (j ∈ [k] ∨ X) := by
    intro j X h
    rcases h with h | h
    · rcases List.mem_cons.mp h with e | e
      · exact Or.inr (Or.inl (by simp [e]))
      · exact Or.inl e
    · exact Or.inr (Or.inr h)
  refine ⟨fun g => h'.part ((key _ _ g).imp_right h.part), fun hp g => ?_, fun hp g => ?_,
    fun hp g => ?_⟩
  · exact h'.alpha (h.part (Or.inr hp)) ((key _ _ g).imp_right (h.alpha hp))
  · exact h'.views (h.part (Or.inr hp)) ((key _ _ g).imp_right (h.views hp))
  · exact h'.rows (h.part (Or.inr hp)) ((key _ _ g).imp_right (h.rows hp))

section
variable {Pk : Kernel → Orders → (Latent (colsOf s) (rowsOf s) → ℝ) →
    Latent (colsOf s) (rowsOf s) → ℝ} {W : Latent (colsOf s) (rowsOf s) → ℝ}

theorem passOver_moves {ε : ℝ} (h0 : 0 < ε)
    (hS : ∀ k o, Orders.Lists s none none o → IsStep (latents (colsOf s) (rowsOf s)) W (Pk k o))
    (hP : ∀ k o, Orders.Lists s none none o → ∀ L' ∈ latents (colsOf s) (rowsOf s), 0 < W L' →
      ∀ x ∈ latents (colsOf s) (rowsOf s), ∃ x' ∈ latents (colsOf s) (rowsOf s),
        Reaches (latents (colsOf s) (rowsOf s)) (Pk k o) ε x x' ∧ Toward [k] L' x x')
    (ks : List (Kernel × Orders)) (hk : ∀ k ∈ ks, Orders.Lists s none none k.2)
    {L' : Latent (colsOf s) (rowsOf s)} (hL' : L' ∈ latents (colsOf s) (rowsOf s)) (hW : 0 < W L') :
    (∀ f, (∀ x ∈ latents (colsOf s) (rowsOf s), 0 ≤ f x) → ∀ x ∈ latents (colsOf s) (rowsOf s),
      0 ≤ passOver Pk ks f x) ∧
    ∀ x ∈ latents (colsOf s) (rowsOf s), ∃ x' ∈ latents (colsOf s) (rowsOf s),
      Reaches (latents (colsOf s) (rowsOf s)) (passOver Pk ks) (ε ^ ks.length) x x' ∧
        Toward (ks.map Prod.fst) L' x x' := by
  induction ks with
  | nil =>
    refine ⟨fun f hf => hf, fun x hx => ⟨x, hx, fun f _ => by simp [passOver],
      fun h => h.resolve_left (by simp), fun _ h => h.resolve_left (by simp),
      fun _ h => h.resolve_left (by simp), fun _ h => h.resolve_left (by simp)⟩⟩
  | cons k ks ih =>
    obtain ⟨hn, ih⟩ := ih fun k' hk' => hk k' (by simp [hk'])
    have ho := hk k (by simp)
    refine ⟨fun f hf => (hS k.1 k.2 ho).nonneg _ (hn f hf), fun x hx => ?_⟩
    obtain ⟨y, hy, r1, t1⟩ := hP k.1 k.2 ho L' hL' hW x hx
    obtain ⟨z, hz, r2, t2⟩ := ih y hy
    refine ⟨z, hz, fun f hf => ?_, t1.trans t2⟩
    refine le_trans ?_ (r1 (passOver Pk ks f) (hn f hf))
    rw [List.length_cons, pow_succ, mul_comm (ε ^ _) ε, mul_assoc]
    exact mul_le_mul_of_nonneg_left (r2 f hf) h0.le

/-- A list of calls with a call over columns, followed by one with calls for all concentrations and for
the rows, reaches every structure of positive weight. -/
theorem passOver_reaches {ε : ℝ} (h0 : 0 < ε)
    (hS : ∀ k o, Orders.Lists s none none o → IsStep (latents (colsOf s) (rowsOf s)) W (Pk k o))
    (hP : ∀ k o, Orders.Lists s none none o → ∀ L' ∈ latents (colsOf s) (rowsOf s), 0 < W L' →
      ∀ x ∈ latents (colsOf s) (rowsOf s), ∃ x' ∈ latents (colsOf s) (rowsOf s),
        Reaches (latents (colsOf s) (rowsOf s)) (Pk k o) ε x x' ∧ Toward [k] L' x x')
    {a b : List (Kernel × Orders)} (ha : ∀ k ∈ a, Orders.Lists s none none k.2)
    (hb : ∀ k ∈ b, Orders.Lists s none none k.2) (hcol : .columns ∈ a.map Prod.fst)
    (hal : .alpha ∈ b.map Prod.fst) (hva : .viewAlphas ∈ b.map Prod.fst)
    (hro : .rows ∈ b.map Prod.fst) {x L' : Latent (colsOf s) (rowsOf s)}
    (hx : x ∈ latents (colsOf s) (rowsOf s)) (hL' : L' ∈ latents (colsOf s) (rowsOf s))
    (hW : 0 < W L') : Reaches (latents (colsOf s) (rowsOf s)) (passOver Pk (a ++ b))
      (ε ^ (a.length + b.length)) x L' := by
  obtain ⟨-, m1⟩ := passOver_moves h0 hS hP a ha hL' hW
  obtain ⟨n2, m2⟩ := passOver_moves h0 hS hP b hb hL' hW
  obtain ⟨y, hy, r1, t1⟩ := m1 x hx
  obtain ⟨z, hz, r2, t2⟩ := m2 y hy
  have hp := t1.part (Or.inl hcol)
  have : z = L' := Latent.ext (t2.alpha hp (Or.inl hal)) (t2.part (Or.inr hp))
    (funext fun c => Prod.ext (t2.views hp (Or.inl hva) c) (t2.rows hp (Or.inl hro) c))
  subst this
  intro f hf
  rw [passOver_append, pow_add, mul_assoc]
  exact (mul_le_mul_of_nonneg_left (r2 f hf) (pow_pos h0 _).le).trans (r1 _ (n2 f hf))

end

/-- The calls from number `a` on. -/
def callsFrom (kernels : List Kernel) (orders : ℕ → Orders) (a m : ℕ) : List (Kernel × Orders) :=
  (List.range' a m).filterMap fun i => (kernels[i % kernels.length]?).map fun k => (k, orders i)

theorem callsFrom_append (kernels : List Kernel) (orders : ℕ → Orders) (a m m' : ℕ) :
    callsFrom kernels orders a (m + m')
      = callsFrom kernels orders a m ++ callsFrom kernels orders (a + m) m' := by
  unfold callsFrom
  rw [← List.filterMap_append]
  congr 1
  have := List.range'_append (s := a) (m := m) (n := m') (step := 1)
  rw [one_mul] at this
  exact this.symm

theorem callsFrom_mem {kernels : List Kernel} {orders : ℕ → Orders} {a : ℕ}
    (ha : a % kernels.length = 0) {k : Kernel} (hk : k ∈ kernels) :
    k ∈ (callsFrom kernels orders a kernels.length).map Prod.fst := by
  obtain ⟨j, hj, e⟩ := List.getElem_of_mem hk
  refine List.mem_map.mpr ⟨(k, orders (a + j)), List.mem_filterMap.mpr ⟨a + j, ?_, ?_⟩, rfl⟩
  · rw [List.mem_range'_1]; omega
  · have : (a + j) % kernels.length = j := by
      rw [Nat.add_mod, ha, Nat.zero_add, Nat.mod_mod, Nat.mod_eq_of_lt hj]
    rw [this, List.getElem?_eq_getElem hj, e]
    rfl

theorem callsFrom_length (kernels : List Kernel) (orders : ℕ → Orders) (a m : ℕ) :
    (callsFrom kernels orders a m).length ≤ m := by
  unfold callsFrom
  refine (List.length_filterMap_le _ _).trans ?_
  rw [List.length_range']

theorem callsFrom_orders {kernels : List Kernel} {orders : ℕ → Orders}
    (ho : ∀ i, Orders.Lists s none none (orders i)) (a m : ℕ) :
    ∀ k ∈ callsFrom kernels orders a m, Orders.Lists s none none k.2 := by
  intro k hk
  obtain ⟨i, -, hi⟩ := List.mem_filterMap.mp hk
  obtain ⟨k', -, rfl⟩ := Option.map_eq_some_iff.mp hi
  exact ho i

/-- Convergence of the chains of any schedule. -/
theorem passOver_converges (hL : C.Lawful) (hCh : C.Chain) (hs : StateReachable cfg s)
    (hm : ColumnsMove cfg s none) {W : Latent (colsOf s) (rowsOf s) → ℝ}
    (hW : IsJointPosterior cfg s W) {kernels : List Kernel} (h1 : .alpha ∈ kernels)
    (h2 : .viewAlphas ∈ kernels) (h3 : .rows ∈ kernels) (h4 : .columns ∈ kernels) :
    ∃ ε : ℝ, 0 < ε ∧ ε ≤ 1 ∧ ∀ (q r a : ℕ) (orders : ℕ → Orders), a % kernels.length = 0 →
      (∀ i, Orders.Lists s none none (orders i)) → ∃ P, IsChain s W
        ((callsFrom kernels orders a (q * (2 * kernels.length) + r)).map fun k =>
          s.kernelDraws none none k.1).sum
        (fun t us => callKernels cfg none none
          (callsFrom kernels orders a (q * (2 * kernels.length) + r)) t us) P ∧
        ∀ f D, (∀ L ∈ latents (colsOf s) (rowsOf s), |f L - latentMean W f| ≤ D) →
          ∀ L ∈ latents (colsOf s) (rowsOf s), |P f L - latentMean W f| ≤ (1 - ε) ^ q * D := by
  have hI := hs.inv hL
  obtain ⟨ε, h0, e1, hk⟩ := callKernel_moves hL hCh hs hm hW
  obtain ⟨-, -, p3⟩ := C60_posterior hL hs
  obtain ⟨p4, p5⟩ := p3 W hW
  classical
  have hk' : ∀ (k : Kernel) (o : Orders), ∃ P, Orders.Lists s none none o →
      IsChain s W (s.kernelDraws none none k) (fun t us => t.callKernel cfg none none o us k) P ∧
      ∀ L' ∈ latents (colsOf s) (rowsOf s), 0 < W L' → ∀ x ∈ latents (colsOf s) (rowsOf s),
        ∃ x' ∈ latents (colsOf s) (rowsOf s), Reaches (latents (colsOf s) (rowsOf s)) P ε x x' ∧
          Toward [k] L' x x' := fun k o => by
    by_cases h : Orders.Lists s none none o
    · obtain ⟨P, hP⟩ := hk k o h
      exact ⟨P, fun _ => hP⟩
    · exact ⟨fun f => f, fun g => absurd g h⟩
  choose Pk hPk using hk'
  have hC : ∀ k o, Orders.Lists s none none o → IsChain s W (s.kernelDraws none none k)
      (fun t us => t.callKernel cfg none none o us k) (Pk k o) := fun k o ho => (hPk k o ho).1
  have hSt : ∀ k o, Orders.Lists s none none o → IsStep (latents (colsOf s) (rowsOf s)) W (Pk k o) :=
    fun k o ho => (hC k o ho).isStep hL cfg hI
  have hMv : ∀ k o, Orders.Lists s none none o → ∀ L' ∈ latents (colsOf s) (rowsOf s), 0 < W L' →
      ∀ x ∈ latents (colsOf s) (rowsOf s), ∃ x' ∈ latents (colsOf s) (rowsOf s),
        Reaches (latents (colsOf s) (rowsOf s)) (Pk k o) ε x x' ∧ Toward [k] L' x x' :=
    fun k o ho => (hPk k o ho).2
  set n := kernels.length with hn
  refine ⟨ε ^ (n + n), pow_pos h0 _, pow_le_one₀ h0.le e1, fun q r a orders ha ho =>
    ⟨passOver Pk (callsFrom kernels orders a (q * (2 * n) + r)),
      passOver_chain hC _ (callsFrom_orders ho a _), ?_⟩⟩
  induction q generalizing a with
  | zero =>
    intro f D hD L hLg
    rw [pow_zero, one_mul]
    exact ((passOver_chain hC _ (callsFrom_orders ho a _)).isStep hL cfg hI).bound hD L hLg
  | succ q ih =>
    intro f D hD L hLg
    have e : (q + 1) * (2 * n) + r = n + (n + (q * (2 * n) + r)) := by ring
    have a1 : (a + n) % n = 0 := by rw [Nat.add_mod_right]; exact ha
    have a2 : (a + n + n) % n = 0 := by rw [Nat.add_mod_right]; exact a1
    have hrest := (passOver_chain hC _ (callsFrom_orders (kernels := kernels) ho (a + n + n)
      (q * (2 * n) + r))).isStep hL cfg hI
    have htwo := (passOver_chain hC (callsFrom kernels orders a n ++ callsFrom kernels orders (a + n) n)
      (fun k hk => by
        rcases List.mem_append.mp hk with hk | hk
        · exact callsFrom_orders ho a n k hk
        · exact callsFrom_orders ho (a + n) n k hk)).isStep hL cfg hI
    rw [e, callsFrom_append, callsFrom_append, ← List.append_assoc, passOver_append]
    have hmean := hrest.mean_eq f
    have hmean' : latentMean W (passOver Pk (callsFrom kernels orders (a + n + n)
      (q * (2 * n) + r)) f) = latentMean W f := hmean
    have hcon := htwo.contract (fun x hx => (p4 x hx).1) p5 (pow_pos h0 (n + n))
      (fun x hx y hy hy0 g hg => by
        have := passOver_reaches h0 hSt hMv (callsFrom_orders ho a n)
          (callsFrom_orders ho (a + n) n) (callsFrom_mem ha h4) (callsFrom_mem a1 h1)
          (callsFrom_mem a1 h2) (callsFrom_mem a1 h3) hx hy hy0 g hg
        refine le_trans (mul_le_mul_of_nonneg_right (pow_le_pow_of_le_one h0.le e1 ?_) (hg y hy)) this
        exact Nat.add_le_add (callsFrom_length ..) (callsFrom_length ..))
      (f := passOver Pk (callsFrom kernels orders (a + n + n) (q * (2 * n) + r)) f)
      (D := (1 - ε ^ (n + n)) ^ q * D) (fun x hx => by
        have := ih (a + n + n) a2 f D hD x hx
        rw [← hmean'] at this
        exact this) L hLg
    rw [← hmean', pow_succ, mul_comm ((1 - ε ^ (n + n)) ^ q), mul_assoc]
    exact hcon

end Cgpm.State
