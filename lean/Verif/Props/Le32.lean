import Verif.Model.Le32
import Mathlib.Tactic.Ring

/-! C31: the return pipe of `parallel_map` as bytes. -/
namespace Cgpm.Props
open Cgpm Cgpm.PMap

theorem le32_round {n : Nat} (h : n < 256 ^ 4) :
    ∃ b, le32enc n = .ok b ∧ b.length = 4 ∧ le32dec b = .ok n := by
  refine ⟨_, if_pos h, rfl, ?_⟩
  simp only [le32dec, Fin.ofNat]
  congr 1
  omega

/-- What the numbers look like in the pipe. -/
theorem pipeWrites_reads (ns : List Nat) (h : ∀ n ∈ ns, n < 256 ^ 4) :
    ∃ bytes, (∀ pipe, pipeWrites pipe ns = .ok (pipe ++ bytes)) ∧
      ∀ rest, pipeReads ns.length (bytes ++ rest) = .ok (ns, rest) := by
  induction ns with
  | nil => exact ⟨[], fun pipe => by simp [pipeWrites], fun rest => rfl⟩
  | cons n ns ih =>
    obtain ⟨bytes, h1, h2⟩ := ih fun n hn => h n (by simp [hn])
    obtain ⟨b, e1, e2, e3⟩ := le32_round (h n (by simp))
    refine ⟨b ++ bytes, fun pipe => ?_, fun rest => ?_⟩
    · simp only [pipeWrites, pipeWrite, e1, Except.map, h1, List.append_assoc]
    · have ht : (b ++ bytes ++ rest).take 4 = b := by
        rw [List.append_assoc, List.take_left' e2]
      have hd : (b ++ bytes ++ rest).drop 4 = bytes ++ rest := by
        rw [List.append_assoc, List.drop_left' e2]
      simp only [List.length_cons, pipeReads, pipeRead, ht, e3, Except.map, hd, h2]

/-- **C31.** The return pipe is a queue of worker numbers: whatever numbers below 2³² the workers
write, in any order, the parent reads the first `k` of them in the order of the writes, for each `k`,
and the others are still in the pipe; a number is never torn. -/
theorem C31_return_pipe (ns : List Nat) (h : ∀ n ∈ ns, n < 2 ^ 32) (k : Nat) (hk : k ≤ ns.length) :
    ∃ pipe rest, pipeWrites [] ns = .ok pipe ∧ pipeWrites [] (ns.drop k) = .ok rest ∧
      pipeReads k pipe = .ok (ns.take k, rest) := by
  have h' : ∀ n ∈ ns, n < 256 ^ 4 := fun n hn => by have := h n hn; omega
  obtain ⟨b2, f1, -⟩ := pipeWrites_reads (ns.drop k) fun n hn => h' n (List.mem_of_mem_drop hn)
  obtain ⟨b1', e1', e2'⟩ := pipeWrites_reads (ns.take k) fun n hn => h' n (List.mem_of_mem_take hn)
  have happ : ∀ (l l' : List Nat) pipe pipe', pipeWrites pipe l = .ok pipe' →
      pipeWrites pipe (l ++ l') = pipeWrites pipe' l' := by
    intro l
    induction l with
    | nil => intro l' pipe pipe' h; cases h; rfl
    | cons n l ih =>
      intro l' pipe pipe' h
      simp only [pipeWrites, List.cons_append] at h ⊢
      split at h
      · cases h
      · rename_i p hp
        exact ih l' p pipe' h
  refine ⟨b1' ++ b2, b2, ?_, ?_, ?_⟩
  · rw [← List.take_append_drop k ns, happ _ _ _ _ (e1' []), List.nil_append, f1]
  · rw [f1, List.nil_append]
  · have := e2' b2
    rwa [List.length_take, Nat.min_eq_left hk] at this

/-- Three workers, of which the first writes twice; two numbers are read. -/
example : (∀ n ∈ [0, 70000, 2, 0], n < 2 ^ 32) ∧ 2 ≤ [0, 70000, 2, 0].length := by decide

end Cgpm.Props
