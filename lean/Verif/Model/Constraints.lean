import Verif.Model.LogSpace
import Verif.Model.Crp

/-
Model of the dependence constraints: src/utils/validation.py and the constrained Chinese
restaurant processes of src/utils/general.py.
Simplifications: columns are naturals (the validator does not look at negative numbers);
an independence constraint is a pair (the test `len(pair) != 2` is met by typing); every
refusal is a ValueError, whose message is dropped.
-/
namespace Cgpm
open Classical

/-- dependence blocks -/
abbrev Blocks := List (List Nat)
/-- independence pairs -/
abbrev Pairs := List (Nat × Nat)

/-- src/utils/validation.py:45-54: the columns of one block; `counts` is the dict of the code. -/
def checkBlock (N : Nat) : List Nat → Dict Nat Nat → Except Exn (Dict Nat Nat)
  | [], counts => .ok counts
  | col :: t, counts =>
    if N ≤ col then .error .valueError
    else
      let c := ((counts.get? col).getD 0) + 1
      let counts := counts.set col c
      if c > 1 then .error .valueError else checkBlock N t counts

/-- src/utils/validation.py:41-58: the loop over blocks. -/
def checkBlocks (N : Nat) (Ci : Pairs) : Blocks → Dict Nat Nat → Except Exn (Dict Nat Nat)
  | [], counts => .ok counts
  | block :: t, counts =>
    if block.length = 1 then .error .valueError
    else match checkBlock N block counts with
      | .error e => .error e
      | .ok counts =>
        if ∃ p ∈ Ci, p.1 ∈ block ∧ p.2 ∈ block then .error .valueError
        else checkBlocks N Ci t counts

/-- src/utils/validation.py:59-67: the loop over pairs. -/
def checkPairs (N : Nat) : Pairs → Except Exn Unit
  | [] => .ok ()
  | p :: t =>
    if N ≤ p.1 ∨ N ≤ p.2 then .error .valueError
    else if p.1 = p.2 then .error .valueError
    else checkPairs N t

/-- src/utils/validation.py:34-68 `validate_dependency_constraints`; `N = None` means the
bound `1e10`. -/
noncomputable def validateDependency (N : Option Nat) (Cd : Blocks) (Ci : Pairs) : Except Exn Unit :=
  let N := N.getD (10 ^ 10)
  match checkBlocks N Ci Cd [] with
  | .error e => .error e
  | .ok _ => checkPairs N Ci

/-- Did the call return normally? -/
def exOk {α : Type} : Except Exn α → Bool
  | .ok _ => true
  | .error _ => false

/-- src/utils/validation.py:70-79 `check_compatible_constraints`. -/
noncomputable def compatibleConstraints (Cd1 : Blocks) (Ci1 : Pairs) (Cd2 : Blocks) (Ci2 : Pairs) : Bool :=
  exOk (validateDependency none Cd1 Ci1) && exOk (validateDependency none Cd1 Ci2) &&
  exOk (validateDependency none Cd2 Ci1) && exOk (validateDependency none Cd2 Ci2)

/-- The constraints of a State: on columns, and (per column) on rows. -/
structure Con where
  Cd : Blocks
  Ci : Pairs
  Rd : Dict Nat Blocks
  Ri : Dict Nat Pairs

/-- src/utils/validation.py:81-90 `check_compatible_customers`. -/
noncomputable def Con.compatible (c : Con) (a b : Nat) : Bool :=
  if (a, b) ∈ c.Ci ∨ (b, a) ∈ c.Ci then false
  else if (c.Rd.has a || c.Ri.has a) && (c.Rd.has b || c.Ri.has b) then
    compatibleConstraints ((c.Rd.get? a).getD []) ((c.Ri.get? a).getD [])
      ((c.Rd.get? b).getD []) ((c.Ri.get? b).getD [])
  else true

/-- `itertools.combinations(block, 2)`. -/
def combinations2 : List Nat → List (Nat × Nat)
  | [] => []
  | a :: t => t.map (fun b => (a, b)) ++ combinations2 t

/-- src/utils/validation.py:92-105 `validate_crp_constrained_input`. -/
noncomputable def Con.validateInput (c : Con) (N : Nat) : Except Exn Unit :=
  match validateDependency (some N) c.Cd c.Ci with
  | .error e => .error e
  | .ok _ =>
    if ∃ p ∈ c.Rd, exOk (validateDependency none p.2 ((c.Ri.get? p.1).getD [])) = false then
      .error .valueError
    else if ∃ block ∈ c.Cd, ∃ p ∈ combinations2 block, c.compatible p.1 p.2 = false then
      .error .valueError
    else .ok ()

/-- src/utils/validation.py:21-32 `validate_crp_constrained_partition`; `Z` gives the table of
each column. -/
noncomputable def Con.validatePartition (c : Con) (Z : Nat → Option Nat) : Bool :=
  decide ((∀ block ∈ c.Cd, (∀ b ∈ block, Z (block.headD 0) = Z b) ∧
      ∀ p ∈ combinations2 block, c.compatible p.1 p.2 = true) ∧
    ∀ p ∈ c.Ci, Z p.1 ≠ Z p.2)

/-- src/utils/general.py:261-262: `friends.get(cust, [cust])`; in the dict comprehension a
later block overrides an earlier one. -/
def Con.friends (c : Con) (cust : Nat) : List Nat :=
  ((c.Cd.filter fun b => cust ∈ b).getLast?).getD [cust]

/-- `max(Z) + 1`, with -1 for an unassigned customer. -/
def nTables (Z : List (Option Nat)) : Nat :=
  Z.foldl (fun b z => max b (match z with | none => 0 | some t => t + 1)) 0

/-- src/utils/general.py:271-284: the weights over the tables and a new one. -/
noncomputable def Con.probTable (c : Con) (alpha : ℝ) (Z : List (Option Nat)) (cust : Nat) : List ℝ :=
  ((List.range (nTables Z)).map fun t =>
    let custs := (List.range Z.length).filter fun i => Z[i]? = some (some t)
    if ∃ tc ∈ custs, ∃ f ∈ c.friends cust, c.compatible f tc = false then 0
    else (custs.length : ℝ)) ++ [alpha]

/-- src/utils/general.py:265-287: one iteration of the loop over customers, with the uniform
draw `u`. -/
noncomputable def Con.seatOne (c : Con) (alpha : ℝ) (Z : List (Option Nat)) (cust : Nat) (u : ℝ) :
    Except Exn (List (Option Nat)) :=
  match Z[cust]? with
  | none => .error .indexError
  | some (some _) => .ok Z
  | some none =>
    if ∃ f ∈ c.friends cust, Z[f]? ≠ some none then .error .assertion
    else
      let p := c.probTable alpha Z cust
      match pflip p (List.range p.length) u with
      | .error e => .error e
      | .ok a => .ok ((c.friends cust).foldl (fun Z f => Z.set f (some a)) Z)

/-- src/utils/general.py:265-287: the loop over the customers `i, i+1, ...`. -/
noncomputable def Con.seatLoop (c : Con) (alpha : ℝ) (us : Nat → ℝ) :
    List Nat → List (Option Nat) → Except Exn (List (Option Nat))
  | [], Z => .ok Z
  | i :: t, Z =>
    match c.seatOne alpha Z i (us i) with
    | .error e => .error e
    | .ok Z => c.seatLoop alpha us t Z

/-- src/utils/general.py:248-291 `simulate_crp_constrained`; `us i` is the uniform draw made
for customer `i`. -/
noncomputable def Con.simulate (c : Con) (N : Nat) (alpha : ℝ) (us : Nat → ℝ) :
    Except Exn (List (Option Nat)) :=
  match c.validateInput N with
  | .error e => .error e
  | .ok _ =>
    if N = 0 ∨ alpha ≤ 0 then .error .assertion
    else match c.seatLoop alpha us (List.range N) (List.replicate N none) with
      | .error e => .error e
      | .ok Z =>
        if ¬ ∀ z ∈ Z, ∃ t, z = some t ∧ t < N then .error .assertion
        else if c.validatePartition (fun i => (Z[i]?).join) then .ok Z else .error .assertion

/-- src/utils/general.py:224-238: the loop of `simulate_crp` over the customers. -/
noncomputable def crpLoop (alpha : ℝ) (us : Nat → ℝ) :
    List Nat → List Nat → List Nat → Except Exn (List Nat × List Nat)
  | [], part, Nk => .ok (part, Nk)
  | i :: t, part, Nk =>
    let ps := (Nk.map fun n : Nat => (n : ℝ) / ((i : ℝ) - 1 + alpha)) ++ [alpha / ((i : ℝ) - 1 + alpha)]
    match pflip ps (List.range ps.length) (us i) with
    | .error e => .error e
    | .ok a =>
      if a = Nk.length then crpLoop alpha us t (part ++ [a]) (Nk ++ [1])
      else if a < Nk.length then crpLoop alpha us t (part ++ [a]) (Nk.modify a (· + 1))
      else .error .valueError

/-- src/utils/general.py:213-246 `simulate_crp`. -/
noncomputable def simulateCrp (N : Nat) (alpha : ℝ) (us : Nat → ℝ) : Except Exn (List Nat) :=
  if N = 0 ∨ alpha ≤ 0 then .error .assertion
  else match crpLoop alpha us ((List.range N).drop 1) [0] [1] with
    | .error e => .error e
    | .ok (part, Nk) =>
      if pyMax part + 1 = Nk.length ∧ part.length = N ∧ Nk.sum = N then .ok part
      else .error .assertion

/-- src/utils/general.py:358-370 `get_crp_constrained_num_effective`. -/
def numEffective (N : Nat) (Cd : Blocks) : Except Exn Nat :=
  let con := (Cd.map List.length).sum
  if con ≤ N ∧ Cd.length ≤ N then .ok ((N - con) + Cd.length) else .error .assertion

/-- src/utils/general.py:318-323: the customers of the blocks. -/
def assignBlocks (crp : List Nat) : Blocks → Nat → List (Option Nat) → Except Exn (List (Option Nat))
  | [], _, part => .ok part
  | block :: t, i, part =>
    match crp[i]? with
    | none => .error .indexError
    | some a => assignBlocks crp t (i + 1) (block.foldl (fun Z f => Z.set f (some a)) part)

/-- src/utils/general.py:325-330: the remaining customers take the unused assignments in turn
(`next` raises StopIteration, here a runtime error, when there are none left). -/
def assignRest : List (Option Nat) → List Nat → Except Exn (List Nat)
  | [], _ => .ok []
  | some a :: t, rest => (assignRest t rest).map (a :: ·)
  | none :: t, a :: rest => (assignRest t rest).map (a :: ·)
  | none :: _, [] => .error .runtime

/-- src/utils/general.py:293-332 `simulate_crp_constrained_dependent`. -/
noncomputable def simulateDependent (N : Nat) (alpha : ℝ) (Cd : Blocks) (us : Nat → ℝ) :
    Except Exn (List Nat) :=
  match validateDependency (some N) Cd [] with
  | .error e => .error e
  | .ok _ =>
    if N = 0 ∨ alpha ≤ 0 then .error .assertion
    else match numEffective N Cd with
      | .error e => .error e
      | .ok n =>
        match simulateCrp n alpha us with
        | .error e => .error e
        | .ok crp =>
          match assignBlocks crp Cd 0 (List.replicate N none) with
          | .error e => .error e
          | .ok part => assignRest part (crp.drop Cd.length)

/-- `counts[table] += 1` on a defaultdict(int). -/
def bump (counts : Dict Tab Int) (t : Tab) : Dict Tab Int :=
  counts.set t (((counts.get? t).getD 0) + 1)

/-- src/utils/general.py:381-387: one customer per block, the first. -/
def countBlocks (Z : Dict Row Tab) : Blocks → Dict Tab Int → Except Exn (Dict Tab Int)
  | [], counts => .ok counts
  | [] :: _, _ => .error .indexError
  | (cust :: _) :: t, counts =>
    match Z.get? cust with
    | none => .error .keyError
    | some z => countBlocks Z t (bump counts z)

/-- src/utils/general.py:373-394 `get_crp_constrained_partition_counts`. -/
def partitionCounts (Z : Dict Row Tab) (Cd : Blocks) : Except Exn (Dict Tab Int) :=
  match countBlocks Z Cd [] with
  | .error e => .error e
  | .ok counts =>
    .ok ((Z.filter fun p => p.1 ∉ Cd.flatten).foldl (fun c p => bump c p.2) counts)

/-- src/utils/general.py:335-355 `logp_crp_constrained_dependent`; `logp_crp` (L88-94) is the
formula of `Crp.calcLogpdfMarginal`.  `Z[c]` of an unknown customer is `none` in the test of the
partition, where the code would raise KeyError. -/
noncomputable def logpDependent (Z : Dict Row Tab) (alpha : ℝ) (Cd : Blocks) : Except Exn LogP :=
  if ¬ (Con.validatePartition ⟨Cd, [], [], []⟩ fun c => Z.get? c) = true then .ok ⊥
  else if alpha ≤ 0 then .error .assertion
  else match numEffective Z.length Cd with
    | .error e => .error e
    | .ok n =>
      match partitionCounts Z Cd with
      | .error e => .error e
      | .ok counts =>
        if counts.vals.sum ≠ (n : Int) then .error .assertion
        else .ok ((Crp.calcLogpdfMarginal n counts.vals alpha : ℝ) : LogP)

end Cgpm
