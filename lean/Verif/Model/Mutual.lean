import Verif.Model.StateQuery
import Verif.Model.StateLogpdf

/-
Model of the mutual information queries: src/crosscat/state.py:631-722 and
src/network/helpers.py:44-50, 82-87.

Simplifications, global to this file:
* What the State answers to `simulate` and `logpdf` is given by a `MiModel`. An answer may depend on
  the place in the program where the question is asked (`Site`), because draws are fresh.
* `scipy.sparse.csgraph.connected_components` is a parameter; its contract is `WeakLabels` in the
  specification.
* `blocks` is iterated in insertion order; the results are only summed. `progress` is dropped.
-/
namespace Cgpm

namespace Net
variable {R V Ω : Type}

/-- src/network/helpers.py:44-50 `retrieve_adjacency_matrix`: the entry in row `i` and column `j`,
after the transposition. -/
def adjacencyMatrix (cgpms : List (NetCgpm R V Ω)) (vToC : Dict Nat Nat) (i j : Nat) : Bool :=
  (((adjacencyList cgpms vToC).get? j).getD []).contains i

/-- src/network/helpers.py:82-87 `retrieve_weakly_connected_components`. -/
def weaklyConnected (scipy : Nat → (Nat → Nat → Bool) → List Nat) (cgpms : List (NetCgpm R V Ω)) :
    List Nat :=
  let vToC := variableToCgpm cgpms
  scipy cgpms.length (adjacencyMatrix cgpms vToC)

end Net

namespace Mutual
variable {R V Ω A : Type}

/-- One of the tuples `([], [], {})` of src/crosscat/state.py:712; `none` in a constraint stands for
None, a variable to be marginalised. -/
structure Block (V : Type) where
  col0 : List Nat
  col1 : List Nat
  constraints : Dict Nat (Option V)

/-- `defaultdict(lambda: ([], [], {}))`, and the update of one of its values. -/
def onBlock (blocks : Dict Nat (Block V)) (k : Nat) (f : Block V → Block V) : Dict Nat (Block V) :=
  blocks.set k (f ((blocks.get? k).getD ⟨[], [], []⟩))

/-- src/crosscat/state.py:714: `connected_components[var_to_cgpm[variable]]`. -/
def componentOf (vToC : Dict Nat Nat) (labels : List Nat) (v : Nat) : Except Exn Nat :=
  match vToC.get? v with
  | none => .error .keyError
  | some i =>
    match labels[i]? with
    | none => .error .indexError
    | some k => .ok k

/-- The loops of src/crosscat/state.py:713-721; `name` is the variable of an item, `put` what is done
to its block. -/
def place (comp : Nat → Except Exn Nat) (name : A → Nat) (put : A → Block V → Block V) :
    List A → Dict Nat (Block V) → Except Exn (Dict Nat (Block V))
  | [], blocks => .ok blocks
  | a :: t, blocks =>
    match comp (name a) with
    | .error e => .error e
    | .ok k => place comp name put t (onBlock blocks k (put a))

/-- src/crosscat/state.py:708-722 `_partition_mutual_information_query`; `cgpms` is the result of
`build_cgpms`. -/
def partitionQuery (scipy : Nat → (Nat → Nat → Bool) → List Nat) (cgpms : List (NetCgpm R V Ω))
    (col0 col1 : List Nat) (constraints : Dict Nat (Option V)) : Except Exn (Dict Nat (Block V)) :=
  let comp := componentOf (Net.variableToCgpm cgpms) (Net.weaklyConnected scipy cgpms)
  match place comp id (fun v b => { b with col0 := b.col0 ++ [v] }) col0 [] with
  | .error e => .error e
  | .ok b1 =>
    match place comp id (fun v b => { b with col1 := b.col1 ++ [v] }) col1 b1 with
    | .error e => .error e
    | .ok b2 =>
      place comp Prod.fst (fun p b => { b with constraints := b.constraints.set p.1 p.2 })
        constraints b2

/-- Where a question is asked: the block, and the sample of the marginalised variables. -/
structure Site where
  block : Nat
  sample : Option Nat

/-- What the State answers: `simulate` of `N` hypothetical rows; `logpdf` of the `i`-th row, in the
`phase`-th of the bulk queries of an estimator. -/
structure MiModel (V : Type) where
  simulate : Site → List Nat → Dict Nat V → Nat → Except Exn (List (Dict Nat V))
  logpdf : Site → (phase i : Nat) → Dict Nat V → Dict Nat V → Except Exn Fl

/-- `s[c]`, with its key. -/
def pick (s : Dict Nat V) (c : Nat) : Except Exn (Nat × V) :=
  match s.get? c with
  | none => .error .keyError
  | some x => .ok (c, x)

/-- `{c: s[c] for c in cols}`. -/
def restrict (cols : List Nat) (s : Dict Nat V) : Except Exn (Dict Nat V) :=
  (Net.collect (pick s) cols).map (Dict.update [])

/-- src/crosscat/state.py:505-523 `logpdf_bulk` as it is called below. -/
def logpdfBulk (m : MiModel V) (site : Site) (phase : Nat) (E : Dict Nat V) (N : Nat)
    (targets : List (Dict Nat V)) : Except Exn (List Fl) :=
  if targets.length ≠ N then .error .assertion
  else Net.collect (fun p => m.logpdf site phase p.2 p.1 E) targets.zipIdx

/-- Division by a positive number. -/
noncomputable def divBy : Fl → ℝ → Fl
  | .fin x, n => .fin (x / n)
  | a, _ => a

/-- src/crosscat/state.py:679-696 `_compute_mi`. -/
noncomputable def computeMi (m : MiModel V) (site : Site) (col0 col1 : List Nat) (E : Dict Nat V)
    (N : Nat) : Except Exn Fl := do
  let samples ← m.simulate site (col0 ++ col1) E N
  let pxy ← logpdfBulk m site 0 E N samples
  let t0 ← Net.collect (restrict col0) samples
  let px ← logpdfBulk m site 1 E N t0
  let t1 ← Net.collect (restrict col1) samples
  let py ← logpdfBulk m site 2 E N t1
  .ok (divBy (((flSum pxy).sub (flSum px)).sub (flSum py)) N)

/-- `set(col0) == set(col1)`. -/
def sameSet (col0 col1 : List Nat) : Bool :=
  col0.all (fun c => col1.contains c) && col1.all fun c => col0.contains c

/-- src/crosscat/state.py:698-706 `_compute_entropy`. -/
noncomputable def computeEntropy (m : MiModel V) (site : Site) (col0 col1 : List Nat)
    (E : Dict Nat V) (N : Nat) : Except Exn Fl :=
  if ¬ sameSet col0 col1 then .error .assertion
  else do
    let samples ← m.simulate site col0 E N
    let t0 ← Net.collect (restrict col0) samples
    let px ← logpdfBulk m site 0 E N t0
    .ok (divBy (flSum px).neg N)

/-- `N or 100`. -/
def orHundred (n : Option Nat) : Nat := if n.getD 0 = 0 then 100 else n.getD 0

/-- src/crosscat/state.py:658: the equality constraints. -/
def equalities (constraints : Dict Nat (Option V)) : Dict Nat V :=
  constraints.filterMap fun p => p.2.map fun x => (p.1, x)

/-- src/crosscat/state.py:659: the variables to be marginalised. -/
def marginals (constraints : Dict Nat (Option V)) : List Nat :=
  (constraints.filter fun p => p.2.isNone).map Prod.fst

/-- src/crosscat/state.py:661-662: the estimator. -/
noncomputable def estimator (m : MiModel V) (site : Site) (col0 col1 : List Nat) (E : Dict Nat V)
    (N : Nat) : Except Exn Fl :=
  if ¬ sameSet col0 col1 then computeMi m site col0 col1 E N
  else computeEntropy m site col0 col1 E N

/-- src/crosscat/state.py:653-677 `_compute_mutual_information` for the block number `k`. -/
noncomputable def compute (m : MiModel V) (k : Nat) (b : Block V) (T N : Option Nat) :
    Except Exn Fl :=
  if (marginals b.constraints).isEmpty then
    estimator m ⟨k, none⟩ b.col0 b.col1 (equalities b.constraints) (orHundred N)
  else do
    let samples ← m.simulate ⟨k, none⟩ (marginals b.constraints) [] (orHundred T)
    let l ← Net.collect (fun p => estimator m ⟨k, some p.2⟩ b.col0 b.col1
      ((equalities b.constraints).update p.1) (orHundred N)) samples.zipIdx
    .ok (divBy (flSum l) (orHundred T))

/-- src/crosscat/state.py:634-651 `mutual_information`. -/
noncomputable def mutualInformation (scipy : Nat → (Nat → Nat → Bool) → List Nat)
    (cgpms : List (NetCgpm R V Ω)) (m : MiModel V) (col0 col1 : List Nat)
    (constraints : Dict Nat (Option V)) (T N : Option Nat) : Except Exn Fl :=
  if (col0 ++ col1).any fun c => constraints.has c then .error .valueError
  else if (col0.any fun c => col1.contains c) && !sameSet col0 col1 then .error .valueError
  else do
    let blocks ← partitionQuery scipy cgpms col0 col1 constraints
    let l ← Net.collect (fun p : Nat × Block V => compute m p.1 p.2 T N)
      (blocks.filter fun p => !p.2.col0.isEmpty && !p.2.col1.isEmpty)
    .ok (flSum l)

end Mutual
end Cgpm
