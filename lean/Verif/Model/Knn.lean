import Verif.Model.Kde
import Verif.Model.DummyCode

/-
Model of src/knn/mvknn.py `MultivariateKnn`.

Simplifications, global to this file:
* Numbers are exact reals.
* `constraints` hold no NaN; `None` is the empty dictionary.  Of `inputs` only the keys are kept.
* 'categorical' and 'nominal' are one type, which carries the number of categories.
* sklearn's `KDTree(X).query(x, k)` is a function `kd X x k` that gives positions in `X`; Spec/Knn says
  what is assumed of it.
* The lists of targets of `simulate` hold no variable twice.
* The attribute `ordering`, which nothing reads, is left out.
-/
namespace Cgpm

/-- src/knn/mvknn.py:75-93: the attributes of a `MultivariateKnn`. -/
structure Knn where
  outputs : List Col
  types : List KType
  rows : MvRows
  K : Nat
  M : Nat

namespace Knn

/-- sklearn's `KDTree(X).query(x, k)`. -/
abbrev Tree := List (List ℝ) → List ℝ → Nat → List Nat

/-- src/knn/mvknn.py:63-93 `__init__` with 290-320 `_validate_init`; `types` are
`distargs['outputs']`. -/
def new (outputs inputs : List Col) (K M : Option Int) (types : List InputType) : Except Exn Knn :=
  if !inputs.isEmpty then .error .valueError
  else if outputs.length < 2 then .error .valueError
  else if outputs.dedup.length ≠ outputs.length then .error .valueError
  else match K with
    | none => .error .valueError
    | some k =>
      if k < 1 then .error .valueError
      else if types.length ≠ outputs.length then .error .valueError
      else match Net.collect Kde.typeOf types with
        | .error e => .error e
        | .ok ts => .ok ⟨outputs, ts, .empty, k.toNat, (M.getD k).toNat⟩

/-- src/knn/mvknn.py:95-101 `incorporate` with 353-366 `_validate_incorporate`. -/
def incorporate (o : Knn) (r : Row) (obs inputs : Vals) : Out Knn :=
  (o.rows.incorporate o.outputs [] o.outputs r obs inputs).map fun rows => { o with rows }

/-- src/knn/mvknn.py:103-106 `unincorporate` with 368-370 `_validate_unincorporate`. -/
def unincorporate (o : Knn) (r : Row) : Out Knn :=
  (o.rows.unincorporate r).map fun rows => { o with rows }

/-- `self.outputs.index(q)`. -/
def index (o : Knn) (q : Col) : Except Exn Nat :=
  if q ∈ o.outputs then .ok (o.outputs.idxOf q) else .error .valueError

/-- src/knn/mvknn.py:245-248 `_dataset`. -/
def dataset (o : Knn) (qs : List Col) : Except Exn (List (List ℝ)) :=
  (Net.collect o.index qs).map o.rows.complete

/-- src/knn/mvknn.py:82-85 `levels.get(q)`. -/
def level (o : Knn) (q : Col) : Option Nat :=
  if q ∈ o.outputs then
    match o.types[o.outputs.idxOf q]? with
    | some (.nominal k) => some k
    | _ => none
  else none

/-- src/knn/mvknn.py:239-241: the levels by position. -/
def levelsAt (o : Knn) (qs : List Col) : Dict Nat Nat :=
  qs.filterMap fun q => (o.level q).map fun k => (qs.idxOf q, k)

/-- src/knn/mvknn.py:239-243 `_dummy_code`, of one row without NaN. -/
noncomputable def code (o : Knn) (qs : List Col) (row : List ℝ) : Except Exn (List ℝ) :=
  if (o.levelsAt qs).isEmpty then .ok row
  else (dummyCode (row.map some) (o.levelsAt qs)).map fun c => c.map fun x => x.getD 0

/-- The Euclidean distance. -/
noncomputable def dist (x y : List ℝ) : ℝ :=
  Real.sqrt ((List.zipWith (fun a b => (a - b) ^ 2) x y).sum)

open Classical in
/-- src/knn/mvknn.py:195-202: the K neighbours of `x`, a random choice among those no farther than the
K-th one if there are more than K of these. -/
noncomputable def neighbors (kd : Tree) (K : Nat) (X : List (List ℝ)) (x : List ℝ) : Rand (List Nat) :=
  let found := kd X x X.length
  let near := fun i => dist (X.getD i []) x
  let valid := found.filter fun i => near i ≤ near (found.getD (K - 1) 0)
  if K < valid.length then Rand.sample K valid else .pure (found.take K)

/-- src/knn/mvknn.py:174-206 `_find_neighborhoods`: the values of the targets in the rows, and the
positions of the rows of each locality. -/
noncomputable def findNeighborhoods (kd : Tree) (o : Knn) (targets : List Col)
    (constraints : Dict Col ℝ) : Rand (List (List ℝ) × List (List Nat)) :=
  if constraints.isEmpty then .raise .valueError
  else (Rand.ofExcept (o.dataset (targets ++ constraints.keys))).bind fun D =>
    if D.length < o.K then .raise .valueError
    else
      (Rand.ofExcept (Net.collect (fun row => o.code targets (row.take targets.length)) D)).bind
        fun qr =>
      (Rand.ofExcept (Net.collect (fun row => o.code constraints.keys (row.drop targets.length)) D)).bind
        fun ev =>
      (Rand.ofExcept (o.code constraints.keys constraints.vals)).bind fun c =>
      (neighbors kd o.K ev c).bind fun ns =>
      let full := List.zipWith (· ++ ·) qr ev
      .pure (D.map (·.take targets.length), ns.map fun i => kd full (full.getD i []) (min o.M o.K))

/-- `np.mean` -/
noncomputable def mean (l : List ℝ) : ℝ := l.sum / l.length

/-- `np.std` -/
noncomputable def std (l : List ℝ) : ℝ := Real.sqrt (mean (l.map fun x => (x - mean l) ^ 2))

/-- A local model of one variable: src/knn/mvknn.py:223-228 a normal distribution, 230-237 the
frequencies of the categories. -/
inductive Local
  | normal (mu std : ℝ)
  | freq (p : List ℝ)

open Classical in
/-- src/knn/mvknn.py:208-237 `_create_local_model_joint`, for one target: the local model learnt from the
values of a locality. -/
noncomputable def localModel (t : KType) (vals : List ℝ) : Except Exn Local :=
  match t with
  | .numerical => .ok (.normal (mean vals) (max (std vals) (1 / 100)))
  | .nominal k =>
    if ∃ v ∈ vals, ¬ (0 ≤ v ∧ v < k) then .error .assertion
    else
      let counts := (List.range k).map fun j => (vals.filter fun v => ⌊v⌋₊ = j).length
      .ok (.freq (counts.map fun c : Nat => (c : ℝ) / (counts.sum : ℝ)))

open Classical in
/-- `np.log` of a probability -/
noncomputable def logOf (p : ℝ) : Fl := if 0 < p then .fin (Real.log p) else .ninf

open Classical in
/-- src/knn/mvknn.py:227 `norm.logpdf` and 236 `np.log(p[x])`: a negative index counts from the end; an
index that is no integer or out of range raises IndexError. -/
noncomputable def Local.logpdf : Local → ℝ → Except Exn Fl
  | .normal mu s, x =>
    .ok (.fin (-(x - mu) ^ 2 / (2 * s ^ 2) - Real.log (s * Real.sqrt (2 * Real.pi))))
  | .freq p, x =>
    if x ≠ (⌊x⌋ : ℝ) then .error .indexError
    else
      match p[(if 0 ≤ x then ⌊x⌋ else ⌊x⌋ + p.length).toNat]? with
      | some y => if x < -(p.length : ℝ) then .error .indexError else .ok (logOf y)
      | none => .error .indexError

/-- src/knn/mvknn.py:226 `rng.normal(mu, std)` and 235 `rng.choice(k, p=p)`. -/
noncomputable def Local.simulate : Local → Rand ℝ
  | .normal mu s => .normal mu s .pure
  | .freq p => (Rand.draw p).bind fun i => .pure (i : ℝ)

/-- The type of a known variable. -/
def typeAt (o : Knn) (q : Col) : KType := o.types.getD (o.outputs.idxOf q) .numerical

/-- src/knn/mvknn.py:208-221 `_create_local_model_joint`. -/
noncomputable def localJoint (o : Knn) (targets : List Col) (rows : List (List ℝ)) :
    Except Exn (List (Col × Local)) :=
  if targets.any fun q => !o.outputs.contains q then .error .assertion
  else Net.collect (fun p : Col × Nat =>
    (localModel (o.typeAt p.1) (rows.map fun row => row.getD p.2 0)).map fun m => (p.1, m))
    targets.zipIdx

/-- src/knn/mvknn.py:220: the `logpdf` of a joint local model. -/
noncomputable def jointLogpdf (m : Dict Col Local) (targets : Dict Col ℝ) : Except Exn Fl :=
  (Net.collect (fun p : Col × ℝ =>
    match m.get? p.1 with
    | some l => l.logpdf p.2
    | none => .error .keyError) targets).map flSum

/-- src/knn/mvknn.py:219: the `simulate` of a joint local model. -/
noncomputable def jointSimulate (m : Dict Col Local) (targets : List Col) : Rand (Dict Col ℝ) :=
  (Rand.traverse (fun q =>
    match m.get? q with
    | some l => l.simulate
    | none => .raise .keyError) targets).bind fun xs => .pure (Dict.update [] (targets.zip xs))

/-- The local models of the localities: src/knn/mvknn.py:119-120 and 135-136. -/
noncomputable def locals (o : Knn) (targets : List Col) (D : List (List ℝ)) (ex : List (List Nat)) :
    Except Exn (List (Dict Col Local)) :=
  Net.collect (fun n => o.localJoint targets (n.map fun i => D.getD i [])) ex

/-- src/knn/mvknn.py:322-351 `_validate_simulate_logpdf` without the check of the targets for NaN;
`n` is the number of samples. -/
def validate (o : Knn) (targets : List Col) (constraints : Dict Col ℝ) (n : Option Int) :
    Except Exn Unit :=
  if n.any (· ≤ 0) then .error .valueError
  else if o.rows.N < o.K then .error .valueError
  else if targets.isEmpty then .error .valueError
  else if targets.any fun q => !o.outputs.contains q then .error .valueError
  else if constraints.keys.any fun q => !o.outputs.contains q then .error .valueError
  else if targets.any constraints.has then .error .valueError
  else .ok ()

/-- src/knn/mvknn.py:108-123 `logpdf`. -/
noncomputable def logpdf (kd : Tree) (o : Knn) (rowid : Option Row) (targets : Vals)
    (constraints : Dict Col ℝ) (inputs : List Col) : Rand Fl :=
  (Rand.ofExcept (o.rows.populate o.outputs rowid targets.keys constraints)).bind fun cs =>
  if !inputs.isEmpty then .raise .valueError
  else if cs.isEmpty then .raise .valueError
  else (Rand.ofExcept (o.validate targets.keys cs none)).bind fun _ =>
    match Kde.noNan targets with
    | none => .raise .valueError
    | some ts =>
      (findNeighborhoods kd o ts.keys cs).bind fun De =>
      Rand.ofExcept (do
        let ms ← o.locals ts.keys De.1 De.2
        let lp ← Net.collect (fun m => jointLogpdf m ts) ms
        let s ← logsumexp lp
        .ok (s.sub (.fin (Real.log ms.length))))

/-- src/knn/mvknn.py:132-141: `n` samples given some evidence. -/
noncomputable def simulateGiven (kd : Tree) (o : Knn) (targets : List Col) (cs : Dict Col ℝ)
    (n : Nat) : Rand (List (Dict Col ℝ)) :=
  (findNeighborhoods kd o targets cs).bind fun De =>
  (Rand.ofExcept (o.locals targets De.1 De.2)).bind fun ms =>
  (Rand.traverse (fun _ => Rand.uniform ms.length) (List.range n)).bind fun is =>
  Rand.traverse (fun i => jointSimulate (ms.getD i []) targets) is

/-- src/knn/mvknn.py:125-145 `simulate` with `N=None` and evidence in `constraints`: the call that
src/knn/mvknn.py:159 makes. -/
noncomputable def simulateOne (kd : Tree) (o : Knn) (rowid : Option Row) (targets : List Col)
    (constraints : Dict Col ℝ) : Rand (Dict Col ℝ) :=
  (Rand.ofExcept (o.rows.populate o.outputs rowid targets constraints)).bind fun cs =>
  (Rand.ofExcept (o.validate targets cs (some 1))).bind fun _ =>
  (simulateGiven kd o targets cs 1).bind fun l => .pure (l.headD [])

/-- src/knn/mvknn.py:147-163 `_simulate_fallback`. -/
noncomputable def simulateFallback (kd : Tree) (o : Knn) (rowid : Option Row) (targets : List Col)
    (n : Nat) : Rand (List (Dict Col ℝ)) :=
  let merged := targets.length = o.outputs.length
  let others := o.outputs.filter fun q => !targets.contains q
  if merged ∧ others ≠ [] then .raise .assertion
  else
    let dummy := if merged then targets.take 1 else others
    let rest := if merged then targets.drop 1 else targets
    (Rand.ofExcept (o.dataset dummy)).bind fun D =>
    (Rand.traverse (fun _ => Rand.uniform D.length) (List.range n)).bind fun is =>
    (Rand.traverse (fun i => (simulateOne kd o rowid rest
        (Dict.update [] (dummy.zip (D.getD i [])))).bind fun s =>
      .pure (if merged then Dict.update s (dummy.zip (D.getD i [])) else s)) is)

/-- src/knn/mvknn.py:125-145 `simulate`: one sample if `N` is `None`, else a list of `N` samples. -/
noncomputable def simulate (kd : Tree) (o : Knn) (rowid : Option Row) (targets : List Col)
    (constraints : Dict Col ℝ) (inputs : List Col) (N : Option Int) :
    Rand (Dict Col ℝ ⊕ List (Dict Col ℝ)) :=
  if !inputs.isEmpty then .raise .valueError
  else
    (Rand.ofExcept (o.rows.populate o.outputs rowid targets constraints)).bind fun cs =>
    (Rand.ofExcept (o.validate targets cs (some (N.getD 1)))).bind fun _ =>
    (if !cs.isEmpty then simulateGiven kd o targets cs (N.getD 1).toNat
      else simulateFallback kd o rowid targets (N.getD 1).toNat).bind fun l =>
    match N with
    | none => .pure (.inl (l.headD []))
    | some _ => .pure (.inr l)

/-- Calls that change a `MultivariateKnn`. -/
inductive Op
  | inc (r : Row) (obs inputs : Vals)
  | unc (r : Row)

/-- One call. -/
def apply (o : Knn) : Op → Out Knn
  | .inc r obs inputs => o.incorporate r obs inputs
  | .unc r => o.unincorporate r

/-- A history of calls, exceptions being caught by the client. -/
def run (o : Knn) (ops : List Op) : Knn := ops.foldl (fun o op => (o.apply op).state) o

end Knn
end Cgpm
