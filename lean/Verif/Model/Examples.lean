import Verif.Model.RegDraws
import Verif.Model.MhDraws

/-
The models of src/dummy and src/uncorrelated: components that are written down by hand, with which the
library is tried out.

Simplifications, global to this file:
* Numbers are exact reals. Floats are `Fl` where logarithms of zero can occur.
* `constraints=None` and `inputs=None` are the empty dictionary (asking it for a key is a KeyError, not a
  TypeError). A dictionary keeps the order of the pairs it is made from. One sample is drawn (`N=None`).
* The parameters that the constructors check are given in the structures.
* `AttributeError` and `NotImplementedError` are `Exn.runtime`.
* Python's integers and floats are not told apart: a whole number is an index of a list.
-/
namespace Cgpm.Examples
open Cgpm Classical MeasureTheory Matrix

/-- What a model of these directories answers: its outputs and inputs, `logpdf` of targets given
constraints and inputs, and `simulate`. -/
structure Example where
  outputs : List Nat
  inputs : List Nat
  logpdf : Dict Nat ℝ → Dict Nat ℝ → Dict Nat ℝ → Except Exn Fl
  simulate : List Nat → Dict Nat ℝ → Dict Nat ℝ → Draws (Dict Nat ℝ)

/-- `d[k]`. -/
def ask (d : Dict Nat ℝ) (k : Nat) : Except Exn ℝ :=
  match d.get? k with
  | some x => .ok x
  | none => .error .keyError

/-- `np.log`. -/
noncomputable def npLog (x : ℝ) : Fl :=
  if 0 < x then .fin (Real.log x) else if x = 0 then .ninf else .nan

/-- `rng.normal(loc, scale)`. -/
noncomputable def normalCall (loc scale : ℝ) : Draws ℝ :=
  if scale < 0 then .raise .valueError else .draw (npNormal loc scale) .pure

/-- `scipy.stats.uniform(loc, scale).logpdf`. -/
noncomputable def uniformLogpdf (loc scale x : ℝ) : Fl :=
  if scale ≤ 0 then .nan
  else if loc ≤ x ∧ x ≤ loc + scale then .fin (-Real.log scale) else .ninf

/-- `scipy.stats.norm.logpdf(x, loc, scale)`. -/
noncomputable def scipyNormLogpdf (x loc scale : ℝ) : Fl :=
  if scale ≤ 0 then .nan
  else .fin (-((x - loc) / scale) ^ 2 / 2 - Real.log (2 * Real.pi) / 2 - Real.log scale)

/-! ### src/dummy -/

/-- src/dummy/trollnormal.py:59-61 `_gaussian_log_pdf`. -/
noncomputable def trollLogpdf (x mu s : ℝ) : ℝ :=
  (-(Real.log (2 * Real.pi) / 2) - Real.log s) - (x - mu) ^ 2 / (2 * s ^ 2)

/-- src/dummy/trollnormal.py:25-71 `TrollNormal`, with output `out` and inputs `i0`, `i1`. -/
noncomputable def trollNormal (out i0 i1 : Nat) : Example where
  outputs := [out]
  inputs := [i0, i1]
  logpdf := fun T _ I => do
    let x ← ask T out
    let location ← ask I i0
    let scale ← ask I i1
    .ok (.fin (trollLogpdf x location (|scale| + 1)))
  simulate := fun _ _ I =>
    (Draws.ofExcept (ask I i0)).bind fun location =>
    (Draws.ofExcept (ask I i1)).bind fun scale =>
    (normalCall location (|scale| + 1)).bind fun x => .pure [(out, x)]

/-- src/dummy/twoway.py:31-34: the table of probabilities. -/
noncomputable def twoWayTable (y : Nat) : List ℝ := if y = 0 then [0.9, 0.1] else [0.3, 0.7]

/-- src/dummy/twoway.py:25-60 `TwoWay`. -/
noncomputable def twoWay (out inp : Nat) : Example where
  outputs := [out]
  inputs := [inp]
  logpdf := fun T _ I => do
    let y ← ask I inp
    if ¬ (y = 0 ∨ y = 1) then .error .assertion
    else
      let x ← ask T out
      if x = 0 ∨ x = 1 then .ok (npLog ((twoWayTable ⌊y⌋₊).getD ⌊x⌋₊ 0)) else .ok .ninf
  simulate := fun _ _ I =>
    (Draws.ofExcept (ask I inp)).bind fun y =>
    if ¬ (y = 0 ∨ y = 1) then .raise .assertion
    else (Draws.ofRand (Rand.pflip (twoWayTable ⌊y⌋₊))).bind fun x => .pure [(out, (x : ℝ))]

/-- src/dummy/twoway.py:66-71 `retrieve_y_for_x`. -/
noncomputable def twoWayRetrieve (x : ℝ) : Except Exn ℝ :=
  if x = 0 then .ok 0 else if x = 1 then .ok 1 else .error .valueError

/-- src/dummy/fourway.py:32-37: the table of probabilities. -/
noncomputable def fourWayTable : Nat → List ℝ
  | 0 => [0.70, 0.10, 0.05, 0.05]
  | 1 => [0.10, 0.80, 0.10, 0.10]
  | 2 => [0.10, 0.15, 0.65, 0.10]
  | _ => [0.10, 0.05, 0.10, 0.75]

/-- src/dummy/fourway.py:72-78 `lookup_quadrant`. -/
noncomputable def quadrant (y0 y1 : ℝ) : Nat :=
  if 0 ≤ y0 ∧ 0 ≤ y1 then 0
  else if y0 ≤ 0 ∧ 0 ≤ y1 then 1
  else if 0 ≤ y0 ∧ y1 ≤ 0 then 2
  else 3

/-- src/dummy/fourway.py:25-67 `FourWay`. -/
noncomputable def fourWay (out i0 i1 : Nat) : Example where
  outputs := [out]
  inputs := [i0, i1]
  logpdf := fun T _ I => do
    let x ← ask T out
    if ¬ (0 ≤ x ∧ x ≤ 3) then .ok .ninf
    else
      let y0 ← ask I i0
      let y1 ← ask I i1
      if (⌊x⌋₊ : ℝ) ≠ x then .error .typeError
      else .ok (npLog ((fourWayTable (quadrant y0 y1)).getD ⌊x⌋₊ 0))
  simulate := fun _ _ I =>
    (Draws.ofExcept (ask I i0)).bind fun y0 =>
    (Draws.ofExcept (ask I i1)).bind fun y1 =>
    (Draws.ofRand (Rand.pflip (fourWayTable (quadrant y0 y1)))).bind fun x => .pure [(out, (x : ℝ))]

/-- src/dummy/fourway.py:80-85 `retrieve_y_for_x`. -/
noncomputable def fourWayRetrieve (x : ℝ) : Except Exn (ℝ × ℝ) :=
  if x = 0 then .ok (2, 2)
  else if x = 1 then .ok (-2, 2)
  else if x = 2 then .ok (2, -2)
  else if x = 3 then .ok (-2, -2)
  else .error .valueError

/-- The constructor arguments of `PieceWise`, src/dummy/piecewise.py:34-49: the outputs `x` and `z`, the
input `y`, `sigma` and `flip`. -/
structure PieceWise where
  x : Nat
  z : Nat
  y : Nat
  sigma : ℝ
  flip : ℝ

namespace PieceWise

/-- src/dummy/piecewise.py:192-196 `logpdf_normal`. -/
noncomputable def logpdfNormal (x mu sigma : ℝ) : Except Exn Fl :=
  if sigma ≤ 0 then .error .valueError
  else .ok (.fin (-Real.log sigma - 0.5 * Real.log (2 * Real.pi)
    - 0.5 * (x - mu) * (x - mu) / (sigma * sigma)))

/-- src/dummy/piecewise.py:100 and :106: `logp_z`. -/
noncomputable def logpZ (m : PieceWise) (z : ℝ) : Fl :=
  if z = 0 then npLog m.flip else npLog (1 - m.flip)

/-- src/dummy/piecewise.py:97-102: `x` and `z` are targets. -/
noncomputable def logpXZ (m : PieceWise) (T : Dict Nat ℝ) (y : ℝ) : Except Exn Fl := do
  let z ← ask T m.z
  let x ← ask T m.z
  let lx ← logpdfNormal x (y + (2 * z - 1)) m.sigma
  .ok (lx.add (m.logpZ z))

/-- src/dummy/piecewise.py:109-123: `x` is the target. -/
noncomputable def logpX (m : PieceWise) (x y : ℝ) : Except Exn Fl := do
  let a ← m.logpXZ [(m.x, x), (m.z, 0)] y
  let b ← m.logpXZ [(m.x, x), (m.z, 1)] y
  logsumexp [a, b]

/-- src/dummy/piecewise.py:90-166 `logpdf`. -/
noncomputable def logpdf (m : PieceWise) (T C I : Dict Nat ℝ) : Except Exn Fl :=
  if T.isEmpty then .error .assertion
  else if I.keys ≠ [m.y] then .error .assertion
  else do
    let y ← ask I m.y
    if C.isEmpty then
      if T.has m.x ∧ T.has m.z then m.logpXZ T y
      else if T.has m.z then do
        let z ← ask T m.z
        .ok (m.logpZ z)
      else if T.has m.x then do
        let x ← ask T m.x
        m.logpX x y
      else .error .valueError
    else if C.keys = [m.z] then
      if T.keys ≠ [m.x] then .error .assertion
      else do
        let z ← ask C m.z
        let x ← ask T m.x
        let xz ← m.logpXZ [(m.x, x), (m.z, z)] y
        .ok (xz.sub (m.logpZ z))
    else if C.keys = [m.x] then
      if T.keys ≠ [m.z] then .error .assertion
      else do
        let z ← ask T m.z
        let x ← ask C m.x
        let xz ← m.logpXZ [(m.x, x), (m.z, z)] y
        let lx ← m.logpX x y
        .ok (xz.sub lx)
    else .error .valueError

/-- `np.exp` of a float as a probability; not a number is refused by `rng.choice`. -/
noncomputable def prob : Fl → Except Exn ℝ
  | .fin x => .ok (Real.exp x)
  | .ninf => .ok 0
  | _ => .error .valueError

/-- `rng.choice([0, 1], p=p)`. -/
noncomputable def choice01 (p : List ℝ) : Draws ℝ :=
  (Draws.ofRand (Rand.draw p)).bind fun i => .pure (i : ℝ)

/-- src/dummy/piecewise.py:57-88 `simulate`. -/
noncomputable def simulate (m : PieceWise) (ts : List Nat) (C I : Dict Nat ℝ) : Draws (Dict Nat ℝ) :=
  if ts.isEmpty then .raise .assertion
  else if I.keys ≠ [m.y] then .raise .assertion
  else
    (Draws.ofExcept (ask I m.y)).bind fun y =>
    let finish (s : Dict Nat ℝ) : Draws (Dict Nat ℝ) :=
      if s.keys.Perm ts then .pure s else .raise .assertion
    if C.isEmpty then
      (choice01 [m.flip, 1 - m.flip]).bind fun z =>
      (normalCall 0 m.sigma).bind fun e =>
        finish ((if m.x ∈ ts then [(m.x, y + (2 * z - 1) + e)] else []) ++
          (if m.z ∈ ts then [(m.z, z)] else []))
    else if C.keys = [m.z] then
      if ts ≠ [m.x] then .raise .assertion
      else (Draws.ofExcept (ask C m.z)).bind fun z =>
        (normalCall 0 m.sigma).bind fun e => finish [(m.x, y + (2 * z - 1) + e)]
    else if C.keys = [m.x] then
      if ts ≠ [m.z] then .raise .assertion
      else
        (Draws.ofExcept (m.logpdf [(m.z, 0)] C I)).bind fun l0 =>
        (Draws.ofExcept (m.logpdf [(m.z, 1)] C I)).bind fun l1 =>
        (Draws.ofExcept (prob l0)).bind fun p0 =>
        (Draws.ofExcept (prob l1)).bind fun p1 =>
        (choice01 [p0, p1]).bind fun z => finish [(m.z, z)]
    else .raise .valueError

end PieceWise

/-! ### src/uncorrelated, models with a direction -/

/-- src/uncorrelated/uniformx.py:23-50 `UniformX`. -/
noncomputable def uniformX (out : Nat) (low high : ℝ) : Example where
  outputs := [out]
  inputs := []
  logpdf := fun T C I => do
    if !C.isEmpty then .error .assertion
    else if !I.isEmpty then .error .assertion
    else if T.keys ≠ [out] then .error .assertion
    else
      let x ← ask T out
      .ok (uniformLogpdf low (high - low) x)
  simulate := fun ts C _ =>
    if !C.isEmpty then .raise .assertion
    else if ts ≠ [out] then .raise .assertion
    else .draw (Sampler.npUniform low high) fun x => .pure [(out, x)]

/-- src/uncorrelated/parabola.py:29-70 `ParabolaY`. -/
noncomputable def parabolaY (out inp : Nat) (noise : ℝ) : Example where
  outputs := [out]
  inputs := [inp]
  logpdf := fun T C I => do
    if T.keys ≠ [out] then .error .assertion
    else if I.keys ≠ [inp] then .error .assertion
    else if !C.isEmpty then .error .assertion
    else
      let x ← ask I inp
      let y ← ask T out
      logsumexp [(npLog 0.5).add (uniformLogpdf (-noise) (2 * noise) (y - x ^ 2)),
        (npLog 0.5).add (uniformLogpdf (-noise) (2 * noise) (-y - x ^ 2))]
  simulate := fun ts C I =>
    if ts ≠ [out] then .raise .assertion
    else if I.keys ≠ [inp] then .raise .assertion
    else if !C.isEmpty then .raise .assertion
    else
      (Draws.ofExcept (ask I inp)).bind fun x =>
      .draw (Sampler.npUniform 0 1) fun u =>
      .draw (Sampler.npUniform (-noise) noise) fun e =>
      .pure [(out, if u < 0.5 then x ^ 2 + e else -(x ^ 2 + e))]

/-- src/uncorrelated/sin.py:31-69 `SinY`. -/
noncomputable def sinY (out inp : Nat) (noise : ℝ) : Example where
  outputs := [out]
  inputs := [inp]
  logpdf := fun T C I => do
    if T.keys ≠ [out] then .error .assertion
    else if I.keys ≠ [inp] then .error .assertion
    else if !C.isEmpty then .error .assertion
    else
      let x ← ask I inp
      let y ← ask T out
      if Real.cos x < 0 then .ok (uniformLogpdf 0 noise (y - Real.cos x))
      else .ok (uniformLogpdf 0 noise (Real.cos x - y))
  simulate := fun ts C I =>
    if ts ≠ [out] then .raise .assertion
    else if I.keys ≠ [inp] then .raise .assertion
    else if !C.isEmpty then .raise .assertion
    else
      (Draws.ofExcept (ask I inp)).bind fun x =>
      .draw (Sampler.npUniform 0 noise) fun e =>
      .pure [(out, if Real.cos x < 0 then Real.cos x + e else Real.cos x - e)]

/-- src/uncorrelated/diamond.py:24-59 `DiamondY`. -/
noncomputable def diamondY (out inp : Nat) (noise : ℝ) : Example where
  outputs := [out]
  inputs := [inp]
  logpdf := fun _ _ _ => .error .runtime
  simulate := fun ts _ I =>
    if ts ≠ [out] then .raise .assertion
    else if I.keys ≠ [inp] then .raise .assertion
    else
      (Draws.ofExcept (ask I inp)).bind fun x =>
      .draw (Sampler.npUniform 0 1) fun slope =>
      .draw (Sampler.npUniform 0 noise) fun e =>
      if x < 0 ∧ slope < 0.5 then .pure [(out, max (-x - 1) (x + 1 - e))]
      else if x < 0 ∧ 0.5 < slope then .pure [(out, min (x + 1) (-x - 1 + e))]
      else if 0 < x ∧ slope < 0.5 then .pure [(out, min (-x + 1) (x - 1 + e))]
      else if 0 < x ∧ 0.5 < slope then .pure [(out, max (x - 1) (-x + 1 - e))]
      else .raise .valueError

/-- A model of these directories as the network sees it. An answer of `logpdf` that is not a number or
`-inf` is `Exn.runtime`; an outcome is a value for each variable. -/
noncomputable def Example.net (e : Example) : NetCgpm (Option Row) ℝ (Nat → ℝ) where
  outputs := e.outputs
  inputs := e.inputs
  logpdf := fun _ T I =>
    match e.logpdf (Net.lookDict e.outputs T) [] (Net.lookDict e.inputs I) with
    | .error e => .error e
    | .ok (.fin x) => .ok ((x : ℝ) : LogP)
    | .ok .ninf => .ok ⊥
    | .ok _ => .error .runtime
  simulate := fun ω _ ts _ _ => .ok (ts.map fun t => (t, ω t))

/-- The draws of `Example.net`. -/
noncomputable def Example.draws (e : Example) (_ : Option Row) (ts : List Nat) (C I : Look ℝ) :
    Draws (Nat → ℝ) :=
  (e.simulate ts (Net.lookDict e.outputs C) (Net.lookDict e.inputs I)).bind fun d =>
    .pure fun v => (d.get? v).getD 0

/-- src/uncorrelated/parabola.py:83 and src/uncorrelated/sin.py:84: the draws of the two components of
the network of a model with a direction. -/
noncomputable def directedDraws (a b : Example) : NetDraws (Option Row) ℝ (Nat → ℝ) :=
  fun l => if l = 0 then a.draws else b.draws

/-- src/uncorrelated/directed.py:49-52 `DirectedXyGpm.logpdf`: the `inputs` are handed to the network as
its constraints. (`constraints` and `inputs` are dictionaries here.) -/
noncomputable def directedLogpdf (ord : PyOrder)
    (draw : NetDraws (Option Row) ℝ (Nat → ℝ)) (net : Net.Network (Option Row) ℝ (Nat → ℝ))
    (rowid : Option Row) (T _constraints inputs : Dict Nat ℝ) : Draws Fl :=
  Net.logpdfDraws ord draw rowid net T inputs []

/-- src/uncorrelated/directed.py:54-57 `DirectedXyGpm.simulate` with `N=None`. -/
noncomputable def directedSimulate (ord : PyOrder)
    (draw : NetDraws (Option Row) ℝ (Nat → ℝ)) (net : Net.Network (Option Row) ℝ (Nat → ℝ))
    (rowid : Option Row) (ts : List Nat) (_constraints inputs : Dict Nat ℝ) : Draws (Dict Nat ℝ) :=
  Net.simulateDraws ord draw rowid net ts inputs []

/-! ### src/uncorrelated, models without a direction -/

/-- What a subclass of `UnDirectedXyGpm` defines, src/uncorrelated/undirected.py:63-79. -/
structure Joint where
  simulateJoint : Draws (ℝ × ℝ)
  simulateConditional : ℝ → Draws ℝ
  logpdfMarginal : ℝ → Except Exn Fl
  logpdfJoint : ℝ → ℝ → Except Exn Fl
  logpdfConditional : ℝ → ℝ → Except Exn Fl

/-- src/uncorrelated/undirected.py:36-49 `logpdf`. The name of the method for one target is misspelt. -/
noncomputable def Joint.logpdf (m : Joint) (T C I : Dict Nat ℝ) : Except Exn Fl :=
  if !I.isEmpty then .error .assertion
  else if C.isEmpty then
    match T.vals with
    | [x, y] => m.logpdfJoint x y
    | [] => .error .indexError
    | _ => .error .runtime
  else
    match C.vals, T.vals with
    | [z], [w] => m.logpdfConditional w z
    | _, _ => .error .assertion

/-- src/uncorrelated/undirected.py:51-61 `simulate`, for the outputs `o0`, `o1`. -/
noncomputable def Joint.simulate (m : Joint) (o0 o1 : Nat) (ts : List Nat) (C I : Dict Nat ℝ) :
    Draws (Dict Nat ℝ) :=
  if !I.isEmpty then .raise .assertion
  else if C.isEmpty then
    m.simulateJoint.bind fun s =>
      if ∀ q ∈ ts, q = o0 ∨ q = o1 then
        .pure (ts.map fun q => (q, if q = o0 then s.1 else s.2))
      else .raise .valueError
  else
    match C.vals, ts with
    | [z], [t] => (m.simulateConditional z).bind fun w => .pure [(t, w)]
    | _, _ => .raise .assertion

/-- The covariance matrix `[[1, c], [c, 1]]`. -/
noncomputable def covMatrix (c : ℝ) : Matrix (Fin 2) (Fin 2) ℝ := !![1, c; c, 1]

/-- `rng.multivariate_normal([0,0], cov)` of two numbers. -/
noncomputable def pairCall (factor : Root) (c : ℝ) : Draws (ℝ × ℝ) :=
  (npMultivariateNormal factor (0 : Fin 2 → ℝ) (covMatrix c)).bind fun w => .pure (w 0, w 1)

/-- src/uncorrelated/linear.py:25-55 `Linear`. -/
noncomputable def linear (factor : Root)
    (loser : (n : Nat) → (Fin n → ℝ) → Matrix (Fin n) (Fin n) ℝ → Fl) (noise : ℝ) : Joint where
  simulateJoint := pairCall factor (1 - noise)
  simulateConditional := fun z => normalCall ((1 - noise) * z) (Real.sqrt (1 - (1 - noise) ^ 2))
  logpdfMarginal := fun z => .ok (scipyNormLogpdf z 0 1)
  logpdfJoint := fun x y => .ok (mvnLogpdf loser ![x, y] 0 (covMatrix (1 - noise)))
  logpdfConditional := fun w z =>
    .ok (scipyNormLogpdf w ((1 - noise) * z) (Real.sqrt (1 - (1 - noise) ^ 2)))

/-- src/uncorrelated/dots.py:28-29: the centres. -/
def dotCentres : List (ℝ × ℝ) := [(-1, -1), (1, -1), (-1, 1), (1, 1)]

/-- src/uncorrelated/dots.py:31-35 `simulate_joint`; `rng.randint(4)` is a choice among four. -/
noncomputable def dotsJoint (noise : ℝ) : Draws (ℝ × ℝ) :=
  (Draws.ofRand (Rand.uniform 4)).bind fun n =>
    let c := dotCentres.getD n (0, 0)
    (normalCall c.1 noise).bind fun x => (normalCall c.2 noise).bind fun y => .pure (x, y)

/-- src/uncorrelated/dots.py:46-49 `logpdf_marginal`. -/
noncomputable def dotsMarginal (noise z : ℝ) : Except Exn Fl :=
  logsumexp ([(1 : ℝ), -1].map fun mx => (npLog 0.5).add (scipyNormLogpdf z mx noise))

/-- src/uncorrelated/dots.py:25-52 `Dots`. -/
noncomputable def dots (noise : ℝ) : Joint where
  simulateJoint := dotsJoint noise
  simulateConditional := fun _ => (dotsJoint noise).bind fun s => .pure s.1
  logpdfMarginal := dotsMarginal noise
  logpdfJoint := fun x y => logsumexp (dotCentres.map fun c =>
    ((npLog 0.25).add (scipyNormLogpdf x c.1 noise)).add (scipyNormLogpdf y c.2 noise))
  logpdfConditional := fun _ z => dotsMarginal noise z

/-- src/uncorrelated/xcross.py:24-42 `XCross`. -/
noncomputable def xcross (factor : Root)
    (loser : (n : Nat) → (Fin n → ℝ) → Matrix (Fin n) (Fin n) ℝ → Fl) (noise : ℝ) : Joint where
  simulateJoint := .draw (Sampler.npUniform 0 1) fun u =>
    if u < 0.5 then pairCall factor (1 - noise) else pairCall factor (-1 + noise)
  simulateConditional := fun _ => .raise .runtime
  logpdfMarginal := fun _ => .error .runtime
  logpdfJoint := fun x y => logsumexp
    [(npLog 0.5).add (mvnLogpdf loser ![x, y] 0 (covMatrix (1 - noise))),
      (npLog 0.5).add (mvnLogpdf loser ![x, y] 0 (covMatrix (-1 + noise)))]
  logpdfConditional := fun _ _ => .error .runtime

/-- src/uncorrelated/ring.py:22-30 `Ring`. -/
noncomputable def ring (noise : ℝ) : Joint where
  simulateJoint := .draw (Sampler.npUniform 0 (2 * Real.pi)) fun angle =>
    .draw (Sampler.npUniform (1 - noise) 1) fun distance =>
    .pure (Real.cos angle * distance, Real.sin angle * distance)
  simulateConditional := fun _ => .raise .runtime
  logpdfMarginal := fun _ => .error .runtime
  logpdfJoint := fun _ _ => .error .runtime
  logpdfConditional := fun _ _ => .error .runtime

end Cgpm.Examples
