import Verif.Base.Scan
import Verif.Model.Keys
import Mathlib.Data.Real.Basic
/-!
# Model of `mocat/src/ssm/ssm.py`

Arrays with a time axis are lists of their rows. `X`, `Y` are the types of a latent state and of an observation, `K` of random keys.
-/
namespace Mocat.Ssm
open Mocat

variable {X Y K : Type}

/-- ssm.py 47-81: the functions a state-space model defines. -/
structure Model (X Y K : Type) where
  initialPotential : X → ℝ → ℝ
  initialSample : ℝ → K → X
  transitionPotential : X → ℝ → X → ℝ → ℝ
  transitionSample : X → ℝ → ℝ → K → X
  likelihoodPotential : X → Y → ℝ → ℝ
  likelihoodSample : X → ℝ → K → Y

/-- ssm.py 83-92, `_smoothing_potential`. `none` is an error (indexing an empty array). The three arrays are taken to have equal length (`vmap` raises an
error otherwise). -/
def smoothingPotentialBody (m : Model X Y K) (xs : List X) (ys : List Y) (ts : List ℝ) : Option ℝ := do
  let x0 ← xs[0]?
  let t0 ← ts[0]?
  some (m.initialPotential x0 t0
    + (List.zipWith (fun (p q : X × ℝ) => m.transitionPotential p.1 p.2 q.1 q.2)
        (xs.dropLast.zip ts.dropLast) (xs.tail.zip ts.tail)).sum
    + (List.zipWith (fun (p : X × Y) t => m.likelihoodPotential p.1 p.2 t) (xs.zip ys) ts).sum)

/-- ssm.py 94-107, `smoothing_potential`. With two time points the code indexes the scalar transition potential (line 103), which raises an error. -/
def smoothingPotential (m : Model X Y K) (xs : List X) (ys : List Y) (ts : List ℝ) : Option ℝ :=
  if ts.length = 1 then do
    let x0 ← xs[0]?
    let y0 ← ys[0]?
    let t0 ← ts[0]?
    some (m.initialPotential x0 t0 + m.likelihoodPotential x0 y0 t0)
  else if ts.length = 2 then none
  else smoothingPotentialBody m xs ys ts

/-- The gradients the model object has (ssm.py 32-42): of the initial potential, of the transition potential with respect to both states, of the likelihood. -/
structure Grads (X Y : Type) where
  initial : X → ℝ → X
  transition : X → ℝ → X → ℝ → X × X
  likelihood : X → Y → ℝ → X

/-- ssm.py 109-121, `_grad_smoothing_potential`; the result is the list of rows. -/
def gradSmoothingBody [Add X] (g : Grads X Y) (xs : List X) (ys : List Y) (ts : List ℝ) : Option (List X) := do
  let x0 ← xs[0]?
  let t0 ← ts[0]?
  let initialGrad := g.initial x0 t0
  let transitionGrads := List.zipWith (fun (p q : X × ℝ) => g.transition p.1 p.2 q.1 q.2)
    (xs.dropLast.zip ts.dropLast) (xs.tail.zip ts.tail)
  let prevGrads := transitionGrads.map Prod.fst
  let nextGrads := transitionGrads.map Prod.snd
  let likelihoodGrads := List.zipWith (fun (p : X × Y) t => g.likelihood p.1 p.2 t) (xs.zip ys) ts
  let prev0 ← prevGrads[0]?
  let lik0 ← likelihoodGrads[0]?
  let nextLast ← nextGrads.getLast?
  let likLast ← likelihoodGrads.getLast?
  some ([initialGrad + prev0 + lik0]
    ++ List.zipWith (· + ·) (List.zipWith (· + ·) prevGrads.tail nextGrads.dropLast) likelihoodGrads.tail.dropLast
    ++ [nextLast + likLast])

/-- ssm.py 123-136, `grad_smoothing_potential` -/
def gradSmoothing [Add X] (g : Grads X Y) (xs : List X) (ys : List Y) (ts : List ℝ) : Option (List X) :=
  if ts.length = 1 then do
    let x0 ← xs[0]?
    let y0 ← ys[0]?
    let t0 ← ts[0]?
    some [g.initial x0 t0 + g.likelihood x0 y0 t0]
  else if ts.length = 2 then do
    let x0 ← xs[0]?
    let y0 ← ys[0]?
    let t0 ← ts[0]?
    let x1 ← xs[1]?
    let y1 ← ys[1]?
    let t1 ← ts[1]?
    let gt := g.transition x0 t0 x1 t1
    some [g.initial x0 t0 + gt.1 + g.likelihood x0 y0 t0, gt.2 + g.likelihood x1 y1 t1]
  else gradSmoothingBody g xs ys ts

/-- ssm.py 138-163, `simulate`: the latent states and the observations. `splitN key m` is `random.split(key, m)`. `none`: no time points (indexing error). -/
def simulate (splitN : K → ℕ → List K) (m : Model X Y K) (ts : List ℝ) (key : K) : Option (List X × List Y) := do
  let lenT := ts.length
  let keys := splitN key (2 * lenT)
  let latentKeys := keys.take lenT
  let obsKeys := keys.drop lenT
  let t0 ← ts[0]?
  let k0 ← latentKeys[0]?
  let xInit := m.initialSample t0 k0
  let body := fun (x : X) (i : ℕ) =>
    let newX := m.transitionSample x (ts.getD (i - 1) t0) (ts.getD i t0) (latentKeys.getD i k0)
    (newX, newX)
  let rest := (scan body xInit ((List.range (lenT - 1)).map (· + 1))).2
  let xs := [xInit] ++ rest
  let ys := List.zipWith (fun (p : X × ℝ) k => m.likelihoodSample p.1 p.2 k) (xs.zip ts) obsKeys
  some (xs, ys)

/-- `random.split(key, m)` with keys as paths (see `Keys`). -/
def pathSplit (k : Keys.Key) (m : ℕ) : List Keys.Key := (List.range m).map fun i => i :: k

end Mocat.Ssm
