import Verif.Base.Fl
import Verif.Model.Loop
import Mathlib.Analysis.SpecialFunctions.Log.Basic
import Mathlib.Algebra.BigOperators.Fin
import Mathlib.Analysis.SpecialFunctions.Pow.Real
import Mathlib.Probability.CDF
import Mathlib.Probability.Distributions.Gaussian.Real
/-!
# Model of `mocat/src/abc/scenarios`: `SIR.py`, `lotka_volterra.py`, `gk.py`, `ricker.py`

Counts are integers. Times are `Fl`, because a zero total hazard makes the next event time infinite.
-/
namespace Mocat.AbcScenarios
open Mocat

/-- SIR.py 15, lotka_volterra.py 15: `exponential_sample_buffer`. -/
noncomputable def buffer : ℝ := 1e-6

/-- SIR.py 26, 61; lotka_volterra.py 27, 65: `-jnp.log(exponential_sample_buffer + u)`. -/
noncomputable def negLog (u : ℝ) : ℝ := -Real.log (buffer + u)

open Classical in
/-- IEEE division of finite numbers. -/
noncomputable def fdiv (a b : ℝ) : Fl :=
  if b = 0 then (if a = 0 then Fl.nan else if 0 < a then Fl.pinf else Fl.ninf) else Fl.fin (a / b)

/-- SIR.py 59-61, lotka_volterra.py 63-65, `prior_sample`; `u` is `random.uniform(random_key, (dim,))`. -/
noncomputable def priorSample {d : ℕ} (rates u : Fin d → ℝ) : Fin d → ℝ := fun i => negLog (u i) / rates i

/-- SIR.py 63-66, lotka_volterra.py 67-70, `prior_potential`. -/
def priorPotential {d : ℕ} (rates x : Fin d → ℝ) : ℝ := ∑ i, rates i * x i

/-- Library: `random.split(key, 3)`, `random.uniform(key)`, `random.choice(key, m, p=p)`. -/
structure Rng (K : Type) (m : ℕ) where
  split3 : K → K × K × K
  uniform : K → ℝ
  choice : K → (Fin m → ℝ) → Fin m

variable {K : Type}

/-- One event of a jump process: the next event time and the chosen row of `possibilities`.
SIR.py 21-32, lotka_volterra.py 21-33. Where the total hazard is 0 the probabilities are NaN in the code and 0 here. -/
noncomputable def jump {m : ℕ} (rng : Rng K m) (hazards : (ℤ × ℤ) → Fin m → ℝ) (possibilities : (ℤ × ℤ) → Fin m → ℤ × ℤ)
    (carry : (ℤ × ℤ) × Fl) (key : K) : ((ℤ × ℤ) × Fl) × K :=
  let ks := rng.split3 key
  let h := hazards carry.1
  let sumHazards := ∑ i, h i
  let tIncrement := fdiv (negLog (rng.uniform ks.1)) sumHazards
  let probs := fun i => h i / sumHazards
  ((possibilities carry.1 (rng.choice ks.2.1 probs), Fl.add carry.2 tIncrement), ks.2.2)

/-! ## SIR -/

/-- SIR.py 23-24: infection, removal. -/
noncomputable def sirHazards (params : Fin 2 → ℝ) (populationSize : ℝ) (si : ℤ × ℤ) : Fin 2 → ℝ :=
  ![params 0 / populationSize * si.1 * si.2, params 1 * si.2]

/-- SIR.py 29-30. -/
def sirPossibilities (si : ℤ × ℤ) : Fin 2 → ℤ × ℤ := ![(si.1 - 1, si.2 + 1), (si.1, si.2 - 1)]

/-- SIR.py 18-32, `sir_single_step`. The constant part of `extra` is given as arguments. -/
noncomputable def sirSingleStep (rng : Rng K 2) (params : Fin 2 → ℝ) (populationSize : ℝ) (carry : (ℤ × ℤ) × Fl) (key : K) :
    ((ℤ × ℤ) × Fl) × K := jump rng (sirHazards params populationSize) sirPossibilities carry key

/-- SIR.py 35-46, `sir_simulate`: `(simulated_times, simulated_si)`, each of length `max_iter`. -/
noncomputable def sirSimulate (rng : Rng K 2) (initialSi : ℤ × ℤ) (params : Fin 2 → ℝ) (populationSize : ℝ) (key : K)
    (maxIter : ℤ) : List Fl × List (ℤ × ℤ) :=
  let stack := (Loop.whileLoopStackedRaw (fun (carry : (ℤ × ℤ) × Fl) (_ : K) => decide (carry.1.2 > 0))
    (sirSingleStep rng params populationSize) ((initialSi, Fl.fin 0), key) maxIter).1
  (stack.map Prod.snd, stack.map Prod.fst)

/-- SIR.py 68-72, `SIR.simulate_times_and_si`: the population is everyone at the start. -/
noncomputable def sirTimesAndSi (rng : Rng K 2) (initialSi : ℤ × ℤ) (x : Fin 2 → ℝ) (key : K) (maxIter : ℤ) : List Fl × List (ℤ × ℤ) :=
  sirSimulate rng initialSi x ((initialSi.1 + initialSi.2 : ℤ) : ℝ) key maxIter

/-! ## Lotka-Volterra -/

/-- lotka_volterra.py 23-25. -/
def lvHazards (params : Fin 3 → ℝ) (p : ℤ × ℤ) : Fin 3 → ℝ :=
  ![params 0 * p.1, params 1 * p.1 * p.2, params 2 * p.2]

/-- lotka_volterra.py 30-32. -/
def lvPossibilities (p : ℤ × ℤ) : Fin 3 → ℤ × ℤ := ![(p.1 + 1, p.2), (p.1 - 1, p.2 + 1), (p.1, p.2 - 1)]

/-- `jnp.max(times)` for `times = t0 :: ts`. -/
noncomputable def maxTime (t0 : ℝ) (ts : List ℝ) : ℝ := ts.foldl max t0

open Classical in
/-- lotka_volterra.py 49: `jnp.where(simulated_times == 0, jnp.inf, simulated_times)`. -/
noncomputable def zeroToInf (t : Fl) : Fl := if t = Fl.fin 0 then Fl.pinf else t

/-- `a[i]` for a Python-style index `i` (negative counts from the end, out of range is clamped). -/
def wrapGet {α : Type} (a : List α) (i : ℤ) (dflt : α) : α :=
  let j := if i < 0 then i + a.length else i
  a.getD (min j.toNat (a.length - 1)) dflt

open Classical in
/-- lotka_volterra.py 36-50, `lotka_volterra_simulate` with `times = t0 :: ts`. `searchsorted` is `jnp.searchsorted`
(left), applied to the list of simulated times. -/
noncomputable def lvSimulate (rng : Rng K 3) (searchsorted : List Fl → Fl → ℕ) (initial : ℤ × ℤ) (t0 : ℝ) (ts : List ℝ)
    (params : Fin 3 → ℝ) (key : K) (maxIter : ℤ) : List (ℤ × ℤ) :=
  let stack := (Loop.whileLoopStackedRaw
    (fun (carry : (ℤ × ℤ) × Fl) (_ : K) => decide (Fl.lt carry.2 (Fl.fin (maxTime t0 ts))))
    (fun carry key => jump rng (lvHazards params) lvPossibilities carry key) ((initial, Fl.fin t0), key) maxIter).1
  let simulatedTimes := (stack.map Prod.snd).map zeroToInf
  ts.map fun t => wrapGet (stack.map Prod.fst) ((searchsorted simulatedTimes (Fl.fin t) : ℤ) - 1) (0, 0)

/-! ## Transformed priors -/

open Classical in
/-- `jnp.log` -/
noncomputable def flog (x : ℝ) : Fl := if x < 0 then Fl.nan else if x = 0 then Fl.ninf else Fl.fin (Real.log x)

/-- SIR.py 77-79, lotka_volterra.py 80-82, `constrain`. -/
noncomputable def constrainExp {d : ℕ} (x : Fin d → ℝ) : Fin d → ℝ := fun i => Real.exp (x i)

/-- SIR.py 81-83, lotka_volterra.py 84-86, `unconstrain`. -/
noncomputable def unconstrainLog {d : ℕ} (x : Fin d → ℝ) : Fin d → Fl := fun i => flog (x i)

/-- SIR.py 85-87, lotka_volterra.py 88-90, `prior_sample` of the transformed scenario. -/
noncomputable def transformedPriorSample {d : ℕ} (rates u : Fin d → ℝ) : Fin d → Fl := unconstrainLog (priorSample rates u)

/-- SIR.py 89-92, lotka_volterra.py 92-95, `prior_potential` of the transformed scenario. -/
noncomputable def transformedPriorPotential {d : ℕ} (rates x : Fin d → ℝ) : ℝ := ∑ i, (rates i * Real.exp (x i) - x i)

/-- SIR.py 94-98, `TransformedSIR.simulate_times_and_si`. -/
noncomputable def transformedSirTimesAndSi (rng : Rng K 2) (initialSi : ℤ × ℤ) (x : Fin 2 → ℝ) (key : K) (maxIter : ℤ) : List Fl × List (ℤ × ℤ) :=
  sirTimesAndSi rng initialSi (constrainExp x) key maxIter

/-- lotka_volterra.py 72-75, `LotkaVolterra.likelihood_sample`: the prey counts. -/
noncomputable def lvLikelihoodSample (rng : Rng K 3) (searchsorted : List Fl → Fl → ℕ) (initial : ℤ × ℤ) (t0 : ℝ) (ts : List ℝ) (x : Fin 3 → ℝ) (key : K) (maxIter : ℤ) : List ℤ :=
  (lvSimulate rng searchsorted initial t0 ts x key maxIter).map Prod.fst

/-- lotka_volterra.py 97-100, `TransformedLotkaVolterra.likelihood_sample`. -/
noncomputable def transformedLvLikelihoodSample (rng : Rng K 3) (searchsorted : List Fl → Fl → ℕ) (initial : ℤ × ℤ) (t0 : ℝ) (ts : List ℝ) (x : Fin 3 → ℝ) (key : K) (maxIter : ℤ) : List ℤ :=
  lvLikelihoodSample rng searchsorted initial t0 ts (constrainExp x) key maxIter

/-! ## g-and-k -/

/-- Library: `jax.scipy.stats.norm.cdf`. -/
noncomputable def normCdf (x : ℝ) : ℝ := ProbabilityTheory.cdf (ProbabilityTheory.gaussianReal 0 1) x

/-- gk.py 70-72, 137-139, `constrain`. -/
noncomputable def gkConstrain {d : ℕ} (mins maxs x : Fin d → ℝ) : Fin d → ℝ := fun i => mins i + normCdf (x i) * (maxs i - mins i)

/-- gk.py 74-76, 141-143, `unconstrain`; `ppf` is `jax.scipy.stats.norm.ppf`. -/
noncomputable def gkUnconstrain {d : ℕ} (ppf : ℝ → ℝ) (mins maxs x : Fin d → ℝ) : Fin d → ℝ :=
  fun i => ppf ((x i - mins i) / (maxs i - mins i))

open Classical in
/-- gk.py 56-61, 117-122, `prior_potential` of the uniform prior. -/
noncomputable def gkUniformPotential {d : ℕ} (mins maxs x : Fin d → ℝ) : Fl :=
  let out := if ∀ i, mins i < x i then Fl.fin 1 else Fl.pinf
  if ∀ i, x i < maxs i then out else Fl.pinf

/-- gk.py 89-92, 156-159, `prior_potential` of the transformed uniform prior. -/
noncomputable def gkTransformedPotential {d : ℕ} (x : Fin d → ℝ) : ℝ := 0.5 * ∑ i, x i ^ 2

/-- gk.py 63-65, 124-126, `prior_sample` of the uniform prior; `u` are the uniform draws. -/
def gkUniformSample {d : ℕ} (mins maxs u : Fin d → ℝ) : Fin d → ℝ := fun i => mins i + u i * (maxs i - mins i)

/-- gk.py 46-54, `GKUniformPrior.full_data_sample`, one datum; `z` is `norm.ppf(u)`. -/
noncomputable def gkData (c : ℝ) (x : Fin 4 → ℝ) (z : ℝ) : ℝ :=
  let expmingz := Real.exp (-x 2 * z)
  x 0 + x 1 * (1 + c * (1 - expmingz) / (1 + expmingz)) * z * (1 + z ^ 2) ^ x 3

/-- gk.py 78-87, `GKTransformedUniformPrior.full_data_sample`, one datum. -/
noncomputable def gkTransformedData (c : ℝ) (mins maxs x : Fin 4 → ℝ) (z : ℝ) : ℝ :=
  let transformed := gkConstrain mins maxs x
  let expmingz := Real.exp (-transformed 2 * z)
  transformed 0 + transformed 1 * (1 + c * (1 - expmingz) / (1 + expmingz)) * z * (1 + z ^ 2) ^ transformed 3

/-- gk.py 99-115, `GKOnlyAUniformPrior`: attributes `c`, `B`, `g`, `k`, and `full_data_sample`, one datum (the exponent is `self.c`). -/
noncomputable def gkOnlyAData (c B g _k : ℝ) (x : Fin 1 → ℝ) (z : ℝ) : ℝ :=
  let expmingz := Real.exp (-g * z)
  x 0 + B * (1 + c * (1 - expmingz) / (1 + expmingz)) * z * (1 + z ^ 2) ^ c

/-- gk.py 145-154, `GKOnlyATransformedUniformPrior.full_data_sample`, one datum. -/
noncomputable def gkOnlyATransformedData (c B g _k : ℝ) (mins maxs x : Fin 1 → ℝ) (z : ℝ) : ℝ :=
  let transformed := gkConstrain mins maxs x
  let expmingz := Real.exp (-g * z)
  transformed 0 + B * (1 + c * (1 - expmingz) / (1 + expmingz)) * z * (1 + z ^ 2) ^ c

/-- Library: `random.uniform(key, shape, minval=lo, maxval=hi)`; `v` is the draw from `[0, 1)`. -/
def uniformBetween (lo hi v : ℝ) : ℝ := v * (hi - lo) + lo

/-- gk.py 46-54, `GKUniformPrior.full_data_sample`: all data. `v` are the draws of `random.uniform` before scaling, `buffer` is the attribute of line 27 and `ppf` is `norm.ppf`. -/
noncomputable def gkFullData {n : ℕ} (ppf : ℝ → ℝ) (c buffer : ℝ) (x : Fin 4 → ℝ) (v : Fin n → ℝ) : Fin n → ℝ :=
  fun i => gkData c x (ppf (uniformBetween buffer (1 - buffer) (v i)))

/-- gk.py 78-87, `GKTransformedUniformPrior.full_data_sample`: all data. -/
noncomputable def gkTransformedFullData {n : ℕ} (ppf : ℝ → ℝ) (c buffer : ℝ) (mins maxs x : Fin 4 → ℝ) (v : Fin n → ℝ) : Fin n → ℝ :=
  fun i => gkTransformedData c mins maxs x (ppf (uniformBetween buffer (1 - buffer) (v i)))

/-- gk.py 38-41, `_GK.likelihood_sample`; `summarise` and `fullData` are the methods of the class. -/
def gkLikelihoodSample {α β γ : Type*} (summarise : β → γ) (fullData : α → β) (x : α) : γ := summarise (fullData x)

/-! ## Ricker -/

/-- The parts of `jax.random` that ricker.py uses: `split(key, n)[i]`, `normal(key)`, and entry `j` of `poisson(key, lam, shape)`, which depends on entry `j` of `lam`. -/
structure RickerRng (K : Type*) where
  split : K → ℕ → ℕ → K
  normal : K → ℝ
  poisson : K → ℕ → ℝ → ℤ

variable {K : Type*}

/-- ricker.py 16-28, `ricker_simulate`, for a float `initial_n`. -/
noncomputable def rickerSimulate (rng : RickerRng K) (initialN r noiseSd : ℝ) (numSteps : ℕ) (key : K) : List ℝ :=
  let randomKeys := rng.split key numSteps
  initialN :: (scan (fun n i => let new := r * n * Real.exp (-n + noiseSd * rng.normal (randomKeys i)); (new, new)) initialN (List.range numSteps)).2

/-- ricker.py 40-50, `likelihood_sample`. An observation index outside the simulated range gives the last population (as JAX's gather does); negative indices are not modelled. -/
noncomputable def rickerLikelihoodSample (rng : RickerRng K) (initialN : ℝ) (numSteps : ℕ) (observationInds : List ℕ) (x : Fin 3 → ℝ) (key : K) : List ℤ :=
  let dynamicsKey := rng.split key 2 0
  let obsKey := rng.split key 2 1
  let ns := rickerSimulate rng initialN (x 0) (x 1) numSteps dynamicsKey
  let observedNs := observationInds.map fun i => ns.getD (min i (ns.length - 1)) 0
  let obs := observedNs.mapIdx fun j n => rng.poisson obsKey j (x 2 * n)
  obs.map fun o => if o < 0 then 0 else o

end Mocat.AbcScenarios
