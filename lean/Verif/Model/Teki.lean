import Verif.Model.Run
import Verif.Model.Smc
import Mathlib.Analysis.SpecialFunctions.Pow.Real
import Mathlib.Data.Matrix.Mul
import Mathlib.Algebra.Order.Round
/-!
# Model of `mocat/src/transport/teki.py`
-/
namespace Mocat.Teki
open Mocat Matrix

variable {K : Type*} {n dx dy : ℕ}

/-- The ensemble state: rows of `value`, rows of `simulated_data`, and the scalar `temperature`. -/
@[ext] structure State (n dx dy : ℕ) where
  value : Fin n → Fin dx → ℝ
  sim : Fin n → Fin dy → ℝ
  temperature : ℝ

/-- `extra`: key, `iter`, `prec_y_given_x`. -/
structure Extra (K : Type*) (dy : ℕ) where
  key : K
  iter : ℕ
  prec : Matrix (Fin dy) (Fin dy) ℝ

/-- `vals.mean(0)` -/
noncomputable def mean {d : ℕ} (vals : Fin n → Fin d → ℝ) : Fin d → ℝ := fun j => (∑ i, vals i j) / n

/-- teki.py 29-30: centred and scaled ensemble, as an `n × d` matrix. -/
noncomputable def centred {d : ℕ} (vals : Fin n → Fin d → ℝ) : Matrix (Fin n) (Fin d) ℝ :=
  fun i j => (vals i j - mean vals j) / Real.sqrt ((n : ℝ) - 1)

/-- teki.py 19-36, `calculate_covariances` with the means computed from the ensembles: `(cov_x, cov_xy, cov_y)`. -/
noncomputable def calculateCovariances (vals : Fin n → Fin dx → ℝ) (sim : Fin n → Fin dy → ℝ) :
    Matrix (Fin dx) (Fin dx) ℝ × Matrix (Fin dx) (Fin dy) ℝ × Matrix (Fin dy) (Fin dy) ℝ :=
  ((centred vals)ᵀ * centred vals, (centred vals)ᵀ * centred sim, (centred sim)ᵀ * centred sim)

/-- The routines an update uses. `inv` is `jnp.linalg.inv`; `chol` is `jnp.linalg.cholesky` (`none`: not positive definite, all NaN); `splitN` is `random.split(key, n + 2)`; `normal`
is `random.normal(key, (n, d_y))`; `simulate` is `scenario.likelihood_sample`. -/
structure Env (K : Type*) (n dx dy : ℕ) where
  inv : ∀ d, Matrix (Fin d) (Fin d) ℝ → Matrix (Fin d) (Fin d) ℝ
  chol : Matrix (Fin dy) (Fin dy) ℝ → Option (Matrix (Fin dy) (Fin dy) ℝ)
  splitN : K → Fin (n + 2) → K
  normal : K → Matrix (Fin n) (Fin dy) ℝ
  simulate : (Fin dx → ℝ) → K → Fin dy → ℝ
  data : Fin dy → ℝ
  nugget : ℝ

/-- teki.py 128: `cov_y_given_x` from `(cov_x, cov_xy, cov_y)`. -/
def covYGivenX (env : Env K n dx dy) (covs : Matrix (Fin dx) (Fin dx) ℝ × Matrix (Fin dx) (Fin dy) ℝ × Matrix (Fin dy) (Fin dy) ℝ) : Matrix (Fin dy) (Fin dy) ℝ :=
  covs.2.2 - covs.2.1ᵀ * env.inv dx (covs.1 + env.nugget • 1) * covs.2.1

/-- teki.py 137-138: `kalman_gain`. -/
def kalmanGain (env : Env K n dx dy) (covs : Matrix (Fin dx) (Fin dx) ℝ × Matrix (Fin dx) (Fin dy) ℝ × Matrix (Fin dy) (Fin dy) ℝ) (alph : ℝ) : Matrix (Fin dx) (Fin dy) ℝ :=
  let covAlph := covs.2.2 + (alph - 1) • covYGivenX env covs
  covs.2.1 * env.inv dy (covAlph + env.nugget • 1)

/-- teki.py 140-145 for one ensemble member: its row of `value` after the update, from its rows of `value`, of `simulated_data` and of the normal draws. Where a perturbation is NaN (no Cholesky factor, or
`alph < 1`, for which Lean's square root is 0) it is replaced by 0 (line 142). -/
noncomputable def memberUpdate (env : Env K n dx dy) (covs : Matrix (Fin dx) (Fin dx) ℝ × Matrix (Fin dx) (Fin dy) ℝ × Matrix (Fin dy) (Fin dy) ℝ) (alph : ℝ)
    (value : Fin dx → ℝ) (sim normal : Fin dy → ℝ) : Fin dx → ℝ :=
  let perturb : Fin dy → ℝ :=
    match env.chol (covYGivenX env covs + env.nugget • 1) with
    | none => 0
    | some c => Real.sqrt (alph - 1) • (normal ᵥ* cᵀ)
  value + kalmanGain env covs alph *ᵥ (env.data - sim + perturb)

/-- teki.py 117-150, `update`, with `next` for `next_temperature`; the matrix operations of lines 140-145 act on each row separately (`memberUpdate`). Simplification: equal successive temperatures (division by
zero) are not represented; NaN values are not represented. -/
noncomputable def update (env : Env K n dx dy) (next : State n dx dy → Extra K dy → ℝ) (s : State n dx dy) (e : Extra K dy) :
    State n dx dy × Extra K dy :=
  let keys := env.splitN e.key
  let covs := calculateCovariances s.value s.sim
  let e1 : Extra K dy :=
    { key := keys (Fin.last (n + 1)), iter := e.iter + 1, prec := env.inv dy (covYGivenX env covs + env.nugget • 1) }
  let prevTemp := s.temperature
  let newTemp := next s e1
  let alph := 1 / (newTemp - prevTemp)
  let normals := env.normal (keys (Fin.last n).castSucc)
  let value := fun i => memberUpdate env covs alph (s.value i) (s.sim i) (normals i)
  ({ value := value
     sim := fun i => env.simulate (value i) (keys i.castSucc.castSucc)
     temperature := newTemp }, e1)

/-- `jnp.std(vals, axis=0, ddof=1)` -/
noncomputable def std {d : ℕ} (vals : Fin n → Fin d → ℝ) : Fin d → ℝ :=
  fun j => Real.sqrt ((∑ i, (vals i j - mean vals j) ^ 2) / ((n : ℝ) - 1))

/-- Attributes that control the schedule (teki.py 42-67): `schedule = none` for the default. -/
structure Config where
  schedule : Option (List ℝ)
  maxTemperature : ℝ
  maxIter : ℤ
  termStd : ℝ

/-- teki.py 42-67: construction; a schedule overrides maximum temperature and iterations. -/
noncomputable def Config.init (schedule : Option (List ℝ)) (maxTemperature : ℝ) (maxIter : ℤ) (termStd : ℝ) : Config :=
  match schedule with
  | none => ⟨none, maxTemperature, maxIter, termStd⟩
  | some l => ⟨some l, l.getLastD 0, l.length, termStd⟩

/-- `jnp.round(x, 4)`. Library: rounding to the nearest multiple of `10^-4` (ties differ from Lean's `round`; none occurs below). -/
noncomputable def round4 (x : ℝ) : ℝ := (round (x * 10 ^ 4) : ℝ) / 10 ^ 4

/-- teki.py 61-67 and 87-92, `next_temperature`. -/
noncomputable def nextTemperature (c : Config) (_ : State n dx dy) (e : Extra K dy) : ℝ :=
  match c.schedule with
  | some l => Smc.scheduleAt l e.iter
  | none => let gamm := (2 : ℝ) ^ ((1 : ℝ) / 50); round4 (gamm ^ e.iter - 1)

open Classical in
/-- teki.py 108-115, `termination_criterion`; `constrain` is the scenario's (identity if it has none), `anyNan` the NaN test. -/
noncomputable def terminated (c : Config) (constrain : (Fin dx → ℝ) → Fin dx → ℝ) (priorStds : Fin dx → ℝ)
    (anyNan : (Fin n → Fin dx → ℝ) → Bool) (s : State n dx dy) (e : Extra K dy) : Bool :=
  decide (c.maxTemperature ≤ s.temperature) || decide (c.maxIter ≤ (e.iter : ℤ))
    || decide (∀ j, std (fun i => constrain (s.value i)) j < c.termStd * priorStds j) || anyNan s.value

/-- teki.py 153-185, `AdaptiveTemperedEKI.next_temperature`. -/
noncomputable def nextTemperatureAdaptive (essThreshold tol : ℝ) (maxBisect : ℕ) (maxTemperature : ℝ) (data : Fin dy → ℝ)
    (s : State n dx dy) (e : Extra K dy) : ℝ :=
  let potential := fun i => 0.5 * ((s.sim i - data) ᵥ* e.prec ⬝ᵥ (s.sim i - data))
  let f := fun x => Smc.logEss (fun i => -(x - s.temperature) * potential i) - Real.log (n * essThreshold)
  let b := Utils.bisect f s.temperature maxTemperature maxBisect tol
  open Classical in if |b.flo| ≤ |b.fhi| then b.lo else b.hi

/-- teki.py 91-104: `startup`, from given values and key: if the initial state has no simulated data they are drawn, with `split2n` for `random.split(key, 2 * n)`. -/
def startup (env : Env K n dx dy) (split2n : K → ℕ → K) (value : Fin n → Fin dx → ℝ) (sim : Option (Fin n → Fin dy → ℝ)) (key : K) : State n dx dy × Extra K dy :=
  match sim with
  | some y => (⟨value, y, 0⟩, ⟨key, 0, 1⟩)
  | none => (⟨value, fun i => env.simulate (value i) (split2n key i), 0⟩, ⟨split2n key (2 * n - 1), 0, 1⟩)

/-- transport/sampler.py 24-30, then `startup`: a run with no initial state on a scenario with a prior sampler. `split key i` is the `i`-th key of `random.split`. -/
def start (env : Env K n dx dy) (split : K → ℕ → K) (priorSample : K → Fin dx → ℝ) (key : K) : State n dx dy × Extra K dy :=
  startup env split (fun i => priorSample (split (split key 1) i)) none (split key 0)

/-- `run` from a started state (teki.py 69-106: temperature 0, `iter` 0, prior standard deviations from the initial values). -/
noncomputable def runFrom (env : Env K n dx dy) (c : Config) (constrain : (Fin dx → ℝ) → Fin dx → ℝ)
    (anyNan : (Fin n → Fin dx → ℝ) → Bool) (init : State n dx dy × Extra K dy) : List (State n dx dy) :=
  Run.run (update env (nextTemperature c)) (terminated c constrain (std init.1.value) anyNan) c.maxIter init

end Mocat.Teki
