import Verif.Model.StandardMcmc
import Verif.Model.Metrics
import Mathlib.Data.Fin.Tuple.Sort
import Mathlib.Algebra.Order.Archimedean.Real.Basic
/-!
# Model of `mocat/src/abc/` (`abc.py`, `importance.py`, `mcmc.py`, `smc.py`)

`D` is the type of simulated data, `K` of random keys.
-/
namespace Mocat.Abc
open Mocat

variable {K D : Type*} {d n : ℕ}

/-- abc.py 15-40: the functions of an ABC scenario the samplers call. `distance` is `distance_function`; it may return infinity or NaN. -/
structure Scenario (K X D : Type*) where
  priorSample : K → X
  priorPotential : X → K → Fl
  likelihoodSample : X → K → D
  distance : D → Fl

/-- abc.py 36-38, the default `distance_function`, for data in an array of `e` numbers. -/
noncomputable def distanceFunction {e : ℕ} (data simulated : Fin e → ℝ) : Fl := Fl.fin √(∑ i, (simulated i - data i) ^ 2)

/-- Library: `random.split(key, 4)`. -/
abbrev Split4 (K : Type*) := K → K × K × K × K

/-- Library: the sorted entries of an array. -/
noncomputable def sorted (v : Fin n → ℝ) : Fin n → ℝ := v ∘ Tuple.sort v

section
variable [NeZero n]

/-- An index cut off at the last entry. -/
def clampIdx (n : ℕ) [NeZero n] (k : ℕ) : Fin n := ⟨min k (n - 1), by have := NeZero.pos n; omega⟩

/-- Library: `jnp.quantile(v, q)` of a finite array for `0 ≤ q ≤ 1`: linear interpolation between the two sorted entries around position `q * (n - 1)`. -/
noncomputable def quantile (v : Fin n → ℝ) (q : ℝ) : ℝ :=
  let pos := q * ((n : ℝ) - 1)
  let w := pos - ⌊pos⌋₊
  sorted v (clampIdx n ⌊pos⌋₊) * (1 - w) + sorted v (clampIdx n ⌈pos⌉₊) * w

end

/-! ## Importance ABC -/

/-- A row of an importance ABC chain (importance.py 60-79). -/
structure Row (X D : Type*) where
  value : X
  prior : Fl
  data : D
  distance : Fl
  logWeight : Fl

variable {X : Type*}

open Classical in
/-- importance.py 29-35, `ImportanceABC.log_weight`. `importancePotential` is the user's `importance_potential`. -/
noncomputable def importanceLogWeight (importancePotential : X → Fl) (threshold : Fl) (r : Row X D) : Fl :=
  if Fl.lt r.distance threshold then Fl.add (Fl.neg r.prior) (importancePotential r.value) else Fl.ninf

open Classical in
/-- importance.py 106-112, `VanillaABC.log_weight`. -/
noncomputable def vanillaLogWeight (threshold : Fl) (r : Row X D) : Fl :=
  if Fl.lt r.distance threshold then Fl.fin 0 else Fl.ninf

/-- importance.py 60-79, `proposal` and `update`: the counter `extra.iter` is not advanced. `importanceProposal` is `importance_proposal`
(`VanillaABC`: `prior_sample`, 95-98); `logWeight` is the method `log_weight` at the threshold in `extra.parameters`. -/
def importanceUpdate (split4 : Split4 K) (sc : Scenario K X D) (importanceProposal : K → X) (logWeight : Fl → Row X D → Fl)
    (r : Row X D) (e : Mcmc.Extra K Fl) : Row X D × Mcmc.Extra K Fl :=
  let ks := split4 e.key
  let value := importanceProposal ks.2.1
  let data := sc.likelihoodSample value ks.2.2.2
  let new : Row X D :=
    { value := value
      prior := sc.priorPotential value ks.2.2.1
      data := data
      distance := sc.distance data
      logWeight := r.logWeight }
  ({ new with logWeight := logWeight e.params new }, { e with key := ks.1 })

/-- abc.py 45-63 and importance.py 37-58, start-up from `initial_value` (drawn from the prior with `random.split(key)` if the user gives none);
prior potential and data are computed with fresh keys. Simplification: an initial state supplied by the user with its own data is not modelled. -/
def importanceStartup (split : K → K × K) (sc : Scenario K X D) (logWeight : Fl → Row X D → Fl) (initialValue : Option X)
    (key : K) (threshold : Fl) : Row X D × Mcmc.Extra K Fl :=
  let vk : X × K := match initialValue with
    | some v => (v, key)
    | none => (sc.priorSample (split key).2, (split key).1)
  let k1 := split vk.2
  let prior := sc.priorPotential vk.1 k1.2
  let k2 := split k1.1
  let data := sc.likelihoodSample vk.1 k2.2
  let r : Row X D := ⟨vk.1, prior, data, sc.distance data, Fl.ninf⟩
  ({ r with logWeight := logWeight threshold r }, ⟨k2.1, 0, threshold⟩)

/-- `run` (sample.py 110-148) of an importance ABC sampler: `max_iter = n - 1` (importance.py 50). -/
def importanceRun (split : K → K × K) (split4 : Split4 K) (sc : Scenario K X D) (importanceProposal : K → X)
    (logWeight : Fl → Row X D → Fl) (n : ℤ) (initialValue : Option X) (key : K) (threshold : Fl) : List (Row X D) :=
  Run.run (importanceUpdate split4 sc importanceProposal logWeight) (fun _ e => Mcmc.terminated (n - 1) e) (n - 1)
    (importanceStartup split sc logWeight initialValue key threshold)

open Classical in
/-- importance.py 114-121, `clean_chain_ar`: the threshold stored on the sampler and the new log weights, from the distances of the chain. -/
noncomputable def cleanChainAr [NeZero n] (acceptanceRate : ℝ) (distance : Fin n → ℝ) : ℝ × (Fin n → Fl) :=
  let threshold := quantile distance acceptanceRate
  (threshold, fun i => if distance i < threshold then Fl.fin 0 else Fl.ninf)

/-! ## ABC-MCMC -/

/-- State attributes of an ABC-MCMC chain besides `alpha` and the tuned parameter (mcmc.py 62-76, 96, 119). -/
structure Payload (d : ℕ) (D : Type*) where
  value : Fin d → ℝ
  prior : Fl
  data : D
  distance : Fl
  stepsize : Fin d → ℝ

/-- `extra.parameters.threshold`, `extra.parameters.stepsize` (a scalar stepsize is a constant vector), and `extra.post_mean`, `extra.diag_post_cov`
(mcmc.py 97-98; these two are only used by `RMMetropolisDiagStepsize`). -/
@[ext] structure Params (d : ℕ) where
  threshold : Fl
  stepsize : Fin d → ℝ
  postMean : Fin d → ℝ
  diagPostCov : Fin d → ℝ

/-- A boolean as a number. -/
noncomputable def indicator (p : Prop) : Fl := open Classical in Fl.fin (if p then 1 else 0)

/-- mcmc.py 25-30 (`always`) and 40-76, `RandomWalkABC`. -/
noncomputable def randomWalkABC (split : K → K × K) (split4 : Split4 K) (normal : K → Fin d → ℝ)
    (sc : Scenario K (Fin d → ℝ) D) : Mcmc.Sampler K (Payload d D) (Params d) where
  always s e := (s, { e with key := (split e.key).1 })
  proposal s e :=
    let ks := split4 e.key
    let value := fun i => s.payload.value i + Real.sqrt (e.params.stepsize i) * normal ks.2.1 i
    let data := sc.likelihoodSample value ks.2.2.2
    ({ s with payload :=
        { value := value
          prior := sc.priorPotential value ks.2.2.1
          data := data
          distance := sc.distance data
          stepsize := s.payload.stepsize } },
     { e with key := ks.1 })
  acceptance rs re ps _ :=
    Fl.minimum (Fl.fin 1)
      (Fl.mul (Fl.exp (Fl.add (Fl.neg ps.payload.prior) rs.payload.prior))
        (indicator (Fl.lt ps.payload.distance re.params.threshold)))

/-- mcmc.py 50-53: the tuned parameter of `RandomWalkABC` is the threshold, with target 0.1 and increasing monotonicity. -/
noncomputable def thresholdRM (cutOff : Option ℕ) (scale negExponent : ℝ) (logUpdate : Bool) : Mcmc.RM (Params d) where
  get p := Mcmc.flToReal p.threshold
  set p x := { p with threshold := Fl.fin x }
  target := 1 / 10
  increasing := true
  adaptCutOff := cutOff
  scale := scale
  negExponent := negExponent
  logUpdate := logUpdate

/-- mcmc.py 100-120, `RMMetropolisDiagStepsize.adapt`. -/
noncomputable def diagAdapt (rm : Mcmc.RM (Params d)) (s : Mcmc.State (Payload d D)) (e : Mcmc.Extra K (Params d)) :
    Mcmc.State (Payload d D) × Mcmc.Extra K (Params d) :=
  let a := rm.adapt s e
  let rmStep := min (rm.stepsizeAt e.iter) (1 - 1 / 1000)
  let cov : Fin d → ℝ := fun i => (1 - rmStep) * a.2.params.diagPostCov i
    + rmStep * (a.1.payload.value i - a.2.params.postMean i) ^ 2
  let mean : Fin d → ℝ := fun i => (1 - rmStep) * a.2.params.postMean i + rmStep * a.1.payload.value i
  let stepsize : Fin d → ℝ := fun i => cov i / d * (238 / 100) ^ 2
  ({ a.1 with payload := { a.1.payload with stepsize := stepsize } },
   { a.2 with params := { a.2.params with diagPostCov := cov, postMean := mean, stepsize := stepsize } })

/-- mcmc/metropolis.py 118-136, `correct`, with the `adapt` of `RMMetropolisDiagStepsize`. -/
noncomputable def diagCorrect (rm : Mcmc.RM (Params d)) (sup : Mcmc.Correction K (Payload d D) (Params d)) :
    Mcmc.Correction K (Payload d D) (Params d) :=
  fun smp rs re ps pe =>
    let c := sup smp rs re ps pe
    let active : Bool := match rm.adaptCutOff with
      | none => true
      | some k => decide (c.2.iter ≤ k)
    let a := if active then diagAdapt rm c.1 c.2 else c
    ({ a.1 with tuned := rm.get a.2.params }, a.2)

/-- mcmc.py 81-98, `RMMetropolisDiagStepsize.startup` (with metropolis.py 34-46, 91-116): `samplerThreshold` and `samplerStepsize` are the entries of
`sampler.parameters` (`none` is Python's `None`), `p` the parameters in `initial_extra`. -/
noncomputable def diagStartup (samplerThreshold : Option ℝ) (samplerStepsize : Option (Fin d → ℝ)) (s : Mcmc.State (Payload d D))
    (e : Mcmc.Extra K (Params d)) : Mcmc.State (Payload d D) × Mcmc.Extra K (Params d) :=
  let stepsize : Fin d → ℝ := if samplerStepsize = none then fun _ => 1 else e.params.stepsize
  let threshold := if samplerThreshold = none then Fl.fin 50 else e.params.threshold
  ({ s with alpha := Fl.fin 1, tuned := Mcmc.flToReal threshold, payload := { s.payload with stepsize := stepsize } },
   { e with params :=
      { threshold := threshold
        stepsize := stepsize
        postMean := s.payload.value
        diagPostCov := fun i => stepsize i * d / (238 / 100) ^ 2 } })

end Mocat.Abc
