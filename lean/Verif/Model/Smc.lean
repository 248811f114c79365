import Verif.Model.StandardMcmc
import Verif.Model.Utils
import Mathlib.Analysis.SpecialFunctions.Log.Basic
/-!
# Model of `mocat/src/transport/smc.py`

Potentials and log weights are finite reals here (bounded-support likelihoods, which give `-inf` weights, are modelled in
`Verif.Model.AbcSmc`). An ensemble of `n` particles is a function on `Fin n`: the rows of the stacked cdict.
-/
namespace Mocat.Smc
open Mocat

/-- The attributes of a particle that an MCMC sampler writes: `value`, `potential`, `alpha` and all others (`ρ`). -/
@[ext] structure MState (X ρ : Type*) where
  value : X
  potential : ℝ
  alpha : ℝ
  rest : ρ

/-- One row of the ensemble state (smc.py 143-160, 200-215). -/
@[ext] structure Particle (X ρ : Type*) where
  mc : MState X ρ
  prior : ℝ
  lik : ℝ
  temperature : ℝ
  logWeight : ℝ
  ess : ℝ
  logNorm : ℝ

/-- `extra`: key, `iter`, `parameters`. (`extra.resample_bool` is written and read within one update only.) -/
abbrev Extra (K π : Type*) := Mcmc.Extra K π

variable {K π X ρ : Type*} {n : ℕ}

abbrev Ensemble (n : ℕ) (X ρ : Type*) := Fin n → Particle X ρ

/-- Library: `logsumexp` of finite log weights. -/
noncomputable def lse (v : Fin n → ℝ) : ℝ := Real.log (∑ i, Real.exp (v i))

/-- Library: `logsumexp(v, b=1/n)`. -/
noncomputable def lseMean (v : Fin n → ℝ) : ℝ := Real.log (∑ i, 1 / (n : ℝ) * Real.exp (v i))

/-- metrics.py 69-74, `log_ess_log_weight`, on finite log weights. -/
noncomputable def logEss (v : Fin n → ℝ) : ℝ := 2 * lse v - lse fun i => 2 * v i

/-! ## SMCSampler -/

/-- smc.py 61-71, `SMCSampler.resample`. `categorical key logits` is `random.categorical(key, logits, shape=(n,))`. -/
def resample (categorical : K → (Fin n → ℝ) → Fin n → Fin n) (ens : Ensemble n X ρ) (key : K) : Ensemble n X ρ :=
  let indices := categorical key fun i => (ens i).logWeight
  fun i => { ens (indices i) with logWeight := 0, ess := n }

/-- smc.py 73-99, `SMCSampler.update`, with what `adapt` returns. `splitN key` are the `n + 2` keys of `random.split(key, n + 2)`. -/
def smcUpdate {β : Type*} (splitN : K → Fin (n + 2) → K) (categorical : K → (Fin n → ℝ) → Fin n → Fin n)
    (criterion : Ensemble n X ρ → Extra K π → Bool)
    (forward : Particle X ρ → Extra K π → K → Particle X ρ)
    (adapt : Ensemble n X ρ → Extra K π → Ensemble n X ρ → Extra K π → β)
    (ens : Ensemble n X ρ) (e : Extra K π) : β :=
  let e1 := { e with iter := e.iter + 1 }
  let resampleBool := criterion ens e1
  let keys := splitN e1.key
  let e2 := { e1 with key := keys (Fin.last (n + 1)) }
  let resampled := if resampleBool then resample categorical ens (keys (Fin.last n).castSucc) else ens
  let advanced := fun i : Fin n => forward (resampled i) e2 (keys i.castSucc.castSucc)
  adapt resampled e2 advanced e2

/-! ## TemperedSMCSampler -/

/-- smc.py 105-126: the attributes `temperature_schedule` (`none`: adaptive), `max_temperature`, `max_iter`. -/
@[ext] structure Config where
  schedule : Option (List ℝ)
  maxTemperature : ℝ
  maxIter : ℤ

open Classical in
/-- smc.py 243-245, 263-264: drop a leading zero. -/
noncomputable def stripZero (l : List ℝ) : List ℝ := if l.head? = some 0 then l.tail else l

open Classical in
/-- smc.py 115-126 and 261-265, assignment of `temperature_schedule` on a Metropolised sampler. The new schedule is non-empty
after removal of a leading zero (else the code raises an error). -/
noncomputable def Config.setSchedule (c : Config) (value : Option (List ℝ)) : Config :=
  match value with
  | none =>
    { c with
      schedule := none
      maxIter := if ∃ l, c.schedule = some l ∧ c.maxIter = l.length then 10000 else c.maxIter }
  | some l =>
    let l := stripZero l
    { schedule := some l, maxTemperature := l.getLastD 0, maxIter := l.length }

/-- smc.py 105-113, 243-248: construction (which strips before the assignment strips again). -/
noncomputable def Config.init (schedule : Option (List ℝ)) (maxTemperature : ℝ) (maxIter : ℤ) : Config :=
  Config.setSchedule { schedule := none, maxTemperature := maxTemperature, maxIter := maxIter } (schedule.map stripZero)

/-- Settings read from `sampler.parameters` / `extra.parameters` (smc.py 254-259). -/
structure Params where
  mcmcSteps : ℕ
  essThresholdRetain : ℝ
  essThresholdResample : ℝ
  bisectionTol : ℝ
  maxBisectionIter : ℕ

/-- The MCMC sampler used inside (smc.py 249-253), at a given `scenario.temperature`: its start-up and its update. -/
structure Kernel (K π X ρ : Type*) where
  startup : ℝ → MState X ρ → Extra K π → MState X ρ × Extra K π
  update : ℝ → MState X ρ → Extra K π → MState X ρ × Extra K π

/-- `schedule[i]`: a `jnp` array indexed with a traced integer; out of range gives the last entry. -/
def scheduleAt (l : List ℝ) (i : ℕ) : ℝ := l.getD (min i (l.length - 1)) 0

open Classical in
/-- smc.py 303-326, `log_ess` and `next_temperature_adaptive`, as a function of the arrays it reads. -/
noncomputable def nextTemperatureAdaptive (p : Params) (maxTemperature : ℝ) (temperature ess : ℝ) (logWeight lik : Fin n → ℝ) : ℝ :=
  let logNSampThreshold := Real.log (ess * p.essThresholdRetain)
  let f := fun x => logEss (fun i => logWeight i - (x - temperature) * lik i) - logNSampThreshold
  let b := Utils.bisect f temperature maxTemperature p.maxBisectionIter p.bisectionTol
  if |b.flo| ≤ |b.fhi| then b.lo else b.hi

/-- The inner sampler `RandomWalk` with `Metropolis` (mcmc/standard_mcmc.py 21-65, mcmc/metropolis.py 34-70, mcmc/sampler.py 30-60) on a scenario with
finite prior and likelihood potentials. `rest` is the attribute `State.tuned` of the MCMC model (not used). Simplification: the key handling of the start-up is a
single split; `scenario.potential` at a temperature is `prior + temperature * likelihood` (property C09). -/
noncomputable def rwKernel {d : ℕ} (split : K → K × K) (split3 : Mcmc.Split3 K) (normal : K → Fin d → ℝ) (uniform : K → ℝ)
    (prior lik : (Fin d → ℝ) → ℝ) : Kernel K ℝ (Fin d → ℝ) ℝ where
  startup temp s e := ({ s with alpha := 1, potential := prior s.value + temp * lik s.value }, { e with key := (split e.key).1 })
  update temp s e :=
    let r := Mcmc.update (Mcmc.randomWalk split3 normal fun x _ => Fl.fin (prior x + temp * lik x)) (Mcmc.metropolis split uniform)
      ⟨⟨s.value, Fl.fin s.potential⟩, Fl.fin s.alpha, s.rest⟩ e
    (⟨r.1.payload.value, Mcmc.flToReal r.1.payload.potential, Mcmc.flToReal r.1.alpha, r.1.tuned⟩, r.2)

/-- The inner sampler `Underdamped` with `Metropolis` (mcmc/standard_mcmc.py 72-153, mcmc/metropolis.py 34-70, mcmc/sampler.py 30-60) on a scenario with finite
potentials; `prior` and `lik` return value and gradient. `rest` is the leapfrog state (momenta, the two potentials, gradients; its `value` and `potential` are those of
the particle) and the attribute `State.tuned` of the MCMC model (not used). Start-up (standard_mcmc.py 89-109) recomputes everything except the momenta; the zeros
written when a state has none are in the initial `rest`. -/
noncomputable def udKernel {d : ℕ} (split : K → K × K) (split3 : Mcmc.Split3 K) (splitN : K → ℕ → K × List K) (normal : K → Fin d → ℝ) (uniform : K → ℝ)
    (prior lik : (Fin d → ℝ) → ℝ × (Fin d → ℝ)) (leapfrogSteps : ℕ) : Kernel K Mcmc.UDParams (Fin d → ℝ) (Mcmc.LfState d × ℝ) where
  startup temp s e :=
    let pr := prior s.value
    let li := lik s.value
    let lf : Mcmc.LfState d :=
      { value := s.value, momenta := s.rest.1.momenta, priorPotential := pr.1, gradPriorPotential := pr.2, likelihoodPotential := li.1, gradLikelihoodPotential := li.2,
        potential := pr.1 + temp * li.1, gradPotential := fun i => pr.2 i + temp * li.2 i }
    (⟨s.value, lf.potential, 1, lf, s.rest.2⟩, { e with key := (split3 e.key).1 })
  update temp s e :=
    let r := Mcmc.update (Mcmc.underdamped split splitN normal (fun x _ => prior x) (fun x _ => lik x) temp leapfrogSteps) (Mcmc.metropolis split uniform)
      ⟨{ s.rest.1 with value := s.value, potential := s.potential }, Fl.fin s.alpha, s.rest.2⟩ e
    (⟨r.1.payload.value, r.1.payload.potential, Mcmc.flToReal r.1.alpha, r.1.payload, r.1.tuned⟩, r.2)

variable [NeZero n]

/-- smc.py 115-126: `next_temperature` as set by the schedule. -/
noncomputable def nextTemperature (c : Config) (p : Params) (ens : Ensemble n X ρ) (e : Extra K π) : ℝ :=
  match c.schedule with
  | some l => scheduleAt l e.iter
  | none => nextTemperatureAdaptive p c.maxTemperature (ens 0).temperature (ens 0).ess (fun i => (ens i).logWeight)
      fun i => (ens i).lik

/-- smc.py 171-175, `termination_criterion`. `manyNan` is `jnp.isnan(value).mean() > 0.1`. -/
noncomputable def terminated (c : Config) (manyNan : (Fin n → X) → Bool) (ens : Ensemble n X ρ) (e : Extra K π) : Bool :=
  open Classical in
  decide (c.maxTemperature ≤ (ens 0).temperature) || decide (c.maxIter ≤ (e.iter : ℤ)) || manyNan fun i => (ens i).mc.value

/-- smc.py 193-217, `TemperedSMCSampler.adapt` with the `log_weight` of smc.py 367-373. Gradients are not modelled. -/
noncomputable def adapt (c : Config) (p : Params) (prev : Ensemble n X ρ) (new : Ensemble n X ρ) (e : Extra K π) :
    Ensemble n X ρ × Extra K π :=
  let next := nextTemperature c p new e
  let logWeight := fun i => (prev i).logWeight + -(next - (prev 0).temperature) * (new i).lik
  let ess := Real.exp (logEss logWeight)
  (fun i =>
    { new i with
      mc := { (new i).mc with potential := (new i).prior + next * (new i).lik }
      temperature := 1 * next
      logWeight := logWeight i
      ess := 1 * ess
      logNorm := (prev i).logNorm + lse logWeight - lse fun i => (prev i).logWeight }, e)

/-! ## MetropolisedSMCSampler -/

/-- smc.py 298-301, `resample_criterion` -/
noncomputable def resampleCriterion (p : Params) (ens : Ensemble n X ρ) : Bool :=
  open Classical in decide ((ens 0).ess ≤ p.essThresholdResample * n)

/-- smc.py 337-365, `forward_proposal` with `clean_mcmc_chain` (328-335), at `scenario.temperature = temp`. `prior` is
`scenario.prior_potential` (assumed not to use its key). With `mcmc_steps = 0` the code raises an error. Where `temp = 0` the division gives NaN
in the code; theorems that use the result assume a non-zero temperature. -/
noncomputable def forwardProposal (kernel : Kernel K π X ρ) (prior : X → ℝ) (p : Params) (temp : ℝ) (particle : Particle X ρ)
    (e : Extra K π) (key : K) : Particle X ρ :=
  let e := { e with key := key }
  let start := kernel.startup temp particle.mc e
  let r := scan (fun (c : MState X ρ × Extra K π) (_ : Unit) => let new := kernel.update temp c.1 c.2; (new, new.1)) start
    (List.replicate p.mcmcSteps ())
  let last := r.2.getLastD start.1
  let mc := { last with alpha := (r.2.map MState.alpha).sum / r.2.length }
  let priorPotential := prior mc.value
  { particle with mc := mc, prior := priorPotential, lik := (mc.potential - priorPotential) / temp }

/-- smc.py 219-225 (`TemperedSMCSampler.update`) for a Metropolised sampler. -/
noncomputable def update (splitN : K → Fin (n + 2) → K) (categorical : K → (Fin n → ℝ) → Fin n → Fin n)
    (kernel : Kernel K π X ρ) (prior : X → ℝ) (c : Config) (p : Params) (ens : Ensemble n X ρ) (e : Extra K π) :
    Ensemble n X ρ × Extra K π :=
  let temp := (ens 0).temperature
  smcUpdate splitN categorical (fun s _ => resampleCriterion p s) (forwardProposal kernel prior p temp)
    (fun prev _ new e => adapt c p prev new e) ens e

/-- smc.py 128-164 and 267-296, start-up, from the initial values (drawn from the prior, transport/sampler.py 16-33); `rest0` are
further attributes the user supplies. `lik` is `scenario.likelihood_potential`. The `extra` is the one returned by the inner sampler's start-up for
particle 0. -/
noncomputable def startup (kernel : Kernel K π X ρ) (prior lik : X → ℝ) (c : Config) (p : Params) (values : Fin n → X)
    (alpha0 : ℝ) (rest0 : ρ) (e : Extra K π) : Ensemble n X ρ × Extra K π :=
  let init : Ensemble n X ρ := fun i =>
    { mc := { value := values i, potential := prior (values i), alpha := alpha0, rest := rest0 }
      prior := prior (values i), lik := lik (values i)
      temperature := 0, logWeight := 0, ess := n, logNorm := lseMean fun _ : Fin n => 0 }
  let first := nextTemperature c p init e
  let logWeight := fun i => -first * (init i).lik
  let init2 : Ensemble n X ρ := fun i =>
    { init i with
      mc := { (init i).mc with potential := (init i).prior + first * (init i).lik }
      temperature := 0 + first
      logWeight := logWeight i
      ess := Real.exp (logEss logWeight)
      logNorm := lseMean logWeight }
  (fun i => { init2 i with mc := (kernel.startup first (init2 i).mc e).1 }, (kernel.startup first (init2 0).mc e).2)

/-- sample.py 110-148, `run`, from the started ensemble. -/
noncomputable def runFrom (splitN : K → Fin (n + 2) → K) (categorical : K → (Fin n → ℝ) → Fin n → Fin n)
    (kernel : Kernel K π X ρ) (prior : X → ℝ) (c : Config) (p : Params) (manyNan : (Fin n → X) → Bool)
    (init : Ensemble n X ρ × Extra K π) : List (Ensemble n X ρ) :=
  Run.run (update splitN categorical kernel prior c p) (terminated c manyNan) c.maxIter init

end Mocat.Smc
