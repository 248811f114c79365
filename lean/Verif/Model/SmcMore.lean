import Verif.Model.Smc
/-!
# More of `mocat/src/transport/smc.py`: `RMMetropolisedSMCSampler` and the gradients kept in the ensemble
-/
namespace Mocat.Smc
open Mocat

variable {K π X ρ : Type*} {n d : ℕ} [NeZero n]

/-! ## RMMetropolisedSMCSampler -/

/-- `extra.parameters.stepsize`: how it is read and written in the parameters of the inner sampler. -/
structure Tune (π : Type*) where
  get : π → ℝ
  set : π → ℝ → π
  get_set : ∀ p x, get (set p x) = x
  set_get : ∀ p, set p (get p) = p

/-- The parameters of `RandomWalk` are the stepsize. -/
def Tune.randomWalk : Tune ℝ := ⟨id, fun _ x => x, fun _ _ => rfl, fun _ => rfl⟩

/-- The stepsize among the parameters of `Underdamped`. -/
def Tune.underdamped : Tune Mcmc.UDParams := ⟨Mcmc.UDParams.stepsize, fun p x => { p with stepsize := x }, fun _ _ => rfl, fun _ => rfl⟩

/-- Library: `jnp.average(v, weights=w)`. -/
noncomputable def average (w v : Fin n → ℝ) : ℝ := (∑ i, v i * w i) / ∑ i, w i

/-- Library: `jnp.max`. -/
noncomputable def maxOf (v : Fin n → ℝ) : ℝ := Finset.univ.sup' ⟨0, Finset.mem_univ 0⟩ v

/-- smc.py 406-421, `RMMetropolisedSMCSampler.adapt`: ensemble, its array `stepsize`, extra. `target` is `mcmc_sampler.tuning.target`, `rm` is
`extra.parameters.rm_stepsize`. Simplification: the stepsize is positive (`jnp.log`). -/
noncomputable def rmAdapt (tune : Tune π) (target rm : ℝ) (c : Config) (p : Params) (prev new : Ensemble n X ρ) (e : Extra K π) :
    (Ensemble n X ρ × (Fin n → ℝ)) × Extra K π :=
  let a := adapt c p prev new e
  let logStepsize := Real.log (tune.get a.2.params)
  let alphaMean := average (fun i => Real.exp ((a.1 i).logWeight - maxOf fun j => (a.1 j).logWeight)) fun i => (a.1 i).mc.alpha
  let newLogStepsize := logStepsize + rm * (alphaMean - target)
  let params := tune.set a.2.params (Real.exp newLogStepsize)
  ((a.1, fun _ => 1 * tune.get params), { a.2 with params := params })

/-- smc.py 219-225 (`TemperedSMCSampler.update`) for an `RMMetropolisedSMCSampler`. The `stepsize` array of the previous state is resampled and moved with the particles in the code, and
then overwritten by `adapt`; it is not read. -/
noncomputable def rmUpdate (tune : Tune π) (target rm : ℝ) (splitN : K → Fin (n + 2) → K) (categorical : K → (Fin n → ℝ) → Fin n → Fin n)
    (kernel : Kernel K π X ρ) (prior : X → ℝ) (c : Config) (p : Params) (s : Ensemble n X ρ × (Fin n → ℝ)) (e : Extra K π) :
    (Ensemble n X ρ × (Fin n → ℝ)) × Extra K π :=
  let temp := (s.1 0).temperature
  smcUpdate splitN categorical (fun s _ => resampleCriterion p s) (forwardProposal kernel prior p temp)
    (fun prev _ new e => rmAdapt tune target rm c p prev new e) s.1 e

/-- smc.py 396-404, `RMMetropolisedSMCSampler.startup`, after the start-up of the parent class. -/
def rmStartup (tune : Tune π) (started : Ensemble n X ρ × Extra K π) : (Ensemble n X ρ × (Fin n → ℝ)) × Extra K π :=
  ((started.1, fun _ => 1 * tune.get started.2.params), started.2)

/-- sample.py 110-148, `run`, with `clean_chain` (smc.py 423-428) for the stepsize: ensembles and stepsizes. -/
noncomputable def rmRunFrom (tune : Tune π) (target rm : ℝ) (splitN : K → Fin (n + 2) → K) (categorical : K → (Fin n → ℝ) → Fin n → Fin n)
    (kernel : Kernel K π X ρ) (prior : X → ℝ) (c : Config) (p : Params) (manyNan : (Fin n → X) → Bool)
    (init : (Ensemble n X ρ × (Fin n → ℝ)) × Extra K π) : List (Ensemble n X ρ × ℝ) :=
  (Run.run (rmUpdate tune target rm splitN categorical kernel prior c p) (fun s e => terminated c manyNan s.1 e) c.maxIter init).map
    fun s => (s.1, s.2 0)

/-! ## Gradients -/

/-- The attributes `grad_prior_potential`, `grad_likelihood_potential`, `grad_potential` of a particle. -/
@[ext] structure Grads (d : ℕ) where
  prior : Fin d → ℝ
  lik : Fin d → ℝ
  potential : Fin d → ℝ

/-- smc.py 206-209, 281-283: `grad_potential = grad_prior_potential + temperature * grad_likelihood_potential`. -/
def Grads.write (T : ℝ) (g : Grads d) : Grads d := { g with potential := fun i => g.prior i + T * g.lik i }

/-- The same on the attributes of `Underdamped`. -/
def udWrite (T : ℝ) (r : Mcmc.LfState d × ℝ) : Mcmc.LfState d × ℝ :=
  ({ r.1 with gradPotential := fun i => r.1.gradPriorPotential i + T * r.1.gradLikelihoodPotential i }, r.2)

/-- smc.py 143-148: the gradients of a particle at start-up, before a temperature is chosen. -/
def initGrads (gradPrior gradLik : (Fin d → ℝ) → Fin d → ℝ) (x : Fin d → ℝ) : Grads d := ⟨gradPrior x, gradLik x, gradPrior x⟩

/-- smc.py 193-217, `TemperedSMCSampler.adapt`, with lines 206-209: `write T` sets `grad_potential` for temperature `T`. -/
noncomputable def adaptG (write : ℝ → ρ → ρ) (c : Config) (p : Params) (prev new : Ensemble n X ρ) (e : Extra K π) : Ensemble n X ρ × Extra K π :=
  let a := adapt c p prev new e
  (fun i => { a.1 i with mc := { (a.1 i).mc with rest := write (a.1 i).temperature (a.1 i).mc.rest } }, a.2)

/-- `update` with gradients. -/
noncomputable def updateG (write : ℝ → ρ → ρ) (splitN : K → Fin (n + 2) → K) (categorical : K → (Fin n → ℝ) → Fin n → Fin n)
    (kernel : Kernel K π X ρ) (prior : X → ℝ) (c : Config) (p : Params) (ens : Ensemble n X ρ) (e : Extra K π) :
    Ensemble n X ρ × Extra K π :=
  let temp := (ens 0).temperature
  smcUpdate splitN categorical (fun s _ => resampleCriterion p s) (forwardProposal kernel prior p temp)
    (fun prev _ new e => adaptG write c p prev new e) ens e

/-- smc.py 128-164 and 267-296, start-up with gradients: `rest0 x` are the further attributes of a particle with value `x` (among them its gradients). -/
noncomputable def startupG (write : ℝ → ρ → ρ) (kernel : Kernel K π X ρ) (prior lik : X → ℝ) (c : Config) (p : Params) (values : Fin n → X)
    (alpha0 : ℝ) (rest0 : X → ρ) (e : Extra K π) : Ensemble n X ρ × Extra K π :=
  let init : Ensemble n X ρ := fun i =>
    { mc := { value := values i, potential := prior (values i), alpha := alpha0, rest := rest0 (values i) }
      prior := prior (values i), lik := lik (values i)
      temperature := 0, logWeight := 0, ess := n, logNorm := lseMean fun _ : Fin n => 0 }
  let first := nextTemperature c p init e
  let logWeight := fun i => -first * (init i).lik
  let init2 : Ensemble n X ρ := fun i =>
    { init i with
      mc := { (init i).mc with potential := (init i).prior + first * (init i).lik, rest := write first (init i).mc.rest }
      temperature := 0 + first
      logWeight := logWeight i
      ess := Real.exp (logEss logWeight)
      logNorm := lseMean logWeight }
  (fun i => { init2 i with mc := (kernel.startup first (init2 i).mc e).1 }, (kernel.startup first (init2 0).mc e).2)

/-- The inner sampler `RandomWalk` with `Metropolis` on a state with gradients (standard_mcmc.py 31-60): start-up writes the potential only, the proposal is a copy of the state in
which value and potential are replaced, so the gradient attributes are kept whether the proposal is accepted or not. -/
noncomputable def rwKernelG (split : K → K × K) (split3 : Mcmc.Split3 K) (normal : K → Fin d → ℝ) (uniform : K → ℝ)
    (prior lik : (Fin d → ℝ) → ℝ) : Kernel K ℝ (Fin d → ℝ) (Grads d) where
  startup temp s e :=
    let r := (rwKernel split split3 normal uniform prior lik).startup temp ⟨s.value, s.potential, s.alpha, 0⟩ e
    (⟨r.1.value, r.1.potential, r.1.alpha, s.rest⟩, r.2)
  update temp s e :=
    let r := (rwKernel split split3 normal uniform prior lik).update temp ⟨s.value, s.potential, s.alpha, 0⟩ e
    (⟨r.1.value, r.1.potential, r.1.alpha, s.rest⟩, r.2)

end Mocat.Smc
