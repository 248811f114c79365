import Verif.Model.Mcmc
import Verif.Model.Gaussian
/-!
# Model of `mocat/src/mcmc/standard_mcmc.py`, `mocat/src/utils.py` 108-156 (`leapfrog`) and of
`RMMetropolis` (`mocat/src/mcmc/metropolis.py` 73-161)
-/
namespace Mocat.Mcmc
open Mocat

variable {K : Type*} {d : ℕ}

/-! ## RandomWalk -/

/-- State attributes of a `RandomWalk` run besides `alpha`. standard_mcmc.py 40, 56-57. -/
structure RWPayload (d : ℕ) where
  value : Fin d → ℝ
  potential : Fl

/-- Library: `random.split(key, 3)`. -/
abbrev Split3 (K : Type*) := K → K × K × K

/-- standard_mcmc.py 43-65, `RandomWalk`. `potential` is `scenario.potential`, `normal` is
`random.normal(key, (d,))`; `parameters` is the stepsize. `always` is the inherited identity. -/
noncomputable def randomWalk (split3 : Split3 K) (normal : K → Fin d → ℝ)
    (potential : (Fin d → ℝ) → K → Fl) : Sampler K (RWPayload d) ℝ where
  always s e := (s, e)
  proposal s e :=
    let stepsize := e.params
    let ks := split3 e.key
    let value := fun i => s.payload.value i + Real.sqrt stepsize * normal ks.2.1 i
    ({ s with payload := { value := value, potential := potential value ks.2.2 } },
     { e with key := ks.1 })
  acceptance rs _ ps _ :=
    Fl.minimum (Fl.fin 1) (Fl.exp (Fl.add (Fl.neg ps.payload.potential) rs.payload.potential))

/-! ## Leapfrog -/

/-- The attributes of a state used by `leapfrog` (utils.py 121-134). -/
structure LfState (d : ℕ) where
  value : Fin d → ℝ
  momenta : Fin d → ℝ
  priorPotential : ℝ
  gradPriorPotential : Fin d → ℝ
  likelihoodPotential : ℝ
  gradLikelihoodPotential : Fin d → ℝ
  potential : ℝ
  gradPotential : Fin d → ℝ

/-- `prior_potential_and_grad`, `likelihood_potential_and_grad`: functions of position and key. -/
abbrev ValGrad (K : Type*) (d : ℕ) := (Fin d → ℝ) → K → ℝ × (Fin d → ℝ)

/-- utils.py 117-138, `leapfrog_step`: returns the new state and the two rows `[p_half, momenta]`
recorded for the chain. -/
noncomputable def leapfrogStep (prior lik : ValGrad K d) (stepsize temperature : ℝ) (s : LfState d) (key : K) :
    LfState d × (LfState d × List (Fin d → ℝ)) :=
  let pHalf := fun i => s.momenta i - stepsize / 2 * s.gradPotential i
  let value := fun i => s.value i + stepsize * pHalf i
  let pr := prior value key
  let li := lik value key
  let gradPotential := fun i => pr.2 i + temperature * li.2 i
  let momenta := fun i => pHalf i - stepsize / 2 * gradPotential i
  let new : LfState d :=
    { value := value, momenta := momenta
      priorPotential := pr.1, gradPriorPotential := pr.2
      likelihoodPotential := li.1, gradLikelihoodPotential := li.2
      potential := pr.1 + temperature * li.1, gradPotential := gradPotential }
  (new, (new, [pHalf, momenta]))

/-- The chain returned by `leapfrog`: one entry per visited state for every attribute except
`momenta`, which has one initial row and two rows per step (utils.py 136-144). -/
structure LfChain (d : ℕ) where
  states : List (LfState d)
  momenta : List (Fin d → ℝ)

/-- utils.py 108-156, `_leapfrog` / `leapfrog`; one step per key. -/
noncomputable def leapfrog (prior lik : ValGrad K d) (s : LfState d) (stepsize : ℝ) (keys : List K)
    (temperature : ℝ) : LfChain d :=
  let r := scan (leapfrogStep prior lik stepsize temperature) s keys
  { states := s :: r.2.map Prod.fst
    momenta := s.momenta :: (r.2.map Prod.snd).flatten }

/-- core.py 46-56: `chain[-1]`, the last row of every attribute. -/
def LfChain.last (c : LfChain d) (dflt : LfState d) : LfState d :=
  { c.states.getLastD dflt with momenta := c.momenta.getLastD dflt.momenta }

/-! ## Underdamped -/

/-- Parameters of `Underdamped` (standard_mcmc.py 81-83). `friction = none` is `jnp.inf`. -/
structure UDParams where
  stepsize : ℝ
  friction : Option ℝ

/-- `exp(-c * friction * stepsize)`, equal to 0 for infinite friction (and positive stepsize). -/
noncomputable def decay (c : ℝ) (p : UDParams) : ℝ :=
  match p.friction with
  | none => 0
  | some γ => Real.exp (-c * γ * p.stepsize)

/-- standard_mcmc.py 116-122: the momenta after negation and the OU refresh with noise `ξ`. -/
noncomputable def refreshMomenta (p : UDParams) (momenta ξ : Fin d → ℝ) : Fin d → ℝ :=
  fun i => (-momenta i) * decay 1 p + Real.sqrt (1 - decay 2 p) * ξ i

/-- standard_mcmc.py 72-153, `Underdamped`. `split` is `random.split(key)`, `splitN key m` is
`random.split(key, m)` (a list of `m` keys); the first of the `leapfrog_steps + 1` keys is kept as the
next key. `leapfrog_steps` is read from the sampler's own parameters (line 129). -/
noncomputable def underdamped (split : K → K × K) (splitN : K → ℕ → K × List K) (normal : K → Fin d → ℝ)
    (prior lik : ValGrad K d) (temperature : ℝ) (leapfrogSteps : ℕ) : Sampler K (LfState d) UDParams where
  always s e :=
    let ks := split e.key
    ({ s with payload := { s.payload with momenta := refreshMomenta e.params s.payload.momenta (normal ks.2) } },
     { e with key := ks.1 })
  proposal s e :=
    let ks := splitN e.key leapfrogSteps
    let chain := leapfrog prior lik s.payload e.params.stepsize ks.2 temperature
    let last := chain.last s.payload
    ({ s with payload := { last with momenta := fun i => - last.momenta i } }, { e with key := ks.1 })
  acceptance rs _ ps _ :=
    Fl.minimum (Fl.fin 1)
      (Fl.exp (Fl.fin (- ps.payload.potential + rs.payload.potential
        - Gaussian.gaussianPotentialDefault ps.payload.momenta
        + Gaussian.gaussianPotentialDefault rs.payload.momenta)))

/-! ## Robbins-Monro adaptation -/

/-- mcmc/metropolis.py 149-151, `robbins_monro_update`. -/
def robbinsMonroUpdate (param metric target monotonicity rm : ℝ) : ℝ :=
  param - rm * (metric - target) * monotonicity

/-- mcmc/metropolis.py 153-161, `log_robbins_monro_update`. -/
noncomputable def logRobbinsMonroUpdate (param metric target monotonicity rm : ℝ) : ℝ :=
  Real.exp (robbinsMonroUpdate (Real.log param) metric target monotonicity rm)

/-- The value of a finite `Fl` (special values are sent to 0; `alpha` is finite after
`Metropolis.correct`). -/
def flToReal : Fl → ℝ
  | .fin x => x
  | _ => 0

/-- Settings of `RMMetropolis` (metropolis.py 75-89) together with the sampler's `tuning`
(mcmc/sampler.py 24-27): `get`/`set` access the tuned parameter in `extra.parameters`. `adaptCutOff = none` is `jnp.inf`. The metric is `alpha`
(the default of `tuning.metric`). `monotonicity` is `1` or `-1` (metropolis.py 111). -/
structure RM (π : Type*) where
  get : π → ℝ
  set : π → ℝ → π
  target : ℝ
  increasing : Bool
  adaptCutOff : Option ℕ
  scale : ℝ
  negExponent : ℝ
  logUpdate : Bool

variable {σ π : Type*}

/-- metropolis.py 111. -/
def RM.monotonicity (rm : RM π) : ℝ := if rm.increasing then 1 else -1

/-- metropolis.py 144-145: `rm_stepsize_scale * extra.iter ** -rm_stepsize_neg_exponent`. -/
noncomputable def RM.stepsizeAt (rm : RM π) (iter : ℕ) : ℝ := rm.scale * (iter : ℝ) ^ (-rm.negExponent)

/-- metropolis.py 138-147, `RMMetropolis.adapt`. -/
noncomputable def RM.adapt (rm : RM π) (s : State σ) (e : Extra K π) : State σ × Extra K π :=
  let param := rm.get e.params
  let upd := if rm.logUpdate then logRobbinsMonroUpdate else robbinsMonroUpdate
  let param' := upd param (flToReal s.alpha) rm.target rm.monotonicity (rm.stepsizeAt e.iter)
  (s, { e with params := rm.set e.params param' })

/-- metropolis.py 118-136, `RMMetropolis.correct` around a `super_correction`. -/
noncomputable def RM.correct (rm : RM π) (superCorrection : Correction K σ π) : Correction K σ π :=
  fun smp rs re ps pe =>
    let c := superCorrection smp rs re ps pe
    let active : Bool := match rm.adaptCutOff with
      | none => true
      | some k => decide (c.2.iter ≤ k)
    let a := if active then rm.adapt c.1 c.2 else c
    ({ a.1 with tuned := rm.get a.2.params }, a.2)

end Mocat.Mcmc
