import Verif.Base.Fl
import Verif.Model.Run
/-!
# Model of `mocat/src/sample.py`, `mocat/src/mcmc/sampler.py`, `mocat/src/mcmc/metropolis.py`
-/
namespace Mocat.Mcmc

/-- The `extra` cdict of an MCMC run: `random_key`, `iter` and the attributes of `parameters`
(`π` is arbitrary). mcmc/sampler.py 92-111, sample.py 62-71. -/
structure Extra (K π : Type*) where
  key : K
  iter : ℕ
  params : π

/-- The `state` cdict of an MCMC run: the attribute `alpha` added by `Metropolis` (mcmc/metropolis.py
45, 68), the attribute named `tuning.parameter` written by `RMMetropolis` (metropolis.py 107, 135) and all
other attributes (`σ` is arbitrary). Samplers copy states, so proposals carry both along. -/
structure State (σ : Type*) where
  payload : σ
  alpha : Fl
  tuned : ℝ

variable {K σ π : Type*}

/-- The three hooks of an MCMC sampler. mcmc/sampler.py 68-74 (`always`; the default returns its
arguments), 74-79 (`proposal`), 86-90 (`acceptance_probability`). The scenario is a closure variable. -/
structure Sampler (K σ π : Type*) where
  always : State σ → Extra K π → State σ × Extra K π
  proposal : State σ → Extra K π → State σ × Extra K π
  acceptance : State σ → Extra K π → State σ → Extra K π → Fl

/-- A correction: mcmc/sampler.py 135-142 (`Correction.correct`). -/
abbrev Correction (K σ π : Type*) :=
  Sampler K σ π → State σ → Extra K π → State σ → Extra K π → State σ × Extra K π

/-- mcmc/sampler.py 162-171, `Uncorrected.correct`. -/
def uncorrected : Correction K σ π := fun _ _ _ ps pe => (ps, pe)

/-- mcmc/metropolis.py 48-70, `Metropolis.correct`. `split` is `random.split(key)` (two keys),
`uniform` is `random.uniform(subkey)`. -/
noncomputable def metropolis (split : K → K × K) (uniform : K → ℝ) : Correction K σ π :=
  fun smp rejState rejExtra propState propExtra =>
    let alpha0 := smp.acceptance rejState rejExtra propState propExtra
    let alpha := if alpha0.isNan then Fl.fin 0 else alpha0
    let ks := split propExtra.key
    let u := uniform ks.2
    open Classical in
    let new := if Fl.lt (Fl.fin u) alpha then (propState, propExtra) else (rejState, rejExtra)
    ({ new.1 with alpha := alpha }, { new.2 with key := ks.1 })

/-- mcmc/sampler.py 92-111, `MCMCSampler.update`. -/
def update (smp : Sampler K σ π) (corr : Correction K σ π) (s : State σ) (e : Extra K π) :
    State σ × Extra K π :=
  let e1 := { e with iter := e.iter + 1 }
  let rej := smp.always s e1
  let prop := smp.proposal rej.1 rej.2
  corr smp rej.1 rej.2 prop.1 prop.2

/-- sample.py 80-83, `Sampler.termination_criterion`: `extra.iter >= self.max_iter`. -/
def terminated (maxIter : ℤ) (e : Extra K π) : Bool := decide (maxIter ≤ (e.iter : ℤ))

/-- sample.py 110-148, `run`, after start-up, for an MCMC sampler: mcmc/sampler.py 47 sets
`max_iter = n - 1`; `clean_chain` is the identity (mcmc/sampler.py 63-66, 155-159). -/
def runFrom (smp : Sampler K σ π) (corr : Correction K σ π) (n : ℤ) (s0 : State σ) (e0 : Extra K π) :
    List (State σ) :=
  Run.run (update smp corr) (fun _ e => terminated (n - 1) e) (n - 1) (s0, e0)

end Mocat.Mcmc
