import Verif.Model.Mcmc
/-!
# Model of `mocat/src/mcmc/metropolis.py` 18-31 (`mh_acceptance_probability`)
-/
namespace Mocat.Mcmc
open Mocat

/-- metropolis.py 18-31. `potential` reads `state.potential`; `proposalPotential a b` is
`sampler.proposal_potential(scenario, a, extra_a, b, extra_b)`, minus the log density of proposing `b` from
`a` (the name is not defined by `MCMCSampler`, whose hook is called `forward_potential`; a sampler that uses this
function has to define it). Extras are part of the points `P`. -/
noncomputable def mhAcceptance {P : Type*} (potential : P → Fl) (proposalPotential : P → P → Fl)
    (reject proposed : P) : Fl :=
  let preMinAlpha := Fl.exp (Fl.add (Fl.sub (Fl.add (Fl.neg (potential proposed)) (potential reject))
    (proposalPotential proposed reject)) (proposalPotential reject proposed))
  Fl.minimum (Fl.fin 1) preMinAlpha

end Mocat.Mcmc
