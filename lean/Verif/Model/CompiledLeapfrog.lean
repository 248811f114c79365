import Verif.Model.StandardMcmc
/-!
# Sessions with a scenario whose attributes are assigned: utils.py 108-156 and standard_mcmc.py 72-153 with compiled code

`_leapfrog` (utils.py 108) is compiled once for each pair of function objects `prior_potential_and_grad`, `likelihood_potential_and_grad` and each shape of the other arguments. The compiled code contains the attributes of the
scenario that these functions read, as they were at that call. The function objects are those made by the last `init_grad` (core.py 204-209). Assigning `mean` or `covariance` of a `Gaussian` (scenarios/toy_examples.py
46-51) changes attributes and makes no new function objects.

Here one scenario object is used, and the shapes are given by the number of leapfrog steps (all other arguments have the same shapes and types in all calls). `nested` tells whether a compiled function called while another
one is being compiled (`leapfrog` in a step of `run`) shares this code, as in current versions of JAX, or is expanded anew, as in older ones.
-/
namespace Mocat.CompiledLeapfrog
open Mocat Mocat.Mcmc

variable {Θ K : Type} {d : ℕ}

/-- A scenario class with attributes `Θ` and its own `__setattr__`: what `prior_potential_and_grad` and `likelihood_potential_and_grad` compute when the attributes are `θ`. -/
structure Class (Θ K : Type) (d : ℕ) where
  prior : Θ → ValGrad K d
  lik : Θ → ValGrad K d

/-- Attributes of a `Gaussian` with a vector of variances (toy_examples.py 23-37; `reset_covariance`, utils.py). -/
structure GaussianAttrs (d : ℕ) where
  mean : Fin d → ℝ
  covariance : Fin d → ℝ

/-- toy_examples.py 39-44 with `precision_sqrt = 1 / sqrt(covariance)`: `Gaussian`; no prior (core.py 186-188). -/
noncomputable def gaussianClass : Class (GaussianAttrs d) K d where
  prior _ _ _ := (0, 0)
  lik θ x _ := (0.5 * ∑ i, ((x i - θ.mean i) * (1 / Real.sqrt (θ.covariance i))) ^ 2,
    fun i => (x i - θ.mean i) * (1 / Real.sqrt (θ.covariance i)) ^ 2)

/-- The scenario object: attributes, how often `init_grad` has run (which tells the function objects apart), and the attributes contained in the compiled code by function objects and number of steps. -/
structure Obj (Θ : Type) where
  attrs : Θ
  version : ℕ
  code : ℕ → ℕ → Option Θ

/-- A new object: `init_grad` has run once (core.py 196-197). -/
def Obj.new (θ : Θ) : Obj Θ := ⟨θ, 1, fun _ _ => none⟩

/-- Library routines for the samplers. -/
structure Env (K : Type) (d : ℕ) where
  split : K → K × K
  split3 : K → K × K × K
  splitN : K → ℕ → K × List K
  normal : K → Fin d → ℝ

/-- What a program does. `temp` is `scenario.temperature` at the call; it is an argument of `leapfrog`, not part of the code. -/
inductive Event (Θ K : Type) (d : ℕ)
  /-- `scenario.<attribute> = ...` -/
  | assign (θ : Θ)
  /-- `scenario.init_grad()` -/
  | initGrad
  /-- `leapfrog(scenario.prior_potential_and_grad, scenario.likelihood_potential_and_grad, state, stepsize, keys, temp)` -/
  | leapfrog (s : LfState d) (stepsize : ℝ) (keys : List K) (temp : ℝ)
  /-- `scenario.potential_and_grad(x, key)` -/
  | evaluate (x : Fin d → ℝ) (key : K) (temp : ℝ)
  /-- `run(scenario, Underdamped(stepsize, steps, friction), n, key, initial_state, correction)` -/
  | underdamped (value momenta : Fin d → ℝ) (par : UDParams) (steps : ℕ) (corr : Correction K (LfState d) UDParams) (n : ℤ) (key : K) (temp : ℝ)
  /-- `run(scenario, RandomWalk(stepsize), n, key, initial_state, correction)` -/
  | randomWalk (value : Fin d → ℝ) (stepsize : ℝ) (corr : Correction K (RWPayload d) ℝ) (n : ℤ) (key : K) (temp : ℝ)

/-- What is returned. -/
inductive Out (d : ℕ)
  | chain (c : LfChain d)
  | valGrad (v : ℝ) (g : Fin d → ℝ)
  | states (l : List (State (LfState d)))
  | walk (l : List (State (RWPayload d)))

/-- core.py 215-223: value and gradient at a temperature. -/
def tempered (prior lik : ValGrad K d) (temp : ℝ) (x : Fin d → ℝ) (key : K) : ℝ × (Fin d → ℝ) :=
  ((prior x key).1 + temp * (lik x key).1, fun i => (prior x key).2 i + temp * (lik x key).2 i)

/-- standard_mcmc.py 86-105, `Underdamped.startup`, from a state with given value and momenta. Both evaluations use the second key (line 98). -/
def udStart (env : Env K d) (prior lik : ValGrad K d) (temp : ℝ) (value momenta : Fin d → ℝ) (key : K) : State (LfState d) :=
  let ks := env.split3 key
  let pr := prior value ks.2.1
  let li := lik value ks.2.1
  ⟨{ value := value, momenta := momenta, priorPotential := pr.1, gradPriorPotential := pr.2, likelihoodPotential := li.1, gradLikelihoodPotential := li.2,
     potential := pr.1 + temp * li.1, gradPotential := fun i => pr.2 i + temp * li.2 i }, .fin 1, 0⟩

/-- sample.py 110-148 with `Underdamped`: start-up with the functions `now`, leapfrog steps with the functions `lf`. -/
noncomputable def udRun (env : Env K d) (now lf : ValGrad K d × ValGrad K d) (temp : ℝ) (value momenta : Fin d → ℝ) (par : UDParams) (steps : ℕ)
    (corr : Correction K (LfState d) UDParams) (n : ℤ) (key : K) : List (State (LfState d)) :=
  runFrom (Mcmc.underdamped env.split env.splitN env.normal lf.1 lf.2 temp steps) corr n (udStart env now.1 now.2 temp value momenta key) ⟨(env.split3 key).1, 0, par⟩

/-- sample.py 110-148 with `RandomWalk` (standard_mcmc.py 14-65): potentials are evaluated by `scenario.potential` (core.py 190-192), which is not compiled separately. -/
noncomputable def rwRun (env : Env K d) (now : ValGrad K d × ValGrad K d) (temp : ℝ) (value : Fin d → ℝ) (stepsize : ℝ) (corr : Correction K (RWPayload d) ℝ) (n : ℤ) (key : K) :
    List (State (RWPayload d)) :=
  let pot := fun x k => Fl.fin (tempered now.1 now.2 temp x k).1
  runFrom (Mcmc.randomWalk env.split3 env.normal pot) corr n ⟨⟨value, pot value (env.split key).2⟩, .fin 1, 0⟩ ⟨(env.split key).1, 0, stepsize⟩

/-- The attributes in the code that a leapfrog of `steps` steps runs, and the object afterwards. -/
def Obj.compiled (o : Obj Θ) (steps : ℕ) : Θ × Obj Θ :=
  match o.code o.version steps with
  | some θ => (θ, o)
  | none => (o.attrs, { o with code := Function.update o.code o.version (Function.update (o.code o.version) steps (some o.attrs)) })

/-- One action and what it returns. -/
noncomputable def step (nested : Bool) (C : Class Θ K d) (env : Env K d) (o : Obj Θ) : Event Θ K d → Obj Θ × Option (Out d)
  | .assign θ => ({ o with attrs := θ }, none)
  | .initGrad => ({ o with version := o.version + 1 }, none)
  | .leapfrog s stepsize keys temp =>
    let r := o.compiled keys.length
    (r.2, some (.chain (Mcmc.leapfrog (C.prior r.1) (C.lik r.1) s stepsize keys temp)))
  | .evaluate x key temp =>
    let v := tempered (C.prior o.attrs) (C.lik o.attrs) temp x key
    (o, some (.valGrad v.1 v.2))
  | .underdamped value momenta par steps corr n key temp =>
    let r := if nested then o.compiled steps else (o.attrs, o)
    (r.2, some (.states (udRun env (C.prior o.attrs, C.lik o.attrs) (C.prior r.1, C.lik r.1) temp value momenta par steps corr n key)))
  | .randomWalk value stepsize corr n key temp => (o, some (.walk (rwRun env (C.prior o.attrs, C.lik o.attrs) temp value stepsize corr n key)))

/-- The object after a list of actions. -/
noncomputable def after (nested : Bool) (C : Class Θ K d) (env : Env K d) : Obj Θ → List (Event Θ K d) → Obj Θ
  | o, [] => o
  | o, ev :: h => after nested C env (step nested C env o ev).1 h

/-- What a further action returns. -/
noncomputable def result (nested : Bool) (C : Class Θ K d) (env : Env K d) (θ : Θ) (h : List (Event Θ K d)) (ev : Event Θ K d) : Option (Out d) :=
  (step nested C env (after nested C env (Obj.new θ) h) ev).2

end Mocat.CompiledLeapfrog
