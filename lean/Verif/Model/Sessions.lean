import Verif.Model.Startup
import Mathlib.Logic.Function.Basic
import Mathlib.Data.Real.Basic
/-!
# Programs that call `run` several times: sample.py 46-148

`run` works on the objects it is given. Here objects are numbered, and a session is a list of calls of `run`, each naming
the sampler object and the extra object (if any) it is given. Scenarios, states and keys play no part.
-/
namespace Mocat.Sessions
open Mocat.Startup

variable {V : Type*}

/-- What the caller holds: sampler objects, and extra objects by their `parameters` (`none`: no such attribute). -/
structure World (V : Type*) where
  sampler : ℕ → SamplerObj V
  extra : ℕ → Option (Dict V)

/-- One call `run(scenario, sampler, n, key, initial_extra=extra, **kwargs)`; `extra = none` is the default `None`. -/
structure RunCall (V : Type*) where
  sampler : ℕ
  extra : Option ℕ
  kwargs : List (String × Option V)

/-- The chain returned, as far as parameters go: `used` are the parameters its loop starts from; `summary.parameters` is a
reference to the parameters of the sampler object (sample.py 100-101), so only the number of that object is kept. -/
structure Chain (V : Type*) where
  sampler : ℕ
  used : Dict V

/-- sample.py 110-148, one call. `startup` changes the sampler object in place (52-56) and fills the parameters of the
extra object in place (67-71); with no extra a new object is made (123-124) that nobody else holds. Not modelled: other
attributes of the extra, and corrections that write a stepsize into its parameters (metropolis.py 91-103). -/
def exec (w : World V) (c : RunCall V) : World V × Chain V :=
  let r := startup (w.sampler c.sampler) (c.extra.bind w.extra) c.kwargs
  ({ sampler := Function.update w.sampler c.sampler r.1,
     extra := match c.extra with
       | none => w.extra
       | some j => Function.update w.extra j (some r.2) },
   { sampler := c.sampler, used := r.2 })

/-- The world after a session. -/
def after (w : World V) (cs : List (RunCall V)) : World V := cs.foldl (fun w c => (exec w c).1) w

/-- The chain returned by a call made after a session. -/
def chainOf (w : World V) (pre : List (RunCall V)) (c : RunCall V) : Chain V := (exec (after w pre) c).2

/-- sample.py 90-107, `chain.summary.parameters` read in world `w`. -/
def summaryParams (w : World V) (ch : Chain V) : Dict V := (w.sampler ch.sampler).params

/-! ## State objects: the start-up of mcmc samplers -/

/-- A scenario as start-up code sees it, evaluations taken to be free of randomness. -/
structure Target (X G : Type*) where
  prior : X → ℝ
  gradPrior : X → G
  lik : X → ℝ
  gradLik : X → G
  temperature : ℝ
  dim : ℕ

/-- A state object: its value and whichever evaluations it has as attributes. -/
structure StateObj (X G : Type*) where
  value : X
  potential : Option ℝ := none
  gradPotential : Option G := none
  prior : Option ℝ := none
  gradPrior : Option G := none
  lik : Option ℝ := none
  gradLik : Option G := none

variable {X G : Type*} [Add G] [SMul ℝ G]

/-- standard_mcmc.py 31-41, `RandomWalk.startup` (what it does to the state object; `scenario.potential` is prior +
temperature * likelihood, core.py 190-194). -/
def rwStart (sc : Target X G) (s : StateObj X G) : StateObj X G :=
  { s with potential := some (sc.prior s.value + sc.temperature * sc.lik s.value) }

/-- standard_mcmc.py 86-105, `Underdamped.startup`; momenta left out. -/
def underdampedStart (sc : Target X G) (s : StateObj X G) : StateObj X G :=
  { s with
    prior := some (sc.prior s.value), gradPrior := some (sc.gradPrior s.value)
    lik := some (sc.lik s.value), gradLik := some (sc.gradLik s.value)
    potential := some (sc.prior s.value + sc.temperature * sc.lik s.value)
    gradPotential := some (sc.gradPrior s.value + sc.temperature • sc.gradLik s.value) }

/-- qn_underdamped.py 48-67, `QNUnderdamped.startup`: a pair of evaluations is made only if one of the pair is missing;
momenta and memory left out. -/
def qnStart (sc : Target X G) (s : StateObj X G) : StateObj X G :=
  let p : ℝ × G := match s.prior, s.gradPrior with
    | some a, some b => (a, b)
    | _, _ => (sc.prior s.value, sc.gradPrior s.value)
  let l : ℝ × G := match s.lik, s.gradLik with
    | some a, some b => (a, b)
    | _, _ => (sc.lik s.value, sc.gradLik s.value)
  { s with
    prior := some p.1, gradPrior := some p.2, lik := some l.1, gradLik := some l.2
    potential := some (p.1 + sc.temperature * l.1)
    gradPotential := some (p.2 + sc.temperature • l.2) }

/-- Which sampler starts from the state. -/
inductive Kind | randomWalk | underdamped | qn
  deriving DecidableEq

/-- Start-up of the sampler on the state object, in place (the chain's first entry is a copy of the object, sample.py 139). -/
def start : Kind → Target X G → StateObj X G → StateObj X G
  | .randomWalk => rwStart
  | .underdamped => underdampedStart
  | .qn => qnStart

/-- What a program does with a state object between runs. -/
inductive Event (X G : Type*)
  | run (k : Kind) (sc : Target X G)
  | setValue (x : X)

/-- One event. -/
def handle (s : StateObj X G) : Event X G → StateObj X G
  | .run k sc => start k sc s
  | .setValue x => { s with value := x }

/-- The state object after a program. -/
def history (s : StateObj X G) (es : List (Event X G)) : StateObj X G := es.foldl handle s

end Mocat.Sessions
