import Verif.Model.Startup
import Verif.Model.StandardMcmc
import Mathlib.Logic.Function.Basic
/-!
# Corrections of MCMC samplers across runs: mcmc/sampler.py 30-62, 114-183, metropolis.py 75-115;
and which copy of a parameter the updates read: standard_mcmc.py 129, metropolis.py 100-108
-/
namespace Mocat.Corrections
open Mocat.Startup

/-- The classes of corrections (mcmc/sampler.py 162, metropolis.py 35, 73). -/
inductive Cls | uncorrected | metropolis | rm
  deriving DecidableEq

/-- Values attributes of corrections can have: numbers, `jnp.inf`, booleans, the two update rules of metropolis.py 149-158,
a correction (`super_correction`), the tuning of a sampler (by the number of the sampler). -/
inductive Val
  | num (x : ℝ)
  | inf
  | bool (b : Bool)
  | logRule
  | plainRule
  | super
  | tuningOf (sampler : ℕ)

/-- A correction object. -/
structure Obj where
  cls : Cls
  attrs : Dict Val

/-- metropolis.py 75-89, `RMMetropolis()`, and `Uncorrected()`, `Metropolis()` (mcmc/sampler.py 116-117: no attributes). -/
noncomputable def newObj : Cls → Obj
  | .rm => ⟨.rm, [("super_correction", some .super), ("adapt_cut_off", some .inf), ("rm_stepsize_scale", some (.num 1)),
      ("rm_stepsize_neg_exponent", some (.num (2 / 3))), ("log_update", some (.bool true)),
      ("_param_update", some .logRule), ("tuning", none)]⟩
  | c => ⟨c, []⟩

/-- Names every correction has through its class (double underscores left out). -/
def classAttrs : Cls → List String
  | .rm => ["startup", "correct", "clean_chain", "adapt", "robbins_monro_update", "log_robbins_monro_update"]
  | _ => ["startup", "correct", "clean_chain"]

/-- `hasattr(correction, k)` -/
def Obj.hasattr (o : Obj) (k : String) : Bool := (Dict.get o.attrs k).isSome || (classAttrs o.cls).contains k

/-- What a sampler's attribute `correction`, or the keyword of that name, can be: `None`, a class, an object (by its number),
anything else. -/
inductive Arg
  | none
  | cls (c : Cls)
  | obj (i : ℕ)
  | other

/-- What the program holds: the attribute `correction` of each sampler, and all correction objects made so far. -/
structure World where
  correction : ℕ → Arg
  objs : List Obj

/-- One call `run(scenario, sampler, n, key, correction=..., **kwargs)`. -/
structure RunCall where
  sampler : ℕ
  correction : Option Arg
  kwargs : List (String × Option Val)

/-- mcmc/sampler.py 174-183, `check_correction`; `none`: TypeError. -/
noncomputable def check (objs : List Obj) : Arg → Option (List Obj × ℕ)
  | .none => some (objs ++ [newObj .uncorrected], objs.length)
  | .cls c => some (objs ++ [newObj c], objs.length)
  | .obj j => some (objs, j)
  | .other => none

/-- mcmc/sampler.py 129-133, the keyword loop of `Correction.startup`. -/
def setKwarg (o : Obj) (kv : String × Option Val) : Obj :=
  if o.hasattr kv.1 then { o with attrs := Dict.set o.attrs kv.1 kv.2 } else o

/-- `log_update` read as a truth value (values other than booleans are not considered). -/
def truthy : Option (Option Val) → Bool
  | some (some (.bool b)) => b
  | _ => false

/-- metropolis.py 91-115, `RMMetropolis.startup` on the correction object itself (the inner correction has no attributes to
set), and `Correction.startup` for the others. -/
def startupObj (sampler : ℕ) (kwargs : List (String × Option Val)) (o : Obj) : Obj :=
  let o := kwargs.foldl setKwarg o
  match o.cls with
  | .rm =>
    let a := Dict.set o.attrs "tuning" (some (.tuningOf sampler))
    { o with attrs := Dict.set a "_param_update" (some (if truthy (Dict.get a "log_update") then .logRule else .plainRule)) }
  | _ => o

/-- mcmc/sampler.py 30-62, `MCMCSampler.startup`, as far as corrections go: the world after it, and the number of the correction
object the run uses (`none`: TypeError). The keyword is stored on the sampler before it is checked. -/
noncomputable def exec (w : World) (c : RunCall) : World × Option ℕ :=
  let arg := c.correction.getD (w.correction c.sampler)
  match check w.objs arg with
  | none => (⟨Function.update w.correction c.sampler arg, w.objs⟩, none)
  | some (objs, j) => (⟨Function.update w.correction c.sampler (.obj j), objs.modify j (startupObj c.sampler c.kwargs)⟩, some j)

/-- The world after a session. -/
noncomputable def after (w : World) (cs : List RunCall) : World := cs.foldl (fun w c => (exec w c).1) w

/-! ## Parameters as the updates read them -/

/-- Values of parameters of samplers. -/
inductive PVal
  | num (x : ℝ)
  | inf
  | nat (n : ℕ)

/-- A parameter read as a number, a friction (`jnp.inf` is `none`) or a count. A missing or unsuitable value, on which Python
would raise, is read as 0. -/
def realOf (d : Dict PVal) (k : String) : ℝ :=
  match Dict.get d k with
  | some (some (.num x)) => x
  | _ => 0

/-- See `realOf`. -/
def frictionOf (d : Dict PVal) (k : String) : Option ℝ :=
  match Dict.get d k with
  | some (some (.num x)) => some x
  | some (some .inf) => none
  | _ => some 0

/-- See `realOf`. -/
def natOf (d : Dict PVal) (k : String) : ℕ :=
  match Dict.get d k with
  | some (some (.nat n)) => n
  | _ => 0

variable {K : Type*} {d : ℕ}

/-- `run` with `Underdamped` (sample.py 110-148, standard_mcmc.py 72-153) from a start state: stepsize and friction are read from
`extra.parameters` (114-115, 136), `leapfrog_steps` from `sampler.parameters` (129). -/
noncomputable def udRun (split : K → K × K) (splitN : K → ℕ → K × List K) (normal : K → Fin d → ℝ) (prior lik : Mcmc.ValGrad K d)
    (temperature : ℝ) (corr : Mcmc.Correction K (Mcmc.LfState d) Mcmc.UDParams) (n : ℤ) (s0 : Mcmc.State (Mcmc.LfState d)) (key : K)
    (s : SamplerObj PVal) (extra : Option (Dict PVal)) (kwargs : List (String × Option PVal)) : List (Mcmc.State (Mcmc.LfState d)) :=
  let r := startup s extra kwargs
  Mcmc.runFrom (Mcmc.underdamped split splitN normal prior lik temperature (natOf r.1.params "leapfrog_steps")) corr n s0
    ⟨key, 0, ⟨realOf r.2 "stepsize", frictionOf r.2 "friction"⟩⟩

/-- metropolis.py 99-106: `extra.parameters` after `RMMetropolis.startup` (following `Sampler.startup`) for a tuned parameter `k`:
replaced by `2.38 ** 2 / dim` if the parameter of the *sampler* is `None`. -/
noncomputable def rmStart (s : SamplerObj ℝ) (extra : Option (Dict ℝ)) (kwargs : List (String × Option ℝ)) (k : String) (dim : ℕ) :
    Dict ℝ :=
  let r := startup s extra kwargs
  if isNone r.1.params k then Dict.set r.2 k (some (2.38 ^ 2 / dim)) else r.2

end Mocat.Corrections
