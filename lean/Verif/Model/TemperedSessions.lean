import Verif.Model.Smc
/-!
# Programs that use one scenario for tempered and for MCMC runs

Model of the attribute `scenario.temperature` (core.py 149, 183-184, 194), which the tempered samplers of transport/smc.py write. No other sampler of the package
writes it.
-/
namespace Mocat.TemperedSessions
open Mocat

/-- `scenario.temperature`: a number, or (`none`) the value a traced function has left behind, which no later computation may use (jax raises
`UnexpectedTracerError`). -/
abbrev Temp := Option ℝ

/-- What a Metropolised SMC run writes to `scenario.temperature`, in order: `0.` (smc.py 162, end of `TemperedSMCSampler.startup`), the first temperature
(smc.py 279, before the inner sampler is started), the traced `ensemble_state.temperature[0]` (smc.py 223, when the loop of `run`, sample.py 136-139, is compiled),
the temperature of the last row of the chain (smc.py 181, `clean_chain`). `temperatures` are those of the rows of the chain; the first is the first temperature. -/
def smcWrites (temperatures : List ℝ) : List Temp :=
  [some 0, some (temperatures.headD 0), none, some (temperatures.getLastD 0)]

/-- One instruction of a program that works with one scenario. -/
inductive Instr (α : Type*)
  /-- `scenario.temperature = t` -/
  | assign (t : ℝ)
  /-- `run(scenario, sampler, ...)` with an MCMC sampler: `result t` is the chain at temperature `t` (mcmc samplers read the temperature through
  `scenario.potential`, core.py 194, or directly, mcmc/standard_mcmc.py 100, 138, mcmc/qn_underdamped.py 65, 154, 195). -/
  | mcmc (result : ℝ → α)
  /-- `run(scenario, sampler, ...)` with a Metropolised SMC sampler whose chain has the given temperatures, stopped by an exception or an interrupt after it made
  `done` of its writes (4 or more: it was not stopped). -/
  | tempered (temperatures : List ℝ) (done : ℕ)

/-- `scenario.temperature` after an instruction: the last of the writes made, if any. -/
def Instr.after {α : Type*} (t : Temp) : Instr α → Temp
  | .assign u => some u
  | .mcmc _ => t
  | .tempered temps done => ((smcWrites temps).take done).getLastD t

/-- What the MCMC runs of a program return, in order (`none`: the run raises an error). -/
def results {α : Type*} : Temp → List (Instr α) → List (Option α)
  | _, [] => []
  | t, .mcmc g :: rest => t.map g :: results t rest
  | t, i :: rest => results (i.after t) rest

/-- `scenario.temperature` after a program. -/
def temperatureAfter {α : Type*} (t : Temp) (prog : List (Instr α)) : Temp := prog.foldl Instr.after t

/-- core.py 194: `scenario.potential(x)` (`none`: raises an error). -/
def potential {X : Type*} (prior lik : X → ℝ) (t : Temp) (x : X) : Option ℝ := t.map fun t => prior x + t * lik x

end Mocat.TemperedSessions
