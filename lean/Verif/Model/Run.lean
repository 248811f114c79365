import Verif.Model.Loop
/-!
# Model of `mocat/src/sample.py` 110-148 (`run`)
-/
namespace Mocat.Run

variable {σ ε : Type*}

/-- sample.py 132-141, the part of `run` after `startup`: loop while not terminated, stack the states,
prepend the initial state (`initial_state[jnp.newaxis] + chain`). `update` is `partial(sampler.update,
scenario)`. Simplifications: a stacked cdict is the list of its rows; `clean_chain` is applied by the
callers that need it; timing and summary are not modelled. -/
def run (update : σ → ε → σ × ε) (terminated : σ → ε → Bool) (maxIter : ℤ) (init : σ × ε) : List σ :=
  init.1 :: Loop.whileLoopStacked (fun s e => !(terminated s e)) update init maxIter

end Mocat.Run
