import Verif.Model.Svgd
import Mathlib.Logic.Function.Basic
/-!
# SVGD objects and the kernel parameters they share (transport/svgd.py 35-114)

A cdict of kernel parameters is an object with a number; samplers and kernels refer to it. `extra.parameters` is filled with the values of
`sampler.parameters` (sample.py 67-71), not with copies, so `extra.parameters.kernel_params` is the sampler's own object.
-/
namespace Mocat.SvgdSessions
open Mocat Mocat.Svgd

/-- The attributes of a cdict of kernel parameters. -/
abbrev KParams := String → Option Fl

/-- An SVGD object, as far as kernel parameters go: the object `parameters.kernel_params`, and whether `adapt` is `adapt_bandwidth_mean`. -/
structure Sampler where
  cell : ℕ
  adapts : Bool

/-- svgd.py 59-72, `__init__`: `kernel` is the number of the parameters of a kernel given by the caller, `kernelParams` that of `kernel_params`; `fresh` is the number of the parameters of the
`Gaussian()` made if no kernel is given. -/
def construct (kernel kernelParams : Option ℕ) (fresh : ℕ) : Sampler :=
  match kernel with
  | none => ⟨kernelParams.getD fresh, true⟩
  | some k => ⟨kernelParams.getD k, false⟩

/-- svgd.py 35-39, `adapt_bandwidth_mean`, and 110-113, the default `adapt`, on the kernel parameters. -/
noncomputable def adapt {n d : ℕ} (s : Sampler) (vals : Fin n → Fin d → ℝ) (p : KParams) : KParams :=
  if s.adapts then Function.update p "bandwidth" (some (meanBandwidth vals)) else p

/-- An ensemble, of any size and dimension. -/
structure Ensemble where
  n : ℕ
  d : ℕ
  vals : Fin n → Fin d → ℝ

/-- What the caller does: assign kernel parameters of an object, or run a sampler from an ensemble. -/
inductive Event
  | assign (cell : ℕ) (name : String) (v : Option Fl)
  | run (s : Sampler) (init : Ensemble)

/-- What an event leaves in the objects. A run writes at start-up only (svgd.py 102): `adapt` there gets the caller's objects; the updates work on what `scan` passes them. -/
noncomputable def handle (h : ℕ → KParams) : Event → (ℕ → KParams)
  | .assign c name v => Function.update h c (Function.update (h c) name v)
  | .run s e => Function.update h s.cell (adapt s e.vals (h s.cell))

/-- The objects after a history. -/
noncomputable def history (h : ℕ → KParams) (es : List Event) : ℕ → KParams := es.foldl handle h

/-- The state and extra a run starts with (svgd.py 77-108), the objects being `h`. -/
noncomputable def start {K S : Type*} {n d : ℕ} (env : Env K KParams S n d) (h : ℕ → KParams) (s : Sampler) (vals : Fin n → Fin d → ℝ) (key : K) : State n d × Extra K KParams S n d :=
  startup { env with adapt := adapt s } vals key (h s.cell)

/-- The state and extra after `k` updates of that run. -/
noncomputable def after {K S : Type*} {n d : ℕ} (env : Env K KParams S n d) (h : ℕ → KParams) (s : Sampler) (batchsize : ℕ) (vals : Fin n → Fin d → ℝ) (key : K) (k : ℕ) :
    State n d × Extra K KParams S n d :=
  (fun c => update { env with adapt := adapt s } batchsize c.1 c.2)^[k] (start env h s vals key)

end Mocat.SvgdSessions
