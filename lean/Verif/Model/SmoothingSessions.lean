import Verif.Model.OnlineSessions
import Verif.Model.Backward
/-!
# Programs that filter and smooth repeatedly with one model object

A program (a parameter-estimation loop, say) holds one model object and one filter object. It assigns attributes of the model and calls `run_particle_filter_for_marginals`, `backward_simulation` and
`forward_filtering_backward_simulation` in any order, with data, sizes and keys of its own.

`backward_simulation_full` and `backward_simulation_rejection` (backward.py 174, 214) are compiled once per model object, number of trajectories and shape of the particles; the methods of the filter (filtering.py 64, 123;
nonlinear_gaussian.py 264, 325) once per filter object, model object and number of particles. Compiled code contains the attributes the model had then. The step of the filter is called inside `scan` (filtering.py 313), the
others directly. Versions of jax differ in what they do with a compiled function called while another one is traced: they share its code (`nested = true`) or expand it anew (`nested = false`). Observations, times and keys have
the same shapes and types in all calls.
-/
namespace Mocat.SmoothingSessions
open Mocat Mocat.Filtering Mocat.EnsembleFilter Mocat.OnlineSessions Mocat.Backward

variable {Θ G X K : Type} {dy : ℕ}

/-- Library routines for every size; `split2` is `random.split(key)`, `splitT` is `random.split(key, T)`. -/
structure Runtime (K : Type) where
  env : (n : ℕ) → Env K n
  rand : (m n : ℕ) → NeZero n → Rand K m n
  split2 : K → K × K
  splitT : K → ℕ → K

/-- The rejection parameters of backward simulation (backward.py 243-249). -/
structure Rej where
  maxRej : ℤ
  initBound : ℝ
  inflation : ℝ

/-- What compiled code of backward simulation is kept for: rejection or not, number of times, of particles and of trajectories. -/
structure BackSig where
  rejection : Bool
  T : ℕ
  n : ℕ
  m : ℕ
  deriving DecidableEq

/-- The model object and the attributes contained in compiled code: of the first draw and of the step of the filter by number of particles, of backward simulation by signature. -/
structure Sess (Θ : Type) where
  model : Θ
  initCode : ℕ → Option Θ
  propCode : ℕ → Option Θ
  backCode : BackSig → Option Θ

/-- A new model and a new filter. -/
def Sess.new (θ : Θ) : Sess Θ := ⟨θ, fun _ => none, fun _ => none, fun _ => none⟩

/-- What a program does. Data are a first observation with its time and further ones. -/
inductive Event (Θ X K : Type) (dy : ℕ)
  /-- `model.<attribute> = ...` -/
  | assign (θ : Θ)
  /-- `run_particle_filter_for_marginals(model, filter, y, t, key, n, ess_threshold=thr)` -/
  | marginals (n : ℕ) (thr : ℝ) (o : Obs dy × ℝ) (os : List (Obs dy × ℝ)) (key : K)
  /-- `backward_simulation(model, particles, key, m, ...)` with particles of `T` times -/
  | backward (T n m : ℕ) (hn : NeZero n) (hm : NeZero m) (p : Marginals X n) (rej : Rej) (key : K)
  /-- `forward_filtering_backward_simulation(model, filter, y, t, m, key, n, thr, ...)` -/
  | ffbsi (n m : ℕ) (hn : NeZero n) (hm : NeZero m) (thr : ℝ) (o : Obs dy × ℝ) (os : List (Obs dy × ℝ)) (rej : Rej) (key : K)

/-- What a call returns. -/
inductive Out (X : Type) (dy : ℕ)
  | particles (n : ℕ) (p : Particles X n dy)
  | trajectories (m : ℕ) (value : List (Fin m → X)) (evals : List ℕ)

/-- A filter whose first draw runs on the attributes `θi` and whose step on `θp`. -/
def mixed (C : FilterClass Θ G X K dy) (θi θp : Θ) (n : ℕ) : VecFilter X K dy n :=
  { initial := (C.vec (C.startup θi) θi n).initial, propose := (C.vec (C.startup θp) θp n).propose }

/-- filtering.py 255-324 with 173-193 (`startup` at 179): the session afterwards and the particles. The code of the first draw is read only if that method is compiled, the code of the step only if nested compiled functions
share their code. -/
noncomputable def filterCall (nested : Bool) (C : FilterClass Θ G X K dy) (R : Runtime K) (s : Sess Θ) (n : ℕ) (thr : ℝ) (o : Obs dy × ℝ) (os : List (Obs dy × ℝ)) (key : K) :
    Sess Θ × Option (Particles X n dy) :=
  let θi := if C.jitInitial then (s.initCode n).getD s.model else s.model
  let θp := if nested then (s.propCode n).getD s.model else s.model
  ({ s with initCode := Function.update s.initCode n (some ((s.initCode n).getD s.model)), propCode := Function.update s.propCode n (some ((s.propCode n).getD s.model)) },
   run (R.env n) (mixed C θi θp n) thr (o.1 :: os.map Prod.fst) (o.2 :: os.map Prod.snd) key)

/-- backward.py 243-270: the session afterwards and the trajectories. -/
noncomputable def backCall (trans : Θ → X → ℝ → X → ℝ → ℝ) (R : Runtime K) (s : Sess Θ) (T n m : ℕ) (hn : NeZero n) [NeZero m] (p : Marginals X n) (rej : Rej) (key : K) : Sess Θ × Out X dy :=
  let sig : BackSig := ⟨decide (0 < rej.maxRej), T, n, m⟩
  let θ := (s.backCode sig).getD s.model
  let r := backwardSimulation (R.rand m n hn) (trans θ) p T rej.maxRej rej.initBound rej.inflation (R.splitT key)
  ({ s with backCode := Function.update s.backCode sig (some θ) }, .trajectories m r.1 r.2)

/-- One action and what it returns. `ffbsi`: backward.py 273-315. -/
noncomputable def step (nested : Bool) (C : FilterClass Θ G X K dy) (trans : Θ → X → ℝ → X → ℝ → ℝ) (R : Runtime K) (s : Sess Θ) : Event Θ X K dy → Sess Θ × Option (Out X dy)
  | .assign θ => ({ s with model := θ }, none)
  | .marginals n thr o os key =>
    let r := filterCall nested C R s n thr o os key
    (r.1, r.2.map (Out.particles n))
  | .backward T n m hn _ p rej key =>
    let r := backCall trans R s T n m hn p rej key
    (r.1, some r.2)
  | .ffbsi n m hn _ thr o os rej key =>
    let r := filterCall nested C R s n thr o os (R.split2 key).1
    match r.2 with
    | none => (r.1, none)
    | some p =>
      match marginalsOf p with
      | none => (r.1, none)
      | some mp =>
        let b := backCall trans R r.1 p.value.length n m hn mp rej (R.split2 key).2
        (b.1, some b.2)

/-- The session after a list of actions. -/
noncomputable def after (nested : Bool) (C : FilterClass Θ G X K dy) (trans : Θ → X → ℝ → X → ℝ → ℝ) (R : Runtime K) : Sess Θ → List (Event Θ X K dy) → Sess Θ
  | s, [] => s
  | s, ev :: h => after nested C trans R (step nested C trans R s ev).1 h

/-- What a further call returns. -/
noncomputable def result (nested : Bool) (C : FilterClass Θ G X K dy) (trans : Θ → X → ℝ → X → ℝ → ℝ) (R : Runtime K) (θ : Θ) (h : List (Event Θ X K dy)) (ev : Event Θ X K dy) :
    Option (Out X dy) := (step nested C trans R (after nested C trans R (Sess.new θ) h) ev).2

end Mocat.SmoothingSessions
