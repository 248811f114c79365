import Verif.Base.Scan
import Verif.Model.Metrics
import Verif.Model.Ssm
/-!
# Model of `mocat/src/ssm/filtering.py`

A weighted ensemble at one time is a pair of functions on `Fin n`; arrays with a time axis are lists.
Log weights are floats (`Fl`), since a likelihood can be zero.
-/
namespace Mocat.Filtering
open Mocat Mocat.Metrics

variable {X K : Type} {n dy : ℕ}

/-- An observation: an array of shape `(d_y,)`. -/
abbrev Obs (dy : ℕ) := Fin dy → ℝ

/-- filtering.py 20-139: what a particle filter provides, for a fixed model (`ssm_scenario`): `initial_sample`, `initial_log_weight`, `proposal_sample`,
`intermediate_log_weight`. -/
structure Filter (X K : Type) (dy : ℕ) where
  initialSample : Obs dy → ℝ → K → X
  initialLogWeight : X → Obs dy → ℝ → Fl
  proposalSample : X → ℝ → Obs dy → ℝ → K → X
  intermediateLogWeight : X → ℝ → X → Obs dy → ℝ → Fl

/-- filtering.py 98-108, `ParticleFilter.intermediate_log_weight`: the generic weight for a proposal potential, for finite potentials. -/
noncomputable def genericLogWeight (m : Ssm.Model X (Obs dy) K) (proposalPotential : X → ℝ → X → Obs dy → ℝ → ℝ)
    (x : X) (t : ℝ) (x' : X) (y : Obs dy) (t' : ℝ) : ℝ :=
  -m.transitionPotential x t x' t' - m.likelihoodPotential x' y t' + proposalPotential x t x' y t'

/-- filtering.py 145-152, `BootstrapFilter.proposal_potential` -/
def bootstrapProposalPotential (m : Ssm.Model X (Obs dy) K) (x : X) (t : ℝ) (x' : X) (_y : Obs dy) (t' : ℝ) : ℝ :=
  m.transitionPotential x t x' t'

/-- filtering.py 163-170, `BootstrapFilter.intermediate_log_weight` -/
noncomputable def bootstrapLogWeight (m : Ssm.Model X (Obs dy) K) (_x : X) (_t : ℝ) (x' : X) (y : Obs dy) (t' : ℝ) : ℝ :=
  -m.likelihoodPotential x' y t'

/-- filtering.py 142-170 with 42-54, `BootstrapFilter` -/
noncomputable def bootstrap (m : Ssm.Model X (Obs dy) K) : Filter X K dy where
  initialSample _ t k := m.initialSample t k
  initialLogWeight x y t := .fin (-m.likelihoodPotential x y t)
  proposalSample x t _ t' k := m.transitionSample x t t' k
  intermediateLogWeight x t x' y t' := .fin (bootstrapLogWeight m x t x' y t')

/-- Library routines: `categorical key lw` is `random.categorical(key, lw, shape=(n,))`; `splitN m key` is `random.split(key, m)`. -/
structure Env (K : Type) (n : ℕ) where
  categorical : K → (Fin n → Fl) → Fin n → Fin n
  splitN : (m : ℕ) → K → Fin m → K

/-- The `y` record of a particles cdict: rows `(T, d_y)`, or the flat array that `jnp.append` without `axis` gives. -/
inductive YRec (dy : ℕ)
  | rows (l : List (Obs dy))
  | flat (l : List ℝ)

/-- `jnp.append(rec, y_new[newaxis])` (filtering.py 249): no axis given, so both are flattened. -/
def YRec.append : YRec dy → Obs dy → YRec dy
  | .rows l, y => .flat (l.flatMap List.ofFn ++ List.ofFn y)
  | .flat l, y => .flat (l ++ List.ofFn y)

/-- A particles cdict with time axis. -/
structure Particles (X : Type) (n dy : ℕ) where
  value : List (Fin n → X)
  logWeight : List (Fin n → Fl)
  t : List ℝ
  y : YRec dy
  ess : List Fl

/-- A particles cdict at one time. -/
structure Slice (X : Type) (n dy : ℕ) where
  value : Fin n → X
  logWeight : Fin n → Fl
  t : ℝ
  y : Obs dy
  ess : Fl

/-- filtering.py 173-193, `initiate_particles`, with an observation `y` at time `t`. -/
noncomputable def initiateParticles (env : Env K n) (f : Filter X K dy) (key : K) (y : Obs dy) (t : ℝ) : Particles X n dy :=
  let keys := env.splitN n key
  let vals := fun i => f.initialSample y t (keys i)
  let lw := fun i => f.initialLogWeight (vals i) y t
  { value := [vals], logWeight := [lw], t := [t], y := .rows [y], ess := [essLogWeight lw] }

/-- `a[..., -1 := f a[-1]]`: replace the last element. -/
def mapLast {α : Type*} (g : α → α) : List α → List α
  | [] => []
  | [a] => [g a]
  | a :: b :: l => a :: mapLast g (b :: l)

/-- filtering.py 202-217, `resample_particles` on particles with a time axis (lines 210-216); `lw` is the latest log weight. -/
def resampleParticles (env : Env K n) (p : Particles X n dy) (lw : Fin n → Fl) (key : K) (full : Bool) : Particles X n dy :=
  let anc := env.categorical key lw
  { p with
    value := if full then p.value.map (fun v => v ∘ anc) else mapLast (fun v => v ∘ anc) p.value
    logWeight := mapLast (fun _ => fun _ => Fl.fin 0) p.logWeight }

/-- filtering.py 220-252, `propagate_particle_filter`. `none`: no time slices. -/
noncomputable def propagate (env : Env K n) (f : Filter X K dy) (thr : ℝ) (full : Bool) (p : Particles X n dy) (yNew : Obs dy) (tNew : ℝ) (key : K) :
    Option (Particles X n dy) := do
  let essPrevious ← p.ess.getLast?
  let lwLast ← p.logWeight.getLast?
  let out := open Classical in if Fl.lt essPrevious (.fin (thr * n)) then resampleParticles env p lwLast key full else p
  let xPrev ← out.value.getLast?
  let lwPrev ← out.logWeight.getLast?
  let tPrev ← out.t.getLast?
  let keys := env.splitN n key
  let xNew := fun i => f.proposalSample (xPrev i) tPrev yNew tNew (keys i)
  let lwNew := fun i => Fl.add (lwPrev i) (f.intermediateLogWeight (xPrev i) tPrev (xNew i) yNew tNew)
  some { value := out.value ++ [xNew], logWeight := out.logWeight ++ [lwNew], t := out.t ++ [tNew], y := out.y.append yNew,
         ess := out.ess ++ [essLogWeight lwNew] }

/-- filtering.py 280-311, `particle_filter_body`. -/
noncomputable def body (env : Env K n) (f : Filter X K dy) (thr : ℝ) (prev : Slice X n dy) (o : Obs dy × ℝ × K) : Slice X n dy :=
  let (y, t, key) := o
  let res := Fl.lt prev.ess (.fin (thr * n))
  open Classical in
  let xRes := if res then prev.value ∘ env.categorical key prev.logWeight else prev.value
  let lwRes := if res then fun _ => Fl.fin 0 else prev.logWeight
  let keys := env.splitN n key
  let xNew := fun i => f.proposalSample (xRes i) prev.t y t (keys i)
  let lwNew := fun i => Fl.add (lwRes i) (f.intermediateLogWeight (xRes i) prev.t (xNew i) y t)
  { value := xNew, logWeight := lwNew, t := t, y := y, ess := essLogWeight lwNew }

/-- `initial_sample[-1]` (filtering.py 314; core.py 46-56): the last entry of every array. -/
def latest (p : Particles X n dy) : Option (Slice X n dy) := do
  let value ← p.value.getLast?
  let logWeight ← p.logWeight.getLast?
  let t ← p.t.getLast?
  let y ← (match p.y with | .rows l => l.getLast? | .flat _ => none)
  let ess ← p.ess.getLast?
  some { value, logWeight, t, y, ess }

/-- filtering.py 313-324: scan over the observations (with their times and keys), append to the initial sample. A flat `y` record of the initial sample has the wrong
number of dimensions for `jnp.append(..., axis=0)`: an error, `none`. -/
noncomputable def runWithKeys (env : Env K n) (f : Filter X K dy) (thr : ℝ) (init : Particles X n dy) (obs : List (Obs dy × ℝ × K)) :
    Option (Particles X n dy) := do
  let s0 ← latest init
  let slices := (scan (fun s o => (body env f thr s o, body env f thr s o)) s0 obs).2
  match init.y with
  | .flat _ => none
  | .rows l =>
    some { value := init.value ++ slices.map Slice.value, logWeight := init.logWeight ++ slices.map Slice.logWeight,
           t := init.t ++ slices.map Slice.t, y := .rows (l ++ slices.map Slice.y), ess := init.ess ++ slices.map Slice.ess }

/-- filtering.py 277-278: the observations with their times and one key each. -/
def withKeys (env : Env K n) (ys : List (Obs dy)) (ts : List ℝ) (key : K) : List (Obs dy × ℝ × K) :=
  ys.zip (ts.zip (List.ofFn (env.splitN ys.length key)))

/-- filtering.py 255-324, `run_particle_filter_for_marginals` with an initial sample. -/
noncomputable def runFrom (env : Env K n) (f : Filter X K dy) (thr : ℝ) (init : Particles X n dy) (ys : List (Obs dy)) (ts : List ℝ) (key : K) :
    Option (Particles X n dy) :=
  runWithKeys env f thr init (withKeys env ys ts key)

/-- filtering.py 266-272: without an initial sample the first observation starts the filter. -/
noncomputable def run (env : Env K n) (f : Filter X K dy) (thr : ℝ) (ys : List (Obs dy)) (ts : List ℝ) (key : K) : Option (Particles X n dy) :=
  match ys, ts with
  | y0 :: ys, t0 :: ts =>
    runFrom env f thr (initiateParticles env f (env.splitN 2 key 1) y0 t0) ys ts (env.splitN 2 key 0)
  | _, _ => none

/-- The propagation of a filter fed one observation at a time. -/
noncomputable def online (env : Env K n) (f : Filter X K dy) (thr : ℝ) (full : Bool) (p : Particles X n dy) :
    List (Obs dy × ℝ × K) → Option (Particles X n dy)
  | [] => some p
  | (y, t, k) :: os => (propagate env f thr full p y t k).bind fun p' => online env f thr full p' os

/-! ## Keys -/

/-- What a key is used for in a particle filter. -/
inductive Use
  | split
  | categorical
  | initialSample
  | proposalSample
  deriving DecidableEq

/-- Uses of keys in one step with key `k` (filtering.py 288-301; the same in `propagate_particle_filter`, 230-243): the categorical draw if the step resamples, the split, one proposal per particle. -/
def stepUses (n : ℕ) (resample : Bool) (k : Keys.Key) : List (Use × Keys.Key) :=
  (if resample then [(.categorical, k)] else []) ++ [(.split, k)] ++ (List.range n).map fun i => (.proposalSample, i :: k)

/-- Uses of keys from slice `s` on. -/
noncomputable def stepsUses (env : Env Keys.Key n) (f : Filter X Keys.Key dy) (thr : ℝ) : Slice X n dy → List (Obs dy × ℝ × Keys.Key) → List (Use × Keys.Key)
  | _, [] => []
  | s, o :: os => stepUses n (open Classical in decide (Fl.lt s.ess (.fin (thr * n)))) o.2.2 ++ stepsUses env f thr (body env f thr s o) os

/-- Keys as paths. -/
def pathEnv (categorical : Keys.Key → (Fin n → Fl) → Fin n → Fin n) : Env Keys.Key n where
  categorical := categorical
  splitN _ k i := (i : ℕ) :: k

/-- Uses of keys in `run_particle_filter_for_marginals` without initial sample (filtering.py 267, 181-183, 278, then the steps). -/
noncomputable def runUses (cat : Keys.Key → (Fin n → Fl) → Fin n → Fin n) (f : Filter X Keys.Key dy) (thr : ℝ) (y0 : Obs dy) (ys : List (Obs dy)) (t0 : ℝ) (ts : List ℝ)
    (key : Keys.Key) : List (Use × Keys.Key) :=
  let env := pathEnv cat
  let init := initiateParticles env f (1 :: key) y0 t0
  [(.split, key), (.split, 1 :: key)] ++ (List.range n).map (fun i => (.initialSample, i :: 1 :: key)) ++ [(.split, 0 :: key)]
    ++ (match latest init with
        | some s0 => stepsUses env f thr s0 (withKeys env ys ts (0 :: key))
        | none => [])

end Mocat.Filtering
