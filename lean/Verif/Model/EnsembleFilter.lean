import Verif.Model.NonlinearGaussian
/-!
# Model of the vectorised methods of `mocat/src/ssm/filtering.py` and `mocat/src/ssm/nonlinear_gaussian.py`

`run_particle_filter_for_marginals` calls the vectorised methods of a filter, which see all particles and all keys at once. `OptimalNonLinearGaussianParticleFilter` and `EnsembleKalmanFilter` override them.
-/
namespace Mocat.EnsembleFilter
open Mocat Mocat.Metrics Mocat.Filtering Mocat.NonlinearGaussian

variable {X K : Type} {n dy d e : ℕ}

/-- filtering.py 64-78, 124-139: `initial_sample_and_weight_vectorised` (with an observation) and `propose_and_intermediate_weight_vectorised` of a filter that has been started up with its model (179): new
particles and log weights. -/
structure VecFilter (X K : Type) (dy n : ℕ) where
  initial : Obs dy → ℝ → (Fin n → K) → (Fin n → X) × (Fin n → Fl)
  propose : (Fin n → X) → ℝ → Obs dy → ℝ → (Fin n → K) → (Fin n → X) × (Fin n → Fl)

/-- filtering.py 64-78, 124-139: the methods of `ParticleFilter`, `vmap` of the methods for one particle. -/
def ofFilter (f : Filter X K dy) : VecFilter X K dy n where
  initial y t keys := (fun i => f.initialSample y t (keys i), fun i => f.initialLogWeight (f.initialSample y t (keys i)) y t)
  propose x t y t' keys := (fun i => f.proposalSample (x i) t y t' (keys i), fun i => f.intermediateLogWeight (x i) t (f.proposalSample (x i) t y t' (keys i)) y t')

/-- `random_keys[0]` (an error if there are no particles; then `default`). -/
def firstKey [Inhabited K] (keys : Fin n → K) : K := if h : 0 < n then keys ⟨0, h⟩ else default

/-- nonlinear_gaussian.py 198-224, 264-281 with 154-184, `OptimalNonLinearGaussianParticleFilter`; `normal k r c` is `random.normal(k, shape=(r, c))`. All normals are drawn with the first key. -/
noncomputable def optimal [Inhabited K] (normal : K → (r c : ℕ) → Fin r → Fin c → ℝ) (chol : Chol) (m : NLG d e) : VecFilter (Fin d → ℝ) K e n where
  initial y _ keys := (fun i => initialSample chol m y (normal (firstKey keys) n d i), fun _ => .fin 0)
  propose x t y t' keys := (fun i => proposalSample chol m (x i) t y t' (normal (firstKey keys) n d i), fun i => .fin (logWeight chol m (x i) t y t'))

/-- nonlinear_gaussian.py 297-350, `EnsembleKalmanFilter`; `splitN 2` is `random.split(key, 2)`. -/
noncomputable def ensembleKalman [Inhabited K] (splitN : (m : ℕ) → K → Fin m → K) (normal : K → (r c : ℕ) → Fin r → Fin c → ℝ) (chol : Chol) (m : NLG d e) :
    VecFilter (Fin d → ℝ) K e n where
  initial y _ keys := (fun i => initialSample chol m y (normal (firstKey keys) n d i), fun _ => .fin 0)
  propose x t y t' keys :=
    (enkf chol m x t y t' (normal (splitN 2 (firstKey keys) 0) n d) (normal (splitN 2 (firstKey keys) 1) n e), fun _ => .fin 0)

/-- filtering.py 173-193, `initiate_particles`. -/
noncomputable def initiateParticles (env : Env K n) (f : VecFilter X K dy n) (key : K) (y : Obs dy) (t : ℝ) : Particles X n dy :=
  let r := f.initial y t (env.splitN n key)
  { value := [r.1], logWeight := [r.2], t := [t], y := .rows [y], ess := [essLogWeight r.2] }

/-- filtering.py 280-311, `particle_filter_body`. -/
noncomputable def body (env : Env K n) (f : VecFilter X K dy n) (thr : ℝ) (prev : Slice X n dy) (o : Obs dy × ℝ × K) : Slice X n dy :=
  let (y, t, key) := o
  let res := Fl.lt prev.ess (.fin (thr * n))
  open Classical in
  let xRes := if res then prev.value ∘ env.categorical key prev.logWeight else prev.value
  let lwRes := if res then fun _ => Fl.fin 0 else prev.logWeight
  let r := f.propose xRes prev.t y t (env.splitN n key)
  let lwNew := fun i => Fl.add (lwRes i) (r.2 i)
  { value := r.1, logWeight := lwNew, t := t, y := y, ess := essLogWeight lwNew }

/-- filtering.py 313-324, as `Filtering.runWithKeys`. -/
noncomputable def runWithKeys (env : Env K n) (f : VecFilter X K dy n) (thr : ℝ) (init : Particles X n dy) (obs : List (Obs dy × ℝ × K)) : Option (Particles X n dy) := do
  let s0 ← latest init
  let slices := (scan (fun s o => (body env f thr s o, body env f thr s o)) s0 obs).2
  match init.y with
  | .flat _ => none
  | .rows l =>
    some { value := init.value ++ slices.map Slice.value, logWeight := init.logWeight ++ slices.map Slice.logWeight,
           t := init.t ++ slices.map Slice.t, y := .rows (l ++ slices.map Slice.y), ess := init.ess ++ slices.map Slice.ess }

/-- filtering.py 255-324, `run_particle_filter_for_marginals` without an initial sample. -/
noncomputable def run (env : Env K n) (f : VecFilter X K dy n) (thr : ℝ) (ys : List (Obs dy)) (ts : List ℝ) (key : K) : Option (Particles X n dy) :=
  match ys, ts with
  | y0 :: ys, t0 :: ts => runWithKeys env f thr (initiateParticles env f (env.splitN 2 key 1) y0 t0) (withKeys env ys ts (env.splitN 2 key 0))
  | _, _ => none

/-- filtering.py 220-252, `propagate_particle_filter`, as `Filtering.propagate`. -/
noncomputable def propagate (env : Env K n) (f : VecFilter X K dy n) (thr : ℝ) (full : Bool) (p : Particles X n dy) (yNew : Obs dy) (tNew : ℝ) (key : K) : Option (Particles X n dy) := do
  let essPrevious ← p.ess.getLast?
  let lwLast ← p.logWeight.getLast?
  let out := open Classical in if Fl.lt essPrevious (.fin (thr * n)) then resampleParticles env p lwLast key full else p
  let xPrev ← out.value.getLast?
  let lwPrev ← out.logWeight.getLast?
  let tPrev ← out.t.getLast?
  let r := f.propose xPrev tPrev yNew tNew (env.splitN n key)
  let lwNew := fun i => Fl.add (lwPrev i) (r.2 i)
  some { value := out.value ++ [r.1], logWeight := out.logWeight ++ [lwNew], t := out.t ++ [tNew], y := out.y.append yNew, ess := out.ess ++ [essLogWeight lwNew] }

end Mocat.EnsembleFilter
