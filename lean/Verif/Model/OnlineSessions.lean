import Verif.Model.EnsembleFilter
/-!
# Online filtering sessions: `initiate_particles` and `propagate_particle_filter` with compiled methods

A program holds one model object and one filter object. It assigns attributes of the model, calls `initiate_particles` and `propagate_particle_filter` in any order, with particles and keys of its own.

`@partial(jit, static_argnums=(0, 1))` (filtering.py 64, 123; nonlinear_gaussian.py 264, 325) compiles a method once for each filter object, model object and shape of the other arguments. The compiled code contains the
attributes of both objects as they were at that call; later calls with the same objects and shapes reuse it. Here the objects are fixed and the shapes are given by the number of particles (observations, times and keys
have the same shapes and types in all calls). Calls from inside `scan` (`run_particle_filter_for_marginals`) are not part of this model.
-/
namespace Mocat.OnlineSessions
open Matrix Mocat Mocat.Filtering Mocat.NonlinearGaussian Mocat.EnsembleFilter

variable {Θ G X K : Type} {dy d e : ℕ}

/-- A filter class: `Θ` are the attributes of the model, `G` those that `startup` stores in the filter. `vec g θ n` are the methods, reading both. -/
structure FilterClass (Θ G X K : Type) (dy : ℕ) where
  startup : Θ → G
  /-- whether `initial_sample_and_weight_vectorised` is compiled -/
  jitInitial : Bool
  /-- what the step reads of these attributes if `startup` never ran; `none`: they are `None` and the step raises -/
  before : Θ → Option G
  vec : G → Θ → (n : ℕ) → VecFilter X K dy n

/-- filtering.py 142-170 with 28-30, 64-78, 123-139: `BootstrapFilter`; `startup` does nothing, both methods are compiled. -/
noncomputable def bootstrapClass (mk : Θ → Ssm.Model X (Obs dy) K) : FilterClass Θ Unit X K dy where
  startup _ := ()
  jitInitial := true
  before _ := some ()
  vec _ θ _ := ofFilter (bootstrap (mk θ))

/-- nonlinear_gaussian.py 134-281, `OptimalNonLinearGaussianParticleFilter`: gains, factors and determinants are those of the model seen by `startup` (154-184), which is `g`; means, the transition function and the
likelihood matrix are read from the model (`θ`) by the methods. `initial_sample_and_weight_vectorised` (218-224) is not compiled. -/
noncomputable def optimalClass [Inhabited K] (normal : K → (r c : ℕ) → Fin r → Fin c → ℝ) (chol : Chol) : FilterClass (NLG d e) (NLG d e) (Fin d → ℝ) K e where
  startup θ := θ
  jitInitial := false
  before _ := none
  vec g θ n :=
    { initial := fun y _ keys =>
        (fun i => θ.initialMean + Kalman.kalmanGain (chol d g.initialCov) g.likMat (chol e g.likCov) *ᵥ (y - θ.likMat *ᵥ θ.initialMean)
          + normal (firstKey keys) n d i ᵥ* (cholSym chol (initCondPrec chol g))⁻¹, fun _ => .fin 0)
      propose := fun x t y t' keys =>
        let mx := fun i => θ.transFun (x i) t t'
        (fun i => mx i + (y - mx i ᵥ* θ.likMatᵀ) ᵥ* (proposalGain chol g)ᵀ + normal (firstKey keys) n d i ᵥ* (cholSym chol (proposalCov chol g))ᵀ,
         fun i => .fin (-Gaussian.gaussianPotential y (mx i ᵥ* θ.likMatᵀ) .none (.mat (cholSym chol (weightPrec chol g))) (some (weightPrec chol g).det))) }

/-- nonlinear_gaussian.py 284-350, `EnsembleKalmanFilter`: `startup` (297-310) serves the first draw only; the gain of a step is computed in the step, which therefore reads no `g`. -/
noncomputable def ensembleKalmanClass [Inhabited K] (splitN : (m : ℕ) → K → Fin m → K) (normal : K → (r c : ℕ) → Fin r → Fin c → ℝ) (chol : Chol) :
    FilterClass (NLG d e) (NLG d e) (Fin d → ℝ) K e where
  startup θ := θ
  jitInitial := false
  before θ := some θ
  vec g θ n :=
    { initial := fun y _ keys =>
        (fun i => θ.initialMean + Kalman.kalmanGain (chol d g.initialCov) g.likMat (chol e g.likCov) *ᵥ (y - θ.likMat *ᵥ θ.initialMean)
          + normal (firstKey keys) n d i ᵥ* (cholSym chol (initCondPrec chol g))⁻¹, fun _ => .fin 0)
      propose := (ensembleKalman splitN normal chol θ).propose }

/-- The model object, the filter object (`none` before any `startup`) and the compiled code by number of particles: the attributes it contains. -/
structure Sess (Θ G : Type) where
  model : Θ
  started : Option G
  initCode : ℕ → Option (G × Θ)
  propCode : ℕ → Option (G × Θ)

/-- A new model and a new filter. -/
def Sess.new (θ : Θ) : Sess Θ G := ⟨θ, none, fun _ => none, fun _ => none⟩

/-- What a program does. -/
inductive Event (Θ X K : Type) (dy : ℕ)
  /-- `model.<attribute> = ...` -/
  | assign (θ : Θ)
  /-- `initiate_particles(model, filter, n, key, y, t)` -/
  | initiate (n : ℕ) (key : K) (y : Obs dy) (t : ℝ)
  /-- `propagate_particle_filter(model, filter, particles, y_new, t_new, key, ess_threshold, resample_full)` -/
  | propagate (n : ℕ) (p : Particles X n dy) (y : Obs dy) (t : ℝ) (key : K) (thr : ℝ) (full : Bool)

/-- The code a compiled method runs: what is stored for this shape, else the current attributes, which are then stored. -/
def compiled (code : ℕ → Option (G × Θ)) (n : ℕ) (now : G × Θ) : (G × Θ) × (ℕ → Option (G × Θ)) :=
  match code n with
  | some c => (c, code)
  | none => (now, Function.update code n (some now))

/-- filtering.py 173-193 (`startup` at 179) and 220-252: one action; what is returned, `none` for assignments and for errors (an optimal filter that was never started up has no gains). -/
noncomputable def step (C : FilterClass Θ G X K dy) (env : (n : ℕ) → Env K n) (s : Sess Θ G) : Event Θ X K dy → Sess Θ G × Option ((n : ℕ) × Particles X n dy)
  | .assign θ => ({ s with model := θ }, none)
  | .initiate n key y t =>
    let g := C.startup s.model
    let r := if C.jitInitial then compiled s.initCode n (g, s.model) else ((g, s.model), s.initCode)
    ({ s with started := some g, initCode := r.2 }, some ⟨n, initiateParticles (env n) (C.vec r.1.1 r.1.2 n) key y t⟩)
  | .propagate n p y t key thr full =>
    match s.started.or (C.before s.model) with
    | none => (s, none)
    | some g =>
      let r := compiled s.propCode n (g, s.model)
      ({ s with propCode := r.2 }, (propagate (env n) (C.vec r.1.1 r.1.2 n) thr full p y t key).map fun q => ⟨n, q⟩)

/-- The session after a list of actions. -/
noncomputable def after (C : FilterClass Θ G X K dy) (env : (n : ℕ) → Env K n) : Sess Θ G → List (Event Θ X K dy) → Sess Θ G
  | s, [] => s
  | s, ev :: h => after C env (step C env s ev).1 h

/-- What a further call returns. -/
noncomputable def result (C : FilterClass Θ G X K dy) (env : (n : ℕ) → Env K n) (θ : Θ) (h : List (Event Θ X K dy)) (ev : Event Θ X K dy) : Option ((n : ℕ) × Particles X n dy) :=
  (step C env (after C env (Sess.new θ) h) ev).2

end Mocat.OnlineSessions
