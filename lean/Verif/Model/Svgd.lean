import Verif.Base.Fl
import Verif.Model.Run
import Verif.Model.Kernels
import Mathlib.Analysis.Real.Sqrt
import Mathlib.Analysis.SpecialFunctions.Log.Basic
/-!
# Model of `mocat/src/transport/svgd.py` and of the bandwidth rule in `mocat/src/kernels.py` 227-229

Ensembles are functions `Fin n → Fin d → ℝ`.
-/
namespace Mocat.Svgd
open Mocat Mocat.Kernels

variable {K θ S : Type*} {n d : ℕ}

/-- svgd.py 18-32, `kernelised_grad_matrix`; `batch i` are the indices in row `i` of `batch_inds_mat`. -/
noncomputable def kernelisedGradMatrix (vals grads : Fin n → Fin d → ℝ) (k : Kernel d) (batch : Fin n → List (Fin n)) :
    Fin n → Fin d → ℝ :=
  fun i c => ((batch i).map fun j => -k.call (vals j) (vals i) * grads j c + k.gradX (vals j) (vals i) c).sum / (batch i).length

/-- An optimiser of `jax.example_libraries.optimizers`: `(opt_init, opt_update, get_params)`. Library behaviour: these optimisers (`sgd`, `momentum`, `adagrad`,
`rmsprop`, `adam`, ...) act on each array entry separately, so one is given by what it does to an entry. -/
structure Optimiser (S : Type*) where
  init : ℝ → S
  update : ℕ → ℝ → S → S
  get : S → ℝ

/-- `optimizers.sgd`: `x - step_size(i) * g` -/
noncomputable def sgd (step : ℕ → ℝ) : Optimiser ℝ where
  init x := x
  update i g x := x - step i * g
  get x := x

open Classical in
/-- `optimizers.adagrad` (the default): entries `(x, g_sq, m)`. -/
noncomputable def adagrad (step : ℕ → ℝ) (momentum : ℝ) : Optimiser (ℝ × ℝ × ℝ) where
  init x := (x, 0, 0)
  update i g := fun (x, gSq, m) =>
    let gSq := gSq + g ^ 2
    let inv := if 0 < gSq then 1 / Real.sqrt gSq else 0
    let m := (1 - momentum) * (g * inv) + momentum * m
    (x - step i * m, gSq, m)
  get s := s.1

/-- The ensemble state. -/
structure State (n d : ℕ) where
  value : Fin n → Fin d → ℝ
  potential : Fin n → ℝ
  grad : Fin n → Fin d → ℝ

/-- `extra`: key, `iter`, optimiser state and `parameters.kernel_params`. -/
structure Extra (K θ S : Type*) (n d : ℕ) where
  key : K
  iter : ℕ
  opt : Fin n → Fin d → S
  kernelParams : θ

/-- What an SVGD sampler calls: `splitN` is `random.split(key, n + 2)`, `splitInit` is `random.split(key, n + 1)`, `choice` is `random.choice(key, n, shape=(n, batchsize))`, `potentialAndGrad` the
scenario's, `kernel` the kernel with its parameters, `adapt` the sampler's adaptation of kernel parameters (identity if there is none). -/
structure Env (K θ S : Type*) (n d : ℕ) where
  splitN : K → Fin (n + 2) → K
  splitInit : K → Fin (n + 1) → K
  choice : K → ℕ → Fin n → List (Fin n)
  potentialAndGrad : (Fin d → ℝ) → K → ℝ × (Fin d → ℝ)
  kernel : θ → Kernel d
  adapt : (Fin n → Fin d → ℝ) → θ → θ
  optimiser : Optimiser S

/-- svgd.py 89-92, `get_batch_inds` -/
def getBatchInds (env : Env K θ S n d) (batchsize : ℕ) (key : K) : Fin n → List (Fin n) :=
  if batchsize = n then fun _ => List.finRange n else env.choice key batchsize

/-- svgd.py 85-87: `self.parameters.ensemble_batchsize` after start-up with `n` particles. It stays on the sampler object. -/
def startupBatchsize (batchsize : Option ℕ) (n : ℕ) : Option ℕ :=
  match batchsize with
  | none => some n
  | some b => some b

/-- svgd.py 94-107: the rest of start-up, from the initial values. -/
noncomputable def startup (env : Env K θ S n d) (value : Fin n → Fin d → ℝ) (key : K) (kernelParams : θ) : State n d × Extra K θ S n d :=
  let keys := env.splitInit key
  let pg := fun i => env.potentialAndGrad (value i) (keys i.castSucc)
  ({ value := value, potential := fun i => (pg i).1, grad := fun i => (pg i).2 },
   { key := keys (Fin.last n), iter := 0, opt := fun i c => env.optimiser.init (value i c), kernelParams := env.adapt value kernelParams })

/-- svgd.py 122-146, `update`. -/
noncomputable def update (env : Env K θ S n d) (batchsize : ℕ) (s : State n d) (e : Extra K θ S n d) : State n d × Extra K θ S n d :=
  let iter := e.iter + 1
  let keys := env.splitN e.key
  let batch := getBatchInds env batchsize (keys (Fin.last (n + 1)))
  let phi := kernelisedGradMatrix s.value s.grad (env.kernel e.kernelParams) batch
  let opt := fun i c => env.optimiser.update iter (-phi i c) (e.opt i c)
  let value := fun i c => env.optimiser.get (opt i c)
  let pg := fun i => env.potentialAndGrad (value i) (keys i.castSucc.castSucc)
  ({ value := value, potential := fun i => (pg i).1, grad := fun i => (pg i).2 },
   { key := keys (Fin.last n).castSucc, iter := iter, opt := opt, kernelParams := env.adapt value e.kernelParams })

/-- utils.py 437-439, `l2_distance_matrix` -/
noncomputable def l2Distance (x y : Fin d → ℝ) : ℝ := Real.sqrt (∑ i, (x i - y i) ^ 2)

open Classical in
/-- A float quotient of finite numbers with denominator `≥ 0`. -/
noncomputable def fdiv (a b : ℝ) : Fl :=
  if b = 0 then (if a = 0 then .nan else if 0 < a then .pinf else .ninf) else .fin (a / b)

/-- kernels.py 227-229, `mean_bandwidth_update` -/
noncomputable def meanBandwidth (vals : Fin n → Fin d → ℝ) : Fl :=
  fdiv ((∑ i, ∑ j, l2Distance (vals i) (vals j)) / (n : ℝ) ^ 2) (Real.sqrt (2 * Real.log n))

/-- The batch size each of a history of runs of one sampler object uses, `ns` being their ensemble sizes (svgd.py 85-92; `run` calls `startup` on the object itself). -/
def batchsizes (configured : Option ℕ) : List ℕ → List ℕ
  | [] => []
  | n :: ns => (startupBatchsize configured n).getD 0 :: batchsizes (startupBatchsize configured n) ns

end Mocat.Svgd
