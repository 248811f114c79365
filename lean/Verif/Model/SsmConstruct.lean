import Verif.Model.Covariance
import Mathlib.Data.Matrix.Basic
/-!
# Building state-space models and sampling from them: shapes, defaults and derived factors

`TimeHomogenousLinearGaussian.__init__` (ssm/linear_gaussian/linear_gaussian.py 159-203), `NonLinearGaussian.__init__` (ssm/nonlinear_gaussian.py 35-71), `extract_dimension` and `reset_covariance`
(utils.py 240-262), with the sampling methods that use what they store. Arrays with more than two axes are not modelled. `chol` is `jnp.linalg.cholesky`; a raised error is `none`.
-/
namespace Mocat.SsmConstruct
open Matrix

/-- A Python float, or an array with no, one or two axes. -/
inductive Val where
  | py (a : ℝ)
  | scal (a : ℝ)
  | vec {n : ℕ} (v : Fin n → ℝ)
  | mat {m n : ℕ} (M : Matrix (Fin m) (Fin n) ℝ)

/-- Cholesky factorisation, for every size. -/
abbrev Chol := (n : ℕ) → Matrix (Fin n) (Fin n) ℝ → Matrix (Fin n) (Fin n) ℝ

/-- `jnp.zeros(n)` -/
def zeros (n : ℕ) : Val := .vec (n := n) 0

/-- `jnp.eye(n)` -/
def eye (n : ℕ) : Val := .mat (1 : Matrix (Fin n) (Fin n) ℝ)

/-- `a @ b`: sums over the last axis of `a` and the first (or only) axis of `b`; arrays without axes raise. -/
def matmul : Val → Val → Option Val
  | .vec (n := n) v, .vec (n := k) w => if h : k = n then some (.scal (v ⬝ᵥ fun i => w (Fin.cast h.symm i))) else none
  | .mat (n := n) M, .vec (n := k) w => if h : k = n then some (.vec (M *ᵥ fun i => w (Fin.cast h.symm i))) else none
  | .vec (n := n) v, .mat (m := k) M => if h : k = n then some (.vec ((fun i => v (Fin.cast h i)) ᵥ* M)) else none
  | .mat (n := n) A, .mat (m := k) (n := l) B => if h : k = n then some (.mat (A * (Matrix.of fun (i : Fin n) (j : Fin l) => B (Fin.cast h.symm i) j))) else none
  | _, _ => none

/-- `a.T`: arrays with fewer than two axes are their own transpose; Python floats have none. -/
def transpose : Val → Option Val
  | .py _ => none
  | .scal a => some (.scal a)
  | .vec v => some (.vec v)
  | .mat M => some (.mat Mᵀ)

/-- `a + b` where the result has at most one axis (others are not needed): axes of length one are repeated. -/
def add : Val → Val → Option Val
  | .vec (n := n) v, .vec (n := k) w =>
    if h : k = n then some (.vec fun i => v i + w (Fin.cast h.symm i))
    else if h1 : k = 1 then some (.vec fun i => v i + w (Fin.cast h1.symm 0))
    else if h1 : n = 1 then some (.vec fun i => v (Fin.cast h1.symm 0) + w i)
    else none
  | .vec v, .scal a | .vec v, .py a => some (.vec fun i => v i + a)
  | .scal a, .vec v | .py a, .vec v => some (.vec fun i => a + v i)
  | .scal a, .scal b | .scal a, .py b | .py a, .scal b => some (.scal (a + b))
  | .py a, .py b => some (.py (a + b))
  | _, _ => none

/-- `a.reshape((n,))` for results with at most one axis. -/
def reshape (n : ℕ) : Val → Option Val
  | .vec (n := k) v => if h : n = k then some (.vec fun i : Fin n => v (Fin.cast h i)) else none
  | .scal a => if n = 1 then some (.vec fun _ : Fin n => a) else none
  | _ => none

/-- `a.shape[0]` -/
def rows : Val → Option ℕ
  | .vec (n := n) _ => some n
  | .mat (m := m) _ => some m
  | _ => none

/-- utils.py 240-244, `extract_dimension`: the last axis of the first argument that is an array with an axis. -/
def extractDim : List (Option Val) → Option ℕ
  | [] => none
  | some (.vec (n := n) _) :: _ => some n
  | some (.mat (n := n) _) :: _ => some n
  | _ :: l => extractDim l

/-- utils.py 247-262, `reset_covariance`, the attribute `..._covariance_sqrt`: a Python float has no `ndim`; Cholesky factorisation raises unless the matrix is square. -/
noncomputable def covSqrt (chol : Chol) : Val → Option Val
  | .py _ => none
  | .scal a => some (.scal √a)
  | .vec v => some (.vec fun i => √(v i))
  | .mat (m := m) (n := n) M => if h : n = m then some (.mat (chol m (Matrix.of fun i j => M i (Fin.cast h.symm j)))) else none

/-- Arguments of the constructors. -/
structure Args where
  initialMean : Option Val := none
  initialCov : Option Val := none
  transMat : Option Val := none
  transCov : Option Val := none
  likMat : Option Val := none
  likCov : Option Val := none

/-- What an object stores (precision factors are left out: `Covariance.lean`). -/
structure Obj where
  dim : ℕ
  dimObs : ℕ
  initialMean : Val
  initialCov : Val
  initialCovSqrt : Val
  transMat : Val
  transCov : Val
  transCovSqrt : Val
  likMat : Val
  likCov : Val
  likCovSqrt : Val

/-- linear_gaussian.py 176-203 and nonlinear_gaussian.py 44-69, once the dimension is known. -/
noncomputable def fill (chol : Chol) (dim : ℕ) (a : Args) : Option Obj := do
  let mean := a.initialMean.getD (zeros dim)
  let cov := a.initialCov.getD (eye dim)
  let covS ← covSqrt chol cov
  let F := a.transMat.getD (eye dim)
  let Q := a.transCov.getD (eye dim)
  let QS ← covSqrt chol Q
  let H := a.likMat.getD (eye dim)
  let dimObs ← rows H
  let R := a.likCov.getD (eye dimObs)
  let RS ← covSqrt chol R
  return ⟨dim, dimObs, mean, cov, covS, F, Q, QS, H, R, RS⟩

/-- linear_gaussian.py 159-203, `TimeHomogenousLinearGaussian(...)`; `dim` is the keyword argument. The transition matrix is not looked at for the dimension (171-173). -/
noncomputable def linear (chol : Chol) (dim : Option ℕ) (a : Args) : Option Obj := do
  let n ← match dim with
    | some n => some n
    | none => extractDim [a.initialMean, a.initialCov, a.transCov, a.likMat, a.likCov]
  fill chol n a

/-- nonlinear_gaussian.py 35-71, `NonLinearGaussian(...)`; `clsDim` is the attribute `dim` that the class or its constructor has already set. There is no transition matrix: `transMat` of `Obj` is unused. -/
noncomputable def nonlinear (chol : Chol) (clsDim : Option ℕ) (a : Args) : Option Obj := do
  let n ← match clsDim with
    | some n => some n
    | none => extractDim [a.initialMean, a.initialCov, a.transCov, a.likMat, a.likCov]
  fill chol n a

/-- ssm/scenarios/lorenz63.py 33-46: the class sets `dim = 3`. -/
noncomputable def lorenz63 (chol : Chol) (a : Args) : Option Obj := nonlinear chol (some 3) a

/-- ssm/scenarios/lorenz96.py 29-39: the constructor sets `self.dim = dim`, 40 unless given. -/
noncomputable def lorenz96 (chol : Chol) (dim : Option ℕ) (a : Args) : Option Obj := nonlinear chol (some (dim.getD 40)) a

/-- linear_gaussian.py 46-51, `initial_sample`; `z n` are the normals drawn with shape `(n,)`. -/
def initialSample (o : Obj) (z : (n : ℕ) → Fin n → ℝ) : Option Val := do
  add (← matmul o.initialCovSqrt (.vec (z o.dim))) o.initialMean

/-- linear_gaussian.py 86-94, `transition_sample` -/
def transitionSample (o : Obj) {n : ℕ} (x : Fin n → ℝ) (z : (n : ℕ) → Fin n → ℝ) : Option Val := do
  reshape n (← add (← matmul o.transMat (.vec x)) (← matmul o.transCovSqrt (.vec (z n))))

/-- linear_gaussian.py 130-139, `likelihood_sample` -/
def likelihoodSample (o : Obj) {n : ℕ} (x : Fin n → ℝ) (z : (n : ℕ) → Fin n → ℝ) : Option Val := do
  let k ← rows o.likCovSqrt
  add (← matmul o.likMat (.vec x)) (← matmul o.likCovSqrt (.vec (z k)))

/-- nonlinear_gaussian.py 86-90, `initial_sample` -/
def nlInitialSample (o : Obj) (z : (n : ℕ) → Fin n → ℝ) : Option Val := do
  add (← matmul (.vec (z o.dim)) (← transpose o.initialCovSqrt)) o.initialMean

/-- nonlinear_gaussian.py 107-113, `transition_sample`; `f` is `transition_function`. -/
def nlTransitionSample (o : Obj) (f : {n : ℕ} → (Fin n → ℝ) → Fin n → ℝ) {n : ℕ} (x : Fin n → ℝ) (z : (n : ℕ) → Fin n → ℝ) : Option Val := do
  add (.vec (f x)) (← matmul (.vec (z n)) o.transCovSqrt)

/-- nonlinear_gaussian.py 124-131, `likelihood_sample` -/
def nlLikelihoodSample (o : Obj) {n : ℕ} (x : Fin n → ℝ) (z : (n : ℕ) → Fin n → ℝ) : Option Val := do
  let k ← rows o.likCovSqrt
  add (← matmul (.vec x) (← transpose o.likMat)) (← matmul (.vec (z k)) (← transpose o.likCovSqrt))

end Mocat.SsmConstruct
