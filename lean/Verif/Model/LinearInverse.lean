import Verif.Model.Covariance
/-!
# Model of `mocat/src/abc/scenarios/linear_gaussian.py` and of `extract_dimension` (utils.py 240-244)

The Bayesian inverse problem `x ~ N(m, P)`, `y ~ N(H x, R)`. Every argument may be a Python float.
-/
namespace Mocat.LinearInverse
open Matrix Mocat.Gaussian Mocat.Covariance

/-- An argument that is a Python float or an array. -/
inductive Arg (α : Type) where
  | float (c : ℝ)
  | arr (a : α)

/-- Is it a float? -/
def Arg.isFloat {α : Type} : Arg α → Bool
  | .float _ => true
  | .arr _ => false

/-- The shape of an argument, given that of the array; `none` for a float. -/
def Arg.shape {α : Type} (s : List ℕ) : Arg α → Option (List ℕ)
  | .float _ => none
  | .arr _ => some s

/-- utils.py 240-244, `extract_dimension`, on the shapes of the arguments: last entry of the first shape with any. -/
def extractDimension : List (Option (List ℕ)) → Option ℕ
  | [] => none
  | some s :: rest => match s.getLast? with
    | some n => some n
    | none => extractDimension rest
  | none :: rest => extractDimension rest

variable {d e : ℕ}

/-- linear_gaussian.py 26-32: the arguments of the constructor, arrays being of the right shape for `d` unknowns and `e`
observations. A one-dimensional covariance is treated separately (`sampleVec`). -/
structure Args (d e : ℕ) where
  priorMean : Arg (Fin d → ℝ)
  priorCov : Arg (Matrix (Fin d) (Fin d) ℝ)
  data : Arg (Fin e → ℝ)
  likMatrix : Arg (Matrix (Fin e) (Fin d) ℝ)
  likCov : Arg (Matrix (Fin e) (Fin e) ℝ)

/-- linear_gaussian.py 37-40: `self.dim`; `none` is the AttributeError. -/
def dim (a : Args d e) : Option ℕ :=
  extractDimension [a.priorMean.shape [d], a.priorCov.shape [d, d], a.likMatrix.shape [e, d], a.likCov.shape [e, e]]

/-- linear_gaussian.py 50-52: `self.dim_obs`, the number of rows of the matrix; a float matrix is `dim` by `dim`. -/
def dimObs (a : Args d e) : Option ℕ :=
  match a.likMatrix with
  | .float _ => dim a
  | .arr _ => some e

/-- linear_gaussian.py 42-44. -/
def mean (a : Args d e) : Fin d → ℝ :=
  match a.priorMean with
  | .float c => fun _ => 1 * c
  | .arr m => m

/-- linear_gaussian.py 46-48 and 55-57: `jnp.eye(n) * c`. -/
def cov {n : ℕ} : Arg (Matrix (Fin n) (Fin n) ℝ) → Matrix (Fin n) (Fin n) ℝ
  | .float c => c • 1
  | .arr m => m

/-- linear_gaussian.py 50-53: `jnp.eye(dim) * c` (then `e = d`). -/
def matrix (a : Args d e) : Matrix (Fin e) (Fin d) ℝ :=
  match a.likMatrix with
  | .float c => Matrix.of fun i j => (if (i : ℕ) = j then 1 else 0) * c
  | .arr H => H

/-- Library: `jnp.linalg.cholesky`, in every dimension. -/
abbrev Chol := (n : ℕ) → Matrix (Fin n) (Fin n) ℝ → Matrix (Fin n) (Fin n) ℝ

/-- linear_gaussian.py 61-70, `prior_sample`; `z` is `random.normal(random_key, (dim,))`, the factor is that of
`reset_covariance` (utils.py 247-262). -/
def priorSample (chol : Chol) (a : Args d e) (z : Fin d → ℝ) : Fin d → ℝ := mean a + chol d (cov a.priorCov) *ᵥ z

/-- linear_gaussian.py 78-81, `likelihood_sample`; `z` is `random.normal(random_key, (dim_obs,))`. -/
def likelihoodSample (chol : Chol) (a : Args d e) (x : Fin d → ℝ) (z : Fin e → ℝ) : Fin e → ℝ :=
  matrix a *ᵥ x + chol e (cov a.likCov) *ᵥ z

/-- linear_gaussian.py 72-76, `prior_potential`. -/
noncomputable def priorPotential (chol : Chol) (a : Args d e) (x : Fin d → ℝ) : ℝ :=
  gaussianPotential x (mean a) .none (.mat (chol d (cov a.priorCov))⁻¹) (some (1 / (cov a.priorCov).det))

/-- linear_gaussian.py 83-88, `likelihood_potential`: `gaussian_potential(data, x @ H.T, ...)`. Float data (the default is
`0.`) become an array of length 1 (utils.py 55-56), so the normalising constant is that of dimension 1, whereas the
difference to the mean is broadcast to all `dim_obs` entries. -/
noncomputable def likelihoodPotential (chol : Chol) (a : Args d e) (x : Fin d → ℝ) : ℝ :=
  let m := x ᵥ* (matrix a)ᵀ
  let S := (chol e (cov a.likCov))⁻¹
  let det := 1 / (cov a.likCov).det
  match a.data with
  | .arr y => gaussianPotential y m .none (.mat S) (some det)
  | .float c => vectorisedGaussianPotential (fun _ => c) m S + negLogZ 1 (some det)

/-- The data as a vector (a float is broadcast). -/
def dataVec (a : Args d e) : Fin e → ℝ :=
  match a.data with
  | .arr y => y
  | .float c => fun _ => c

/-- `prior_sample` when `prior_covariance` is a one-dimensional array `v`: `reset_covariance` stores `jnp.sqrt(v)`
(utils.py 251-253), and `mean + sqrt(v) @ z` (linear_gaussian.py 68-70) is a dot product, broadcast. -/
noncomputable def sampleVec (m v z : Fin d → ℝ) : Fin d → ℝ := fun i => m i + (fun j => √(v j)) ⬝ᵥ z

end Mocat.LinearInverse
