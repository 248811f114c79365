import Verif.Model.Gaussian
import Mathlib.LinearAlgebra.Matrix.NonsingularInverse
/-!
# Derived covariance factors (utils.py 247-262, `reset_covariance`) and their uses

`chol` is `jnp.linalg.cholesky`, matrix inverse and determinant are the exact ones. A 0-d covariance is not modelled.
-/
namespace Mocat.Covariance
open Matrix Mocat.Gaussian

variable {d : ℕ}

/-- A covariance attribute. -/
inductive Cov (d : ℕ) where
  | vec (v : Fin d → ℝ)
  | mat (m : Matrix (Fin d) (Fin d) ℝ)

/-- The attribute `..._precision_det`: a number, or an array of numbers. -/
inductive DetVal (d : ℕ) where
  | num (c : ℝ)
  | arr (v : Fin d → ℝ)

/-- The attributes derived from a covariance. -/
structure Factors (d : ℕ) where
  covSqrt : PArg d
  precSqrt : PArg d
  precDet : DetVal d

/-- utils.py 247-262 -/
noncomputable def resetCovariance (chol : Matrix (Fin d) (Fin d) ℝ → Matrix (Fin d) (Fin d) ℝ) : Cov d → Factors d
  | .vec v => ⟨.vec fun i => √(v i), .vec fun i => 1 / √(v i), .arr fun i => 1 / v i⟩
  | .mat m => ⟨.mat (chol m), .mat (chol m)⁻¹, .num (1 / m.det)⟩

/-- scenarios/toy_examples.py 40-44: `Gaussian.likelihood_potential`. `precision_mul` is `*` for vectors, `@` for
matrices. -/
noncomputable def toyPotential (f : Factors d) (mean x : Fin d → ℝ) : ℝ :=
  match f.precSqrt with
  | .mat s => 0.5 * ∑ i, ((x - mean) ᵥ* sᵀ) i ^ 2
  | .vec s => 0.5 * ∑ i, ((x i - mean i) * s i) ^ 2
  | .scalar _ | .none => 0

/-- ssm/linear_gaussian/linear_gaussian.py 38-44 (same form at 73-84, 118-128; ssm/nonlinear_gaussian.py 80-84, 98-105,
115-122; abc/scenarios/linear_gaussian.py 72-76, 83-88): `gaussian_potential(x, mean, sqrt_prec=, det_prec=)`. The result is one
number per entry of `det_prec`. -/
noncomputable def ssmPotential (f : Factors d) (mean x : Fin d → ℝ) : DetVal d :=
  match f.precDet with
  | .num c => .num (gaussianPotential x mean .none f.precSqrt (some c))
  | .arr v => .arr fun i => gaussianPotential x mean .none f.precSqrt (some (v i))

/-- `L @ z + mean` : linear_gaussian.py 46-51, 86-94, 130-139; abc/scenarios/linear_gaussian.py 68-70, 78-81. -/
def sampleLeft (L : Matrix (Fin d) (Fin d) ℝ) (mean z : Fin d → ℝ) : Fin d → ℝ := L *ᵥ z + mean

/-- `z @ L.T + mean`: nonlinear_gaussian.py 86-90 (initial), 124-131 (likelihood). -/
def sampleRightT (L : Matrix (Fin d) (Fin d) ℝ) (mean z : Fin d → ℝ) : Fin d → ℝ := z ᵥ* Lᵀ + mean

/-- `mean + z @ L`: nonlinear_gaussian.py 107-113 (transition). -/
def sampleRight (L : Matrix (Fin d) (Fin d) ℝ) (mean z : Fin d → ℝ) : Fin d → ℝ := mean + z ᵥ* L

end Mocat.Covariance
