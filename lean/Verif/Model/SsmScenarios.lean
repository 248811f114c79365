import Verif.Model.Covariance
import Mathlib.Analysis.SpecialFunctions.Trigonometric.Basic
/-!
# State-space scenarios: ssm/scenarios/

Random normals are arguments `z`. `chol` is `jnp.linalg.cholesky`. Initial and transition covariances of `StochasticVolatility` are matrices
(the sample functions use `@`, which gives a dot product for 1-d arrays). Times increase (`jnp.sqrt` of a negative number is NaN).
-/
namespace Mocat.SsmScenarios
open Matrix Mocat.Gaussian Mocat.Covariance

variable {d : ℕ}

/-! ## stochastic_volatility.py -/

/-- stochastic_volatility.py 64-69, `initial_potential` -/
noncomputable def svInitialPotential (chol : Matrix (Fin d) (Fin d) ℝ → Matrix (Fin d) (Fin d) ℝ) (mean : Fin d → ℝ)
    (cov : Matrix (Fin d) (Fin d) ℝ) (x : Fin d → ℝ) : ℝ :=
  gaussianPotential x mean .none (resetCovariance chol (.mat cov)).precSqrt none

/-- stochastic_volatility.py 71-76, `initial_sample` -/
def svInitialSample (chol : Matrix (Fin d) (Fin d) ℝ → Matrix (Fin d) (Fin d) ℝ) (mean : Fin d → ℝ)
    (cov : Matrix (Fin d) (Fin d) ℝ) (z : Fin d → ℝ) : Fin d → ℝ :=
  z ᵥ* (chol cov)ᵀ + mean

/-- stochastic_volatility.py 78-85, `transition_potential`; `transition_precision_sqrt` is `inv(cholesky(cov))` (utils.py 258-260). -/
noncomputable def svTransitionPotential (chol : Matrix (Fin d) (Fin d) ℝ → Matrix (Fin d) (Fin d) ℝ) (A cov : Matrix (Fin d) (Fin d) ℝ)
    (xPrev : Fin d → ℝ) (tPrev : ℝ) (xNew : Fin d → ℝ) (tNew : ℝ) : ℝ :=
  gaussianPotential xNew (xPrev ᵥ* Aᵀ) .none (.mat (√(tNew - tPrev) • (chol cov)⁻¹)) none

/-- stochastic_volatility.py 87-94, `transition_sample` -/
noncomputable def svTransitionSample (chol : Matrix (Fin d) (Fin d) ℝ → Matrix (Fin d) (Fin d) ℝ) (A cov : Matrix (Fin d) (Fin d) ℝ)
    (xPrev : Fin d → ℝ) (tPrev tNew : ℝ) (z : Fin d → ℝ) : Fin d → ℝ :=
  xPrev ᵥ* Aᵀ + √(tNew - tPrev) • (z ᵥ* (chol cov)ᵀ)

/-- stochastic_volatility.py 96-102, `likelihood_potential`, with 57-62 and utils.py 247-262 for the root of the precision: a vector (if
`likelihood_covariance_diag` is one) or, as with the default of line 52, a matrix, whose columns are divided by `exp(0.5 x)`. -/
noncomputable def svLikelihoodPotential (chol : Matrix (Fin d) (Fin d) ℝ → Matrix (Fin d) (Fin d) ℝ) (covDiag : Cov d) (x y : Fin d → ℝ) : ℝ :=
  match covDiag with
  | .vec c => gaussianPotential y 0 .none (.vec fun i => 1 / √(c i) / Real.exp (0.5 * x i)) none
  | .mat C => gaussianPotential y 0 .none (.mat (Matrix.of fun i j => (chol C)⁻¹ i j / Real.exp (0.5 * x j))) none

/-- stochastic_volatility.py 104-108, `likelihood_sample`, for a vector `likelihood_covariance_diag`. -/
noncomputable def svLikelihoodSampleVec (c x z : Fin d → ℝ) : Fin d → ℝ := fun i => √(c i) * Real.exp (0.5 * x i) * z i

/-- stochastic_volatility.py 104-108, `likelihood_sample`, for a matrix `likelihood_covariance_diag` (the default): the product broadcasts to a matrix. -/
noncomputable def svLikelihoodSampleMat (chol : Matrix (Fin d) (Fin d) ℝ → Matrix (Fin d) (Fin d) ℝ) (C : Matrix (Fin d) (Fin d) ℝ)
    (x z : Fin d → ℝ) : Matrix (Fin d) (Fin d) ℝ := Matrix.of fun i j => chol C i j * Real.exp (0.5 * x j) * z j

/-! ## nonlinear1d.py -/

/-- nonlinear1d.py 31-34 -/
noncomputable def nlInitialPotential (sd : ℝ) (x : Fin 1 → ℝ) : ℝ := gaussianPotentialDefault fun i => x i / sd

/-- nonlinear1d.py 36-39 -/
def nlInitialSample (sd : ℝ) (z : Fin 1 → ℝ) : Fin 1 → ℝ := fun i => z i * sd

/-- nonlinear1d.py 41-46 -/
noncomputable def nlTransitionMean (xPrev : Fin 1 → ℝ) (tPrev : ℝ) : Fin 1 → ℝ :=
  fun i => 0.5 * xPrev i + 25 * xPrev i / (1 + xPrev i ^ 2) + 8 * Real.cos (1.2 * tPrev)

/-- nonlinear1d.py 48-54 -/
noncomputable def nlTransitionPotential (sd : ℝ) (xPrev : Fin 1 → ℝ) (tPrev : ℝ) (xNew : Fin 1 → ℝ) (_tNew : ℝ) : ℝ :=
  gaussianPotentialDefault fun i => (xNew i - nlTransitionMean xPrev tPrev i) / sd

/-- nonlinear1d.py 56-62 -/
noncomputable def nlTransitionSample (sd : ℝ) (xPrev : Fin 1 → ℝ) (tPrev _tNew : ℝ) (z : Fin 1 → ℝ) : Fin 1 → ℝ :=
  fun i => nlTransitionMean xPrev tPrev i + z i * sd

/-- nonlinear1d.py 64-67 -/
noncomputable def nlLikelihoodMean (x : Fin 1 → ℝ) : Fin 1 → ℝ := fun i => x i ^ 2 / 20

/-- nonlinear1d.py 69-74 -/
noncomputable def nlLikelihoodPotential (sd : ℝ) (x y : Fin 1 → ℝ) : ℝ := gaussianPotentialDefault fun i => (y i - nlLikelihoodMean x i) / sd

/-- nonlinear1d.py 76-81 -/
noncomputable def nlLikelihoodSample (sd : ℝ) (x z : Fin 1 → ℝ) : Fin 1 → ℝ := fun i => nlLikelihoodMean x i + z i * sd

/-! ## lorenz96.py, lorenz63.py -/

/-- Python's `k % d` as an index. -/
def pyIdx (d : ℕ) [NeZero d] (k : ℤ) : Fin d :=
  ⟨(k % d).toNat, by
    have hd : (0 : ℤ) < d := by exact_mod_cast Nat.pos_of_ne_zero (NeZero.ne d)
    have h1 := Int.emod_nonneg k hd.ne'
    have h2 := Int.emod_lt_of_pos k hd
    omega⟩

/-- lorenz96.py 14-19, `lorenz96_dynamics` -/
def lorenz96Dynamics [NeZero d] (x : Fin d → ℝ) (_t : ℝ) (forcing : ℝ) : Fin d → ℝ :=
  fun i => (x (pyIdx d ((i : ℤ) + 1)) - x (pyIdx d ((i : ℤ) - 2))) * x (pyIdx d ((i : ℤ) - 1)) - x i + forcing

/-- lorenz63.py 14-21, `lorenz63_dynamics` -/
def lorenz63Dynamics (x : Fin 3 → ℝ) (_t sigma rho beta : ℝ) : Fin 3 → ℝ :=
  ![sigma * (x 1 - x 0), x 0 * (rho - x 2) - x 1, x 0 * x 1 - beta * x 2]

/-- lorenz96.py 22-26, 40-44 (lorenz63.py 24-30, 47-51): the transition function; `odeint f x0 τ` is the last row of
`jax.experimental.ode.odeint(f, x0, [0, τ])`. -/
def transitionFunction (odeint : ((Fin d → ℝ) → ℝ → Fin d → ℝ) → (Fin d → ℝ) → ℝ → Fin d → ℝ) (f : (Fin d → ℝ) → ℝ → Fin d → ℝ)
    (xPrev : Fin d → ℝ) (tPrev tNew : ℝ) : Fin d → ℝ := odeint f xPrev (tNew - tPrev)

end Mocat.SsmScenarios
