import Verif.Model.Gaussian
import Mathlib.LinearAlgebra.Matrix.NonsingularInverse
import Mathlib.Analysis.SpecialFunctions.Trigonometric.Basic
/-!
# Toy scenarios: scenarios/toy_examples.py 54-149 and scenarios/twodim/toy_examples.py 27-45

`chol` is `jnp.linalg.cholesky`, matrix inverse and determinant are the exact ones. Weights are real numbers; the
value `log 0 = -inf` of a zero weight is not represented (the theorems assume positive weights). The `jit` wrappers
(toy_examples.py 86-90) are the identity on functions here; what they keep when attributes are reassigned after a first call is
modelled in `Model/MixtureSessions.lean`.
-/
namespace Mocat.ToyExamples
open Matrix

variable {n d : ℕ}

/-- The attributes of a `GaussianMixture` given by the user (toy_examples.py 57-69). -/
structure Mixture (n d : ℕ) where
  means : Fin n → Fin d → ℝ
  covariances : Fin n → Matrix (Fin d) (Fin d) ℝ
  weights : Fin n → ℝ

/-- toy_examples.py 64-66, 76-78: default weights and covariances. -/
noncomputable def defaultMixture (means : Fin n → Fin d → ℝ) : Mixture n d := ⟨means, fun _ => 1, fun _ => 1 / n⟩

/-- toy_examples.py 82 -/
noncomputable def precision (mx : Mixture n d) (k : Fin n) : Matrix (Fin d) (Fin d) ℝ := (mx.covariances k)⁻¹

/-- toy_examples.py 96-103, with 83-84 for the factor and the determinant of the precision. -/
noncomputable def componentPotential (chol : Matrix (Fin d) (Fin d) ℝ → Matrix (Fin d) (Fin d) ℝ) (mx : Mixture n d) (x : Fin d → ℝ)
    (k : Fin n) : ℝ :=
  0.5 * ∑ i, ((x - mx.means k) ᵥ* (chol (precision mx k))ᵀ) i ^ 2
    - Real.log (mx.weights k * (precision mx k).det / (2 * Real.pi) ^ ((d : ℝ) * 0.5))

/-- toy_examples.py 105-108 -/
noncomputable def componentDens (chol : Matrix (Fin d) (Fin d) ℝ → Matrix (Fin d) (Fin d) ℝ) (mx : Mixture n d) (x : Fin d → ℝ)
    (k : Fin n) : ℝ := Real.exp (-componentPotential chol mx x k)

/-- toy_examples.py 110-111 -/
noncomputable def dens (chol : Matrix (Fin d) (Fin d) ℝ → Matrix (Fin d) (Fin d) ℝ) (mx : Mixture n d) (x : Fin d → ℝ) : ℝ :=
  ∑ k, Real.exp (-componentPotential chol mx x k)

/-- toy_examples.py 113-116, `GaussianMixture.likelihood_potential` -/
noncomputable def mixturePotential (chol : Matrix (Fin d) (Fin d) ℝ → Matrix (Fin d) (Fin d) ℝ) (mx : Mixture n d) (x : Fin d → ℝ) : ℝ :=
  -Real.log (dens chol mx x)

/-- toy_examples.py 128-132, `DoubleWell.likelihood_potential` -/
noncomputable def doubleWell (x : Fin d → ℝ) : ℝ := (∑ i, x i ^ 4) / 4 - (∑ i, x i ^ 2) / 2

/-- toy_examples.py 146-149, `Rastrigin.likelihood_potential` -/
noncomputable def rastrigin (a : ℝ) (x : Fin d → ℝ) : ℝ := a * d + ∑ i, (x i ^ 2 - a * Real.cos (2 * Real.pi * x i))

/-- twodim/toy_examples.py 32-36, `Banana.likelihood_potential` -/
noncomputable def banana (curviness lengthiness : ℝ) (x : Fin 2 → ℝ) : ℝ :=
  0.5 * (x 0 ^ 2 / lengthiness + (x 1 + curviness * x 0 ^ 2 - lengthiness * curviness) ^ 2)

/-- twodim/toy_examples.py 42-45, `NealFunnel.likelihood_potential` -/
noncomputable def funnel (x : Fin 2 → ℝ) : ℝ := 0.5 * (x 1 ^ 2 / 3 + x 0 ^ 2 * Real.exp (-x 1 / 2))

end Mocat.ToyExamples
