import Verif.Lemmas.Measure
import Mathlib.LinearAlgebra.Matrix.NonsingularInverse
/-! Specification: the multivariate normal distribution. -/
namespace Mocat.Spec
open Matrix MeasureTheory

variable {d : ℕ}

/-- Density of `N(m, Σ)`. -/
noncomputable def gaussDensity (m : Fin d → ℝ) (cov : Matrix (Fin d) (Fin d) ℝ) (x : Fin d → ℝ) : ℝ :=
  Real.sqrt (cov.det⁻¹ / (2 * Real.pi) ^ d) * Real.exp (-(1 / 2) * ((x - m) ⬝ᵥ (cov⁻¹ *ᵥ (x - m))))

/-- The distribution `N(m, Σ)` for invertible `Σ`. -/
noncomputable def gauss (m : Fin d → ℝ) (cov : Matrix (Fin d) (Fin d) ℝ) : Measure (Fin d → ℝ) :=
  volume.withDensity fun x => ENNReal.ofReal (gaussDensity m cov x)

end Mocat.Spec
