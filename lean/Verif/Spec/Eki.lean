import Verif.Lemmas.Measure
import Verif.Spec.Gaussian
import Mathlib.Probability.Moments.Covariance
/-!
# Specification: tempered distributions and covariance matrices
-/
namespace Mocat.Spec
open MeasureTheory ProbabilityTheory
open scoped ENNReal

/-- The distribution proportional to `exp(-T φ) dμ`. -/
noncomputable def tempered {X : Type*} [MeasurableSpace X] (μ : Measure X) (φ : X → ℝ) (T : ℝ) : Measure X :=
  (∫⁻ x, ENNReal.ofReal (Real.exp (-(T * φ x))) ∂μ)⁻¹ • μ.withDensity fun x => ENNReal.ofReal (Real.exp (-(T * φ x)))

/-- The matrix of covariances of the coordinates of two random vectors. -/
noncomputable def covMatrix {Ω : Type*} [MeasurableSpace Ω] (μ : Measure Ω) {a b : ℕ} (f : Ω → Fin a → ℝ) (g : Ω → Fin b → ℝ) : Matrix (Fin a) (Fin b) ℝ :=
  fun i j => cov[fun ω => f ω i, fun ω => g ω j; μ]

/-- The sample covariance of two lists of vectors (divisor `n - 1`). -/
noncomputable def sampleCov {n a b : ℕ} (f : Fin n → Fin a → ℝ) (g : Fin n → Fin b → ℝ) : Matrix (Fin a) (Fin b) ℝ :=
  fun i j => (∑ k, (f k i - (∑ l, f l i) / n) * (g k j - (∑ l, g l j) / n)) / (n - 1)

/-- The mean of a list of vectors. -/
noncomputable def sampleMean {n a : ℕ} (f : Fin n → Fin a → ℝ) : Fin a → ℝ := fun j => (∑ i, f i j) / n

/-- Minus the logarithm of the likelihood of `y` under `N(H x, R)`, up to a constant. -/
noncomputable def misfit {d e : ℕ} (H : Matrix (Fin e) (Fin d) ℝ) (R : Matrix (Fin e) (Fin e) ℝ) (y : Fin e → ℝ) (x : Fin d → ℝ) : ℝ :=
  1 / 2 * dotProduct (y - H.mulVec x) (R⁻¹.mulVec (y - H.mulVec x))

end Mocat.Spec
