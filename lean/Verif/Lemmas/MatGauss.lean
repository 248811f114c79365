import Verif.Model.Gaussian
import Verif.Lemmas.Measure
import Mathlib.Analysis.Matrix.Order
import Mathlib.LinearAlgebra.Matrix.NonsingularInverse
/-! Helper lemmas: Gaussian integrals with matrix factors. -/
namespace Mocat.MatGauss
open Matrix MeasureTheory

variable {d : ℕ}

/-- A positive definite matrix factors as `S Sᵀ` with `S` invertible. -/
theorem posDef_factor (P : Matrix (Fin d) (Fin d) ℝ) (hP : P.PosDef) :
    ∃ S : Matrix (Fin d) (Fin d) ℝ, P = S * Sᵀ ∧ S.det ≠ 0 := by
  open scoped MatrixOrder in
  obtain ⟨y, hy, rfl⟩ := CStarAlgebra.isStrictlyPositive_iff_eq_star_mul_self.mp hP.isStrictlyPositive
  refine ⟨yᵀ, ?_, ?_⟩
  · rw [transpose_transpose, star_eq_conjTranspose, conjTranspose_eq_transpose_of_trivial]
  · rw [det_transpose]
    exact ((isUnit_iff_isUnit_det y).1 hy).ne_zero

theorem sq_sum_eq_quad (v : Fin d → ℝ) (S : Matrix (Fin d) (Fin d) ℝ) :
    ∑ i, ((v ᵥ* S) i) ^ 2 = (v ᵥ* (S * Sᵀ)) ⬝ᵥ v := by
  rw [← vecMul_vecMul, ← dotProduct_mulVec, mulVec_transpose]
  simp only [dotProduct, pow_two]

/-- `∫ f(Sᵀ(x - m)) dx = |det S|⁻¹ ∫ f` -/
theorem integral_linear (S : Matrix (Fin d) (Fin d) ℝ) (hS : S.det ≠ 0) (m : Fin d → ℝ) (f : (Fin d → ℝ) → ℝ)
    (hf : Continuous f) :
    ∫ x, f ((x - m) ᵥ* S) = |S.det|⁻¹ * ∫ x, f x := by
  rw [integral_sub_right_eq_self (fun x => f (x ᵥ* S)) m]
  have hmap := Real.map_matrix_volume_pi_eq_smul_volume_pi (M := Sᵀ) (by rwa [det_transpose])
  have hc : Continuous (toLin' Sᵀ) := LinearMap.continuous_of_finiteDimensional _
  have : ∫ x, f (x ᵥ* S) = ∫ y, f y ∂(Measure.map (toLin' Sᵀ) volume) := by
    rw [integral_map hc.measurable.aemeasurable hf.aestronglyMeasurable]
    simp [toLin'_apply, mulVec_transpose]
  rw [this, hmap, integral_smul_measure, ENNReal.toReal_ofReal (abs_nonneg _), det_transpose, abs_inv, smul_eq_mul]

end Mocat.MatGauss
