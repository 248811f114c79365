import Verif.Lemmas.GaussProduct
import Mathlib.Probability.Distributions.Gaussian.Real
import Mathlib.MeasureTheory.Measure.CharacteristicFunction.Basic
/-!
# Characteristic functions of normal distributions
-/
namespace Mocat.MatGauss
open Matrix MeasureTheory ProbabilityTheory Mocat Mocat.Meas Mocat.Spec
open scoped ENNReal

variable {d k : ℕ}

/-- `exp (i ℓ·x)` integrated. -/
noncomputable def charAt (μ : Measure (Fin d → ℝ)) (l : Fin d → ℝ) : ℂ := ∫ x, Complex.exp ((l ⬝ᵥ x : ℝ) * Complex.I) ∂μ

theorem charAt_stdNormal (v : Fin d → ℝ) : charAt (stdNormal d) v = Complex.exp ((-(v ⬝ᵥ v) / 2 : ℝ)) := by
  have h : ∀ x : Fin d → ℝ, Complex.exp ((v ⬝ᵥ x : ℝ) * Complex.I) = ∏ i, Complex.exp (v i * x i * Complex.I) := fun x => by
    rw [← Complex.exp_sum, ← Finset.sum_mul]
    simp [dotProduct]
  unfold charAt stdNormal
  simp_rw [h]
  rw [integral_fintype_prod_eq_prod (𝕜 := ℂ) (f := fun i (x : ℝ) => Complex.exp (v i * x * Complex.I))]
  have h2 : ∀ i, ∫ x, Complex.exp (v i * (x : ℝ) * Complex.I) ∂gaussianReal 0 1 = Complex.exp (-(v i : ℂ) ^ 2 / 2) := fun i => by
    have := charFun_gaussianReal (μ := 0) (v := 1) (v i)
    rw [charFun_apply_real] at this
    rw [this]
    congr 1
    simp
    ring
  rw [Finset.prod_congr rfl fun i _ => h2 i, ← Complex.exp_sum]
  congr 1
  simp [dotProduct, Finset.sum_div, pow_two, neg_div]

theorem charAt_map_affine {μ : Measure (Fin k → ℝ)} (B : Matrix (Fin d) (Fin k) ℝ) (m : Fin d → ℝ) (l : Fin d → ℝ) :
    charAt (μ.map fun z => B *ᵥ z + m) l = Complex.exp ((l ⬝ᵥ m : ℝ) * Complex.I) * charAt μ (l ᵥ* B) := by
  have hc : Measurable fun z : Fin k → ℝ => B *ᵥ z + m := by
    have : Continuous (toLin' B) := LinearMap.continuous_of_finiteDimensional _
    exact (this.add continuous_const).measurable
  unfold charAt
  rw [integral_map hc.aemeasurable, ← integral_const_mul]
  · refine integral_congr_ae (.of_forall fun z => ?_)
    simp only
    rw [← Complex.exp_add, dotProduct_add, dotProduct_mulVec]
    congr 1
    push_cast
    ring
  · have : Continuous fun x : Fin d → ℝ => Complex.exp ((l ⬝ᵥ x : ℝ) * Complex.I) := by
      simp only [dotProduct]
      fun_prop
    exact this.aestronglyMeasurable

theorem charAt_gauss (m : Fin d → ℝ) {P : Matrix (Fin d) (Fin d) ℝ} (hP : P.PosDef) (l : Fin d → ℝ) :
    charAt (gauss m P) l = Complex.exp ((l ⬝ᵥ m : ℝ) * Complex.I + (-(l ⬝ᵥ (P *ᵥ l)) / 2 : ℝ)) := by
  obtain ⟨L, rfl, hL⟩ := posDef_factor P hP
  rw [← stdNormal_map_affine m L hL, charAt_map_affine, charAt_stdNormal, ← Complex.exp_add]
  congr 5
  rw [← mulVec_mulVec, dotProduct_mulVec, mulVec_transpose]

/-- A probability distribution with the characteristic function of `N(m, P)` is `N(m, P)`. -/
theorem eq_gauss_of_charAt {μ : Measure (Fin d → ℝ)} [IsFiniteMeasure μ] (m : Fin d → ℝ) {P : Matrix (Fin d) (Fin d) ℝ} (hP : P.PosDef)
    (h : ∀ l, charAt μ l = Complex.exp ((l ⬝ᵥ m : ℝ) * Complex.I + (-(l ⬝ᵥ (P *ᵥ l)) / 2 : ℝ))) : μ = gauss m P := by
  have := gauss_isProb m hP
  refine Measure.ext_of_charFunDual (funext fun L => ?_)
  have hL : ∀ x, L x = (fun i => L (Pi.single i 1)) ⬝ᵥ x := fun x => by
    have := (L : (Fin d → ℝ) →ₗ[ℝ] ℝ).pi_apply_eq_sum_univ x
    simp only [ContinuousLinearMap.coe_coe, smul_eq_mul] at this
    rw [this, dotProduct]
    refine Finset.sum_congr rfl fun i _ => ?_
    rw [mul_comm]
    congr 2
    funext j
    simp [Pi.single_apply, eq_comm]
  have e : ∀ ν : Measure (Fin d → ℝ), charFunDual ν L = charAt ν fun i => L (Pi.single i 1) := fun ν => by
    rw [charFunDual_apply, charAt]
    exact integral_congr_ae (.of_forall fun x => congrArg (fun r : ℝ => Complex.exp (r * Complex.I)) (hL x))
  rw [e, e, h, charAt_gauss m hP]

end Mocat.MatGauss
