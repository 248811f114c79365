import Verif.Spec.Gaussian
import Verif.Lemmas.MatGauss
/-! Affine images of the standard normal. -/
namespace Mocat.MatGauss
open Matrix MeasureTheory ProbabilityTheory Mocat.Spec Mocat.Meas

variable {d : ℕ}

theorem continuous_gaussDensity (m : Fin d → ℝ) (cov : Matrix (Fin d) (Fin d) ℝ) : Continuous (gaussDensity m cov) := by
  unfold gaussDensity
  have : Continuous fun x : Fin d → ℝ => (x - m) ⬝ᵥ (cov⁻¹ *ᵥ (x - m)) := by
    simp only [dotProduct, mulVec]
    fun_prop
  fun_prop

theorem prod_gaussianPDF (z : Fin d → ℝ) :
    ∏ i, gaussianPDFReal 0 1 (z i) = (√((2 * Real.pi) ^ d))⁻¹ * Real.exp (-(1 / 2) * ∑ i, z i ^ 2) := by
  have hpi : (0 : ℝ) ≤ 2 * Real.pi := by positivity
  simp only [gaussianPDFReal, NNReal.coe_one, mul_one, sub_zero]
  rw [Finset.prod_mul_distrib, ← Real.exp_sum, Finset.mul_sum]
  congr 1
  · rw [Finset.prod_const, Finset.card_univ, Fintype.card_fin, inv_pow, Real.sqrt_eq_rpow, Real.sqrt_eq_rpow,
      ← Real.rpow_natCast, ← Real.rpow_mul hpi, ← Real.rpow_natCast, ← Real.rpow_mul hpi]
    congr 2; ring
  · congr 1
    exact Finset.sum_congr rfl fun i _ => by ring

theorem gaussDensity_factor (m : Fin d → ℝ) (L : Matrix (Fin d) (Fin d) ℝ) (hL : L.det ≠ 0) (z : Fin d → ℝ) :
    gaussDensity m (L * Lᵀ) (L *ᵥ z + m) = |L.det|⁻¹ * ∏ i, gaussianPDFReal 0 1 (z i) := by
  have hu : IsUnit L.det := isUnit_iff_ne_zero.2 hL
  have hq : (L *ᵥ z + m - m) ⬝ᵥ ((L * Lᵀ)⁻¹ *ᵥ (L *ᵥ z + m - m)) = ∑ i, z i ^ 2 := by
    rw [add_sub_cancel_right, Matrix.mul_inv_rev, mulVec_mulVec, Matrix.mul_assoc, nonsing_inv_mul L hu, Matrix.mul_one,
      dotProduct_mulVec, ← transpose_nonsing_inv, vecMul_transpose, mulVec_mulVec, nonsing_inv_mul L hu, one_mulVec]
    simp [dotProduct, pow_two]
  rw [gaussDensity, hq, prod_gaussianPDF, ← mul_assoc]
  congr 1
  rw [det_mul, det_transpose, ← pow_two, Real.sqrt_div (by positivity), ← inv_pow, Real.sqrt_sq_eq_abs, abs_inv]
  rfl

/-- If `z` is standard normal then `L z + m` is `N(m, L Lᵀ)`, for every invertible `L`. -/
theorem stdNormal_map_affine (m : Fin d → ℝ) (L : Matrix (Fin d) (Fin d) ℝ) (hL : L.det ≠ 0) :
    (stdNormal d).map (fun z => L *ᵥ z + m) = gauss m (L * Lᵀ) := by
  have hu : IsUnit L.det := isUnit_iff_ne_zero.2 hL
  have hcont : Continuous fun z : Fin d → ℝ => L *ᵥ z + m := by
    have : Continuous (toLin' L) := LinearMap.continuous_of_finiteDimensional _
    exact this.add continuous_const
  ext s hs
  rw [Measure.map_apply hcont.measurable hs, stdNormal_eq_withDensity,
    withDensity_apply _ (hcont.measurable hs), gauss, withDensity_apply _ hs, ← lintegral_indicator hs,
    ← lintegral_indicator (hcont.measurable hs)]
  set F : (Fin d → ℝ) → ENNReal := s.indicator fun x => ENNReal.ofReal (gaussDensity m (L * Lᵀ) x) with hF
  have hFm : Measurable F := (ENNReal.measurable_ofReal.comp (continuous_gaussDensity m _).measurable).indicator hs
  have hmap := Real.map_matrix_volume_pi_eq_smul_volume_pi (M := L) hL
  have h1 : ∫⁻ x, F x = ENNReal.ofReal |L.det| * ∫⁻ z, F (L *ᵥ z + m) := by
    have hc : Continuous (toLin' L) := LinearMap.continuous_of_finiteDimensional _
    have e1 : ∫⁻ z, F (L *ᵥ z + m) = ENNReal.ofReal |L.det⁻¹| * ∫⁻ y, F (y + m) := by
      have := lintegral_map (μ := volume) (hFm.comp (measurable_add_const m)) hc.measurable
      rw [hmap, lintegral_smul_measure] at this
      simpa [toLin'_apply] using this.symm
    rw [e1, lintegral_add_right_eq_self F m, ← mul_assoc, ← ENNReal.ofReal_mul (abs_nonneg _), ← abs_mul,
      mul_inv_cancel₀ hL]
    simp
  have hFc : Measurable fun z => F (L *ᵥ z + m) := hFm.comp hcont.measurable
  rw [h1, ← lintegral_const_mul _ hFc]
  refine lintegral_congr fun z => ?_
  by_cases hz : L *ᵥ z + m ∈ s
  · rw [hF, Set.indicator_of_mem hz, Set.indicator_of_mem (show z ∈ (fun z => L *ᵥ z + m) ⁻¹' s from hz),
      gaussDensity_factor m L hL, ← ENNReal.ofReal_mul (abs_nonneg _), ← mul_assoc, mul_inv_cancel₀ (abs_ne_zero.2 hL),
      one_mul]
  · rw [hF, Set.indicator_of_notMem hz, Set.indicator_of_notMem (show z ∉ (fun z => L *ᵥ z + m) ⁻¹' s from hz), mul_zero]

/-- Two normal distributions are equal only if their densities are. -/
theorem gauss_eq_iff (m m' : Fin d → ℝ) (L L' : Matrix (Fin d) (Fin d) ℝ) (hL : L.det ≠ 0) :
    gauss m (L * Lᵀ) = gauss m' L' ↔ ∀ x, gaussDensity m (L * Lᵀ) x = gaussDensity m' L' x := by
  constructor
  · intro h
    have hfin : IsFiniteMeasure (gauss m (L * Lᵀ)) := by
      rw [← stdNormal_map_affine m L hL]; infer_instance
    have hlint : ∫⁻ x, ENNReal.ofReal (gaussDensity m (L * Lᵀ) x) ≠ ⊤ := by
      have := measure_ne_top (gauss m (L * Lᵀ)) Set.univ
      rwa [gauss, withDensity_apply _ MeasurableSet.univ, Measure.restrict_univ] at this
    have hmeas : ∀ (m : Fin d → ℝ) c, Measurable fun x => ENNReal.ofReal (gaussDensity m c x) := fun m c =>
      ENNReal.measurable_ofReal.comp (continuous_gaussDensity m _).measurable
    have hae := (withDensity_eq_iff (hmeas _ _).aemeasurable (hmeas _ _).aemeasurable hlint).1 h
    have hnn : ∀ (m : Fin d → ℝ) c x, 0 ≤ gaussDensity m c x := fun m c x =>
      mul_nonneg (Real.sqrt_nonneg _) (Real.exp_pos _).le
    have hae' : gaussDensity m (L * Lᵀ) =ᵐ[volume] gaussDensity m' L' := by
      filter_upwards [hae] with x hx
      rwa [ENNReal.ofReal_eq_ofReal_iff (hnn _ _ _) (hnn _ _ _)] at hx
    have := (Continuous.ae_eq_iff_eq volume (continuous_gaussDensity m _) (continuous_gaussDensity m' _)).1 hae'
    exact fun x => congrFun this x
  · intro h
    simp only [gauss, funext h]

end Mocat.MatGauss
