import Verif.Model.Covariance
import Verif.Lemmas.GaussMap
import Verif.Props.Gaussian
/-!
# C27: derived covariance factors

Specification: `Verif/Spec/Gaussian.lean` (density and law of `N(m, Σ)`). `IsCholesky` (a factor of every positive definite
matrix) is assumed of `jnp.linalg.cholesky`; the counterexample uses the true Cholesky factor of its matrix.
-/
namespace Mocat.Props
open Matrix MeasureTheory Mocat.Gaussian Mocat.Covariance Mocat.MatGauss Mocat.Spec Mocat.Meas

variable {d : ℕ}

theorem chol_det {chol} (hchol : IsCholesky (d := d) chol) {C : Matrix (Fin d) (Fin d) ℝ} (hC : C.PosDef) :
    (chol C).det ≠ 0 := by
  have h := congrArg det (hchol C hC)
  rw [det_mul, det_transpose] at h
  intro h0
  rw [h0, zero_mul] at h
  exact hC.det_pos.ne h

/-- C27, sampling in the linear Gaussian models (state-space and ABC): `L @ z + mean` is `N(mean, Σ)` for every positive
definite `Σ`. -/
theorem C27_sample_linear (chol) (hchol : IsCholesky (d := d) chol) (C : Matrix (Fin d) (Fin d) ℝ) (hC : C.PosDef)
    (mean : Fin d → ℝ) : (stdNormal d).map (sampleLeft (chol C) mean) = gauss mean C := by
  have := stdNormal_map_affine mean (chol C) (chol_det hchol hC)
  rwa [hchol C hC] at this

/-- C27, initial and observation sampling in `NonLinearGaussian`: likewise. -/
theorem C27_sample_nonlinear (chol) (hchol : IsCholesky (d := d) chol) (C : Matrix (Fin d) (Fin d) ℝ) (hC : C.PosDef)
    (mean : Fin d → ℝ) : (stdNormal d).map (sampleRightT (chol C) mean) = gauss mean C := by
  have : sampleRightT (chol C) mean = sampleLeft (chol C) mean := by
    funext z; simp [sampleRightT, sampleLeft, vecMul_transpose]
  rw [this]; exact C27_sample_linear chol hchol C hC mean

/-- C27, transition sampling in `NonLinearGaussian`: the covariance is `Lᵀ L`, not `Σ = L Lᵀ`. -/
theorem C27_sample_transition (chol) (hchol : IsCholesky (d := d) chol) (C : Matrix (Fin d) (Fin d) ℝ) (hC : C.PosDef)
    (mean : Fin d → ℝ) : (stdNormal d).map (sampleRight (chol C) mean) = gauss mean ((chol C)ᵀ * chol C) := by
  have h := stdNormal_map_affine mean (chol C)ᵀ (by rw [det_transpose]; exact chol_det hchol hC)
  rw [transpose_transpose] at h
  rw [← h]
  congr 1
  funext z
  simp [sampleRight, mulVec_transpose, add_comm]

/-- C27, toy `Gaussian`, matrix covariance: the potential is the quadratic form of `Σ⁻¹`. -/
theorem C27_toy_matrix (chol) (hchol : IsCholesky (d := d) chol) (C : Matrix (Fin d) (Fin d) ℝ) (hC : C.PosDef)
    (mean x : Fin d → ℝ) :
    toyPotential (resetCovariance chol (.mat C)) mean x = 1 / 2 * ((x - mean) ⬝ᵥ (C⁻¹ *ᵥ (x - mean))) := by
  have h := sq_sum_eq_quad (x - mean) ((chol C)⁻¹)ᵀ
  have hinv : ((chol C)⁻¹)ᵀ * (((chol C)⁻¹)ᵀ)ᵀ = C⁻¹ := by
    rw [transpose_transpose, transpose_nonsing_inv, ← Matrix.mul_inv_rev, hchol C hC]
  rw [hinv, ← dotProduct_mulVec] at h
  simp only [toyPotential, resetCovariance]
  rw [h]; norm_num

/-- C27, toy `Gaussian`, vector covariance: the potential is the sum of squares over variances. -/
theorem C27_toy_vector (chol : Matrix (Fin d) (Fin d) ℝ → _) (v mean x : Fin d → ℝ) (hv : ∀ i, 0 < v i) :
    toyPotential (resetCovariance chol (.vec v)) mean x = 1 / 2 * ∑ i, (x i - mean i) ^ 2 / v i := by
  simp only [toyPotential, resetCovariance]
  norm_num
  refine Finset.sum_congr rfl fun i _ => ?_
  rw [mul_pow, inv_pow, Real.sq_sqrt (hv i).le]; rfl

theorem ssmPotential_density (L : Matrix (Fin d) (Fin d) ℝ) (hL : L.det ≠ 0) (det : ℝ) (hdet : det = L.det ^ 2)
    (mean x : Fin d → ℝ) :
    Real.exp (-(gaussianPotential x mean .none (.mat L⁻¹) (some (1 / det)))) = gaussDensity mean (Lᵀ * L) x := by
  have hpi : (0 : ℝ) < 2 * Real.pi := by positivity
  have hd : 0 < det := by rw [hdet]; positivity
  have h := sq_sum_eq_quad (x - mean) L⁻¹
  have hinv : L⁻¹ * L⁻¹ᵀ = (Lᵀ * L)⁻¹ := by
    rw [transpose_nonsing_inv, Matrix.mul_inv_rev]
  rw [hinv, ← dotProduct_mulVec] at h
  simp only [gaussianPotential, defaultPrec, PArg.expand, defaultDet, vectorisedGaussianPotential, negLogZ, h, gaussDensity]
  rw [neg_add, Real.exp_add, mul_comm]
  congr 1
  · rw [det_mul, det_transpose, ← pow_two, ← hdet, ← Real.exp_log (x := √(det⁻¹ / (2 * Real.pi) ^ d)) (by positivity),
      Real.log_sqrt (by positivity), one_div, Real.log_div (inv_pos.2 hd).ne' (by positivity), Real.log_inv, Real.log_pow]
    congr 1; ring
  · congr 1; norm_num

/-- C27, potentials of the state-space and ABC Gaussian models, matrix covariance: what they compute is the normalised
density of `N(mean, Lᵀ L)`, where `Σ = L Lᵀ`. -/
theorem C27_potential (chol) (hchol : IsCholesky (d := d) chol) (C : Matrix (Fin d) (Fin d) ℝ) (hC : C.PosDef)
    (mean x : Fin d → ℝ) :
    ∃ v, ssmPotential (resetCovariance chol (.mat C)) mean x = .num v ∧
      Real.exp (-v) = gaussDensity mean ((chol C)ᵀ * chol C) x := by
  refine ⟨_, rfl, ssmPotential_density _ (chol_det hchol hC) _ ?_ mean x⟩
  conv_lhs => rw [← hchol C hC]
  rw [det_mul, det_transpose, pow_two]

/-- C27 holds where the factor commutes with its transpose, in particular for every diagonal matrix covariance with its
diagonal factor: then samples are drawn from, and potentials are minus log densities of, `N(mean, Σ)`. -/
theorem C27_consistent_partial (chol) (hchol : IsCholesky (d := d) chol) (C : Matrix (Fin d) (Fin d) ℝ) (hC : C.PosDef)
    (hcomm : (chol C)ᵀ * chol C = chol C * (chol C)ᵀ) (mean : Fin d → ℝ) :
    (stdNormal d).map (sampleLeft (chol C) mean) = gauss mean C ∧
    (stdNormal d).map (sampleRightT (chol C) mean) = gauss mean C ∧
    (stdNormal d).map (sampleRight (chol C) mean) = gauss mean C ∧
    ∀ x, ∃ v, ssmPotential (resetCovariance chol (.mat C)) mean x = .num v ∧ Real.exp (-v) = gaussDensity mean C x := by
  have hc : (chol C)ᵀ * chol C = C := hcomm.trans (hchol C hC)
  refine ⟨C27_sample_linear chol hchol C hC mean, C27_sample_nonlinear chol hchol C hC mean, ?_, fun x => ?_⟩
  · rw [C27_sample_transition chol hchol C hC mean, hc]
  · have := C27_potential chol hchol C hC mean x
    rwa [hc] at this

/-- The covariance of the counterexample and its Cholesky factor. -/
def covEx : Matrix (Fin 2) (Fin 2) ℝ := !![1, 1; 1, 2]
def cholEx : Matrix (Fin 2) (Fin 2) ℝ := !![1, 0; 1, 1]

theorem covEx_posDef : covEx.PosDef := by
  refine PosDef.of_dotProduct_mulVec_pos ?_ ?_
  · ext i j; fin_cases i <;> fin_cases j <;> simp [conjTranspose, covEx]
  · intro x hx
    simp only [covEx, dotProduct, mulVec, Fin.sum_univ_two, of_apply, cons_val', cons_val_fin_one, cons_val_zero,
      cons_val_one, Pi.star_apply, star_trivial]
    have : x 0 ≠ 0 ∨ x 1 ≠ 0 := by
      by_contra h
      push Not at h
      exact hx (by ext i; fin_cases i; exacts [h.1, h.2])
    have h0 : x 0 + x 1 ≠ 0 ∨ x 1 ≠ 0 := by
      rcases this with h | h
      · by_cases h1 : x 1 = 0
        · left; simpa [h1] using h
        · exact Or.inr h1
      · exact Or.inr h
    rcases h0 with h | h
    · nlinarith [sq_pos_of_ne_zero h, sq_nonneg (x 1)]
    · nlinarith [sq_pos_of_ne_zero h, sq_nonneg (x 0 + x 1)]

theorem cholEx_spec : cholEx * cholExᵀ = covEx := by
  ext i j; fin_cases i <;> fin_cases j <;> norm_num [cholEx, covEx, Matrix.mul_apply, Fin.sum_univ_two]

theorem densities_differ :
    gaussDensity (0 : Fin 2 → ℝ) (cholExᵀ * cholEx) ![1, 0] ≠ gaussDensity 0 covEx ![1, 0] := by
  have h1 : cholExᵀ * cholEx = !![2, 1; 1, 1] := by
    ext i j; fin_cases i <;> fin_cases j <;> norm_num [cholEx, Matrix.mul_apply, Fin.sum_univ_two]
  have i1 : (!![2, 1; 1, 1] : Matrix (Fin 2) (Fin 2) ℝ)⁻¹ = !![1, -1; -1, 2] := by
    refine inv_eq_left_inv ?_
    ext i j; fin_cases i <;> fin_cases j <;> norm_num [Matrix.mul_apply, Fin.sum_univ_two]
  have i2 : covEx⁻¹ = !![2, -1; -1, 1] := by
    refine inv_eq_left_inv ?_
    ext i j; fin_cases i <;> fin_cases j <;> norm_num [covEx, Matrix.mul_apply, Fin.sum_univ_two]
  have d1 : (!![2, 1; 1, 1] : Matrix (Fin 2) (Fin 2) ℝ).det = 1 := by rw [det_fin_two_of]; norm_num
  have d2 : covEx.det = 1 := by rw [covEx, det_fin_two_of]; norm_num
  rw [h1, gaussDensity, gaussDensity, i1, i2, d1, d2]
  intro h
  have hpos : (0 : ℝ) < √((1 : ℝ)⁻¹ / (2 * Real.pi) ^ 2) := by positivity
  have := mul_left_cancel₀ hpos.ne' h
  rw [Real.exp_eq_exp] at this
  norm_num [dotProduct, mulVec, Fin.sum_univ_two] at this

/-- C27 fails for a non-diagonal covariance `[[1,1],[1,2]]`, whose Cholesky factor is `[[1,0],[1,1]]`: the state-space
potential is not minus the log density of `N(0, Σ)`, the transition sample of `NonLinearGaussian` is not `N(0, Σ)`, while the
sample of the linear model is: its samples and its potential describe different distributions. -/
theorem C27_violated (chol) (hchol : IsCholesky (d := 2) chol) (hex : chol covEx = cholEx) :
    (∀ v, ssmPotential (resetCovariance chol (.mat covEx)) 0 ![1, 0] = .num v →
      Real.exp (-v) ≠ gaussDensity 0 covEx ![1, 0]) ∧
    (stdNormal 2).map (sampleRight (chol covEx) 0) ≠ gauss 0 covEx ∧
    (stdNormal 2).map (sampleLeft (chol covEx) 0) = gauss 0 covEx := by
  refine ⟨?_, ?_, C27_sample_linear chol hchol _ covEx_posDef 0⟩
  · intro v hv
    obtain ⟨w, hw, hd⟩ := C27_potential chol hchol covEx covEx_posDef 0 ![1, 0]
    rw [hw] at hv
    cases hv
    rw [hd, hex]
    exact densities_differ
  · rw [C27_sample_transition chol hchol _ covEx_posDef 0, hex]
    intro h
    have := (gauss_eq_iff 0 0 cholExᵀ covEx (by
      rw [det_transpose, cholEx, det_fin_two_of]; norm_num)).1 (by rw [transpose_transpose]; exact h)
    rw [transpose_transpose] at this
    exact densities_differ (this _)

/-- C27, vector covariances in the state-space models: the "determinant" is the array of inverse variances, so the potential
is an array with one entry per dimension, entry `i` normalised as if all variances were `v i`. -/
theorem C27_vector_potential (chol : Matrix (Fin d) (Fin d) ℝ → _) (v mean x : Fin d → ℝ) (hv : ∀ i, 0 < v i) :
    ∃ out, ssmPotential (resetCovariance chol (.vec v)) mean x = .arr out ∧
      ∀ i, out i = 1 / 2 * ∑ j, (x j - mean j) ^ 2 / v j + (d * Real.log (2 * Real.pi) + Real.log (v i)) / 2 := by
  refine ⟨_, rfl, fun i => ?_⟩
  simp only [resetCovariance, gaussianPotential, defaultPrec, PArg.expand, defaultDet, mvGaussianPotentialDiag, negLogZ,
    one_div, Real.log_inv, sub_neg_eq_add]
  norm_num
  refine Finset.sum_congr rfl fun j _ => ?_
  rw [Real.sq_sqrt (hv j).le]; rfl

/-- Non-vacuity: there is a Cholesky function that agrees with the true factor on the counterexample; and with a diagonal
matrix the hypothesis of `C27_consistent_partial` is met. -/
example : ∃ chol, IsCholesky (d := 2) chol ∧ chol covEx = cholEx := by
  classical
  refine ⟨fun P => if P = covEx then cholEx else if h : P.PosDef then (posDef_factor P h).choose else 0, ?_, by simp⟩
  intro P hP
  by_cases h : P = covEx
  · simp [h, cholEx_spec]
  · simp only [h, if_false, dif_pos hP]; exact (posDef_factor P hP).choose_spec.1.symm

example : (diagonal ![2, 3] : Matrix (Fin 2) (Fin 2) ℝ)ᵀ * diagonal ![2, 3] = diagonal ![2, 3] * (diagonal ![2, 3])ᵀ := by
  simp [diagonal_transpose]

end Mocat.Props
