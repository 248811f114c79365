import Verif.Lemmas.GaussMap
import Mathlib.LinearAlgebra.Matrix.SchurComplement
/-! Products of normal densities: conditioning and marginalising in linear-Gaussian models. -/
namespace Mocat.MatGauss
open Matrix MeasureTheory ProbabilityTheory Mocat.Spec Mocat.Meas

variable {d e : ℕ}

theorem posDef_innovation (H : Matrix (Fin e) (Fin d) ℝ) {P : Matrix (Fin d) (Fin d) ℝ} {R : Matrix (Fin e) (Fin e) ℝ} (hP : P.PosDef) (hR : R.PosDef) :
    (H * P * Hᵀ + R).PosDef := by
  have := hP.posSemidef.mul_mul_conjTranspose_same H
  rw [conjTranspose_eq_transpose_of_trivial] at this
  exact PosDef.posSemidef_add this hR

theorem PosDef.isUnit_det' {P : Matrix (Fin d) (Fin d) ℝ} (hP : P.PosDef) : IsUnit P.det := isUnit_iff_ne_zero.2 hP.det_pos.ne'

theorem PosDef.symm {P : Matrix (Fin d) (Fin d) ℝ} (hP : P.PosDef) : Pᵀ = P := by
  have := hP.isHermitian
  rwa [IsHermitian, conjTranspose_eq_transpose_of_trivial] at this

section
variable (H : Matrix (Fin e) (Fin d) ℝ) {P : Matrix (Fin d) (Fin d) ℝ} {R : Matrix (Fin e) (Fin e) ℝ} (hP : P.PosDef) (hR : R.PosDef)
include hP hR

/-- `S⁻¹ (H P Hᵀ) R⁻¹ = R⁻¹ - S⁻¹` -/
theorem inv_diff : (H * P * Hᵀ + R)⁻¹ * (H * P * Hᵀ) * R⁻¹ = R⁻¹ - (H * P * Hᵀ + R)⁻¹ := by
  have hS := PosDef.isUnit_det' (posDef_innovation H hP hR)
  have hRu := PosDef.isUnit_det' hR
  have : H * P * Hᵀ = (H * P * Hᵀ + R) - R := by rw [add_sub_cancel_right]
  conv_lhs => rw [show (H * P * Hᵀ + R)⁻¹ * (H * P * Hᵀ) = (H * P * Hᵀ + R)⁻¹ * ((H * P * Hᵀ + R) - R) by rw [← this]]
  rw [Matrix.mul_sub, nonsing_inv_mul _ hS, Matrix.sub_mul, Matrix.one_mul, Matrix.mul_assoc, mul_nonsing_inv _ hRu, Matrix.mul_one]

theorem inv_diff' : R⁻¹ * (H * P * Hᵀ) * (H * P * Hᵀ + R)⁻¹ = R⁻¹ - (H * P * Hᵀ + R)⁻¹ := by
  have hS := PosDef.isUnit_det' (posDef_innovation H hP hR)
  have hRu := PosDef.isUnit_det' hR
  have : H * P * Hᵀ = (H * P * Hᵀ + R) - R := by rw [add_sub_cancel_right]
  conv_lhs => rw [show R⁻¹ * (H * P * Hᵀ) = R⁻¹ * ((H * P * Hᵀ + R) - R) by rw [← this]]
  rw [Matrix.mul_sub, nonsing_inv_mul _ hRu, Matrix.sub_mul, Matrix.one_mul, Matrix.mul_assoc, mul_nonsing_inv _ hS, Matrix.mul_one]

/-- The information form of the conditional covariance. -/
theorem cond_mul_info : (P - P * Hᵀ * (H * P * Hᵀ + R)⁻¹ * H * P) * (P⁻¹ + Hᵀ * R⁻¹ * H) = 1 := by
  have hPu := PosDef.isUnit_det' hP
  have h := inv_diff H hP hR
  rw [Matrix.sub_mul, Matrix.mul_add, mul_nonsing_inv _ hPu, Matrix.mul_add, Matrix.mul_assoc _ P P⁻¹, mul_nonsing_inv _ hPu, Matrix.mul_one]
  have e1 : P * Hᵀ * (H * P * Hᵀ + R)⁻¹ * H * P * (Hᵀ * R⁻¹ * H) = P * Hᵀ * ((H * P * Hᵀ + R)⁻¹ * (H * P * Hᵀ) * R⁻¹) * H := by
    simp only [Matrix.mul_assoc]
  rw [e1, h, Matrix.mul_sub, Matrix.sub_mul]
  simp only [Matrix.mul_assoc]
  abel

theorem info_posDef : (P⁻¹ + Hᵀ * R⁻¹ * H).PosDef := by
  have h := hR.inv.posSemidef.conjTranspose_mul_mul_same H
  rw [conjTranspose_eq_transpose_of_trivial] at h
  exact PosDef.add_posSemidef hP.inv h

theorem cond_eq : P - P * Hᵀ * (H * P * Hᵀ + R)⁻¹ * H * P = (P⁻¹ + Hᵀ * R⁻¹ * H)⁻¹ := by
  have h := cond_mul_info H hP hR
  exact (inv_eq_left_inv h).symm

theorem cond_inv : (P - P * Hᵀ * (H * P * Hᵀ + R)⁻¹ * H * P)⁻¹ = P⁻¹ + Hᵀ * R⁻¹ * H := by
  rw [cond_eq H hP hR, nonsing_inv_nonsing_inv _ (PosDef.isUnit_det' (info_posDef H hP hR))]

/-- The conditional covariance is positive definite. -/
theorem cond_posDef : (P - P * Hᵀ * (H * P * Hᵀ + R)⁻¹ * H * P).PosDef := by
  rw [cond_eq H hP hR]
  exact (info_posDef H hP hR).inv

theorem info_mul_gain : (P⁻¹ + Hᵀ * R⁻¹ * H) * (P * Hᵀ * (H * P * Hᵀ + R)⁻¹) = Hᵀ * R⁻¹ := by
  have hPu := PosDef.isUnit_det' hP
  have h := inv_diff' H hP hR
  rw [Matrix.add_mul, ← Matrix.mul_assoc, ← Matrix.mul_assoc, nonsing_inv_mul _ hPu, Matrix.one_mul]
  have e1 : Hᵀ * R⁻¹ * H * (P * Hᵀ * (H * P * Hᵀ + R)⁻¹) = Hᵀ * (R⁻¹ * (H * P * Hᵀ) * (H * P * Hᵀ + R)⁻¹) := by
    simp only [Matrix.mul_assoc]
  rw [e1, h, Matrix.mul_sub]
  abel

/-- `det S det V = det P det R` -/
theorem det_cond : (H * P * Hᵀ + R).det * (P - P * Hᵀ * (H * P * Hᵀ + R)⁻¹ * H * P).det = P.det * R.det := by
  have hPu := PosDef.isUnit_det' hP
  have hSu := PosDef.isUnit_det' (posDef_innovation H hP hR)
  let _ := invertibleOfIsUnitDet P hPu
  let _ := invertibleOfIsUnitDet _ hSu
  have h1 := det_fromBlocks₁₁ P (P * Hᵀ) (H * P) (H * P * Hᵀ + R)
  have h2 := det_fromBlocks₂₂ P (P * Hᵀ) (H * P) (H * P * Hᵀ + R)
  rw [h1] at h2
  have e1 : H * P * Hᵀ + R - H * P * ⅟P * (P * Hᵀ) = R := by
    have : H * P * ⅟P = H := by rw [Matrix.mul_assoc, mul_invOf_self, Matrix.mul_one]
    rw [this, ← Matrix.mul_assoc, add_sub_cancel_left]
  have e2 : P - P * Hᵀ * ⅟(H * P * Hᵀ + R) * (H * P) = P - P * Hᵀ * (H * P * Hᵀ + R)⁻¹ * H * P := by
    rw [invOf_eq_nonsing_inv]
    simp only [Matrix.mul_assoc]
  rw [e1, e2] at h2
  exact h2.symm

/-- Completing the square. -/
theorem quad_split (u : Fin d → ℝ) (v : Fin e → ℝ) :
    (v - H *ᵥ u) ⬝ᵥ (R⁻¹ *ᵥ (v - H *ᵥ u)) + u ⬝ᵥ (P⁻¹ *ᵥ u)
      = v ⬝ᵥ ((H * P * Hᵀ + R)⁻¹ *ᵥ v) + (u - (P * Hᵀ * (H * P * Hᵀ + R)⁻¹) *ᵥ v) ⬝ᵥ
        ((P - P * Hᵀ * (H * P * Hᵀ + R)⁻¹ * H * P)⁻¹ *ᵥ (u - (P * Hᵀ * (H * P * Hᵀ + R)⁻¹) *ᵥ v)) := by
  rw [cond_inv H hP hR]
  set K := P * Hᵀ * (H * P * Hᵀ + R)⁻¹ with hK
  set A := P⁻¹ + Hᵀ * R⁻¹ * H with hA
  have hAK : A * K = Hᵀ * R⁻¹ := info_mul_gain H hP hR
  have hRs : (R⁻¹)ᵀ = R⁻¹ := PosDef.symm hR.inv
  have hAs : Aᵀ = A := PosDef.symm (info_posDef H hP hR)
  have hKA : Kᵀ * A = R⁻¹ * H := by
    have := congrArg transpose hAK
    rw [transpose_mul A K, hAs, transpose_mul Hᵀ, transpose_transpose, hRs] at this
    exact this
  have hSs : ((H * P * Hᵀ + R)⁻¹)ᵀ = (H * P * Hᵀ + R)⁻¹ := PosDef.symm (posDef_innovation H hP hR).inv
  have hKAK : Kᵀ * A * K = R⁻¹ - (H * P * Hᵀ + R)⁻¹ := by
    rw [hKA, hK, ← inv_diff' H hP hR]
    simp only [Matrix.mul_assoc]
  have q1 : (u - K *ᵥ v) ⬝ᵥ (A *ᵥ (u - K *ᵥ v)) = u ⬝ᵥ (A *ᵥ u) - u ⬝ᵥ ((A * K) *ᵥ v) - v ⬝ᵥ ((Kᵀ * A) *ᵥ u) + v ⬝ᵥ ((Kᵀ * A * K) *ᵥ v) := by
    have t1 : ∀ w, (K *ᵥ v) ⬝ᵥ w = v ⬝ᵥ (Kᵀ *ᵥ w) := by
      intro w
      rw [dotProduct_mulVec, vecMul_transpose]
    rw [mulVec_sub, sub_dotProduct, dotProduct_sub, dotProduct_sub, t1, t1]
    simp only [mulVec_mulVec, Matrix.mul_assoc]
    ring
  have q2 : (v - H *ᵥ u) ⬝ᵥ (R⁻¹ *ᵥ (v - H *ᵥ u)) = v ⬝ᵥ (R⁻¹ *ᵥ v) - v ⬝ᵥ ((R⁻¹ * H) *ᵥ u) - u ⬝ᵥ ((Hᵀ * R⁻¹) *ᵥ v) + u ⬝ᵥ ((Hᵀ * R⁻¹ * H) *ᵥ u) := by
    have t1 : ∀ w, (H *ᵥ u) ⬝ᵥ w = u ⬝ᵥ (Hᵀ *ᵥ w) := by
      intro w
      rw [dotProduct_mulVec, vecMul_transpose]
    rw [mulVec_sub, sub_dotProduct, dotProduct_sub, dotProduct_sub, t1, t1]
    simp only [mulVec_mulVec, Matrix.mul_assoc]
    ring
  rw [q1, q2, hKAK, hAK, hKA, hA, add_mulVec, dotProduct_add, sub_mulVec, dotProduct_sub]
  ring

/-- Bayes' rule for a linear-Gaussian observation: `N(y; H x, R) N(x; m, P) = N(y; H m, S) N(x; m + K (y - H m), P - K H P)` with `S = H P Hᵀ + R`, `K = P Hᵀ S⁻¹`. -/
theorem gauss_bayes (m x : Fin d → ℝ) (y : Fin e → ℝ) :
    gaussDensity (H *ᵥ x) R y * gaussDensity m P x
      = gaussDensity (H *ᵥ m) (H * P * Hᵀ + R) y *
        gaussDensity (m + (P * Hᵀ * (H * P * Hᵀ + R)⁻¹) *ᵥ (y - H *ᵥ m)) (P - P * Hᵀ * (H * P * Hᵀ + R)⁻¹ * H * P) x := by
  have hq := quad_split H hP hR (x - m) (y - H *ᵥ m)
  have e1 : y - H *ᵥ m - H *ᵥ (x - m) = y - H *ᵥ x := by rw [mulVec_sub]; abel
  have e2 : x - m - (P * Hᵀ * (H * P * Hᵀ + R)⁻¹) *ᵥ (y - H *ᵥ m) = x - (m + (P * Hᵀ * (H * P * Hᵀ + R)⁻¹) *ᵥ (y - H *ᵥ m)) := by abel
  rw [e1, e2] at hq
  have hd := det_cond H hP hR
  set S := H * P * Hᵀ + R
  set V := P - P * Hᵀ * S⁻¹ * H * P
  have hP0 := hP.det_pos
  have hR0 := hR.det_pos
  have hS0 := (posDef_innovation H hP hR).det_pos
  have hV0 := (cond_posDef H hP hR).det_pos
  unfold gaussDensity
  rw [mul_mul_mul_comm, ← Real.exp_add, mul_mul_mul_comm (√(S.det⁻¹ / (2 * Real.pi) ^ e)), ← Real.exp_add, ← mul_add, ← mul_add, hq]
  congr 1
  rw [← Real.sqrt_mul (by positivity), ← Real.sqrt_mul (div_nonneg (inv_nonneg.2 hS0.le) (by positivity))]
  congr 1
  rw [div_mul_div_comm, div_mul_div_comm, ← mul_inv, ← mul_inv, hd, mul_comm P.det]

end

theorem gaussDensity_pos (m : Fin d → ℝ) {P : Matrix (Fin d) (Fin d) ℝ} (hP : P.PosDef) (x : Fin d → ℝ) : 0 < gaussDensity m P x := by
  unfold gaussDensity
  have := hP.det_pos
  positivity

theorem gauss_isProb (m : Fin d → ℝ) {P : Matrix (Fin d) (Fin d) ℝ} (hP : P.PosDef) : IsProbabilityMeasure (gauss m P) := by
  obtain ⟨L, rfl, hL⟩ := posDef_factor P hP
  rw [← stdNormal_map_affine m L hL]
  have hc : Continuous fun z : Fin d → ℝ => L *ᵥ z + m := by
    have : Continuous (toLin' L) := LinearMap.continuous_of_finiteDimensional _
    exact this.add continuous_const
  exact Measure.isProbabilityMeasure_map hc.measurable.aemeasurable

theorem integral_gaussDensity (m : Fin d → ℝ) {P : Matrix (Fin d) (Fin d) ℝ} (hP : P.PosDef) : ∫ x, gaussDensity m P x = 1 := by
  have h := (gauss_isProb m hP).measure_univ
  rw [gauss, withDensity_apply _ MeasurableSet.univ, Measure.restrict_univ] at h
  rw [integral_eq_lintegral_of_nonneg_ae (Filter.Eventually.of_forall fun x => (gaussDensity_pos m hP x).le) (continuous_gaussDensity m P).aestronglyMeasurable, h]
  rfl

theorem integrable_gaussDensity (m : Fin d → ℝ) {P : Matrix (Fin d) (Fin d) ℝ} (hP : P.PosDef) : Integrable (gaussDensity m P) := by
  by_contra h
  have := integral_gaussDensity m hP
  rw [integral_undef h] at this
  exact zero_ne_one this

/-- Marginalising: `∫ N(y; H x, R) N(x; m, P) dx = N(y; H m, H P Hᵀ + R)`. -/
theorem gauss_marginal (H : Matrix (Fin e) (Fin d) ℝ) {P : Matrix (Fin d) (Fin d) ℝ} {R : Matrix (Fin e) (Fin e) ℝ} (hP : P.PosDef) (hR : R.PosDef)
    (m : Fin d → ℝ) (y : Fin e → ℝ) :
    ∫ x, gaussDensity (H *ᵥ x) R y * gaussDensity m P x = gaussDensity (H *ᵥ m) (H * P * Hᵀ + R) y := by
  simp only [gauss_bayes H hP hR]
  rw [integral_const_mul, integral_gaussDensity _ (cond_posDef H hP hR), mul_one]

/-- The same with an offset in the mean. -/
theorem gauss_marginal_affine (H : Matrix (Fin e) (Fin d) ℝ) (a : Fin e → ℝ) {P : Matrix (Fin d) (Fin d) ℝ} {R : Matrix (Fin e) (Fin e) ℝ} (hP : P.PosDef) (hR : R.PosDef)
    (m : Fin d → ℝ) (y : Fin e → ℝ) :
    ∫ x, gaussDensity (a + H *ᵥ x) R y * gaussDensity m P x = gaussDensity (a + H *ᵥ m) (H * P * Hᵀ + R) y := by
  have h := gauss_marginal H hP hR m (y - a)
  have e : ∀ (b : Fin e → ℝ) (C : Matrix (Fin e) (Fin e) ℝ), gaussDensity b C (y - a) = gaussDensity (a + b) C y := by
    intro b C
    unfold gaussDensity
    rw [sub_sub]
  simp only [e] at h
  exact h

end Mocat.MatGauss
