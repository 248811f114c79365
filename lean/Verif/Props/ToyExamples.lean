import Verif.Model.ToyExamples
import Verif.Lemmas.GaussProduct
import Verif.Props.Gaussian
import Mathlib.MeasureTheory.Function.Jacobian
import Mathlib.MeasureTheory.Integral.Pi
import Mathlib.Analysis.SpecialFunctions.Gaussian.GaussianIntegral
import Mathlib.LinearAlgebra.Determinant
/-!
# C68: Gaussian mixtures; C78: banana and funnel; C79: double well and Rastrigin
-/
namespace Mocat.Props
open Mocat Mocat.ToyExamples Mocat.MatGauss Mocat.Spec Matrix MeasureTheory ProbabilityTheory
open scoped ENNReal NNReal

variable {n d : ℕ}

/-! ## C68 -/

/-- Specification: the density of a mixture of normal distributions. -/
noncomputable def mixtureDensity (mx : Mixture n d) (x : Fin d → ℝ) : ℝ :=
  ∑ k, mx.weights k * gaussDensity (mx.means k) (mx.covariances k) x

theorem sqrt_two_pi_pow (d : ℕ) : (2 * Real.pi) ^ ((d : ℝ) * 0.5) = √((2 * Real.pi) ^ d) := by
  rw [Real.sqrt_eq_rpow, ← Real.rpow_natCast, ← Real.rpow_mul (by positivity)]
  norm_num

/-- C68, exact: a component of the code's mixture has weight `w √det Λ` and precision `LᵀL`, where `Λ` is the precision asked for and `L` its
Cholesky factor. -/
theorem C68_component (chol : Matrix (Fin d) (Fin d) ℝ → Matrix (Fin d) (Fin d) ℝ) (hchol : IsCholesky chol) (mx : Mixture n d)
    (k : Fin n) (hw : 0 < mx.weights k) (hcov : (mx.covariances k).PosDef) (x : Fin d → ℝ) :
    componentDens chol mx x k
      = mx.weights k * √((mx.covariances k).det⁻¹)
        * gaussDensity (mx.means k) ((chol (mx.covariances k)⁻¹)ᵀ * chol (mx.covariances k)⁻¹)⁻¹ x := by
  have hP : ((mx.covariances k)⁻¹).PosDef := hcov.inv
  set P := (mx.covariances k)⁻¹ with hPd
  set L := chol P with hL
  have hLL : L * Lᵀ = P := hchol P hP
  have hdP : P.det = (mx.covariances k).det⁻¹ := by rw [hPd, det_nonsing_inv, Ring.inverse_eq_inv']
  have hpos : 0 < P.det := hP.det_pos
  have hdL : (Lᵀ * L).det = P.det := by rw [← hLL, det_mul, det_mul, mul_comm]
  have hunit : IsUnit (Lᵀ * L).det := isUnit_iff_ne_zero.2 (hdL ▸ hpos.ne')
  have hdi : ((Lᵀ * L)⁻¹).det⁻¹ = P.det := by rw [det_nonsing_inv (Lᵀ * L), Ring.inverse_eq_inv', inv_inv, hdL]
  have hq : ∑ i, ((x - mx.means k) ᵥ* Lᵀ) i ^ 2 = (x - mx.means k) ⬝ᵥ ((Lᵀ * L) *ᵥ (x - mx.means k)) := by
    rw [sq_sum_eq_quad, transpose_transpose, dotProduct_mulVec]
  have hpi : 0 < √((2 * Real.pi) ^ d) := by positivity
  rw [componentDens, componentPotential, neg_sub, sub_eq_add_neg, Real.exp_add, show precision mx k = P from rfl, sqrt_two_pi_pow,
    Real.exp_log (by positivity), ← hL, hq, gaussDensity, nonsing_inv_nonsing_inv _ hunit, hdi, ← hdP, Real.sqrt_div hpos.le, ← mul_assoc, show (-(1 / 2) : ℝ) * ((x - mx.means k) ⬝ᵥ ((Lᵀ * L) *ᵥ (x - mx.means k)))
      = -(0.5 * ((x - mx.means k) ⬝ᵥ ((Lᵀ * L) *ᵥ (x - mx.means k)))) by ring]
  congr 1
  have := Real.mul_self_sqrt hpos.le
  field_simp
  rw [pow_two, this]

theorem dens_pos [NeZero n] (chol : Matrix (Fin d) (Fin d) ℝ → Matrix (Fin d) (Fin d) ℝ) (mx : Mixture n d) (x : Fin d → ℝ) :
    0 < dens chol mx x :=
  Finset.sum_pos (fun _ _ => Real.exp_pos _) ⟨0, Finset.mem_univ _⟩

/-- C68, exact: the density the code samples from. -/
theorem C68_exact [NeZero n] (chol : Matrix (Fin d) (Fin d) ℝ → Matrix (Fin d) (Fin d) ℝ) (hchol : IsCholesky chol) (mx : Mixture n d)
    (hw : ∀ k, 0 < mx.weights k) (hcov : ∀ k, (mx.covariances k).PosDef) (x : Fin d → ℝ) :
    Real.exp (-mixturePotential chol mx x)
      = ∑ k, mx.weights k * √((mx.covariances k).det⁻¹)
        * gaussDensity (mx.means k) ((chol (mx.covariances k)⁻¹)ᵀ * chol (mx.covariances k)⁻¹)⁻¹ x := by
  rw [mixturePotential, neg_neg, Real.exp_log (dens_pos chol mx x), dens]
  exact Finset.sum_congr rfl fun k _ => C68_component chol hchol mx k (hw k) (hcov k) x

/-- C68, exact: the total mass is `Σ w_k √det Λ_k`, so the density is normalised only by accident. -/
theorem C68_mass [NeZero n] (chol : Matrix (Fin d) (Fin d) ℝ → Matrix (Fin d) (Fin d) ℝ) (hchol : IsCholesky chol) (mx : Mixture n d)
    (hw : ∀ k, 0 < mx.weights k) (hcov : ∀ k, (mx.covariances k).PosDef) :
    ∫ x, Real.exp (-mixturePotential chol mx x) = ∑ k, mx.weights k * √((mx.covariances k).det⁻¹) := by
  have hpd : ∀ k, (((chol (mx.covariances k)⁻¹)ᵀ * chol (mx.covariances k)⁻¹)⁻¹).PosDef := by
    intro k
    have hP : ((mx.covariances k)⁻¹).PosDef := (hcov k).inv
    have hLL := hchol _ hP
    set L := chol (mx.covariances k)⁻¹
    have hdet : L.det ≠ 0 := by
      intro h0
      have := hP.det_pos
      rw [← hLL, det_mul, h0, zero_mul] at this
      exact lt_irrefl _ this
    apply Matrix.PosDef.inv
    have := Matrix.PosDef.conjTranspose_mul_self L (Matrix.mulVec_injective_iff_isUnit.mpr ((isUnit_iff_isUnit_det L).mpr (isUnit_iff_ne_zero.2 hdet)))
    rwa [conjTranspose_eq_transpose_of_trivial] at this
  simp_rw [C68_exact chol hchol mx hw hcov]
  rw [integral_finsetSum _ fun k _ => (integrable_gaussDensity _ (hpd k)).const_mul _]
  exact Finset.sum_congr rfl fun k _ => by rw [integral_const_mul, integral_gaussDensity _ (hpd k), mul_one]

/-- C68. Full claim: `exp(-potential)` is the mixture density. Proved for components whose precision has determinant one and whose Cholesky
factor also satisfies `LᵀL = Λ` (e.g. diagonal covariances of determinant one, in particular the default identity); missing: every
other covariance, where the claim is false (`C68_fails_det`, `C68_fails_shape`). -/
theorem C68_mixture_partial [NeZero n] (chol : Matrix (Fin d) (Fin d) ℝ → Matrix (Fin d) (Fin d) ℝ) (hchol : IsCholesky chol) (mx : Mixture n d)
    (hw : ∀ k, 0 < mx.weights k) (hcov : ∀ k, (mx.covariances k).PosDef) (hdet : ∀ k, (mx.covariances k).det = 1)
    (hsym : ∀ k, (chol (mx.covariances k)⁻¹)ᵀ * chol (mx.covariances k)⁻¹ = (mx.covariances k)⁻¹) (x : Fin d → ℝ) :
    mixturePotential chol mx x = -Real.log (mixtureDensity mx x) := by
  have h := C68_exact chol hchol mx hw hcov x
  have e : mixtureDensity mx x = Real.exp (-mixturePotential chol mx x) := by
    rw [h, mixtureDensity]
    refine Finset.sum_congr rfl fun k _ => ?_
    rw [hsym k, nonsing_inv_nonsing_inv _ (isUnit_iff_ne_zero.2 (hcov k).det_pos.ne'), hdet k]
    simp
  rw [e, Real.log_exp, neg_neg]

/-- C68: for components that share one determinant (and with `LᵀL = Λ`) the potential is off by a constant only, so samplers are not affected. -/
theorem C68_common_det_partial [NeZero n] (chol : Matrix (Fin d) (Fin d) ℝ → Matrix (Fin d) (Fin d) ℝ) (hchol : IsCholesky chol) (mx : Mixture n d)
    (hw : ∀ k, 0 < mx.weights k) (hcov : ∀ k, (mx.covariances k).PosDef) (c : ℝ) (hdet : ∀ k, (mx.covariances k).det = c)
    (hsym : ∀ k, (chol (mx.covariances k)⁻¹)ᵀ * chol (mx.covariances k)⁻¹ = (mx.covariances k)⁻¹) (x : Fin d → ℝ) :
    mixturePotential chol mx x = -Real.log (mixtureDensity mx x) + Real.log c / 2 := by
  have h := C68_exact chol hchol mx hw hcov x
  have hc : 0 < c := hdet 0 ▸ (hcov 0).det_pos
  have e : Real.exp (-mixturePotential chol mx x) = √(c⁻¹) * mixtureDensity mx x := by
    rw [h, mixtureDensity, Finset.mul_sum]
    refine Finset.sum_congr rfl fun k _ => ?_
    rw [hsym k, nonsing_inv_nonsing_inv _ (isUnit_iff_ne_zero.2 (hcov k).det_pos.ne'), hdet k]
    ring
  have hs : 0 < √(c⁻¹) := Real.sqrt_pos.mpr (inv_pos.mpr hc)
  have hm : 0 < mixtureDensity mx x := by
    have := Real.exp_pos (-mixturePotential chol mx x)
    rw [e] at this
    exact (mul_pos_iff_of_pos_left hs).mp this
  have h2 := congrArg Real.log e
  rw [Real.log_exp, Real.log_mul hs.ne' hm.ne', Real.log_sqrt (inv_pos.mpr hc).le, Real.log_inv] at h2
  linarith

/-- The hypotheses can be met: the default mixture of two components in two dimensions with the identity as Cholesky factor of the
identity. -/
example : ∃ chol : Matrix (Fin 2) (Fin 2) ℝ → Matrix (Fin 2) (Fin 2) ℝ, IsCholesky chol ∧
    (∀ k, 0 < (defaultMixture (n := 2) (d := 2) ![![-2, -2], ![2, 2]]).weights k) ∧
    (∀ k, ((defaultMixture (n := 2) (d := 2) ![![-2, -2], ![2, 2]]).covariances k).PosDef) ∧
    (∀ k, ((defaultMixture (n := 2) (d := 2) ![![-2, -2], ![2, 2]]).covariances k).det = 1) ∧
    chol (1 : Matrix (Fin 2) (Fin 2) ℝ)⁻¹ = 1 := by
  classical
  refine ⟨fun P => if h : P.PosDef ∧ P ≠ 1 then (posDef_factor P h.1).choose else 1, ?_, ?_, ?_, ?_, ?_⟩
  · intro P hP
    by_cases h1 : P = 1
    · simp [h1]
    · simp only [dif_pos (show P.PosDef ∧ P ≠ 1 from ⟨hP, h1⟩)]
      exact (posDef_factor P hP).choose_spec.1.symm
  · intro k; simp [defaultMixture]
  · intro k; exact Matrix.PosDef.one
  · intro k; simp [defaultMixture]
  · simp

/-- C68 for the defaults: without weights and covariances the scenario is the normalised mixture, with equal weights, of normal distributions of identity covariance. -/
theorem C68_default [NeZero n] (chol : Matrix (Fin d) (Fin d) ℝ → Matrix (Fin d) (Fin d) ℝ) (hchol : IsCholesky chol) (means : Fin n → Fin d → ℝ) :
    (∀ x, Real.exp (-mixturePotential chol (defaultMixture means) x) = (∑ k, gaussDensity (means k) 1 x) / n) ∧
    ∫ x, Real.exp (-mixturePotential chol (defaultMixture means) x) = 1 := by
  have hn : (0 : ℝ) < n := by exact_mod_cast NeZero.pos n
  have hw : ∀ k, 0 < (defaultMixture means).weights k := fun k => by simpa [defaultMixture] using hn
  have hcov : ∀ k, ((defaultMixture means).covariances k).PosDef := fun k => Matrix.PosDef.one
  have hL : (chol 1)ᵀ * chol 1 = 1 := mul_eq_one_comm.1 (hchol 1 Matrix.PosDef.one)
  constructor
  · intro x
    rw [C68_exact chol hchol _ hw hcov x, Finset.sum_div]
    refine Finset.sum_congr rfl fun k _ => ?_
    simp only [defaultMixture, inv_one, hL, det_one, Real.sqrt_one]
    ring
  · rw [C68_mass chol hchol _ hw hcov]
    simp [defaultMixture, hn.ne']

/-- C68 fails: one component on the line, variance 1/4: `exp(-potential)` integrates to 2. -/
theorem C68_fails_det (chol : Matrix (Fin 1) (Fin 1) ℝ → Matrix (Fin 1) (Fin 1) ℝ) (hchol : IsCholesky chol) :
    ∫ x, Real.exp (-mixturePotential chol (⟨fun _ _ => 0, fun _ => Matrix.diagonal fun _ => 1 / 4, fun _ => 1⟩ : Mixture 1 1) x) = 2 := by
  rw [C68_mass chol hchol _ (fun _ => one_pos) fun _ => Matrix.PosDef.diagonal fun _ => by norm_num]
  simp only [Finset.univ_unique, Finset.sum_singleton, det_diagonal, one_mul, Finset.prod_const, Finset.card_singleton, pow_one]
  rw [show ((1 / 4 : ℝ))⁻¹ = 2 ^ 2 by norm_num, Real.sqrt_sq (by norm_num)]

/-- C68 fails beyond normalisation: with two components of variances 1 and 1/4 and equal weights, the code's density at the second mean relative
to the first is not that of the mixture. Stated for the masses: the components carry masses 1/2 and 1 instead of 1/2 and 1/2. -/
theorem C68_fails_weights (chol : Matrix (Fin 1) (Fin 1) ℝ → Matrix (Fin 1) (Fin 1) ℝ) (hchol : IsCholesky chol) (m : Fin 2 → Fin 1 → ℝ) (k : Fin 2) :
    ∫ x, componentDens chol (⟨m, ![1, Matrix.diagonal fun _ => 1 / 4], fun _ => 1 / 2⟩ : Mixture 2 1) x k = ![1 / 2, 1] k := by
  have hcov : (![1, Matrix.diagonal fun _ => 1 / 4] : Fin 2 → Matrix (Fin 1) (Fin 1) ℝ) k |>.PosDef := by
    fin_cases k
    · exact Matrix.PosDef.one
    · exact Matrix.PosDef.diagonal fun _ => by norm_num
  have h1 : ∫ x, componentDens chol (⟨m, ![1, Matrix.diagonal fun _ => 1 / 4], fun _ => 1 / 2⟩ : Mixture 2 1) x k
      = 1 / 2 * √(((![1, Matrix.diagonal fun _ => 1 / 4] : Fin 2 → Matrix (Fin 1) (Fin 1) ℝ) k).det⁻¹) := by
    set mx : Mixture 2 1 := ⟨m, ![1, Matrix.diagonal fun _ => 1 / 4], fun _ => 1 / 2⟩
    have h := C68_mass chol hchol (⟨fun _ => m k, fun _ => mx.covariances k, fun _ => 1 / 2⟩ : Mixture 1 1) (fun _ => by norm_num) fun _ => hcov
    simp only [Finset.univ_unique, Finset.sum_singleton] at h
    rw [← h]
    congr 1; funext x
    rw [mixturePotential, neg_neg, Real.exp_log (dens_pos chol _ x), dens]
    simp only [Finset.univ_unique, Finset.sum_singleton]
    rfl
  rw [h1]
  fin_cases k
  · simp
  · simp only [Fin.mk_one, cons_val_one, cons_val_zero, det_diagonal, Finset.univ_unique, Finset.prod_singleton]
    rw [show ((1 / 4 : ℝ))⁻¹ = 2 ^ 2 by norm_num, Real.sqrt_sq (by norm_num)]
    norm_num

/-- C68 fails in shape: one component in the plane with covariance `[[2, -1], [-1, 1]]` (determinant one) and the lower triangular Cholesky
factor of its precision. The density at `(1, 0)` relative to the mean is `exp(-1)` instead of `exp(-1/2)`. -/
theorem C68_fails_shape (chol : Matrix (Fin 2) (Fin 2) ℝ → Matrix (Fin 2) (Fin 2) ℝ)
    (hchol : chol !![1, 1; 1, 2] = !![1, 0; 1, 1]) :
    let mx : Mixture 1 2 := ⟨fun _ _ => 0, fun _ => !![2, -1; -1, 1], fun _ => 1⟩
    !![1, 0; 1, 1] * (!![1, 0; 1, 1])ᵀ = (!![1, 1; 1, 2] : Matrix (Fin 2) (Fin 2) ℝ) ∧
    mixturePotential chol mx ![1, 0] - mixturePotential chol mx 0 = 1 ∧
    Real.log (mixtureDensity mx 0) - Real.log (mixtureDensity mx ![1, 0]) = 1 / 2 := by
  intro mx
  have hinv : (!![2, -1; -1, 1] : Matrix (Fin 2) (Fin 2) ℝ)⁻¹ = !![1, 1; 1, 2] := by
    apply inv_eq_right_inv
    ext i j; fin_cases i <;> fin_cases j <;> norm_num [Matrix.mul_apply, Fin.sum_univ_two]
  have hp : ∀ k, precision mx k = !![1, 1; 1, 2] := fun k => hinv
  have hdet : (!![2, -1; -1, 1] : Matrix (Fin 2) (Fin 2) ℝ).det = 1 := by norm_num [det_fin_two]
  refine ⟨by ext i j; fin_cases i <;> fin_cases j <;> norm_num [Matrix.mul_apply, Fin.sum_univ_two], ?_, ?_⟩
  · simp only [mixturePotential, dens, Finset.univ_unique, Finset.sum_singleton, Real.log_exp, neg_neg, componentPotential, hp, hchol]
    have h0 : ((0 : Fin 2 → ℝ) - mx.means default) = 0 := by funext i; simp [mx]
    have h1 : ((![1, 0] : Fin 2 → ℝ) - mx.means default) = ![1, 0] := by funext i; simp [mx]
    rw [h0, h1]
    simp only [Fin.sum_univ_two, vecMul, dotProduct, transpose_apply]
    norm_num
  · have e : ∀ x, mixtureDensity mx x = √(1 / (2 * Real.pi) ^ 2) * Real.exp (-(1 / 2) * (x ⬝ᵥ (!![1, 1; 1, 2] *ᵥ x))) := by
      intro x
      simp only [mixtureDensity, Finset.univ_unique, Finset.sum_singleton, gaussDensity, mx, hinv, hdet, one_mul, inv_one]
      have : (x - fun _ => (0 : ℝ)) = x := by funext i; simp
      rw [this]
    have hs : √(1 / (2 * Real.pi) ^ 2) ≠ 0 := by positivity
    rw [e, e, Real.log_mul hs (Real.exp_pos _).ne', Real.log_mul hs (Real.exp_pos _).ne', Real.log_exp, Real.log_exp]
    simp only [dotProduct, mulVec, Fin.sum_univ_two]
    norm_num

/-! ## C78 -/

/-- The map that makes a banana of the standard normal distribution. -/
noncomputable def bananaMap (c l : ℝ) (z : Fin 2 → ℝ) : Fin 2 → ℝ := ![√l * z 0, z 1 - c * (√l * z 0) ^ 2 + l * c]

/-- C78: the banana is the image of the standard normal under `(z₀, z₁) ↦ (√l z₀, z₁ - c (√l z₀)² + l c)`, with normalising
constant `2π√l` (take `g = 1`). -/
theorem C78_banana (c l : ℝ) (hl : 0 < l) (g : (Fin 2 → ℝ) → ℝ≥0∞) :
    ∫⁻ x, g x * ENNReal.ofReal (Real.exp (-banana c l x))
      = ENNReal.ofReal √l * ∫⁻ z, g (bananaMap c l z) * ENNReal.ofReal (Real.exp (-(z 0 ^ 2 + z 1 ^ 2) / 2)) := by
  have hs : 0 < √l := Real.sqrt_pos.mpr hl
  set D : (Fin 2 → ℝ) → ((Fin 2 → ℝ) →L[ℝ] (Fin 2 → ℝ)) := fun z =>
    LinearMap.toContinuousLinearMap (toLin' !![√l, 0; -2 * c * l * z 0, 1]) with hD
  have hdet : ∀ z, (D z).det = √l := by
    intro z
    rw [hD, ContinuousLinearMap.det]
    simp only [LinearMap.coe_toContinuousLinearMap, LinearMap.det_toLin', det_fin_two_of]
    ring
  have hder : ∀ z, HasFDerivAt (bananaMap c l) (D z) z := by
    intro z
    rw [hasFDerivAt_pi']
    intro i
    have h0 : HasFDerivAt (fun z : Fin 2 → ℝ => z 0) (ContinuousLinearMap.proj (R := ℝ) (φ := fun _ : Fin 2 => ℝ) 0) z := hasFDerivAt_apply 0 z
    have h1 : HasFDerivAt (fun z : Fin 2 → ℝ => z 1) (ContinuousLinearMap.proj (R := ℝ) (φ := fun _ : Fin 2 => ℝ) 1) z := hasFDerivAt_apply 1 z
    fin_cases i
    · have := h0.const_mul √l
      refine this.congr_fderiv ?_
      apply ContinuousLinearMap.ext; intro v
      simp [hD, toLin'_apply, dotProduct, Fin.sum_univ_two]
    · have := ((h1.sub (((h0.const_mul √l).pow 2).const_mul c)).add_const (l * c))
      refine (this.congr_fderiv ?_)
      apply ContinuousLinearMap.ext; intro v
      have hsq : √l * √l = l := Real.mul_self_sqrt hl.le
      simp [hD, toLin'_apply, dotProduct, Fin.sum_univ_two]
      linear_combination (-2 * c * z 0 * v 0) * hsq
  have hinj : Function.Injective (bananaMap c l) := by
    intro a b h
    have e0 : √l * a 0 = √l * b 0 := congrFun h 0
    have e1 : a 1 - c * (√l * a 0) ^ 2 + l * c = b 1 - c * (√l * b 0) ^ 2 + l * c := congrFun h 1
    rw [e0] at e1
    funext i; fin_cases i
    · exact mul_left_cancel₀ hs.ne' e0
    · show a 1 = b 1
      linarith
  have hsurj : Function.Surjective (bananaMap c l) := by
    intro y
    refine ⟨![y 0 / √l, y 1 + c * y 0 ^ 2 - l * c], ?_⟩
    funext i; fin_cases i
    · simp [bananaMap, mul_div_cancel₀ _ hs.ne']
    · simp only [bananaMap, Fin.mk_one, cons_val_one, cons_val_zero, mul_div_cancel₀ _ hs.ne']
      ring
  have h := lintegral_image_eq_lintegral_abs_det_fderiv_mul volume MeasurableSet.univ
    (fun z _ => (hder z).hasFDerivWithinAt) hinj.injOn fun x => g x * ENNReal.ofReal (Real.exp (-banana c l x))
  rw [Set.image_univ, hsurj.range_eq] at h
  simp only [Measure.restrict_univ, hdet, abs_of_pos hs] at h
  rw [h, lintegral_const_mul' _ _ ENNReal.ofReal_ne_top]
  congr 2
  funext z
  congr 3
  have hsq : (√l) ^ 2 = l := Real.sq_sqrt hl.le
  simp only [banana, bananaMap, cons_val_zero, cons_val_one]
  have : (√l * z 0) ^ 2 / l = z 0 ^ 2 := by rw [mul_pow, hsq]; field_simp
  rw [this]
  ring

/-- C78: Neal's funnel should be `x₁ ~ N(0, 3)`, `x₀ | x₁ ~ N(0, exp(x₁/2))`, up to a constant factor. What the code has is the
same with `x₁ ~ N(3/4, 3)`: the normalising factor `exp(-x₁/4)` of the conditional distribution is left out. -/
theorem C78_funnel_partial : ∃ C : ℝ, 0 < C ∧ ∀ x : Fin 2 → ℝ,
    Real.exp (-funnel x) = C * (gaussianPDFReal (3 / 4) 3 (x 1) * gaussianPDFReal 0 ⟨Real.exp (x 1 / 2), (Real.exp_pos _).le⟩ (x 0)) := by
  refine ⟨√(2 * Real.pi * 3) * √(2 * Real.pi) * Real.exp (3 / 32), by positivity, fun x => ?_⟩
  have hE : √(2 * Real.pi * Real.exp (x 1 / 2)) = √(2 * Real.pi) * Real.exp (x 1 / 4) := by
    rw [Real.sqrt_mul (by positivity)]
    congr 1
    rw [show Real.exp (x 1 / 2) = Real.exp (x 1 / 4) ^ 2 by rw [← Real.exp_nat_mul]; congr 1; push_cast; ring,
      Real.sqrt_sq (Real.exp_pos _).le]
  have hcond : gaussianPDFReal 0 ⟨Real.exp (x 1 / 2), (Real.exp_pos _).le⟩ (x 0)
      = (√(2 * Real.pi * Real.exp (x 1 / 2)))⁻¹ * Real.exp (-(x 0 - 0) ^ 2 / (2 * Real.exp (x 1 / 2))) := rfl
  rw [hcond, hE]
  simp only [gaussianPDFReal, NNReal.coe_ofNat]
  have h1 : √(2 * Real.pi * 3) ≠ 0 := by positivity
  have h2 : √(2 * Real.pi) ≠ 0 := by positivity
  have h3 := (Real.exp_pos (x 1 / 4)).ne'
  have key : Real.exp (-funnel x) * Real.exp (x 1 / 4)
      = Real.exp (3 / 32) * Real.exp (-(x 1 - 3 / 4) ^ 2 / (2 * 3)) * Real.exp (-(x 0 - 0) ^ 2 / (2 * Real.exp (x 1 / 2))) := by
    rw [← Real.exp_add, ← Real.exp_add, ← Real.exp_add]
    congr 1
    have hinv : Real.exp (-x 1 / 2) = (Real.exp (x 1 / 2))⁻¹ := by rw [← Real.exp_neg]; congr 1; ring
    rw [funnel, hinv, sub_zero]
    field_simp
    ring
  rw [eq_div_of_mul_eq h3 key]
  have gen : ∀ A B e E0 g1 g0 : ℝ, A ≠ 0 → B ≠ 0 → e ≠ 0 → E0 * g1 * g0 / e = A * B * E0 * (A⁻¹ * g1 * ((B * e)⁻¹ * g0)) := by
    intro A B e E0 g1 g0 hA hB he
    field_simp
  exact gen _ _ _ _ _ _ h1 h2 h3

/-- C78 fails for the funnel: no constant makes it the funnel with `x₁ ~ N(0, 3)`. -/
theorem C78_funnel_fails : ¬ ∃ C : ℝ, ∀ x : Fin 2 → ℝ,
    Real.exp (-funnel x) = C * (gaussianPDFReal 0 3 (x 1) * gaussianPDFReal 0 ⟨Real.exp (x 1 / 2), (Real.exp_pos _).le⟩ (x 0)) := by
  rintro ⟨C, hC⟩
  obtain ⟨C', hC', h'⟩ := C78_funnel_partial
  have hall : ∀ v : ℝ, C' * gaussianPDFReal (3 / 4) 3 v = C * gaussianPDFReal 0 3 v := by
    intro v
    have h := (hC ![0, v]).symm.trans (h' ![0, v])
    rw [← mul_assoc, ← mul_assoc] at h
    have hp := gaussianPDFReal_pos 0 ⟨Real.exp (v / 2), (Real.exp_pos _).le⟩ (0 : ℝ) (by
      intro h0; exact (Real.exp_pos (v / 2)).ne' (congrArg NNReal.toReal h0))
    exact (mul_right_cancel₀ hp.ne' h).symm
  have ha := hall (3 / 4)
  have hb := hall 0
  have hc := hall (-3 / 4)
  simp only [gaussianPDFReal, NNReal.coe_ofNat] at ha hb hc
  set K := (√(2 * Real.pi * 3))⁻¹ with hK
  have hKp : 0 < K := by positivity
  have hCpos : 0 < C := by
    have h1 : 0 < C * (K * Real.exp (-(0 - 0 : ℝ) ^ 2 / (2 * 3))) := by rw [← hb]; positivity
    by_contra hneg
    push Not at hneg
    have : 0 < K * Real.exp (-(0 - 0 : ℝ) ^ 2 / (2 * 3)) := by positivity
    nlinarith
  have la := congrArg Real.log ha
  have lb := congrArg Real.log hb
  rw [Real.log_mul hC'.ne' (by positivity), Real.log_mul hCpos.ne' (by positivity), Real.log_mul hKp.ne' (by positivity),
    Real.log_mul hKp.ne' (by positivity), Real.log_exp, Real.log_exp] at la lb
  norm_num at la lb
  linarith

/-! ## C79 -/

/-- C79: the double well has its minima exactly at the points with coordinates `±1`. -/
theorem C79_doubleWell_min (x : Fin d → ℝ) :
    -(d : ℝ) / 4 ≤ doubleWell x ∧ (doubleWell x = -(d : ℝ) / 4 ↔ ∀ i, x i = 1 ∨ x i = -1) := by
  have e : doubleWell x = (∑ i, (x i ^ 2 - 1) ^ 2) / 4 - (d : ℝ) / 4 := by
    have : ∑ i, (x i ^ 2 - 1) ^ 2 = ∑ i, x i ^ 4 - 2 * ∑ i, x i ^ 2 + d := by
      rw [Finset.mul_sum, ← Finset.sum_sub_distrib, show (d : ℝ) = ∑ _i : Fin d, (1 : ℝ) by simp, ← Finset.sum_add_distrib]
      exact Finset.sum_congr rfl fun i _ => by ring
    rw [this, doubleWell]; ring
  have hnn : 0 ≤ ∑ i, (x i ^ 2 - 1) ^ 2 := Finset.sum_nonneg fun i _ => sq_nonneg _
  refine ⟨by rw [e]; linarith, ?_⟩
  constructor
  · intro h i
    have h0 : ∑ i, (x i ^ 2 - 1) ^ 2 = 0 := by rw [e] at h; linarith
    have := (Finset.sum_eq_zero_iff_of_nonneg fun i _ => sq_nonneg (x i ^ 2 - 1)).mp h0 i (Finset.mem_univ _)
    have h1 : x i ^ 2 = 1 := by linarith [pow_eq_zero_iff (two_ne_zero) |>.mp this]
    exact sq_eq_one_iff.mp h1
  · intro h
    have h0 : ∑ i, (x i ^ 2 - 1) ^ 2 = 0 := Finset.sum_eq_zero fun i _ => by rcases h i with h | h <;> simp [h]
    rw [e, h0]; ring

/-- C79: the Rastrigin function with amplitude `a ≥ 0` is non-negative and zero only at the origin. -/
theorem C79_rastrigin_min (a : ℝ) (ha : 0 ≤ a) (x : Fin d → ℝ) :
    0 ≤ rastrigin a x ∧ (rastrigin a x = 0 ↔ x = 0) ∧ ∑ i, x i ^ 2 ≤ rastrigin a x := by
  have e : rastrigin a x = ∑ i, (x i ^ 2 + a * (1 - Real.cos (2 * Real.pi * x i))) := by
    rw [rastrigin, show a * (d : ℝ) = ∑ _i : Fin d, a by simp [mul_comm], ← Finset.sum_add_distrib]
    exact Finset.sum_congr rfl fun i _ => by ring
  have hterm : ∀ i, x i ^ 2 ≤ x i ^ 2 + a * (1 - Real.cos (2 * Real.pi * x i)) := fun i =>
    le_add_of_nonneg_right (mul_nonneg ha (by linarith [Real.cos_le_one (2 * Real.pi * x i)]))
  have hge : ∑ i, x i ^ 2 ≤ rastrigin a x := by rw [e]; exact Finset.sum_le_sum fun i _ => hterm i
  have hnn : 0 ≤ ∑ i, x i ^ 2 := Finset.sum_nonneg fun i _ => sq_nonneg _
  refine ⟨hnn.trans hge, ⟨fun h => ?_, ?_⟩, hge⟩
  · have h0 : ∑ i, x i ^ 2 = 0 := le_antisymm (h ▸ hge) hnn
    funext i
    have := (Finset.sum_eq_zero_iff_of_nonneg fun i _ => sq_nonneg (x i)).mp h0 i (Finset.mem_univ _)
    exact pow_eq_zero_iff two_ne_zero |>.mp this
  · rintro rfl
    rw [e]; simp

/-- A continuous potential that grows at least like `½|x|² - c` has a finite positive normalising constant. -/
theorem proper_of_growth (V : (Fin d → ℝ) → ℝ) (hV : Continuous V) (c : ℝ) (hgrow : ∀ x, (∑ i, x i ^ 2) / 2 - c ≤ V x) :
    Integrable (fun x => Real.exp (-V x)) ∧ 0 < ∫ x, Real.exp (-V x) := by
  have hg : Integrable fun x : Fin d → ℝ => Real.exp c * ∏ i, Real.exp (-(1 / 2) * x i ^ 2) :=
    (Integrable.fintype_prod fun _ => integrable_exp_neg_mul_sq (by norm_num : (0 : ℝ) < 1 / 2)).const_mul _
  have hint : Integrable fun x => Real.exp (-V x) := by
    refine hg.mono' (by fun_prop : Continuous fun x => Real.exp (-V x)).aestronglyMeasurable (Filter.Eventually.of_forall fun x => ?_)
    rw [Real.norm_eq_abs, abs_of_pos (Real.exp_pos _), ← Real.exp_sum, ← Real.exp_add]
    apply Real.exp_le_exp.mpr
    rw [← Finset.mul_sum]
    linarith [hgrow x]
  refine ⟨hint, ?_⟩
  rw [integral_pos_iff_support_of_nonneg (fun x => (Real.exp_pos _).le) hint]
  have : Function.support (fun x => Real.exp (-V x)) = Set.univ := by
    ext x; simp [(Real.exp_pos _).ne']
  rw [this]
  exact Measure.measure_univ_pos.mpr (NeZero.ne _)

/-- C79: the double well is a proper density. -/
theorem C79_doubleWell_proper :
    Integrable (fun x : Fin d → ℝ => Real.exp (-doubleWell x)) ∧ 0 < ∫ x : Fin d → ℝ, Real.exp (-doubleWell x) := by
  apply proper_of_growth doubleWell (by unfold doubleWell; fun_prop) d
  intro x
  have : (0 : ℝ) ≤ ∑ i, (x i ^ 2 - 2) ^ 2 := Finset.sum_nonneg fun i _ => sq_nonneg _
  have e : ∑ i, (x i ^ 2 - 2) ^ 2 = ∑ i, x i ^ 4 - 4 * ∑ i, x i ^ 2 + 4 * d := by
    rw [Finset.mul_sum, ← Finset.sum_sub_distrib, show (4 : ℝ) * d = ∑ _i : Fin d, (4 : ℝ) by simp [mul_comm], ← Finset.sum_add_distrib]
    exact Finset.sum_congr rfl fun i _ => by ring
  rw [doubleWell]
  linarith

/-- C79: the Rastrigin density is proper for every non-negative amplitude. -/
theorem C79_rastrigin_proper (a : ℝ) (ha : 0 ≤ a) :
    Integrable (fun x : Fin d → ℝ => Real.exp (-rastrigin a x)) ∧ 0 < ∫ x : Fin d → ℝ, Real.exp (-rastrigin a x) := by
  apply proper_of_growth (rastrigin a) (by unfold rastrigin; fun_prop) 0
  intro x
  have h := (C79_rastrigin_min a ha x).2.2
  have hnn : 0 ≤ ∑ i, x i ^ 2 := Finset.sum_nonneg fun i _ => sq_nonneg _
  linarith

end Mocat.Props
