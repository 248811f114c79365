import Verif.Model.SsmScenarios
import Verif.Props.Covariance
import Verif.Lemmas.GaussProduct
import Mathlib.Analysis.Calculus.MeanValue
import Mathlib.Analysis.Calculus.Deriv.Pow
/-!
# C80: stochastic volatility; C81: one-dimensional benchmark; C82: Lorenz dynamics
-/
namespace Mocat.Props
open Matrix MeasureTheory ProbabilityTheory Mocat.Gaussian Mocat.Covariance Mocat.MatGauss Mocat.Spec Mocat.Meas Mocat.SsmScenarios

variable {d : ℕ}

/-- A potential with a matrix root of the precision and no determinant: a constant times a normal density. -/
theorem unnormalised_density (S : Matrix (Fin d) (Fin d) ℝ) (hS : S.det ≠ 0) (mean x : Fin d → ℝ) :
    Real.exp (-gaussianPotential x mean .none (.mat S) none)
      = √((2 * Real.pi) ^ d / (S * Sᵀ).det) * gaussDensity mean (S * Sᵀ)⁻¹ x := by
  have h := sq_sum_eq_quad (x - mean) S
  rw [← dotProduct_mulVec] at h
  have hdet : 0 < (S * Sᵀ).det := by rw [det_mul, det_transpose]; exact mul_self_pos.mpr hS
  have hu : IsUnit (S * Sᵀ).det := isUnit_iff_ne_zero.2 hdet.ne'
  have hdi : ((S * Sᵀ)⁻¹).det⁻¹ = (S * Sᵀ).det := by rw [det_nonsing_inv (S * Sᵀ), Ring.inverse_eq_inv', inv_inv]
  have hpi : (0 : ℝ) < (2 * Real.pi) ^ d := by positivity
  rw [gaussDensity, nonsing_inv_nonsing_inv _ hu, hdi, ← mul_assoc, ← Real.sqrt_mul (by positivity)]
  rw [div_mul_div_comm, mul_comm ((2 * Real.pi) ^ d), div_self (by positivity), Real.sqrt_one, one_mul]
  simp only [gaussianPotential, defaultPrec, PArg.expand, defaultDet, vectorisedGaussianPotential, negLogZ, h]
  congr 1
  norm_num

theorem inv_gram (L : Matrix (Fin d) (Fin d) ℝ) (hL : L.det ≠ 0) (c : ℝ) (hc : 0 < c) :
    ((√c • L⁻¹) * (√c • L⁻¹)ᵀ)⁻¹ = c⁻¹ • (Lᵀ * L) := by
  have e : (√c • L⁻¹) * (√c • L⁻¹)ᵀ = c • (Lᵀ * L)⁻¹ := by
    rw [transpose_smul, smul_mul_smul_comm, Real.mul_self_sqrt hc.le, transpose_nonsing_inv, ← Matrix.mul_inv_rev]
  rw [e]
  have hu : IsUnit (Lᵀ * L).det := by
    rw [det_mul, det_transpose]; exact isUnit_iff_ne_zero.2 (mul_ne_zero hL hL)
  apply inv_eq_right_inv
  rw [smul_mul_smul_comm, mul_inv_cancel₀ hc.ne', one_smul, nonsing_inv_mul _ hu]

/-! ## C80 -/

/-- C80, initial distribution: draws are `N(mean, Σ)`; the potential describes `N(mean, LᵀL)` up to a constant, with `Σ = LLᵀ`. -/
theorem C80_initial (chol) (hchol : IsCholesky (d := d) chol) (mean : Fin d → ℝ) (C : Matrix (Fin d) (Fin d) ℝ) (hC : C.PosDef) :
    (stdNormal d).map (svInitialSample chol mean C) = gauss mean C ∧
    ∃ K : ℝ, 0 < K ∧ ∀ x, Real.exp (-svInitialPotential chol mean C x) = K * gaussDensity mean ((chol C)ᵀ * chol C) x := by
  refine ⟨C27_sample_nonlinear chol hchol C hC mean, ?_⟩
  have hL := chol_det hchol hC
  have hi : ((chol C)⁻¹).det ≠ 0 := by
    rw [det_nonsing_inv, Ring.inverse_eq_inv']; exact inv_ne_zero hL
  have hg := inv_gram (chol C) hL 1 one_pos
  simp only [Real.sqrt_one, one_smul, inv_one] at hg
  have hdet : 0 < ((chol C)⁻¹ * ((chol C)⁻¹)ᵀ).det := by rw [det_mul, det_transpose]; exact mul_self_pos.mpr hi
  refine ⟨√((2 * Real.pi) ^ d / ((chol C)⁻¹ * ((chol C)⁻¹)ᵀ).det), by positivity, fun x => ?_⟩
  have := unnormalised_density (chol C)⁻¹ hi mean x
  rw [hg] at this
  exact this

/-- C80, transition, exact: over a time step `δ` draws are `N(A x, δ Σ)`, but the potential describes `N(A x, δ⁻¹ LᵀL)`. -/
theorem C80_transition (chol) (hchol : IsCholesky (d := d) chol) (A C : Matrix (Fin d) (Fin d) ℝ) (hC : C.PosDef) (δ : ℝ) (hδ : 0 < δ) :
    (∀ xPrev t, (stdNormal d).map (svTransitionSample chol A C xPrev t (t + δ)) = gauss (A *ᵥ xPrev) (δ • C)) ∧
    ∃ K : ℝ, 0 < K ∧ ∀ xPrev t xNew, Real.exp (-svTransitionPotential chol A C xPrev t xNew (t + δ))
      = K * gaussDensity (A *ᵥ xPrev) (δ⁻¹ • ((chol C)ᵀ * chol C)) xNew := by
  have hL := chol_det hchol hC
  have hs : 0 < √δ := Real.sqrt_pos.mpr hδ
  constructor
  · intro xPrev t
    have hd : (√δ • chol C).det ≠ 0 := by
      rw [det_smul]; exact mul_ne_zero (pow_ne_zero _ hs.ne') hL
    have := stdNormal_map_affine (A *ᵥ xPrev) (√δ • chol C) hd
    rw [transpose_smul, smul_mul_smul_comm, Real.mul_self_sqrt hδ.le, hchol C hC] at this
    rw [← this]
    congr 1
    funext z
    simp only [svTransitionSample, add_sub_cancel_left, vecMul_transpose, smul_mulVec]
    rw [add_comm]
  · have hi : (√δ • (chol C)⁻¹).det ≠ 0 := by
      rw [det_smul, det_nonsing_inv, Ring.inverse_eq_inv']; exact mul_ne_zero (pow_ne_zero _ hs.ne') (inv_ne_zero hL)
    have hdet : 0 < ((√δ • (chol C)⁻¹) * (√δ • (chol C)⁻¹)ᵀ).det := by rw [det_mul, det_transpose]; exact mul_self_pos.mpr hi
    refine ⟨√((2 * Real.pi) ^ d / ((√δ • (chol C)⁻¹) * (√δ • (chol C)⁻¹)ᵀ).det), by positivity, fun xPrev t xNew => ?_⟩
    have := unnormalised_density (√δ • (chol C)⁻¹) hi (A *ᵥ xPrev) xNew
    rw [inv_gram _ hL δ hδ] at this
    rw [← this, svTransitionPotential, add_sub_cancel_left, vecMul_transpose]

/-- C80. Full claim: each potential is, up to a constant, minus the log density of the corresponding draw. Proved for transitions over unit time
steps with a factor that commutes with its transpose (e.g. diagonal covariances); missing: other steps and covariances, where it is false. -/
theorem C80_transition_partial (chol) (hchol : IsCholesky (d := d) chol) (A C : Matrix (Fin d) (Fin d) ℝ) (hC : C.PosDef)
    (hcomm : (chol C)ᵀ * chol C = chol C * (chol C)ᵀ) :
    ∃ K : ℝ, 0 < K ∧ ∀ xPrev t,
      (stdNormal d).map (svTransitionSample chol A C xPrev t (t + 1)) = gauss (A *ᵥ xPrev) C ∧
      ∀ xNew, Real.exp (-svTransitionPotential chol A C xPrev t xNew (t + 1)) = K * gaussDensity (A *ᵥ xPrev) C xNew := by
  obtain ⟨h1, K, hK, h2⟩ := C80_transition chol hchol A C hC 1 one_pos
  refine ⟨K, hK, fun xPrev t => ⟨by simpa using h1 xPrev t, fun xNew => ?_⟩⟩
  have := h2 xPrev t xNew
  rwa [inv_one, one_smul, hcomm, hchol C hC] at this

/-- C80 fails for other time steps: in one dimension with unit variance, for every step `δ ≠ 1` the potential is not a constant plus minus the log
density of the draws. -/
theorem C80_transition_fails (chol) (hchol : IsCholesky (d := 1) chol) (δ : ℝ) (hδ : 0 < δ) (h1 : δ ≠ 1) (t : ℝ) :
    (stdNormal 1).map (svTransitionSample chol 1 1 0 t (t + δ)) = gauss 0 (δ • (1 : Matrix (Fin 1) (Fin 1) ℝ)) ∧
    ¬ ∃ K : ℝ, ∀ xNew, Real.exp (-svTransitionPotential chol 1 1 0 t xNew (t + δ))
      = K * gaussDensity 0 (δ • (1 : Matrix (Fin 1) (Fin 1) ℝ)) xNew := by
  have h := (C80_transition chol hchol 1 1 PosDef.one δ hδ).1 0 t
  rw [mulVec_zero] at h
  refine ⟨h, ?_⟩
  rintro ⟨K, hK⟩
  have hC := hchol 1 PosDef.one
  have hL := chol_det hchol (C := 1) PosDef.one
  have hgram : (chol 1)ᵀ * chol 1 = 1 := by
    ext i j
    have := congrFun (congrFun hC i) j
    rw [Subsingleton.elim i 0, Subsingleton.elim j 0] at this ⊢
    rw [mul_apply, Fin.sum_univ_one, transpose_apply] at this ⊢
    exact this
  obtain ⟨K', hK', h2⟩ := (C80_transition chol hchol 1 1 PosDef.one δ hδ).2
  have e : ∀ (c : ℝ) (_ : 0 < c) (x : ℝ), gaussDensity (0 : Fin 1 → ℝ) (c • (1 : Matrix (Fin 1) (Fin 1) ℝ)) (fun _ => x)
      = √(c⁻¹ / (2 * Real.pi)) * Real.exp (-(1 / 2) * (x ^ 2 / c)) := by
    intro c hc x
    have hinv : (c • (1 : Matrix (Fin 1) (Fin 1) ℝ))⁻¹ = c⁻¹ • 1 := by
      apply inv_eq_right_inv
      rw [smul_mul_smul_comm, mul_inv_cancel₀ hc.ne', one_smul, Matrix.one_mul]
    rw [gaussDensity, hinv, det_smul, det_one]
    simp only [Fintype.card_fin, pow_one, mul_one, sub_zero, smul_mulVec, one_mulVec, dotProduct, Fin.sum_univ_one,
      Pi.smul_apply, smul_eq_mul]
    congr 3
    rw [div_eq_mul_inv]; ring
  have key : ∀ x : ℝ, K' * (√(δ / (2 * Real.pi)) * Real.exp (-(1 / 2) * (x ^ 2 * δ)))
      = K * (√(δ⁻¹ / (2 * Real.pi)) * Real.exp (-(1 / 2) * (x ^ 2 / δ))) := by
    intro x
    have a := h2 0 t fun _ => x
    rw [hgram, mulVec_zero, e δ⁻¹ (inv_pos.mpr hδ), inv_inv, div_inv_eq_mul] at a
    rw [← a, hK fun _ => x, e δ hδ]
  have k0 := key 0
  have k1 := key 1
  simp only [ne_eq, OfNat.ofNat_ne_zero, not_false_eq_true, zero_pow, zero_mul, zero_div, mul_zero, Real.exp_zero, mul_one] at k0
  rw [← mul_assoc K', ← mul_assoc K, k0] at k1
  have hpos : K * √(δ⁻¹ / (2 * Real.pi)) ≠ 0 := by
    rw [← k0]
    have : 0 < √(δ / (2 * Real.pi)) := by positivity
    positivity
  have h3 := Real.exp_injective (mul_left_cancel₀ hpos k1)
  have h4 : δ * δ = 1 := by
    field_simp at h3
    nlinarith
  rcases mul_self_eq_one_iff.mp h4 with h5 | h5
  · exact h1 h5
  · linarith

/-- C80, observations with a vector `likelihood_covariance_diag`: `exp(-potential)` is exactly the density of the draws. -/
theorem C80_likelihood (chol : Matrix (Fin d) (Fin d) ℝ → _) (c x : Fin d → ℝ) (hc : ∀ i, 0 < c i) :
    (stdNormal d).map (svLikelihoodSampleVec c x)
      = volume.withDensity fun y => ENNReal.ofReal (Real.exp (-svLikelihoodPotential chol (.vec c) x y)) := by
  set s : Fin d → ℝ := fun i => √(c i) * Real.exp (0.5 * x i) with hs
  have hsp : ∀ i, 0 < s i := fun i => mul_pos (Real.sqrt_pos.mpr (hc i)) (Real.exp_pos _)
  have hdet : (diagonal s).det ≠ 0 := by
    rw [det_diagonal]; exact Finset.prod_ne_zero_iff.mpr fun i _ => (hsp i).ne'
  have h := stdNormal_map_affine 0 (diagonal s) hdet
  have e1 : (fun z => diagonal s *ᵥ z + 0) = svLikelihoodSampleVec c x := by
    funext z i
    simp [mulVec_diagonal, svLikelihoodSampleVec, hs]
  rw [e1] at h
  rw [h, gauss]
  congr 1
  funext y
  congr 1
  have h2 := C26_vector_sqrt y 0 (fun i => 1 / √(c i) / Real.exp (0.5 * x i)) (fun i => (s i ^ 2)⁻¹)
    (fun i => by rw [hs, div_div, one_div, inv_pow]) none
  rw [svLikelihoodPotential, h2, ← C26_diagonal_matrix]
  have hL : (diagonal s).det ≠ 0 := hdet
  have hden := ssmPotential_density (diagonal s) hL _ rfl 0 y
  rw [diagonal_transpose] at hden ⊢
  rw [← hden]
  have hinv : (diagonal s)⁻¹ = diagonal fun i => (s i)⁻¹ := by
    apply inv_eq_right_inv
    rw [diagonal_mul_diagonal]
    ext i j
    by_cases hij : i = j
    · subst hij; simp [mul_inv_cancel₀ (hsp i).ne']
    · simp [hij]
  have h3 := C26_matrix_sqrt y 0 (diagonal s)⁻¹ (diagonal fun i => (s i ^ 2)⁻¹) (by
    rw [hinv, diagonal_transpose, diagonal_mul_diagonal]
    congr 1; funext i; rw [← mul_inv, pow_two]) (some (1 / (diagonal s).det ^ 2))
  rw [h3]
  congr 5
  rw [det_diagonal, det_diagonal, ← Finset.prod_pow, Finset.prod_inv_distrib, one_div]

/-- C80 fails with the default `likelihood_covariance_diag` (the identity matrix): the normalising factor, which depends on the state, is left out. The total
mass of `exp(-potential)` over observations is `(2π)^{d/2} exp(½ Σ xᵢ)`. -/
theorem C80_default_likelihood_mass (chol) (hid : chol (1 : Matrix (Fin d) (Fin d) ℝ) = 1) (x : Fin d → ℝ) :
    ∫ y, Real.exp (-svLikelihoodPotential chol (.mat 1) x y) = √((2 * Real.pi) ^ d) * Real.exp (∑ i, x i / 2) := by
  set S : Matrix (Fin d) (Fin d) ℝ := diagonal fun i => Real.exp (-(x i / 2)) with hS
  have eS : (Matrix.of fun i j => (chol (1 : Matrix (Fin d) (Fin d) ℝ))⁻¹ i j / Real.exp (0.5 * x j)) = S := by
    ext i j
    rw [of_apply, hid, inv_one, hS]
    by_cases hij : i = j
    · subst hij
      rw [one_apply_eq, diagonal_apply_eq, Real.exp_neg, one_div]
      congr 2; ring
    · rw [one_apply_ne hij, diagonal_apply_ne _ hij, zero_div]
  have hdet : S.det = Real.exp (-∑ i, x i / 2) := by
    rw [hS, det_diagonal, ← Real.exp_sum, Finset.sum_neg_distrib]
  have hdet0 : S.det ≠ 0 := by rw [hdet]; exact (Real.exp_pos _).ne'
  have hpd : ((S * Sᵀ)⁻¹).PosDef := by
    apply Matrix.PosDef.inv
    have := Matrix.PosDef.mul_conjTranspose_self S (by
      apply Matrix.vecMul_injective_iff_isUnit.mpr
      exact (isUnit_iff_isUnit_det S).mpr (isUnit_iff_ne_zero.2 hdet0))
    rwa [conjTranspose_eq_transpose_of_trivial] at this
  simp only [svLikelihoodPotential, eS]
  simp_rw [unnormalised_density S hdet0]
  rw [integral_const_mul, integral_gaussDensity _ hpd, mul_one, det_mul, det_transpose, hdet, ← Real.exp_add,
    Real.sqrt_div (by positivity), div_eq_mul_inv]
  congr 1
  rw [show -∑ i, x i / 2 + -∑ i, x i / 2 = (2 : ℕ) * -(∑ i, x i / 2) by push_cast; ring, Real.exp_nat_mul,
    Real.sqrt_sq (Real.exp_pos _).le, ← Real.exp_neg, neg_neg]

/-- C80 fails with the default: two states whose masses differ, so no constant repairs the likelihood. -/
theorem C80_default_likelihood_fails (chol) (hid : chol (1 : Matrix (Fin 1) (Fin 1) ℝ) = 1) :
    ¬ ∃ K : ℝ, ∀ x : Fin 1 → ℝ, ∫ y, Real.exp (-svLikelihoodPotential chol (.mat 1) x y) = K := by
  rintro ⟨K, hK⟩
  have h0 := (C80_default_likelihood_mass chol hid 0).symm.trans (hK 0)
  have h1 := (C80_default_likelihood_mass chol hid fun _ => 2).symm.trans (hK fun _ => 2)
  have h := h0.trans h1.symm
  have hp : √((2 * Real.pi) ^ 1) ≠ 0 := by positivity
  have := Real.exp_injective (mul_left_cancel₀ hp h)
  norm_num at this

/-- C80: with the default, a simulated observation is a diagonal matrix, not a vector. -/
theorem C80_default_sample (chol) (hid : chol (1 : Matrix (Fin d) (Fin d) ℝ) = 1) (x z : Fin d → ℝ) :
    svLikelihoodSampleMat chol 1 x z = diagonal fun i => Real.exp (0.5 * x i) * z i := by
  ext i j
  rw [svLikelihoodSampleMat, of_apply, hid]
  by_cases hij : i = j
  · subst hij; simp
  · simp [hij]

/-! ## C81 -/

theorem nl_density (sd : ℝ) (hsd : 0 < sd) (m x : Fin 1 → ℝ) :
    Real.exp (-gaussianPotentialDefault fun i => (x i - m i) / sd) = sd * gaussDensity m (diagonal fun _ => sd ^ 2) x := by
  have hL : (diagonal fun _ : Fin 1 => sd).det ≠ 0 := by simp [hsd.ne']
  have h := gaussDensity_factor m (diagonal fun _ => sd) hL fun i => (x i - m i) / sd
  have e1 : (diagonal fun _ : Fin 1 => sd) * (diagonal fun _ : Fin 1 => sd)ᵀ = diagonal fun _ => sd ^ 2 := by
    rw [diagonal_transpose, diagonal_mul_diagonal]; congr 1; funext i; ring
  have e2 : (diagonal fun _ : Fin 1 => sd) *ᵥ (fun i => (x i - m i) / sd) + m = x := by
    funext i
    simp only [Pi.add_apply, mulVec_diagonal]
    field_simp
    ring
  rw [e1, e2] at h
  rw [h, gaussianPotentialDefault, C26_default, neg_neg, Real.exp_log (Finset.prod_pos fun i _ => gaussianPDFReal_pos _ _ _ one_ne_zero)]
  simp only [det_diagonal, Finset.univ_unique, Finset.prod_singleton, abs_of_pos hsd, Pi.zero_apply]
  field_simp

/-- C81: the draws of the one-dimensional benchmark are the normal distributions its potentials describe: each potential is minus the log density of the draw plus
a constant (the log of the standard deviation) that does not depend on states, observations or times. -/
theorem C81_nonlinear1d (sd : ℝ) (hsd : 0 < sd) :
    ((stdNormal 1).map (nlInitialSample sd) = gauss 0 (diagonal fun _ => sd ^ 2) ∧
      ∀ x, Real.exp (-nlInitialPotential sd x) = sd * gaussDensity 0 (diagonal fun _ => sd ^ 2) x) ∧
    (∀ xPrev t t', (stdNormal 1).map (nlTransitionSample sd xPrev t t')
        = gauss (fun i => xPrev i / 2 + 25 * xPrev i / (1 + xPrev i ^ 2) + 8 * Real.cos (1.2 * t)) (diagonal fun _ => sd ^ 2) ∧
      ∀ xNew, Real.exp (-nlTransitionPotential sd xPrev t xNew t')
        = sd * gaussDensity (fun i => xPrev i / 2 + 25 * xPrev i / (1 + xPrev i ^ 2) + 8 * Real.cos (1.2 * t)) (diagonal fun _ => sd ^ 2) xNew) ∧
    (∀ x, (stdNormal 1).map (nlLikelihoodSample sd x) = gauss (fun i => x i ^ 2 / 20) (diagonal fun _ => sd ^ 2) ∧
      ∀ y, Real.exp (-nlLikelihoodPotential sd x y) = sd * gaussDensity (fun i => x i ^ 2 / 20) (diagonal fun _ => sd ^ 2) y) := by
  have hlaw : ∀ m : Fin 1 → ℝ, (stdNormal 1).map (fun z i => m i + z i * sd) = gauss m (diagonal fun _ => sd ^ 2) := by
    intro m
    have h := stdNormal_map_affine m (diagonal fun _ : Fin 1 => sd) (by simp [hsd.ne'])
    rw [diagonal_transpose, diagonal_mul_diagonal] at h
    rw [show (fun _ : Fin 1 => sd ^ 2) = fun _ => sd * sd by funext i; ring, ← h]
    congr 1
    funext z i
    simp only [Pi.add_apply, mulVec_diagonal]
    ring
  have hmean : ∀ (xPrev : Fin 1 → ℝ) t, nlTransitionMean xPrev t
      = fun i => xPrev i / 2 + 25 * xPrev i / (1 + xPrev i ^ 2) + 8 * Real.cos (1.2 * t) := by
    intro xPrev t
    funext i
    simp only [nlTransitionMean]
    ring
  refine ⟨⟨?_, ?_⟩, fun xPrev t t' => ⟨?_, fun xNew => ?_⟩, fun x => ⟨hlaw _, fun y => nl_density sd hsd _ y⟩⟩
  · have := hlaw 0
    simp only [Pi.zero_apply, zero_add] at this
    exact this
  · intro x
    have := nl_density sd hsd 0 x
    simpa [nlInitialPotential] using this
  · rw [← hmean]; exact hlaw _
  · rw [← hmean]; exact nl_density sd hsd _ xNew

/-! ## C82 -/

theorem pyIdx_val [NeZero d] (k : ℤ) : ((pyIdx d k : ℕ) : ℤ) = k % d := by
  have hd : (0 : ℤ) < d := by exact_mod_cast Nat.pos_of_ne_zero (NeZero.ne d)
  exact Int.toNat_of_nonneg (Int.emod_nonneg k hd.ne')

theorem pyIdx_pyIdx [NeZero d] (k m : ℤ) : pyIdx d ((pyIdx d k : ℕ) + m) = pyIdx d (k + m) := by
  apply Fin.ext
  have h : ((pyIdx d ((pyIdx d k : ℕ) + m) : ℕ) : ℤ) = ((pyIdx d (k + m) : ℕ) : ℤ) := by
    rw [pyIdx_val, pyIdx_val, pyIdx_val, Int.emod_add_emod]
  exact_mod_cast h

theorem pyIdx_self [NeZero d] (i : Fin d) : pyIdx d i = i := by
  apply Fin.ext
  have h : ((pyIdx d i : ℕ) : ℤ) = (i : ℕ) := by
    rw [pyIdx_val]; exact Int.emod_eq_of_lt (by positivity) (by exact_mod_cast i.isLt)
  exact_mod_cast h

/-- Rotation of the ring of `d` sites by `m`. -/
def rotate [NeZero d] (m : ℤ) : Fin d ≃ Fin d where
  toFun i := pyIdx d ((i : ℤ) + m)
  invFun i := pyIdx d ((i : ℤ) - m)
  left_inv i := by
    show pyIdx d (((pyIdx d ((i : ℤ) + m) : ℕ) : ℤ) - m) = i
    rw [sub_eq_add_neg, pyIdx_pyIdx, add_neg_cancel_right, pyIdx_self]
  right_inv i := by
    show pyIdx d (((pyIdx d ((i : ℤ) - m) : ℕ) : ℤ) + m) = i
    rw [pyIdx_pyIdx, sub_add_cancel, pyIdx_self]

/-- C82: Lorenz 96 is rotation equivariant: moving the sites round the ring moves the derivative with them, for every rotation and dimension. -/
theorem C82_equivariant [NeZero d] (m : ℤ) (x : Fin d → ℝ) (t F : ℝ) :
    lorenz96Dynamics (x ∘ rotate m) t F = lorenz96Dynamics x t F ∘ rotate m := by
  funext i
  simp only [lorenz96Dynamics, Function.comp, rotate, Equiv.coe_fn_mk, sub_eq_add_neg, pyIdx_pyIdx]
  have e : ∀ k : ℤ, (i : ℤ) + k + m = (i : ℤ) + m + k := fun k => by ring
  rw [e, e, e]

/-- C82: the quadratic terms of Lorenz 96 neither create nor destroy energy: the derivative of `½|x|²` along the dynamics is `-|x|² + F Σ xᵢ`. -/
theorem C82_energy [NeZero d] (x : Fin d → ℝ) (t F : ℝ) :
    ∑ i, x i * lorenz96Dynamics x t F i = -∑ i, x i ^ 2 + F * ∑ i, x i := by
  have hshift : ∑ i : Fin d, x (pyIdx d ((i : ℤ) - 2)) * x (pyIdx d ((i : ℤ) - 1)) * x i
      = ∑ i : Fin d, x (pyIdx d ((i : ℤ) - 1)) * x i * x (pyIdx d ((i : ℤ) + 1)) := by
    rw [← Equiv.sum_comp (rotate (d := d) 1)]
    refine Finset.sum_congr rfl fun i _ => ?_
    simp only [rotate, Equiv.coe_fn_mk, sub_eq_add_neg, pyIdx_pyIdx]
    have e1 : (i : ℤ) + 1 + -2 = (i : ℤ) + -1 := by ring
    have e2 : (i : ℤ) + 1 + -1 = (i : ℤ) := by ring
    rw [e1, e2, pyIdx_self]
  have e : ∀ i : Fin d, x i * lorenz96Dynamics x t F i
      = x (pyIdx d ((i : ℤ) - 1)) * x i * x (pyIdx d ((i : ℤ) + 1)) - x (pyIdx d ((i : ℤ) - 2)) * x (pyIdx d ((i : ℤ) - 1)) * x i
        - x i ^ 2 + F * x i := fun i => by simp only [lorenz96Dynamics]; ring
  simp only [e, Finset.sum_add_distrib, Finset.sum_sub_distrib, hshift, Finset.mul_sum]
  ring

/-- C82: so with any forcing the energy decreases outside the ball of radius `|F|√d`: solutions stay bounded. -/
theorem C82_dissipative [NeZero d] (x : Fin d → ℝ) (t F : ℝ) (hx : F ^ 2 * d < ∑ i, x i ^ 2) :
    ∑ i, x i * lorenz96Dynamics x t F i < 0 := by
  rw [C82_energy]
  have h : F * ∑ i, x i ≤ (∑ i, x i ^ 2) / 2 + F ^ 2 * d / 2 := by
    have : (0 : ℝ) ≤ ∑ i, (x i - F) ^ 2 := Finset.sum_nonneg fun i _ => sq_nonneg _
    have e : ∑ i, (x i - F) ^ 2 = ∑ i, x i ^ 2 - 2 * (F * ∑ i, x i) + F ^ 2 * d := by
      rw [Finset.mul_sum, Finset.mul_sum, ← Finset.sum_sub_distrib, show F ^ 2 * (d : ℝ) = ∑ _i : Fin d, F ^ 2 by simp [mul_comm],
        ← Finset.sum_add_distrib]
      exact Finset.sum_congr rfl fun i _ => by ring
    linarith
  linarith

/-- C82: Lorenz 63 with the symmetry `(x, y, z) ↦ (-x, -y, z)` and its three fixed points for `ρ > 1`. -/
theorem C82_lorenz63 (x : Fin 3 → ℝ) (t σ ρ β : ℝ) (hβ : 0 < β) (hρ : 1 < ρ) (hσ : σ ≠ 0) :
    lorenz63Dynamics ![-x 0, -x 1, x 2] t σ ρ β
      = ![-lorenz63Dynamics x t σ ρ β 0, -lorenz63Dynamics x t σ ρ β 1, lorenz63Dynamics x t σ ρ β 2] ∧
    (lorenz63Dynamics x t σ ρ β = 0 ↔ x = 0 ∨ x = ![√(β * (ρ - 1)), √(β * (ρ - 1)), ρ - 1] ∨ x = ![-√(β * (ρ - 1)), -√(β * (ρ - 1)), ρ - 1]) := by
  have hpos : 0 < β * (ρ - 1) := mul_pos hβ (by linarith)
  have hsq := Real.mul_self_sqrt hpos.le
  constructor
  · funext i; fin_cases i <;> simp [lorenz63Dynamics] <;> ring
  · constructor
    · intro h
      have h0 : σ * (x 1 - x 0) = 0 := congrFun h 0
      have h1 : x 0 * (ρ - x 2) - x 1 = 0 := congrFun h 1
      have h2 : x 0 * x 1 - β * x 2 = 0 := congrFun h 2
      have e : x 1 = x 0 := by
        rcases mul_eq_zero.mp h0 with h | h
        · exact absurd h hσ
        · linarith
      rw [e] at h1 h2
      have h3 : x 0 * (ρ - x 2 - 1) = 0 := by linarith
      rcases mul_eq_zero.mp h3 with h4 | h4
      · left
        rw [h4] at h2
        have : x 2 = 0 := by
          have : β * x 2 = 0 := by linarith
          rcases mul_eq_zero.mp this with h | h
          · exact absurd h hβ.ne'
          · exact h
        funext i; fin_cases i
        · exact h4
        · exact e.trans h4
        · exact this
      · right
        have hz : x 2 = ρ - 1 := by linarith
        rw [hz] at h2
        have h5 : (x 0 - √(β * (ρ - 1))) * (x 0 + √(β * (ρ - 1))) = 0 := by nlinarith
        rcases mul_eq_zero.mp h5 with h6 | h6
        · left
          funext i; fin_cases i
          · show x 0 = _; simp; linarith
          · show x 1 = _; simp; linarith
          · exact hz
        · right
          funext i; fin_cases i
          · show x 0 = _; simp; linarith
          · show x 1 = _; simp; linarith
          · exact hz
    · rintro (rfl | rfl | rfl)
      · funext i; fin_cases i <;> simp [lorenz63Dynamics]
      · funext i; fin_cases i <;> (simp [lorenz63Dynamics]; try linarith)
      · funext i; fin_cases i <;> (simp [lorenz63Dynamics]; try linarith)

/-- Library assumption on `odeint` for one call: it returns the value at time `τ` of a solution of the differential equation that starts at `x0`. -/
def SolvesOde (odeint : ((Fin d → ℝ) → ℝ → Fin d → ℝ) → (Fin d → ℝ) → ℝ → Fin d → ℝ) (f : (Fin d → ℝ) → ℝ → Fin d → ℝ) (x0 : Fin d → ℝ)
    (τ : ℝ) : Prop :=
  ∃ u : ℝ → Fin d → ℝ, u 0 = x0 ∧ u τ = odeint f x0 τ ∧ ∀ s ∈ Set.Icc 0 τ, HasDerivWithinAt u (f (u s) s) (Set.Icc 0 τ) s

/-- C82: with an exact integrator the Lorenz 96 transition never leaves a ball of squared radius at least `d F²`: the energy of the new state is at most the larger of
that and the old energy, for every time step. -/
theorem C82_transition_bounded [NeZero d] (odeint) (F : ℝ) (x : Fin d → ℝ) (t t' : ℝ) (htt : t ≤ t')
    (hode : SolvesOde (d := d) odeint (fun x t => lorenz96Dynamics x t F) x (t' - t)) (R : ℝ) (hR : F ^ 2 * d ≤ R) (hx : ∑ i, x i ^ 2 ≤ R) :
    ∑ i, transitionFunction odeint (fun x t => lorenz96Dynamics x t F) x t t' i ^ 2 ≤ R := by
  obtain ⟨u, hu0, huτ, hu⟩ := hode
  rw [transitionFunction, ← huτ]
  set E : ℝ → ℝ := fun s => ∑ i, u s i ^ 2 with hE
  have hEd : ∀ s ∈ Set.Icc 0 (t' - t), HasDerivWithinAt E (2 * ∑ i, u s i * lorenz96Dynamics (u s) s F i) (Set.Icc 0 (t' - t)) s := by
    intro s hs
    have hi : ∀ i, HasDerivWithinAt (fun s => u s i) (lorenz96Dynamics (u s) s F i) (Set.Icc 0 (t' - t)) s :=
      fun i => hasDerivWithinAt_pi.mp (hu s hs) i
    have := HasDerivWithinAt.fun_sum fun i (_ : i ∈ Finset.univ) => (hi i).pow 2
    refine this.congr_deriv ?_
    rw [Finset.mul_sum]
    refine Finset.sum_congr rfl fun i _ => ?_
    push_cast; ring
  refine le_of_forall_pos_le_add fun ε hε => ?_
  refine image_le_of_deriv_right_lt_deriv_boundary' (f := E) (f' := fun s => 2 * ∑ i, u s i * lorenz96Dynamics (u s) s F i) (a := 0) (b := t' - t)
    (B := fun _ => R + ε) (B' := fun _ => 0) (fun s hs => (hEd s hs).continuousWithinAt) (fun s hs => ?_) ?_ continuousOn_const
    (fun s _ => hasDerivWithinAt_const s _ _) (fun s _ hs => ?_) ⟨sub_nonneg.mpr htt, le_refl _⟩
  · exact (hEd s ⟨hs.1, hs.2.le⟩).mono_of_mem_nhdsWithin (Icc_mem_nhdsGE_of_mem hs)
  · show ∑ i, u 0 i ^ 2 ≤ R + ε
    rw [hu0]; linarith
  · have := C82_dissipative (u s) s F (by
      have : ∑ i, u s i ^ 2 = R + ε := hs
      linarith)
    linarith

/-- The hypotheses of `C82_transition_bounded` can be met: the fixed point `xᵢ = F` in dimension 40 with the default forcing. -/
example : SolvesOde (d := 40) (fun _ x0 _ => x0) (fun x t => lorenz96Dynamics x t 8) (fun _ => 8) 1 := by
  refine ⟨fun _ _ => 8, rfl, rfl, fun s _ => ?_⟩
  have : lorenz96Dynamics (fun _ : Fin 40 => (8 : ℝ)) s 8 = 0 := by funext i; simp [lorenz96Dynamics]
  show HasDerivWithinAt _ (lorenz96Dynamics (fun _ : Fin 40 => (8 : ℝ)) s 8) _ s
  rw [this]
  exact hasDerivWithinAt_const _ _ _

/-- The hypotheses of the C80 theorems can be met: the identity has factor one. -/
example : ∃ chol, IsCholesky (d := 2) chol ∧ chol 1 = 1 ∧ (chol 1)ᵀ * chol 1 = chol 1 * (chol 1)ᵀ := by
  classical
  refine ⟨fun P => if P = 1 then 1 else if h : P.PosDef then (posDef_factor P h).choose else 0, ?_, by simp, by simp⟩
  intro P hP
  by_cases h : P = 1
  · simp [h]
  · simp only [h, if_false, dif_pos hP]; exact (posDef_factor P hP).choose_spec.1.symm

end Mocat.Props
