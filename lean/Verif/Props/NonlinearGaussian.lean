import Verif.Model.NonlinearGaussian
import Verif.Lemmas.GaussMoments
import Verif.Props.Covariance
import Mathlib.Algebra.BigOperators.Field
/-!
# C52 (optimal filter), C74, C75: particle filters for nonlinear Gaussian models
-/
namespace Mocat.Props
open Matrix MeasureTheory Mocat.Gaussian Mocat.Covariance Mocat.MatGauss Mocat.Spec Mocat.Meas Mocat.NonlinearGaussian Mocat.Kalman

variable {d e : ℕ}

/-- Assumed of `jnp.linalg.cholesky`, for every size. -/
def IsCholeskyAll (chol : Chol) : Prop := ∀ n, IsCholesky (chol n)

/-- The covariances of the model are positive definite. -/
structure ProperNLG (m : NLG d e) : Prop where
  init : m.initialCov.PosDef
  trans : m.transCov.PosDef
  lik : m.likCov.PosDef

theorem cholSym_eq {chol : Chol} {n : ℕ} {a : Matrix (Fin n) (Fin n) ℝ} (ha : aᵀ = a) : cholSym chol a = chol n a := by
  unfold cholSym
  rw [ha, ← two_smul ℝ a, smul_smul]
  norm_num

section
variable {chol : Chol} (hchol : IsCholeskyAll chol) {m : NLG d e} (hm : ProperNLG m)
include hchol hm

theorem weightPrec_eq : weightPrec chol m = (m.likMat * m.transCov * m.likMatᵀ + m.likCov)⁻¹ := by
  unfold weightPrec
  dsimp only
  rw [hchol e _ hm.lik, transpose_mul, Matrix.mul_assoc, ← Matrix.mul_assoc (chol d _), hchol d _ hm.trans, ← Matrix.mul_assoc]

theorem proposalGain_eq : proposalGain chol m = m.transCov * m.likMatᵀ * (m.likMat * m.transCov * m.likMatᵀ + m.likCov)⁻¹ := by
  unfold proposalGain
  rw [weightPrec_eq hchol hm, hchol d _ hm.trans]

theorem proposalCov_eq : proposalCov chol m = m.transCov - m.transCov * m.likMatᵀ * (m.likMat * m.transCov * m.likMatᵀ + m.likCov)⁻¹ * m.likMat * m.transCov := by
  unfold proposalCov
  rw [proposalGain_eq hchol hm]

theorem proposalCov_posDef : (proposalCov chol m).PosDef := by
  rw [proposalCov_eq hchol hm]
  exact cond_posDef _ hm.trans hm.lik

theorem proposalMean_eq (x : Fin d → ℝ) (t : ℝ) (y : Fin e → ℝ) (t' : ℝ) :
    proposalMean chol m x t y t' = m.transFun x t t' + (m.transCov * m.likMatᵀ * (m.likMat * m.transCov * m.likMatᵀ + m.likCov)⁻¹) *ᵥ (y - m.likMat *ᵥ m.transFun x t t') := by
  unfold proposalMean
  dsimp only
  rw [vecMul_transpose, vecMul_transpose, proposalGain_eq hchol hm]

/-- C52, optimal filter: the distribution of its proposal is the distribution of the new state given the previous one and the new observation, for every model with positive definite covariances. -/
theorem C52_optimal_proposal (x : Fin d → ℝ) (t : ℝ) (y : Fin e → ℝ) (t' : ℝ) :
    (stdNormal d).map (proposalSample chol m x t y t') = gauss (proposalMean chol m x t y t') (proposalCov chol m) ∧
    ∀ x', gaussDensity (m.transFun x t t') m.transCov x' * gaussDensity (m.likMat *ᵥ x') m.likCov y
      = gaussDensity (m.likMat *ᵥ m.transFun x t t') (m.likMat * m.transCov * m.likMatᵀ + m.likCov) y * gaussDensity (proposalMean chol m x t y t') (proposalCov chol m) x' := by
  have hp := proposalCov_posDef hchol hm
  constructor
  · have h := C27_sample_nonlinear (chol d) (hchol d) _ hp (proposalMean chol m x t y t')
    rw [← h]
    congr 1
    funext z
    unfold proposalSample sampleRightT
    rw [cholSym_eq (PosDef.symm hp), add_comm]
  · intro x'
    rw [mul_comm, gauss_bayes _ hm.trans hm.lik, proposalMean_eq hchol hm, proposalCov_eq hchol hm]

omit hm in
/-- `gaussian_potential` with `sqrt_prec` a factor of the precision `A` is minus the log density of the normal with covariance `A⁻¹`. -/
theorem potential_of_prec {n : ℕ} {A : Matrix (Fin n) (Fin n) ℝ} (hA : A.PosDef) (mean x : Fin n → ℝ) :
    Real.exp (-(gaussianPotential x mean .none (.mat (cholSym chol A)) (some A.det))) = gaussDensity mean A⁻¹ x := by
  have hc := hchol n A hA
  have hd := chol_det (hchol n) hA
  have hu : IsUnit (chol n A).det := isUnit_iff_ne_zero.2 hd
  have hdi : ((chol n A)⁻¹).det ≠ 0 := by
    rw [det_nonsing_inv, Ring.inverse_eq_inv']
    exact inv_ne_zero hd
  have h := ssmPotential_density (chol n A)⁻¹ hdi (1 / A.det) (by
    have hdd := congrArg det hc
    rw [det_mul, det_transpose] at hdd
    rw [← hdd, det_nonsing_inv, Ring.inverse_eq_inv', one_div, mul_inv, pow_two]) mean x
  rw [nonsing_inv_nonsing_inv _ hu, one_div_one_div] at h
  rw [cholSym_eq (PosDef.symm hA), h]
  congr 1
  rw [transpose_nonsing_inv, ← Matrix.mul_inv_rev, hc]

/-- C52, optimal filter: its incremental weight is the importance weight of that proposal: transition density times likelihood over proposal density, at every proposed state. -/
theorem C52_optimal_weight (x : Fin d → ℝ) (t : ℝ) (y : Fin e → ℝ) (t' : ℝ) (x' : Fin d → ℝ) :
    Real.exp (logWeight chol m x t y t')
      = gaussDensity (m.transFun x t t') m.transCov x' * gaussDensity (m.likMat *ᵥ x') m.likCov y / gaussDensity (proposalMean chol m x t y t') (proposalCov chol m) x' := by
  have hS := posDef_innovation m.likMat hm.trans hm.lik
  rw [(C52_optimal_proposal hchol hm x t y t').2 x', mul_div_cancel_right₀ _ (gaussDensity_pos _ (proposalCov_posDef hchol hm) x').ne']
  unfold logWeight
  have hw : (weightPrec chol m).PosDef := by rw [weightPrec_eq hchol hm]; exact hS.inv
  rw [potential_of_prec hchol hw, weightPrec_eq hchol hm, nonsing_inv_nonsing_inv _ (PosDef.isUnit_det' hS), vecMul_transpose]

omit hm in
theorem covPotential_density {n : ℕ} {C : Matrix (Fin n) (Fin n) ℝ} (hC : C.PosDef) (mean x : Fin n → ℝ) :
    Real.exp (-covPotential chol C mean x) = gaussDensity mean ((chol n C)ᵀ * chol n C) x := by
  have := C27_potential (chol n) (hchol n) C hC mean x
  obtain ⟨v, hv, h⟩ := this
  cases hv
  exact h

/-- C52, optimal filter: the generic weight of `ParticleFilter.intermediate_log_weight`, evaluated with the potentials the model and the filter have, in terms of densities. -/
theorem generic_density (x : Fin d → ℝ) (t : ℝ) (y : Fin e → ℝ) (t' : ℝ) (x' : Fin d → ℝ) :
    Real.exp (Filtering.genericLogWeight (m.model chol) (proposalPotential chol m) x t x' y t')
      = gaussDensity (m.transFun x t t') ((chol d m.transCov)ᵀ * chol d m.transCov) x' * gaussDensity (m.likMat *ᵥ x') ((chol e m.likCov)ᵀ * chol e m.likCov) y
        / gaussDensity (proposalMean chol m x t y t') ((chol d (proposalCov chol m))ᵀ * chol d (proposalCov chol m)) x' := by
  have hp := proposalCov_posDef hchol hm
  have h1 := covPotential_density hchol hm.trans (m.transFun x t t') x'
  have h2 := covPotential_density hchol hm.lik (x' ᵥ* m.likMatᵀ) y
  have h3 := covPotential_density hchol hp (proposalMean chol m x t y t') x'
  rw [vecMul_transpose] at h2
  rw [← h1, ← h2, ← h3, ← Real.exp_add, ← Real.exp_sub]
  congr 1
  unfold Filtering.genericLogWeight proposalPotential NLG.model covPotential
  rw [cholSym_eq (PosDef.symm hp)]
  simp only [vecMul_transpose]
  ring

/-- C52, optimal filter, what holds of the potentials: if the three covariance factors commute with their transposes (diagonal covariances) the weight is the generic formula with the filter's own potentials.
Missing: other covariances (`C52_optimal_fails`). -/
theorem C52_optimal_partial (hQ : (chol d m.transCov)ᵀ * chol d m.transCov = m.transCov) (hR : (chol e m.likCov)ᵀ * chol e m.likCov = m.likCov)
    (hV : (chol d (proposalCov chol m))ᵀ * chol d (proposalCov chol m) = proposalCov chol m) (x : Fin d → ℝ) (t : ℝ) (y : Fin e → ℝ) (t' : ℝ) (x' : Fin d → ℝ) :
    logWeight chol m x t y t' = Filtering.genericLogWeight (m.model chol) (proposalPotential chol m) x t x' y t' := by
  have h1 := C52_optimal_weight hchol hm x t y t' x'
  have h2 := generic_density hchol hm x t y t' x'
  rw [hQ, hR, hV, ← h1] at h2
  exact (Real.exp_injective h2).symm

end

/-- The model of the counterexample: identity transition and observation matrix, unit transition noise, observation covariance `[[1,1],[1,2]]`. -/
def nlgEx : NLG 2 2 where
  initialMean := 0
  initialCov := 1
  transFun x _ _ := x
  transCov := 1
  likMat := 1
  likCov := covEx

theorem nlgEx_proper : ProperNLG nlgEx := ⟨PosDef.one, PosDef.one, covEx_posDef⟩

/-- C52 fails for the optimal filter with its potentials: with observation covariance `[[1,1],[1,2]]` (factor `[[1,0],[1,1]]`), particle 0 and observation `(3,-1)`, the weight differs from the generic formula at the
proposed state `(2,-1)`. -/
theorem C52_optimal_fails (chol : Chol) (hchol : IsCholeskyAll chol) (hex : chol 2 covEx = cholEx) :
    ProperNLG nlgEx ∧ logWeight chol nlgEx 0 0 ![3, -1] 1 ≠ Filtering.genericLogWeight (nlgEx.model chol) (proposalPotential chol nlgEx) 0 0 ![2, -1] ![3, -1] 1 := by
  refine ⟨nlgEx_proper, fun h => ?_⟩
  have h1 := C52_optimal_weight hchol nlgEx_proper 0 0 ![3, -1] 1 ![2, -1]
  have h2 := generic_density hchol nlgEx_proper 0 0 ![3, -1] 1 ![2, -1]
  have hp := proposalCov_posDef hchol nlgEx_proper
  rw [← h, h1] at h2
  have hone : (chol 2 1)ᵀ * chol 2 1 = 1 := by
    have := hchol 2 1 PosDef.one
    exact mul_eq_one_comm.1 this
  have hS : ((1 : Matrix (Fin 2) (Fin 2) ℝ) * 1 * 1ᵀ + covEx)⁻¹ = !![3 / 5, -1 / 5; -1 / 5, 2 / 5] := by
    refine inv_eq_left_inv ?_
    ext i j; fin_cases i <;> fin_cases j <;> norm_num [covEx, Matrix.mul_apply, Fin.sum_univ_two]
  have hmean : proposalMean chol nlgEx 0 0 ![3, -1] 1 = ![2, -1] := by
    rw [proposalMean_eq hchol nlgEx_proper]
    simp only [nlgEx]
    rw [hS]
    ext i; fin_cases i <;> norm_num [mulVec, dotProduct, Fin.sum_univ_two]
  have hself : ∀ C : Matrix (Fin 2) (Fin 2) ℝ, gaussDensity (![2, -1] : Fin 2 → ℝ) C ![2, -1] = √(C.det⁻¹ / (2 * Real.pi) ^ 2) := by
    intro C
    unfold gaussDensity
    simp
  have hdet : ((chol 2 (proposalCov chol nlgEx))ᵀ * chol 2 (proposalCov chol nlgEx)).det = (proposalCov chol nlgEx).det := by
    conv_rhs => rw [← hchol 2 _ hp]
    rw [det_mul, det_mul, mul_comm]
  rw [hmean, hself, hself, hdet] at h2
  have hpos : √((proposalCov chol nlgEx).det⁻¹ / (2 * Real.pi) ^ 2) ≠ 0 := by
    have := hp.det_pos
    positivity
  rw [div_left_inj' hpos] at h2
  simp only [nlgEx, hone, hex, one_mulVec] at h2
  have h3 := mul_left_cancel₀ (gaussDensity_pos (0 : Fin 2 → ℝ) PosDef.one ![2, -1]).ne' h2
  have hshift : ∀ C : Matrix (Fin 2) (Fin 2) ℝ, gaussDensity (![2, -1] : Fin 2 → ℝ) C ![3, -1] = gaussDensity 0 C ![1, 0] := by
    intro C
    unfold gaussDensity
    have : (![3, -1] - ![2, -1] : Fin 2 → ℝ) = ![1, 0] - 0 := by ext i; fin_cases i <;> norm_num
    rw [this]
  rw [hshift, hshift] at h3
  exact densities_differ h3.symm

/-! ## C74 -/

theorem initial_law {chol : Chol} (hchol : IsCholeskyAll chol) {m : NLG d e} {A : Matrix (Fin d) (Fin d) ℝ} (hA : A = (1 / 2 : ℝ) • (initCondPrec chol m + (initCondPrec chol m)ᵀ)) (hp : A.PosDef)
    (y : Fin e → ℝ) : (stdNormal d).map (initialSample chol m y) = gauss (initCondMean chol m y) A⁻¹ := by
  have hc := hchol d _ hp
  have hd := chol_det (hchol d) hp
  have hdi : (((chol d A)⁻¹)ᵀ).det ≠ 0 := by
    rw [det_transpose, det_nonsing_inv, Ring.inverse_eq_inv']
    exact inv_ne_zero hd
  have h := stdNormal_map_affine (initCondMean chol m y) ((chol d A)⁻¹)ᵀ hdi
  rw [transpose_transpose, transpose_nonsing_inv, ← Matrix.mul_inv_rev, hc] at h
  rw [← h]
  congr 1
  funext z
  unfold initialSample cholSym
  rw [← hA, ← transpose_nonsing_inv, mulVec_transpose, add_comm]

/-- C74, consistency: whenever the precision the code computes is positive definite, the first draw of the optimal filter (and of the ensemble Kalman filter) is normal with that precision, and the filter's
`initial_potential` is minus the log density of the draw. -/
theorem C74_consistent {chol : Chol} (hchol : IsCholeskyAll chol) {m : NLG d e} (hp : (initCondPrec chol m).PosDef) (y : Fin e → ℝ) :
    (stdNormal d).map (initialSample chol m y) = gauss (initCondMean chol m y) (initCondPrec chol m)⁻¹ ∧
    ∀ x, Real.exp (-initialPotential chol m y x) = gaussDensity (initCondMean chol m y) (initCondPrec chol m)⁻¹ x := by
  refine ⟨initial_law hchol ?_ hp y, fun x => potential_of_prec hchol hp _ x⟩
  rw [PosDef.symm hp, ← two_smul ℝ (initCondPrec chol m), smul_smul]
  norm_num

theorem initial_exact {chol : Chol} (hchol : IsCholeskyAll chol) {m : NLG d e} (hm : ProperNLG m) (hI : (chol d m.initialCov)ᵀ = chol d m.initialCov)
    (hR : (chol e m.likCov)ᵀ * chol e m.likCov = m.likCov) (y : Fin e → ℝ) :
    (initCondPrec chol m).PosDef ∧
      ∃ c > 0, ∀ x, gaussDensity m.initialMean m.initialCov x * gaussDensity (m.likMat *ᵥ x) m.likCov y = c * gaussDensity (initCondMean chol m y) (initCondPrec chol m)⁻¹ x := by
  have hprec : initCondPrec chol m = m.initialCov⁻¹ + m.likMatᵀ * m.likCov⁻¹ * m.likMat := by
    unfold initCondPrec
    dsimp only
    have h1 : (chol d m.initialCov)⁻¹ * (chol d m.initialCov)⁻¹ = m.initialCov⁻¹ := by
      rw [← Matrix.mul_inv_rev]
      congr 1
      conv_rhs => rw [← hchol d _ hm.init, hI]
    have h2 : (chol e m.likCov)⁻¹ * ((chol e m.likCov)⁻¹)ᵀ = m.likCov⁻¹ := by
      rw [transpose_nonsing_inv, ← Matrix.mul_inv_rev, hR]
    rw [h1, transpose_mul, transpose_transpose, Matrix.mul_assoc, ← Matrix.mul_assoc _ _ m.likMat, h2, Matrix.mul_assoc]
  have hp : (initCondPrec chol m).PosDef := by rw [hprec]; exact info_posDef _ hm.init hm.lik
  refine ⟨hp, _, gaussDensity_pos (m.likMat *ᵥ m.initialMean) (posDef_innovation m.likMat hm.init hm.lik) y, fun x => ?_⟩
  rw [mul_comm, gauss_bayes _ hm.init hm.lik, hprec, ← cond_eq _ hm.init hm.lik]
  congr 2
  unfold initCondMean kalmanGain
  dsimp only
  rw [hchol d _ hm.init, hchol e _ hm.lik, transpose_mul, Matrix.mul_assoc m.likMat (chol d _), ← Matrix.mul_assoc (chol d _), hchol d _ hm.init, ← Matrix.mul_assoc]

/-- C74, what holds: if the factor of the initial covariance is symmetric and that of the observation covariance commutes with its transpose (diagonal covariances), the first draw is from the distribution of the first
state given the first observation: prior times likelihood, up to a constant. Missing: other covariances (`C74_fails`). -/
theorem C74_partial {chol : Chol} (hchol : IsCholeskyAll chol) {m : NLG d e} (hm : ProperNLG m) (hI : (chol d m.initialCov)ᵀ = chol d m.initialCov)
    (hR : (chol e m.likCov)ᵀ * chol e m.likCov = m.likCov) (y : Fin e → ℝ) :
    ∃ V : Matrix (Fin d) (Fin d) ℝ, V.PosDef ∧ (stdNormal d).map (initialSample chol m y) = gauss (initCondMean chol m y) V ∧
      ∃ c > 0, ∀ x, gaussDensity m.initialMean m.initialCov x * gaussDensity (m.likMat *ᵥ x) m.likCov y = c * gaussDensity (initCondMean chol m y) V x := by
  obtain ⟨hp, h⟩ := initial_exact hchol hm hI hR y
  exact ⟨_, hp.inv, (C74_consistent hchol hp y).1, h⟩

/-- The model of the counterexample: initial covariance `[[1,1],[1,2]]`, everything else the identity. -/
def nlgEx' : NLG 2 2 where
  initialMean := 0
  initialCov := covEx
  transFun x _ _ := x
  transCov := 1
  likMat := 1
  likCov := 1

theorem nlgEx'_proper : ProperNLG nlgEx' := ⟨covEx_posDef, PosDef.one, PosDef.one⟩

/-- The precision of the first draw in the counterexample. -/
theorem nlgEx'_prec (chol : Chol) (hchol : IsCholeskyAll chol) (hex : chol 2 covEx = cholEx) :
    ∃ A : Matrix (Fin 2) (Fin 2) ℝ, A = (1 / 2 : ℝ) • (initCondPrec chol nlgEx' + (initCondPrec chol nlgEx')ᵀ) ∧ A = !![2, -1; -1, 2] ∧ A.PosDef := by
  have hone : (chol 2 1)ᵀ * chol 2 1 = 1 := mul_eq_one_comm.1 (hchol 2 1 PosDef.one)
  have hinv : cholEx⁻¹ = !![1, 0; -1, 1] := by
    refine inv_eq_left_inv ?_
    ext i j; fin_cases i <;> fin_cases j <;> norm_num [cholEx, Matrix.mul_apply, Fin.sum_univ_two]
  have hP : initCondPrec chol nlgEx' = !![2, 0; -2, 2] := by
    unfold initCondPrec
    simp only [nlgEx', hex, hinv, transpose_one, Matrix.one_mul]
    rw [transpose_nonsing_inv, ← Matrix.mul_inv_rev, hone, inv_one]
    ext i j; fin_cases i <;> fin_cases j <;> norm_num [Matrix.mul_apply, Fin.sum_univ_two]
  obtain ⟨A, hA⟩ : ∃ A : Matrix (Fin 2) (Fin 2) ℝ, A = (1 / 2 : ℝ) • (initCondPrec chol nlgEx' + (initCondPrec chol nlgEx')ᵀ) := ⟨_, rfl⟩
  have hAv : A = !![2, -1; -1, 2] := by
    rw [hA, hP]
    ext i j; fin_cases i <;> fin_cases j <;> norm_num
  have hAp : A.PosDef := by
    rw [hAv]
    refine PosDef.of_dotProduct_mulVec_pos ?_ ?_
    · ext i j; fin_cases i <;> fin_cases j <;> simp [conjTranspose]
    · intro x hx
      simp only [dotProduct, mulVec, Fin.sum_univ_two, of_apply, cons_val', cons_val_fin_one, cons_val_zero, cons_val_one, Pi.star_apply, star_trivial]
      have : x 0 ≠ 0 ∨ x 1 ≠ 0 := by
        by_contra h
        push Not at h
        exact hx (by ext i; fin_cases i; exacts [h.1, h.2])
      rcases this with h | h
      · nlinarith [sq_pos_of_ne_zero h, sq_nonneg (x 0 - x 1), sq_nonneg (x 1)]
      · nlinarith [sq_pos_of_ne_zero h, sq_nonneg (x 0 - x 1), sq_nonneg (x 0)]
  exact ⟨A, hA, hAv, hAp⟩

/-- C74 fails for initial covariance `[[1,1],[1,2]]` (factor `[[1,0],[1,1]]`) and unit observation noise: the first draw is not from any normal distribution proportional to prior times likelihood, whatever the first
observation. -/
theorem C74_fails (chol : Chol) (hchol : IsCholeskyAll chol) (hex : chol 2 covEx = cholEx) (y : Fin 2 → ℝ) (mu : Fin 2 → ℝ) (V : Matrix (Fin 2) (Fin 2) ℝ) (hV : V.PosDef) (c : ℝ)
    (h : ∀ x, gaussDensity nlgEx'.initialMean nlgEx'.initialCov x * gaussDensity (nlgEx'.likMat *ᵥ x) nlgEx'.likCov y = c * gaussDensity mu V x) :
    (stdNormal 2).map (initialSample chol nlgEx' y) ≠ gauss mu V := by
  intro hlaw
  obtain ⟨A, hA, hAv, hAp⟩ := nlgEx'_prec chol hchol hex
  rw [initial_law hchol hA hAp y] at hlaw
  obtain ⟨L, hL, hLd⟩ := posDef_factor _ hAp.inv
  rw [hL] at hlaw
  have hd := (gauss_eq_iff _ _ L V hLd).1 hlaw
  rw [← hL] at hd
  have h1 := (gauss_unique hAp.inv hV one_ne_zero (c' := 1) fun x => by rw [one_mul, one_mul]; exact hd x).2.2
  have h2 : ∀ x, gaussDensity (nlgEx'.likMat *ᵥ nlgEx'.initialMean) (nlgEx'.likMat * nlgEx'.initialCov * nlgEx'.likMatᵀ + nlgEx'.likCov) y * _ = c * gaussDensity mu V x :=
    fun x => ((gauss_bayes _ nlgEx'_proper.init nlgEx'_proper.lik nlgEx'.initialMean x y).symm.trans (mul_comm _ _)).trans (h x)
  have h3 := (gauss_unique (cond_posDef _ nlgEx'_proper.init nlgEx'_proper.lik) hV (gaussDensity_pos _ (posDef_innovation _ nlgEx'_proper.init nlgEx'_proper.lik) y).ne' h2).2.2
  rw [cond_eq _ nlgEx'_proper.init nlgEx'_proper.lik, ← h1] at h3
  have h4 := congrArg (·⁻¹) h3
  simp only [nonsing_inv_nonsing_inv _ (PosDef.isUnit_det' hAp), nonsing_inv_nonsing_inv _ (PosDef.isUnit_det' (info_posDef _ nlgEx'_proper.init nlgEx'_proper.lik))] at h4
  have i2 : covEx⁻¹ = !![2, -1; -1, 1] := by
    refine inv_eq_left_inv ?_
    ext i j; fin_cases i <;> fin_cases j <;> norm_num [covEx, Matrix.mul_apply, Fin.sum_univ_two]
  rw [hAv] at h4
  simp only [nlgEx', i2, transpose_one, Matrix.one_mul, inv_one] at h4
  have := congrFun (congrFun h4 0) 0
  norm_num at this

/-! ## C75 -/

/-- The forecast members of the ensemble Kalman filter. -/
noncomputable def forecast {n : ℕ} (chol : Chol) (m : NLG d e) (x : Fin n → Fin d → ℝ) (t t' : ℝ) (z : Fin n → Fin d → ℝ) (i : Fin n) : Fin d → ℝ :=
  m.transFun (x i) t t' + z i ᵥ* (chol d m.transCov)ᵀ

theorem enkf_eq {n : ℕ} (chol : Chol) (m : NLG d e) (x : Fin n → Fin d → ℝ) (t : ℝ) (y : Fin e → ℝ) (t' : ℝ) (z : Fin n → Fin d → ℝ) (w : Fin n → Fin e → ℝ) (i : Fin n)
    (mx : Fin n → Fin d → ℝ) (hmx : mx = forecast chol m x t t' z) :
    enkf chol m x t y t' z w i = mx i + (spread mx * (spread mx)ᵀ * m.likMatᵀ * (m.likMat * spread mx * (m.likMat * spread mx)ᵀ + chol e m.likCov * (chol e m.likCov)ᵀ)⁻¹) *ᵥ
      (y - (m.likMat *ᵥ mx i + chol e m.likCov *ᵥ w i)) := by
  subst hmx
  rw [← vecMul_transpose, ← vecMul_transpose m.likMat, ← vecMul_transpose (chol e _)]
  rfl

/-- C75: every new member is its forecast plus a combination of the deviations of the forecast members from their mean. -/
theorem C75_span {n : ℕ} (_hn : 2 ≤ n) (chol : Chol) (m : NLG d e) (x : Fin n → Fin d → ℝ) (t : ℝ) (y : Fin e → ℝ) (t' : ℝ) (z : Fin n → Fin d → ℝ) (w : Fin n → Fin e → ℝ) (i : Fin n) :
    ∃ a : Fin n → ℝ, enkf chol m x t y t' z w i = forecast chol m x t t' z i + ∑ j, a j • (forecast chol m x t t' z j - (n : ℝ)⁻¹ • ∑ l, forecast chol m x t t' z l) := by
  obtain ⟨mx, hmx⟩ : ∃ mx, mx = forecast chol m x t t' z := ⟨_, rfl⟩
  obtain ⟨b, hb⟩ : ∃ b : Fin n → ℝ, enkf chol m x t y t' z w i = mx i + spread mx *ᵥ b := by
    refine ⟨((spread mx)ᵀ * m.likMatᵀ * (m.likMat * spread mx * (m.likMat * spread mx)ᵀ + chol e m.likCov * (chol e m.likCov)ᵀ)⁻¹) *ᵥ (y - (m.likMat *ᵥ mx i + chol e m.likCov *ᵥ w i)), ?_⟩
    rw [mulVec_mulVec, enkf_eq chol m x t y t' z w i mx hmx]
    simp only [Matrix.mul_assoc]
  refine ⟨fun j => b j / √((n : ℝ) - 1), ?_⟩
  rw [hb, ← hmx]
  congr 1
  ext k
  simp only [mulVec, dotProduct, spread, of_apply, Finset.sum_apply, Pi.smul_apply, Pi.sub_apply, smul_eq_mul]
  refine Finset.sum_congr rfl fun j _ => ?_
  rw [div_eq_mul_inv (∑ j, mx j k)]
  ring

/-- C75: a linear quantity that all forecast members share is kept by every new member. -/
theorem C75_linear_invariant {n : ℕ} (hn2 : 2 ≤ n) (chol : Chol) (m : NLG d e) (x : Fin n → Fin d → ℝ) (t : ℝ) (y : Fin e → ℝ) (t' : ℝ) (z : Fin n → Fin d → ℝ) (w : Fin n → Fin e → ℝ)
    (u : Fin d → ℝ) (c : ℝ) (h : ∀ j, u ⬝ᵥ forecast chol m x t t' z j = c) (i : Fin n) : u ⬝ᵥ enkf chol m x t y t' z w i = c := by
  obtain ⟨a, ha⟩ := C75_span hn2 chol m x t y t' z w i
  have hn : (n : ℝ) ≠ 0 := by
    have := i.pos
    positivity
  rw [ha, dotProduct_add, h i, dotProduct_sum]
  have : ∀ j, u ⬝ᵥ a j • (forecast chol m x t t' z j - (n : ℝ)⁻¹ • ∑ l, forecast chol m x t t' z l) = 0 := by
    intro j
    rw [dotProduct_smul, dotProduct_sub, dotProduct_smul, dotProduct_sum]
    simp only [h]
    simp [hn]
  simp [this]

/-- C75: the gain is the Kalman gain for the sample covariance of the forecast (denominator `n - 1`), and every member moves by the gain applied to its own innovation. -/
theorem C75_gain {n : ℕ} (hn : 2 ≤ n) (chol : Chol) (hchol : IsCholeskyAll chol) (m : NLG d e) (hm : ProperNLG m) (x : Fin n → Fin d → ℝ) (t : ℝ) (y : Fin e → ℝ) (t' : ℝ)
    (z : Fin n → Fin d → ℝ) (w : Fin n → Fin e → ℝ) (i : Fin n) :
    let mx := forecast chol m x t t' z
    let mean := fun k => (∑ j, mx j k) / n
    let P : Matrix (Fin d) (Fin d) ℝ := Matrix.of fun k l => (∑ j, (mx j k - mean k) * (mx j l - mean l)) / ((n : ℝ) - 1)
    enkf chol m x t y t' z w i = mx i + (P * m.likMatᵀ * (m.likMat * P * m.likMatᵀ + m.likCov)⁻¹) *ᵥ (y - (m.likMat *ᵥ mx i + chol e m.likCov *ᵥ w i)) := by
  intro mx mean P
  have hP : spread mx * (spread mx)ᵀ = P := by
    ext k l
    have h1 : (0 : ℝ) ≤ n - 1 := by
      have : (2 : ℝ) ≤ n := by exact_mod_cast hn
      linarith
    simp only [Matrix.mul_apply, transpose_apply, spread, of_apply, P, mean]
    simp only [Finset.sum_div]
    refine Finset.sum_congr rfl fun j _ => ?_
    rw [div_mul_div_comm, Real.mul_self_sqrt h1]
  rw [enkf_eq chol m x t y t' z w i mx rfl]
  rw [transpose_mul, Matrix.mul_assoc m.likMat (spread mx), ← Matrix.mul_assoc (spread mx) _ m.likMatᵀ, hP, hchol e _ hm.lik, ← Matrix.mul_assoc]

end Mocat.Props
