import Verif.Model.Covariance
import Verif.Model.Kalman
import Verif.Model.Filtering
/-!
# Model of `mocat/src/ssm/nonlinear_gaussian.py`

Covariances are matrices (2-d arrays). Random normals are arguments `z`; library routines: `chol n` is Cholesky factorisation of a symmetric `n × n` matrix. `jnp.linalg.cholesky` symmetrises its argument: `cholSym`.
-/
namespace Mocat.NonlinearGaussian
open Matrix Mocat.Gaussian Mocat.Covariance Mocat.Kalman

variable {d e : ℕ}

/-- Cholesky factorisation, for every size. -/
abbrev Chol := (n : ℕ) → Matrix (Fin n) (Fin n) ℝ → Matrix (Fin n) (Fin n) ℝ

/-- `jnp.linalg.cholesky(a)` (default `symmetrize_input=True`). -/
noncomputable def cholSym (chol : Chol) {n : ℕ} (a : Matrix (Fin n) (Fin n) ℝ) : Matrix (Fin n) (Fin n) ℝ := chol n ((1 / 2 : ℝ) • (a + aᵀ))

/-- nonlinear_gaussian.py 35-69: the attributes of a `NonLinearGaussian` object; 92-96: its transition function. -/
structure NLG (d e : ℕ) where
  initialMean : Fin d → ℝ
  initialCov : Matrix (Fin d) (Fin d) ℝ
  transFun : (Fin d → ℝ) → ℝ → ℝ → Fin d → ℝ
  transCov : Matrix (Fin d) (Fin d) ℝ
  likMat : Matrix (Fin e) (Fin d) ℝ
  likCov : Matrix (Fin e) (Fin e) ℝ

/-- `gaussian_potential(x, mean, sqrt_prec=inv(chol(cov)), det_prec=1/det(cov))` (with utils.py 247-262). -/
noncomputable def covPotential (chol : Chol) (cov : Matrix (Fin d) (Fin d) ℝ) (mean x : Fin d → ℝ) : ℝ :=
  gaussianPotential x mean .none (.mat (chol d cov)⁻¹) (some (1 / cov.det))

/-- nonlinear_gaussian.py 80-131 as a state-space model; a key gives the normals used. -/
noncomputable def NLG.model (chol : Chol) (m : NLG d e) : Ssm.Model (Fin d → ℝ) (Fin e → ℝ) ((n : ℕ) → Fin n → ℝ) where
  initialPotential x _ := covPotential chol m.initialCov m.initialMean x
  initialSample _ z := sampleRightT (chol d m.initialCov) m.initialMean (z d)
  transitionPotential x t x' t' := covPotential chol m.transCov (m.transFun x t t') x'
  transitionSample x t t' z := sampleRight (chol d m.transCov) (m.transFun x t t') (z d)
  likelihoodPotential x y _ := covPotential chol m.likCov (x ᵥ* m.likMatᵀ) y
  likelihoodSample x _ z := sampleRightT (chol e m.likCov) (x ᵥ* m.likMatᵀ) (z e)

/-- nonlinear_gaussian.py 164-166 (and 306-308): precision of the first state given the first observation, as the code computes it: `init_prec_sqrt @ init_prec_sqrt + ...`. -/
noncomputable def initCondPrec (chol : Chol) (m : NLG d e) : Matrix (Fin d) (Fin d) ℝ :=
  let initPrecSqrt := (chol d m.initialCov)⁻¹
  let a := m.likMatᵀ * (chol e m.likCov)⁻¹
  initPrecSqrt * initPrecSqrt + a * aᵀ

/-- nonlinear_gaussian.py 163, 191-193, 203-205 (and 305, 317-319): mean of the first draw. -/
noncomputable def initCondMean (chol : Chol) (m : NLG d e) (y : Fin e → ℝ) : Fin d → ℝ :=
  m.initialMean + kalmanGain (chol d m.initialCov) m.likMat (chol e m.likCov) *ᵥ (y - m.likMat *ᵥ m.initialMean)

/-- nonlinear_gaussian.py 198-209 (and 312-323): the first draw, with 167-168 (309-310): `mean + z @ inv(cholesky(prec))`. -/
noncomputable def initialSample (chol : Chol) (m : NLG d e) (y : Fin e → ℝ) (z : Fin d → ℝ) : Fin d → ℝ :=
  initCondMean chol m y + z ᵥ* (cholSym chol (initCondPrec chol m))⁻¹

/-- nonlinear_gaussian.py 186-196, `OptimalNonLinearGaussianParticleFilter.initial_potential` -/
noncomputable def initialPotential (chol : Chol) (m : NLG d e) (y : Fin e → ℝ) (x : Fin d → ℝ) : ℝ :=
  gaussianPotential x (initCondMean chol m y) .none (.mat (cholSym chol (initCondPrec chol m))) (some (initCondPrec chol m).det)

/-- nonlinear_gaussian.py 171-173: `weight_precision` -/
noncomputable def weightPrec (chol : Chol) (m : NLG d e) : Matrix (Fin e) (Fin e) ℝ :=
  let a := m.likMat * chol d m.transCov
  (a * aᵀ + chol e m.likCov * (chol e m.likCov)ᵀ)⁻¹

/-- nonlinear_gaussian.py 174 with utils.py 476-484 (`inv_mat` given) -/
noncomputable def proposalGain (chol : Chol) (m : NLG d e) : Matrix (Fin d) (Fin e) ℝ :=
  chol d m.transCov * (chol d m.transCov)ᵀ * m.likMatᵀ * weightPrec chol m

/-- nonlinear_gaussian.py 176-178 -/
noncomputable def proposalCov (chol : Chol) (m : NLG d e) : Matrix (Fin d) (Fin d) ℝ :=
  m.transCov - proposalGain chol m * m.likMat * m.transCov

/-- nonlinear_gaussian.py 233-234, 247-248 -/
noncomputable def proposalMean (chol : Chol) (m : NLG d e) (x : Fin d → ℝ) (t : ℝ) (y : Fin e → ℝ) (t' : ℝ) : Fin d → ℝ :=
  let mx := m.transFun x t t'
  mx + (y - mx ᵥ* m.likMatᵀ) ᵥ* (proposalGain chol m)ᵀ

/-- nonlinear_gaussian.py 226-237 with 179-181, `proposal_potential` -/
noncomputable def proposalPotential (chol : Chol) (m : NLG d e) (x : Fin d → ℝ) (t : ℝ) (x' : Fin d → ℝ) (y : Fin e → ℝ) (t' : ℝ) : ℝ :=
  gaussianPotential x' (proposalMean chol m x t y t') .none (.mat (cholSym chol (proposalCov chol m))⁻¹) (some (1 / (proposalCov chol m).det))

/-- nonlinear_gaussian.py 239-250, `proposal_sample` -/
noncomputable def proposalSample (chol : Chol) (m : NLG d e) (x : Fin d → ℝ) (t : ℝ) (y : Fin e → ℝ) (t' : ℝ) (z : Fin d → ℝ) : Fin d → ℝ :=
  proposalMean chol m x t y t' + z ᵥ* (cholSym chol (proposalCov chol m))ᵀ

/-- nonlinear_gaussian.py 252-263 with 183-184, `intermediate_log_weight` -/
noncomputable def logWeight (chol : Chol) (m : NLG d e) (x : Fin d → ℝ) (t : ℝ) (y : Fin e → ℝ) (t' : ℝ) : ℝ :=
  -gaussianPotential y (m.transFun x t t' ᵥ* m.likMatᵀ) .none (.mat (cholSym chol (weightPrec chol m))) (some (weightPrec chol m).det)

/-- nonlinear_gaussian.py 211-224 and 239-263 as a particle filter: first weights are zero. -/
noncomputable def optimalFilter (chol : Chol) (m : NLG d e) : Filtering.Filter (Fin d → ℝ) ((n : ℕ) → Fin n → ℝ) e where
  initialSample y _ z := initialSample chol m y (z d)
  initialLogWeight _ _ _ := .fin 0
  proposalSample x t y t' z := proposalSample chol m x t y t' (z d)
  intermediateLogWeight x t _ y t' := .fin (logWeight chol m x t y t')

/-- nonlinear_gaussian.py 339: `spread_matrix`, of shape `(d, n)`. -/
noncomputable def spread {n : ℕ} (mx : Fin n → Fin d → ℝ) : Matrix (Fin d) (Fin n) ℝ :=
  Matrix.of fun k i => (mx i k - (∑ j, mx j k) / n) / √((n : ℝ) - 1)

/-- nonlinear_gaussian.py 326-350, `EnsembleKalmanFilter.propose_and_intermediate_weight_vectorised`, the new particles (their log weights are zero); `z`, `w` are the normals. -/
noncomputable def enkf {n : ℕ} (chol : Chol) (m : NLG d e) (x : Fin n → Fin d → ℝ) (t : ℝ) (y : Fin e → ℝ) (t' : ℝ) (z : Fin n → Fin d → ℝ) (w : Fin n → Fin e → ℝ) : Fin n → Fin d → ℝ :=
  let mx := fun i => m.transFun (x i) t t' + z i ᵥ* (chol d m.transCov)ᵀ
  let s := spread mx
  let hs := m.likMat * s
  let gain := s * sᵀ * m.likMatᵀ * (hs * hsᵀ + chol e m.likCov * (chol e m.likCov)ᵀ)⁻¹
  let yProp := fun i => mx i ᵥ* m.likMatᵀ + w i ᵥ* (chol e m.likCov)ᵀ
  fun i => mx i + (y - yProp i) ᵥ* gainᵀ

end Mocat.NonlinearGaussian
