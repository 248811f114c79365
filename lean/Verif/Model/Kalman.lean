import Verif.Base.Scan
import Mathlib.Data.Real.Basic
import Mathlib.LinearAlgebra.Matrix.NonsingularInverse
/-!
# Model of `mocat/src/ssm/linear_gaussian/kalman.py` and of `kalman_gain` in `mocat/src/utils.py`

Matrix inverses are exact. Arrays `y`, `t` are functions of the time index below `T = len(t)`.
-/
namespace Mocat.Kalman
open Matrix

variable {d e : ℕ}

/-- ssm/linear_gaussian/linear_gaussian.py 16-139: the getters of a `LinearGaussian` model that the Kalman recursions use. -/
structure LinGauss (d e : ℕ) where
  initialMean : ℝ → Fin d → ℝ
  initialCovSqrt : ℝ → Matrix (Fin d) (Fin d) ℝ
  transMat : ℝ → ℝ → Matrix (Fin d) (Fin d) ℝ
  transCovSqrt : ℝ → ℝ → Matrix (Fin d) (Fin d) ℝ
  likMat : ℝ → Matrix (Fin e) (Fin d) ℝ
  likCovSqrt : ℝ → Matrix (Fin e) (Fin e) ℝ

/-- ssm/linear_gaussian/linear_gaussian.py 142-261, `TimeHomogenousLinearGaussian`: constant getters; the `_sqrt` attributes are Cholesky factors (utils.py 247-262). -/
def timeHomogenous (chol : ∀ {n : ℕ}, Matrix (Fin n) (Fin n) ℝ → Matrix (Fin n) (Fin n) ℝ) (mean : Fin d → ℝ) (cov : Matrix (Fin d) (Fin d) ℝ) (F Q : Matrix (Fin d) (Fin d) ℝ)
    (H : Matrix (Fin e) (Fin d) ℝ) (R : Matrix (Fin e) (Fin e) ℝ) : LinGauss d e where
  initialMean _ := mean
  initialCovSqrt _ := chol cov
  transMat _ _ := F
  transCovSqrt _ _ := chol Q
  likMat _ := H
  likCovSqrt _ := chol R

/-- Mean and covariance. -/
abbrev MC (d : ℕ) := (Fin d → ℝ) × Matrix (Fin d) (Fin d) ℝ

/-- kalman.py 26-28 and 45-47: gain, mean and covariance after observing `y`. -/
noncomputable def observe (mu : Fin d → ℝ) (cov : Matrix (Fin d) (Fin d) ℝ) (H : Matrix (Fin e) (Fin d) ℝ) (R : Matrix (Fin e) (Fin e) ℝ) (y : Fin e → ℝ) : MC d :=
  let kal := cov * Hᵀ * (H * cov * Hᵀ + R)⁻¹
  (mu + kal *ᵥ (y - H *ᵥ mu), cov - kal * H * cov)

/-- kalman.py 19-28: the first time. The initial covariance is `get_initial_covariance_sqrt(t[0])` (line 20). -/
noncomputable def filterInit (m : LinGauss d e) (y : ℕ → Fin e → ℝ) (t : ℕ → ℝ) : MC d :=
  observe (m.initialMean (t 0)) (m.initialCovSqrt (t 0)) (m.likMat (t 0)) (m.likCovSqrt (t 0) * (m.likCovSqrt (t 0))ᵀ) (y 0)

/-- kalman.py 30-49, `body_fun` -/
noncomputable def filterStep (m : LinGauss d e) (y : ℕ → Fin e → ℝ) (t : ℕ → ℝ) (c : MC d) (i : ℕ) : MC d :=
  let F := m.transMat (t (i - 1)) (t i)
  let Q := m.transCovSqrt (t (i - 1)) (t i) * (m.transCovSqrt (t (i - 1)) (t i))ᵀ
  observe (F *ᵥ c.1) (F * c.2 * Fᵀ + Q) (m.likMat (t i)) (m.likCovSqrt (t i) * (m.likCovSqrt (t i))ᵀ) (y i)

/-- kalman.py 16-57, `run_kalman_filter_for_marginals` -/
noncomputable def filter (m : LinGauss d e) (y : ℕ → Fin e → ℝ) (t : ℕ → ℝ) (T : ℕ) : List (MC d) :=
  filterInit m y t :: (scan (fun c i => (filterStep m y t c i, filterStep m y t c i)) (filterInit m y t) (arangeFromOne (T - 1))).2

/-- Adding a number to every entry (broadcasting). -/
def addConst {k l : ℕ} (M : Matrix (Fin k) (Fin l) ℝ) (c : ℝ) : Matrix (Fin k) (Fin l) ℝ := Matrix.of fun i j => M i j + c

/-- kalman.py 70-86, `body_fun`. `f_mu_t @ mu_tplus1.T` is a product of two 1-d arrays, so a number; it is added to every entry. -/
noncomputable def smootherStep (m : LinGauss d e) (t : ℕ → ℝ) (f : ℕ → MC d) (c : MC d) (i : ℕ) : MC d × Matrix (Fin d) (Fin d) ℝ :=
  let F := m.transMat (t i) (t (i + 1))
  let Q := m.transCovSqrt (t i) (t (i + 1)) * (m.transCovSqrt (t i) (t (i + 1)))ᵀ
  let G := (f i).2 * Fᵀ * (F * (f i).2 * Fᵀ + Q)⁻¹
  let mu := (f i).1 + G *ᵥ (c.1 - F *ᵥ (f i).1)
  let cov := (f i).2 + G * (c.2 - F * (f i).2 * Fᵀ - Q) * Gᵀ
  let lagOne := addConst (G * addConst c.2 ((c.1 - (f (i + 1)).1) ⬝ᵥ c.1)) ((f i).1 ⬝ᵥ c.1)
  ((mu, cov), lagOne)

/-- kalman.py 60-94, `run_kalman_smoother_for_marginals_and_lag_ones` with filter output `f`: means and covariances for the `T` times, and the lag-one moments. -/
noncomputable def smootherFrom (m : LinGauss d e) (t : ℕ → ℝ) (T : ℕ) (f : ℕ → MC d) : List (MC d) × List (Matrix (Fin d) (Fin d) ℝ) :=
  let out := (scan (fun c i => ((smootherStep m t f c i).1, smootherStep m t f c i)) (f (T - 1)) ((List.range (T - 1)).reverse)).2
  ((out.map Prod.fst).reverse ++ [f (T - 1)], (out.map Prod.snd).reverse)

/-- kalman.py 65-68: without `filter_output` the filter is run. -/
noncomputable def smoother (m : LinGauss d e) (y : ℕ → Fin e → ℝ) (t : ℕ → ℝ) (T : ℕ) : List (MC d) × List (Matrix (Fin d) (Fin d) ℝ) :=
  smootherFrom m t T fun i => (filter m y t T).getD i (filterInit m y t)

/-- utils.py 476-484, `kalman_gain` without `inv_mat`. -/
noncomputable def kalmanGain (covSqrt : Matrix (Fin d) (Fin d) ℝ) (H : Matrix (Fin e) (Fin d) ℝ) (likCovSqrt : Matrix (Fin e) (Fin e) ℝ) : Matrix (Fin d) (Fin e) ℝ :=
  let hs := H * covSqrt
  covSqrt * covSqrtᵀ * Hᵀ * (hs * hsᵀ + likCovSqrt * likCovSqrtᵀ)⁻¹

end Mocat.Kalman
