import Verif.Model.Kalman
import Verif.Spec.LinearGaussian
import Verif.Lemmas.GaussMoments
import Verif.Props.Gaussian
import Verif.Props.Backward
/-!
# C57-C59: Kalman filter and smoother

Specification: `Verif/Spec/LinearGaussian.lean`.
-/
namespace Mocat.Props
open Matrix MeasureTheory Mocat.Spec Mocat.MatGauss Mocat.Kalman

variable {d e : ℕ}

/-! ## C57 -/

/-- C57, one update: for every prior `N(mu, cov)`, matrix `H`, noise covariance `R` and observation, prior times likelihood is a constant times the Gaussian the update returns, whose covariance is positive definite
(so symmetric). -/
theorem C57_update (mu : Fin d → ℝ) (cov : Matrix (Fin d) (Fin d) ℝ) (hcov : cov.PosDef) (H : Matrix (Fin e) (Fin d) ℝ) (R : Matrix (Fin e) (Fin e) ℝ) (hR : R.PosDef) (y : Fin e → ℝ) :
    (observe mu cov H R y).2.PosDef ∧ ∃ c > 0, ∀ x, gaussDensity mu cov x * gaussDensity (H *ᵥ x) R y
      = c * gaussDensity (observe mu cov H R y).1 (observe mu cov H R y).2 x := by
  refine ⟨cond_posDef H hcov hR, gaussDensity (H *ᵥ mu) (H * cov * Hᵀ + R) y, gaussDensity_pos _ (posDef_innovation H hcov hR) _, fun x => ?_⟩
  rw [mul_comm, gauss_bayes H hcov hR]
  rfl

/-- The state-space model whose filter the code computes at times `t`: that of the getters, with initial covariance the matrix the code starts from. -/
noncomputable def codeLG (m : LinGauss d e) (t : ℕ → ℝ) : LG d e where
  m₀ := m.initialMean (t 0)
  P₀ := m.initialCovSqrt (t 0)
  F k := m.transMat (t k) (t (k + 1))
  Q k := m.transCovSqrt (t k) (t (k + 1)) * (m.transCovSqrt (t k) (t (k + 1)))ᵀ
  H k := m.likMat (t k)
  R k := m.likCovSqrt (t k) * (m.likCovSqrt (t k))ᵀ

/-- The state-space model described by the getters. -/
noncomputable def trueLG (m : LinGauss d e) (t : ℕ → ℝ) : LG d e :=
  { codeLG m t with P₀ := m.initialCovSqrt (t 0) * (m.initialCovSqrt (t 0))ᵀ }

/-- The filter outputs by index. -/
noncomputable def filt (m : LinGauss d e) (y : ℕ → Fin e → ℝ) (t : ℕ → ℝ) : ℕ → MC d
  | 0 => filterInit m y t
  | k + 1 => filterStep m y t (filt m y t k) (k + 1)

theorem filter_eq (m : LinGauss d e) (y : ℕ → Fin e → ℝ) (t : ℕ → ℝ) (T : ℕ) (hT : 1 ≤ T) : Kalman.filter m y t T = (List.range T).map (filt m y t) := by
  obtain ⟨hlen, c, hc0, hc⟩ := scan_steps (fun c i => (filterStep m y t c i, filterStep m y t c i)) (filterInit m y t) (arangeFromOne (T - 1))
  have hl : (arangeFromOne ((T : ℤ) - 1)).length = T - 1 := by simp [arangeFromOne]
  have hcf : ∀ k, k < T → c k = filt m y t k := by
    intro k
    induction k with
    | zero => intro _; exact hc0
    | succ k ih =>
      intro hk
      rw [(hc k (by omega) (by omega)).1, ih (by omega)]
      simp [arangeFromOne, filt]
  apply List.ext_getElem
  · simp only [Kalman.filter, List.length_cons, hlen, hl, List.length_map, List.length_range]; omega
  · intro k h1 h2
    simp only [List.length_map, List.length_range] at h2
    rw [List.getElem_map, List.getElem_range]
    cases k with
    | zero => rfl
    | succ k =>
      have := hc k (by omega) (by omega)
      change (scan _ _ _).2[k]'(by omega) = _
      rw [this.2, ← hcf (k + 1) h2, this.1]

theorem filt_forward (m : LinGauss d e) (y : ℕ → Fin e → ℝ) (t : ℕ → ℝ) (h : (codeLG m t).Proper) (k : ℕ) :
    (filt m y t k).2.PosDef ∧ ∃ c > 0, ∀ x, (codeLG m t).forward y k x = c * gaussDensity (filt m y t k).1 (filt m y t k).2 x := by
  induction k with
  | zero => exact C57_update _ _ h.P₀ _ _ (h.R 0) (y 0)
  | succ k ih =>
    obtain ⟨hp, c, hc, hf⟩ := ih
    have hpred : (((codeLG m t).F k) * (filt m y t k).2 * ((codeLG m t).F k)ᵀ + (codeLG m t).Q k).PosDef := posDef_innovation _ hp (h.Q k)
    obtain ⟨h1, c', hc', h2⟩ := C57_update ((codeLG m t).F k *ᵥ (filt m y t k).1) _ hpred ((codeLG m t).H (k + 1)) _ (h.R (k + 1)) (y (k + 1))
    refine ⟨h1, c * c', mul_pos hc hc', fun x => ?_⟩
    have hint : ∫ x', (codeLG m t).forward y k x' * gaussDensity ((codeLG m t).F k *ᵥ x') ((codeLG m t).Q k) x
        = c * gaussDensity ((codeLG m t).F k *ᵥ (filt m y t k).1) ((codeLG m t).F k * (filt m y t k).2 * ((codeLG m t).F k)ᵀ + (codeLG m t).Q k) x := by
      rw [← gauss_marginal _ hp (h.Q k), ← integral_const_mul]
      refine integral_congr_ae (Filter.Eventually.of_forall fun x' => ?_)
      dsimp only
      rw [hf]; ring
    rw [LG.forward, hint, mul_assoc c, h2, mul_assoc c]
    rfl

/-- C57, one step of the recursion from any carried mean and covariance: prediction (integrating out the previous state) then conditioning. -/
theorem C57_step (m : LinGauss d e) (y : ℕ → Fin e → ℝ) (t : ℕ → ℝ) (c : MC d) (hc : c.2.PosDef) (k : ℕ) (hQ : ((codeLG m t).Q k).PosDef) (hR : ((codeLG m t).R (k + 1)).PosDef) :
    (filterStep m y t c (k + 1)).2.PosDef ∧ ∃ z > 0, ∀ x, (∫ x', gaussDensity c.1 c.2 x' * gaussDensity (m.transMat (t k) (t (k + 1)) *ᵥ x') ((codeLG m t).Q k) x)
      * gaussDensity (m.likMat (t (k + 1)) *ᵥ x) ((codeLG m t).R (k + 1)) (y (k + 1)) = z * gaussDensity (filterStep m y t c (k + 1)).1 (filterStep m y t c (k + 1)).2 x := by
  have hpred := posDef_innovation (m.transMat (t k) (t (k + 1))) hc hQ
  obtain ⟨h1, z, hz, h2⟩ := C57_update (m.transMat (t k) (t (k + 1)) *ᵥ c.1) _ hpred (m.likMat (t (k + 1))) _ hR (y (k + 1))
  refine ⟨h1, z, hz, fun x => ?_⟩
  simp only [mul_comm (gaussDensity c.1 c.2 _)]
  rw [gauss_marginal _ hc hQ]
  exact h2 x

/-- C57: at every time of every series, the mean and covariance returned are those of the filtering distribution: `p(x_k, y_0..y_k)`, with the earlier states integrated out, is a positive constant times their Gaussian
density, and the covariance is positive definite. The initial covariance is the matrix the code starts from (see C58). -/
theorem C57_filter (m : LinGauss d e) (y : ℕ → Fin e → ℝ) (t : ℕ → ℝ) (h : (codeLG m t).Proper) (T : ℕ) (hT : 1 ≤ T) :
    (Kalman.filter m y t T).length = T ∧ ∀ k (hk : k < (Kalman.filter m y t T).length), (Kalman.filter m y t T)[k].2.PosDef ∧
      ∃ c > 0, ∀ x, (codeLG m t).forward y k x = c * gaussDensity (Kalman.filter m y t T)[k].1 (Kalman.filter m y t T)[k].2 x := by
  have e := filter_eq m y t T hT
  refine ⟨by rw [e]; simp, fun k hk => ?_⟩
  have : (Kalman.filter m y t T)[k] = filt m y t k := by
    simp only [e, List.getElem_map, List.getElem_range]
  rw [this]
  exact filt_forward m y t h k

/-- C57: the covariances are symmetric. -/
theorem C57_symmetric (m : LinGauss d e) (y : ℕ → Fin e → ℝ) (t : ℕ → ℝ) (h : (codeLG m t).Proper) (T : ℕ) (hT : 1 ≤ T) (k : ℕ) (hk : k < (Kalman.filter m y t T).length) :
    ((Kalman.filter m y t T)[k].2)ᵀ = (Kalman.filter m y t T)[k].2 := PosDef.symm ((C57_filter m y t h T hT).2 k hk).1

/-- C57 for `TimeHomogenousLinearGaussian(mean, cov, F, Q, H, R)`: the moments returned are those of the filtering distribution of the model with transition covariance `Q` and observation covariance `R`
at every time (`chol` any function returning factors of positive definite matrices), from the initial covariance the code starts from. -/
theorem C57_homogenous (chol : ∀ {n : ℕ}, Matrix (Fin n) (Fin n) ℝ → Matrix (Fin n) (Fin n) ℝ)
    (hchol : ∀ {n : ℕ} (A : Matrix (Fin n) (Fin n) ℝ), A.PosDef → chol A * (chol A)ᵀ = A) (mean : Fin d → ℝ) (cov F Q : Matrix (Fin d) (Fin d) ℝ)
    (H : Matrix (Fin e) (Fin d) ℝ) (R : Matrix (Fin e) (Fin e) ℝ) (hcov : (chol cov).PosDef) (hQ : Q.PosDef) (hR : R.PosDef)
    (y : ℕ → Fin e → ℝ) (t : ℕ → ℝ) (T : ℕ) (hT : 1 ≤ T) :
    let out := Kalman.filter (timeHomogenous chol mean cov F Q H R) y t T
    out.length = T ∧ ∀ k (hk : k < out.length), out[k].2.PosDef ∧
      ∃ c > 0, ∀ x, LG.forward ⟨mean, chol cov, fun _ => F, fun _ => Q, fun _ => H, fun _ => R⟩ y k x = c * gaussDensity out[k].1 out[k].2 x := by
  have hm : codeLG (timeHomogenous chol mean cov F Q H R) t = ⟨mean, chol cov, fun _ => F, fun _ => Q, fun _ => H, fun _ => R⟩ := by
    simp only [codeLG, timeHomogenous, hchol Q hQ, hchol R hR]
  have h := C57_filter (timeHomogenous chol mean cov F Q H R) y t (by rw [hm]; exact ⟨hcov, fun _ => hQ, fun _ => hR⟩) T hT
  rw [hm] at h
  exact h

/-- `kalman_gain` of utils.py is the gain of the update for the covariance whose factor it is given. -/
theorem C57_gain (L : Matrix (Fin d) (Fin d) ℝ) (H : Matrix (Fin e) (Fin d) ℝ) (LR : Matrix (Fin e) (Fin e) ℝ) (mu : Fin d → ℝ) (y : Fin e → ℝ) :
    (observe mu (L * Lᵀ) H (LR * LRᵀ) y).1 = mu + kalmanGain L H LR *ᵥ (y - H *ᵥ mu) := by
  unfold observe kalmanGain
  simp only [transpose_mul, Matrix.mul_assoc]

/-! ## C58 -/

theorem posDef_idem {L : Matrix (Fin d) (Fin d) ℝ} (hL : L.PosDef) (h : L * Lᵀ = L) : L = 1 := by
  have hu := PosDef.isUnit_det' hL
  rw [PosDef.symm hL] at h
  have := congrArg (L⁻¹ * ·) h
  simp only [← Matrix.mul_assoc, nonsing_inv_mul L hu, Matrix.one_mul] at this
  exact this

/-- C58: among positive definite factors the covariance the code starts from is the initial covariance only for the identity. -/
theorem C58_iff (m : LinGauss d e) (t : ℕ → ℝ) (hL : (m.initialCovSqrt (t 0)).PosDef) :
    (codeLG m t).P₀ = (trueLG m t).P₀ ↔ m.initialCovSqrt (t 0) = 1 := by
  constructor
  · intro h
    exact posDef_idem hL h.symm
  · intro h
    simp [codeLG, trueLG, h]

/-- C58, what holds: if the factor of the initial covariance is the identity (as in the repo's tests) the filter is exact. Missing: any other initial covariance. -/
theorem C58_partial (m : LinGauss d e) (y : ℕ → Fin e → ℝ) (t : ℕ → ℝ) (h1 : m.initialCovSqrt (t 0) = 1) (h : (trueLG m t).Proper) (T : ℕ) (hT : 1 ≤ T) :
    ∀ k (hk : k < (Kalman.filter m y t T).length), (Kalman.filter m y t T)[k].2.PosDef ∧
      ∃ c > 0, ∀ x, (trueLG m t).forward y k x = c * gaussDensity (Kalman.filter m y t T)[k].1 (Kalman.filter m y t T)[k].2 x := by
  have e : trueLG m t = codeLG m t := by simp [codeLG, trueLG, h1]
  rw [e] at h ⊢
  exact (C57_filter m y t h T hT).2

/-- A one-dimensional model with factors `s` of the initial covariance, all other matrices 1. -/
noncomputable def model1 (s : ℝ) : LinGauss 1 1 where
  initialMean _ := 0
  initialCovSqrt _ := !![s]
  transMat _ _ := 1
  transCovSqrt _ _ := 1
  likMat _ := 1
  likCovSqrt _ := 1

theorem posDef_one (n : ℕ) : (1 : Matrix (Fin n) (Fin n) ℝ).PosDef := PosDef.one

theorem posDef_11 {s : ℝ} (hs : 0 < s) : (!![s] : Matrix (Fin 1) (Fin 1) ℝ).PosDef := by
  have : (!![s] : Matrix (Fin 1) (Fin 1) ℝ) = diagonal fun _ => s := by ext i j; fin_cases i; fin_cases j; simp
  rw [this]
  exact PosDef.diagonal fun _ => hs

theorem mat11_inv (a : ℝ) : (!![a] : Matrix (Fin 1) (Fin 1) ℝ)⁻¹ = !![a⁻¹] := by
  rw [Matrix.inv_def, det_fin_one]
  ext i j; fin_cases i; fin_cases j
  simp

theorem one11 : (1 : Matrix (Fin 1) (Fin 1) ℝ) = !![1] := by ext i j; fin_cases i; fin_cases j; rfl

theorem mat11_t (a : ℝ) : (!![a] : Matrix (Fin 1) (Fin 1) ℝ)ᵀ = !![a] := by ext i j; fin_cases i; fin_cases j; rfl

theorem mat11_mul (a b : ℝ) : (!![a] * !![b] : Matrix (Fin 1) (Fin 1) ℝ) = !![a * b] := by
  ext i j; fin_cases i; fin_cases j; simp [Matrix.mul_apply]

theorem mat11_add (a b : ℝ) : (!![a] + !![b] : Matrix (Fin 1) (Fin 1) ℝ) = !![a + b] := by
  ext i j; fin_cases i; fin_cases j; simp

theorem mat11_sub (a b : ℝ) : (!![a] - !![b] : Matrix (Fin 1) (Fin 1) ℝ) = !![a - b] := by
  ext i j; fin_cases i; fin_cases j; simp

theorem mat11_mulVec (a : ℝ) (v : Fin 1 → ℝ) : (!![a] : Matrix (Fin 1) (Fin 1) ℝ) *ᵥ v = ![a * v 0] := by
  ext i; fin_cases i; simp [mulVec, dotProduct]

/-- The hypotheses of C57_filter are met. -/
theorem model1_proper {s : ℝ} (hs : 0 < s) (t : ℕ → ℝ) : (codeLG (model1 s) t).Proper :=
  ⟨posDef_11 hs, fun _ => by simp [codeLG, model1, posDef_one], fun _ => by simp [codeLG, model1, posDef_one]⟩

theorem model1_true_proper {s : ℝ} (hs : 0 < s) (t : ℕ → ℝ) : (trueLG (model1 s) t).Proper :=
  ⟨by simpa [trueLG, model1, mat11_mul, mat11_t] using posDef_11 (mul_pos hs hs), fun _ => by simp [trueLG, codeLG, model1, posDef_one], fun _ => by simp [trueLG, codeLG, model1, posDef_one]⟩

/-- The update in one dimension. -/
theorem observe11 (mu : Fin 1 → ℝ) (p h r : ℝ) (y : Fin 1 → ℝ) :
    observe mu !![p] !![h] !![r] y = (![mu 0 + p * h / (h * p * h + r) * (y 0 - h * mu 0)], !![p - p * h / (h * p * h + r) * h * p]) := by
  unfold observe
  simp only [mat11_t, mat11_mul, mat11_add, mat11_inv, mat11_sub, mat11_mulVec, div_eq_mul_inv]
  congr 1
  ext i; fin_cases i; simp

/-- C58 fails: with initial variance 4 (factor 2) and unit noise, the filter returns mean 2/3 and variance 2/3 after observing 1; the filtering distribution has mean 4/5 and variance 4/5, and its density is not
proportional to the returned Gaussian. -/
theorem C58_fails (t : ℕ → ℝ) (T : ℕ) :
    let y : ℕ → Fin 1 → ℝ := fun _ => ![1]
    (trueLG (model1 2) t).Proper ∧ (trueLG (model1 2) t).P₀ = !![4] ∧
    ∃ h : 0 < (Kalman.filter (model1 2) y t T).length, (Kalman.filter (model1 2) y t T)[0] = (![2 / 3], !![2 / 3]) ∧
      (∃ c > 0, ∀ x, (trueLG (model1 2) t).forward y 0 x = c * gaussDensity ![4 / 5] !![4 / 5] x) ∧
      ¬ ∃ c, ∀ x, (trueLG (model1 2) t).forward y 0 x = c * gaussDensity (Kalman.filter (model1 2) y t T)[0].1 (Kalman.filter (model1 2) y t T)[0].2 x := by
  intro y
  have hP : (trueLG (model1 2) t).P₀ = !![4] := by
    simp only [trueLG, model1]
    ext i j; fin_cases i; fin_cases j; simp [Matrix.mul_apply]; norm_num
  have hf0 : (Kalman.filter (model1 2) y t T)[0]'(by simp [Kalman.filter]) = (![2 / 3], !![2 / 3]) := by
    change filterInit _ _ _ = _
    unfold filterInit
    simp only [model1, transpose_one, Matrix.mul_one]
    rw [one11, observe11]
    simp [y]
    norm_num
  have htrue : ∃ c > 0, ∀ x, (trueLG (model1 2) t).forward y 0 x = c * gaussDensity ![4 / 5] !![4 / 5] x := by
    obtain ⟨-, c, hc, h⟩ := C57_update (0 : Fin 1 → ℝ) !![4] (posDef_11 (by norm_num)) (1 : Matrix (Fin 1) (Fin 1) ℝ) 1 (posDef_one 1) (y 0)
    refine ⟨c, hc, fun x => ?_⟩
    rw [LG.forward, hP]
    have e : observe (0 : Fin 1 → ℝ) !![4] (1 : Matrix (Fin 1) (Fin 1) ℝ) 1 (y 0) = (![4 / 5], !![4 / 5]) := by
      rw [one11, observe11]
      simp [y]
      norm_num
    rw [e] at h
    simpa [trueLG, codeLG, model1] using h x
  refine ⟨model1_true_proper (by norm_num) t, hP, by simp [Kalman.filter], hf0, htrue, ?_⟩
  rintro ⟨c, h⟩
  obtain ⟨c', hc', h'⟩ := htrue
  rw [hf0] at h
  have := (gauss_unique (posDef_11 (by norm_num : (0 : ℝ) < 4 / 5)) (posDef_11 (by norm_num : (0 : ℝ) < 2 / 3)) hc'.ne' fun x => (h' x).symm.trans (h x)).2.1
  have := congrFun this 0
  norm_num at this

/-! ## C59 -/

/-- The smoother outputs, counted backwards from the last time. -/
noncomputable def smth (m : LinGauss d e) (t : ℕ → ℝ) (T : ℕ) (f : ℕ → MC d) : ℕ → MC d
  | 0 => f (T - 1)
  | j + 1 => (smootherStep m t f (smth m t T f j) (T - 1 - (j + 1))).1

theorem smoother_eq (m : LinGauss d e) (t : ℕ → ℝ) (T : ℕ) (hT : 1 ≤ T) (f : ℕ → MC d) :
    (smootherFrom m t T f).1 = (List.range T).map (fun k => smth m t T f (T - 1 - k)) ∧
    (smootherFrom m t T f).2 = (List.range (T - 1)).map (fun k => (smootherStep m t f (smth m t T f (T - 1 - (k + 1))) k).2) := by
  obtain ⟨hlen, c, hc0, hc⟩ := scan_steps (fun c i => ((smootherStep m t f c i).1, smootherStep m t f c i)) (f (T - 1)) ((List.range (T - 1)).reverse)
  have hl : (List.range (T - 1)).reverse.length = T - 1 := by simp
  have hget : ∀ k (h : k < T - 1), (List.range (T - 1)).reverse[k]'(by simp; omega) = T - 1 - (k + 1) := by
    intro k h
    simp [List.getElem_reverse]; omega
  have hcf : ∀ k, k < T → c k = smth m t T f k := by
    intro k
    induction k with
    | zero => intro _; exact hc0
    | succ k ih =>
      intro hk
      rw [(hc k (by omega) (by omega)).1, ih (by omega), hget k (by omega)]
      rfl
  have hout : (scan (fun c i => ((smootherStep m t f c i).1, smootherStep m t f c i)) (f (T - 1)) ((List.range (T - 1)).reverse)).2
      = (List.range (T - 1)).map fun k => smootherStep m t f (smth m t T f k) (T - 1 - (k + 1)) := by
    apply List.ext_getElem
    · simp [hlen]
    · intro k h1 h2
      simp only [List.length_map, List.length_range] at h2
      rw [(hc k (by omega) h1).2, hcf k (by omega), hget k h2]
      simp
  have e : smootherFrom m t T f = ((((List.range (T - 1)).map fun k => smootherStep m t f (smth m t T f k) (T - 1 - (k + 1))).map Prod.fst).reverse ++ [f (T - 1)],
      (((List.range (T - 1)).map fun k => smootherStep m t f (smth m t T f k) (T - 1 - (k + 1))).map Prod.snd).reverse) := by
    unfold smootherFrom
    dsimp only
    rw [hout]
  rw [e]
  constructor
  · apply List.ext_getElem
    · simp; omega
    · intro k h1 h2
      simp only [List.length_map, List.length_range] at h2
      rw [List.getElem_map, List.getElem_range]
      by_cases hk : k < T - 1
      · rw [List.getElem_append_left (by simp; omega), List.getElem_reverse]
        simp only [List.getElem_map, List.getElem_range, List.length_map, List.length_range]
        have : T - 1 - k = T - 1 - 1 - k + 1 := by omega
        rw [this]
        rfl
      · have : k = T - 1 := by omega
        subst this
        rw [List.getElem_append_right (by simp)]
        simp [smth]
  · apply List.ext_getElem
    · simp
    · intro k h1 h2
      simp only [List.length_map, List.length_range] at h2
      rw [List.getElem_reverse]
      simp only [List.getElem_map, List.getElem_range, List.length_map, List.length_range]
      have e1 : T - 1 - (T - 1 - 1 - k + 1) = k := by omega
      have e2 : T - 1 - 1 - k = T - 1 - (k + 1) := by omega
      rw [e1, e2]

/-- Covariance of the smoother step in terms of the conditional covariance. -/
theorem smoother_cov (F P Q C : Matrix (Fin d) (Fin d) ℝ) (hP : P.PosDef) (hQ : Q.PosDef) :
    P + P * Fᵀ * (F * P * Fᵀ + Q)⁻¹ * (C - F * P * Fᵀ - Q) * (P * Fᵀ * (F * P * Fᵀ + Q)⁻¹)ᵀ
      = P * Fᵀ * (F * P * Fᵀ + Q)⁻¹ * C * (P * Fᵀ * (F * P * Fᵀ + Q)⁻¹)ᵀ + (P - P * Fᵀ * (F * P * Fᵀ + Q)⁻¹ * F * P) := by
  have hS := posDef_innovation F hP hQ
  have hSs : ((F * P * Fᵀ + Q)⁻¹)ᵀ = (F * P * Fᵀ + Q)⁻¹ := PosDef.symm hS.inv
  have hPs := PosDef.symm hP
  have hSu := PosDef.isUnit_det' hS
  have e : C - F * P * Fᵀ - Q = C - (F * P * Fᵀ + Q) := by abel
  rw [e]
  set S := F * P * Fᵀ + Q with hSdef
  have hG : (P * Fᵀ * S⁻¹)ᵀ = S⁻¹ * F * P := by
    rw [transpose_mul, transpose_mul, transpose_transpose, hPs, hSs, Matrix.mul_assoc]
  rw [hG, Matrix.mul_sub, Matrix.sub_mul]
  have e2 : P * Fᵀ * S⁻¹ * S * (S⁻¹ * F * P) = P * Fᵀ * S⁻¹ * F * P := by
    rw [Matrix.mul_assoc (P * Fᵀ) S⁻¹ S, nonsing_inv_mul S hSu, Matrix.mul_one]
    simp only [Matrix.mul_assoc]
  rw [e2]
  abel

section
variable (m : LinGauss d e) (y : ℕ → Fin e → ℝ) (t : ℕ → ℝ)

/-- Mean of `x_k` given `x_{k+1} = x'` and the observations to time `k`. -/
noncomputable def backMean (k : ℕ) (x' : Fin d → ℝ) : Fin d → ℝ :=
  let F := (codeLG m t).F k
  let P := (filt m y t k).2
  (filt m y t k).1 + (P * Fᵀ * (F * P * Fᵀ + (codeLG m t).Q k)⁻¹) *ᵥ (x' - F *ᵥ (filt m y t k).1)

/-- Its covariance. -/
noncomputable def backCov (k : ℕ) : Matrix (Fin d) (Fin d) ℝ :=
  let F := (codeLG m t).F k
  let P := (filt m y t k).2
  P - P * Fᵀ * (F * P * Fᵀ + (codeLG m t).Q k)⁻¹ * F * P

theorem forward_back (h : (codeLG m t).Proper) (k : ℕ) (x x' : Fin d → ℝ) :
    (codeLG m t).forward y k x * (gaussDensity ((codeLG m t).F k *ᵥ x) ((codeLG m t).Q k) x' * gaussDensity ((codeLG m t).H (k + 1) *ᵥ x') ((codeLG m t).R (k + 1)) (y (k + 1)))
      = gaussDensity (backMean m y t k x') (backCov m y t k) x * (codeLG m t).forward y (k + 1) x' := by
  obtain ⟨hp, c, hc, hf⟩ := filt_forward m y t h k
  have hint : ∫ x, (codeLG m t).forward y k x * gaussDensity ((codeLG m t).F k *ᵥ x) ((codeLG m t).Q k) x'
      = c * gaussDensity ((codeLG m t).F k *ᵥ (filt m y t k).1) ((codeLG m t).F k * (filt m y t k).2 * ((codeLG m t).F k)ᵀ + (codeLG m t).Q k) x' := by
    rw [← gauss_marginal _ hp (h.Q k), ← integral_const_mul]
    refine integral_congr_ae (Filter.Eventually.of_forall fun x' => ?_)
    dsimp only
    rw [hf]; ring
  rw [LG.forward, hint, hf]
  have := gauss_bayes ((codeLG m t).F k) hp (h.Q k) (filt m y t k).1 x x'
  unfold backMean backCov
  dsimp only
  linear_combination (c * gaussDensity ((codeLG m t).H (k + 1) *ᵥ x') ((codeLG m t).R (k + 1)) (y (k + 1))) * this

theorem pair_back (h : (codeLG m t).Proper) (T k : ℕ) (x x' : Fin d → ℝ) :
    (codeLG m t).smoothingPair y T k x x' = gaussDensity (backMean m y t k x') (backCov m y t k) x * (codeLG m t).smoothing y T (k + 1) x' := by
  unfold LG.smoothingPair LG.smoothing
  have := forward_back m y t h k x x'
  linear_combination ((codeLG m t).backward y (T - 1 - (k + 1)) (k + 1) x') * this

/-- One state of the pair integrated out is the other. -/
theorem smoothing_pair (T k : ℕ) (hk : k + 1 < T) (x : Fin d → ℝ) :
    (codeLG m t).smoothing y T k x = ∫ x', (codeLG m t).smoothingPair y T k x x' := by
  unfold LG.smoothingPair LG.smoothing
  rw [integral_const_mul]
  have : T - 1 - k = T - 1 - (k + 1) + 1 := by omega
  rw [this, LG.backward]

theorem smth_smoothing (h : (codeLG m t).Proper) (T : ℕ) : ∃ c > 0, ∀ j, j < T →
    (smth m t T (filt m y t) j).2.PosDef ∧ ∀ x, (codeLG m t).smoothing y T (T - 1 - j) x = c * gaussDensity (smth m t T (filt m y t) j).1 (smth m t T (filt m y t) j).2 x := by
  obtain ⟨hp, c, hc, hf⟩ := filt_forward m y t h (T - 1)
  refine ⟨c, hc, fun j => ?_⟩
  induction j with
  | zero =>
    intro _
    refine ⟨hp, fun x => ?_⟩
    unfold LG.smoothing
    simp only [Nat.sub_zero, Nat.sub_self, LG.backward, mul_one]
    exact hf x
  | succ j ih =>
    intro hj
    obtain ⟨hC, ih⟩ := ih (by omega)
    obtain ⟨k, hk⟩ : ∃ k, k = T - 1 - (j + 1) := ⟨_, rfl⟩
    have hk1 : T - 1 - j = k + 1 := by omega
    rw [hk1] at ih
    have hpk := (filt_forward m y t h k).1
    have hV : (backCov m y t k).PosDef := cond_posDef _ hpk (h.Q k)
    have hcov : (smth m t T (filt m y t) (j + 1)).2 = ((filt m y t k).2 * ((codeLG m t).F k)ᵀ * ((codeLG m t).F k * (filt m y t k).2 * ((codeLG m t).F k)ᵀ + (codeLG m t).Q k)⁻¹) * (smth m t T (filt m y t) j).2
        * ((filt m y t k).2 * ((codeLG m t).F k)ᵀ * ((codeLG m t).F k * (filt m y t k).2 * ((codeLG m t).F k)ᵀ + (codeLG m t).Q k)⁻¹)ᵀ + backCov m y t k := by
      unfold backCov
      dsimp only
      rw [← smoother_cov _ _ _ _ hpk (h.Q k), smth, ← hk]
      rfl
    have hmean : (smth m t T (filt m y t) (j + 1)).1 = backMean m y t k (smth m t T (filt m y t) j).1 := by
      rw [smth, ← hk]; rfl
    refine ⟨by rw [hcov]; exact posDef_innovation _ hC hV, fun x => ?_⟩
    rw [← hk, smoothing_pair m y t T k (by omega)]
    simp only [pair_back m y t h, ih]
    have := gauss_marginal_affine ((filt m y t k).2 * ((codeLG m t).F k)ᵀ * ((codeLG m t).F k * (filt m y t k).2 * ((codeLG m t).F k)ᵀ + (codeLG m t).Q k)⁻¹)
      ((filt m y t k).1 - ((filt m y t k).2 * ((codeLG m t).F k)ᵀ * ((codeLG m t).F k * (filt m y t k).2 * ((codeLG m t).F k)ᵀ + (codeLG m t).Q k)⁻¹) *ᵥ ((codeLG m t).F k *ᵥ (filt m y t k).1)) hC hV (smth m t T (filt m y t) j).1 x
    have eb : ∀ x', backMean m y t k x' = ((filt m y t k).1 - ((filt m y t k).2 * ((codeLG m t).F k)ᵀ * ((codeLG m t).F k * (filt m y t k).2 * ((codeLG m t).F k)ᵀ + (codeLG m t).Q k)⁻¹) *ᵥ ((codeLG m t).F k *ᵥ (filt m y t k).1))
        + ((filt m y t k).2 * ((codeLG m t).F k)ᵀ * ((codeLG m t).F k * (filt m y t k).2 * ((codeLG m t).F k)ᵀ + (codeLG m t).Q k)⁻¹) *ᵥ x' := by
      intro x'
      unfold backMean
      dsimp only
      rw [mulVec_sub]
      abel
    rw [hmean, hcov, eb, ← this, ← integral_const_mul]
    refine integral_congr_ae (Filter.Eventually.of_forall fun x' => ?_)
    dsimp only
    rw [eb]
    ring

theorem smth_congr (T : ℕ) (f g : ℕ → MC d) (hT : 1 ≤ T) (hfg : ∀ i < T, f i = g i) (j : ℕ) (hj : j < T) : smth m t T f j = smth m t T g j := by
  induction j with
  | zero => exact hfg _ (by omega)
  | succ j ih =>
    have h1 := hfg (T - 1 - (j + 1)) (by omega)
    have h2 := hfg (T - 1 - (j + 1) + 1) (by omega)
    rw [smth, smth, ih (by omega)]
    unfold smootherStep
    rw [h1, h2]

theorem smoother_lists (T : ℕ) (hT : 1 ≤ T) :
    (smoother m y t T).1 = (List.range T).map (fun k => smth m t T (filt m y t) (T - 1 - k)) ∧
    (smoother m y t T).2 = (List.range (T - 1)).map (fun k => (smootherStep m t (filt m y t) (smth m t T (filt m y t) (T - 1 - (k + 1))) k).2) := by
  obtain ⟨f, hf⟩ : ∃ f : ℕ → MC d, f = fun i => (Kalman.filter m y t T).getD i (filterInit m y t) := ⟨_, rfl⟩
  have hfg : ∀ i < T, f i = filt m y t i := by
    intro i hi
    rw [hf, filter_eq m y t T hT]
    simp [hi]
  unfold smoother
  rw [← hf, (smoother_eq m t T hT f).1, (smoother_eq m t T hT f).2]
  constructor
  · refine List.map_congr_left fun k hk => ?_
    rw [List.mem_range] at hk
    exact smth_congr m t T f _ hT hfg _ (by omega)
  · refine List.map_congr_left fun k hk => ?_
    rw [List.mem_range] at hk
    rw [smth_congr m t T f _ hT hfg _ (by omega)]
    unfold smootherStep
    rw [hfg k (by omega), hfg (k + 1) (by omega)]

/-- C59, marginals: for every length, the means and covariances the smoother returns are those of the smoothing distributions: at every time `p(x_k, y_0..y_{T-1})`, with all other states integrated out, is one positive
constant (the evidence) times their Gaussian density; the covariances are positive definite. The initial covariance is the matrix the code starts from (C58). -/
theorem C59_smoother (h : (codeLG m t).Proper) (T : ℕ) (hT : 1 ≤ T) :
    (smoother m y t T).1.length = T ∧ (smoother m y t T).2.length = T - 1 ∧
    ∃ c > 0, ∀ k (hk : k < (smoother m y t T).1.length), (smoother m y t T).1[k].2.PosDef ∧
      ∀ x, (codeLG m t).smoothing y T k x = c * gaussDensity (smoother m y t T).1[k].1 (smoother m y t T).1[k].2 x := by
  obtain ⟨e1, e2⟩ := smoother_lists m y t T hT
  obtain ⟨c, hc, hs⟩ := smth_smoothing m y t h T
  refine ⟨by simp [e1], by simp [e2], c, hc, fun k hk => ?_⟩
  have hk' : k < T := by simpa [e1] using hk
  have : (smoother m y t T).1[k] = smth m t T (filt m y t) (T - 1 - k) := by
    simp only [e1, List.getElem_map, List.getElem_range]
  rw [this]
  obtain ⟨h1, h2⟩ := hs (T - 1 - k) (by omega)
  refine ⟨h1, ?_⟩
  rwa [show T - 1 - (T - 1 - k) = k by omega] at h2

/-- The backward gain at time `k`. -/
noncomputable def backGain (k : ℕ) : Matrix (Fin d) (Fin d) ℝ :=
  let F := (codeLG m t).F k
  let P := (filt m y t k).2
  P * Fᵀ * (F * P * Fᵀ + (codeLG m t).Q k)⁻¹

theorem lagOne_moment (h : (codeLG m t).Proper) (T : ℕ) (k : ℕ) (hk : k + 1 < T) (i j : Fin d) :
    (codeLG m t).lagOne y T k i j = (filt m y t k).1 i * (smth m t T (filt m y t) (T - 1 - (k + 1))).1 j
      + ∑ l, backGain m y t k i l * ((smth m t T (filt m y t) (T - 1 - (k + 1))).2 l j
        + ((smth m t T (filt m y t) (T - 1 - (k + 1))).1 l - ((codeLG m t).F k *ᵥ (filt m y t k).1) l) * (smth m t T (filt m y t) (T - 1 - (k + 1))).1 j) := by
  obtain ⟨c, hc, hs⟩ := smth_smoothing m y t h T
  obtain ⟨hC, hs⟩ := hs (T - 1 - (k + 1)) (by omega)
  rw [show T - 1 - (T - 1 - (k + 1)) = k + 1 by omega] at hs
  set μ := (smth m t T (filt m y t) (T - 1 - (k + 1))).1
  set C := (smth m t T (filt m y t) (T - 1 - (k + 1))).2
  have hV : (backCov m y t k).PosDef := cond_posDef _ (filt_forward m y t h k).1 (h.Q k)
  have hden : ∫ x', ∫ x, (codeLG m t).smoothingPair y T k x x' = c := by
    simp only [pair_back m y t h, hs]
    simp only [integral_mul_const, integral_gaussDensity _ hV, one_mul, integral_const_mul, integral_gaussDensity _ hC, mul_one]
  have hin : ∀ x' : Fin d → ℝ, ∫ x : Fin d → ℝ, x i * x' j * (codeLG m t).smoothingPair y T k x x' = c * (x' j * gaussDensity μ C x' * backMean m y t k x' i) := by
    intro x'
    rw [← gauss_mean (backMean m y t k x') hV i, ← integral_const_mul, ← integral_const_mul]
    refine integral_congr_ae (Filter.Eventually.of_forall fun x => ?_)
    dsimp only
    rw [pair_back m y t h, hs]
    ring
  have hbm : ∀ x' : Fin d → ℝ, x' j * gaussDensity μ C x' * backMean m y t k x' i
      = ((filt m y t k).1 i - ∑ l, backGain m y t k i l * ((codeLG m t).F k *ᵥ (filt m y t k).1) l) * (x' j * gaussDensity μ C x') + ∑ l, backGain m y t k i l * (x' l * x' j * gaussDensity μ C x') := by
    intro x'
    have : backMean m y t k x' i = (filt m y t k).1 i + ∑ l, backGain m y t k i l * (x' l - ((codeLG m t).F k *ᵥ (filt m y t k).1) l) := rfl
    rw [this]
    simp only [mul_sub, Finset.sum_sub_distrib]
    have e2 : ∑ l, backGain m y t k i l * (x' l * x' j * gaussDensity μ C x') = (∑ l, backGain m y t k i l * x' l) * (x' j * gaussDensity μ C x') := by
      rw [Finset.sum_mul]
      exact Finset.sum_congr rfl fun l _ => by ring
    rw [e2]
    ring
  unfold LG.lagOne
  rw [hden]
  simp only [hin, hbm]
  have i1 : Integrable fun x' : Fin d → ℝ => ((filt m y t k).1 i - ∑ l, backGain m y t k i l * ((codeLG m t).F k *ᵥ (filt m y t k).1) l) * (x' j * gaussDensity μ C x') :=
    (gauss_integrable_first μ hC j).const_mul _
  have i2 : ∀ l, Integrable fun x' : Fin d → ℝ => backGain m y t k i l * (x' l * x' j * gaussDensity μ C x') := fun l => (gauss_integrable_second μ hC l j).const_mul _
  rw [integral_const_mul, integral_add i1 (integrable_finsetSum _ fun l _ => i2 l), integral_const_mul, gauss_mean μ hC, integral_finsetSum _ fun l _ => i2 l]
  simp only [integral_const_mul, gauss_second μ hC]
  rw [mul_div_cancel_left₀ _ hc.ne']
  simp only [mul_add, sub_mul, mul_sub, Finset.sum_add_distrib, Finset.sum_sub_distrib]
  rw [Finset.sum_mul]
  simp only [mul_assoc]
  ring

end

/-- The scalar update of the backward gain. -/
theorem C59_lag_one_aux (m : LinGauss 1 e) (y : ℕ → Fin e → ℝ) (t : ℕ → ℝ) (T : ℕ) (hT : 1 ≤ T) (k : ℕ) (hk : k < (smoother m y t T).2.length) :
    (smoother m y t T).2[k] 0 0 = (filt m y t k).1 0 * (smth m t T (filt m y t) (T - 1 - (k + 1))).1 0
      + backGain m y t k 0 0 * ((smth m t T (filt m y t) (T - 1 - (k + 1))).2 0 0
        + ((smth m t T (filt m y t) (T - 1 - (k + 1))).1 0 - (filt m y t (k + 1)).1 0) * (smth m t T (filt m y t) (T - 1 - (k + 1))).1 0) := by
  have : (smoother m y t T).2[k] = (smootherStep m t (filt m y t) (smth m t T (filt m y t) (T - 1 - (k + 1))) k).2 := by
    simp only [(smoother_lists m y t T hT).2, List.getElem_map, List.getElem_range]
  rw [this]
  unfold smootherStep addConst
  dsimp only
  rw [of_apply, add_comm, Matrix.mul_apply]
  simp only [Fin.sum_univ_one, dotProduct, Pi.sub_apply, of_apply]
  rfl

/-- C59, lag-one moments in one dimension: the value returned differs from `E[x_k x_{k+1} | y_0..y_{T-1}]` by exactly `gain * (predicted mean - filter mean) * smoothed mean`, where the predicted and filter means are
those of time `k + 1`: the code subtracts the filter mean where the recursion needs the predicted mean. -/
theorem C59_lag_one_error (m : LinGauss 1 e) (y : ℕ → Fin e → ℝ) (t : ℕ → ℝ) (h : (codeLG m t).Proper) (T : ℕ) (k : ℕ) (hk : k + 1 < T)
    (h0 : k < (smoother m y t T).2.length) (h1 : k + 1 < (smoother m y t T).1.length) (h2 : k < (Kalman.filter m y t T).length) (h3 : k + 1 < (Kalman.filter m y t T).length) :
    let f := Kalman.filter m y t T
    let F := m.transMat (t k) (t (k + 1)) 0 0
    let Q := (m.transCovSqrt (t k) (t (k + 1)) * (m.transCovSqrt (t k) (t (k + 1)))ᵀ) 0 0
    let G := f[k].2 0 0 * F / (F * f[k].2 0 0 * F + Q)
    (smoother m y t T).2[k] 0 0 - (codeLG m t).lagOne y T k 0 0 = G * (F * f[k].1 0 - f[k + 1].1 0) * (smoother m y t T).1[k + 1].1 0 := by
  intro f F Q G
  have hT : 1 ≤ T := by omega
  have ef := filter_eq m y t T hT
  have e1 : f[k] = filt m y t k := by simp only [f, ef, List.getElem_map, List.getElem_range]
  have e2 : f[k + 1] = filt m y t (k + 1) := by simp only [f, ef, List.getElem_map, List.getElem_range]
  have e3 : (smoother m y t T).1[k + 1] = smth m t T (filt m y t) (T - 1 - (k + 1)) := by
    simp only [(smoother_lists m y t T hT).1, List.getElem_map, List.getElem_range]
  have eG : backGain m y t k 0 0 = G := by
    have hm : ∀ M : Matrix (Fin 1) (Fin 1) ℝ, M = !![M 0 0] := fun M => by ext i j; fin_cases i; fin_cases j; rfl
    rw [show backGain m y t k = (filt m y t k).2 * ((codeLG m t).F k)ᵀ * ((codeLG m t).F k * (filt m y t k).2 * ((codeLG m t).F k)ᵀ + (codeLG m t).Q k)⁻¹ from rfl,
      hm ((codeLG m t).F k), hm (filt m y t k).2, hm ((codeLG m t).Q k)]
    simp only [mat11_t, mat11_mul, mat11_add, mat11_inv]
    simp only [G, F, Q, e1, codeLG, div_eq_mul_inv]
    simp
  rw [C59_lag_one_aux m y t T hT k h0, lagOne_moment m y t h T k hk, e1, e2, e3, ← eG]
  simp only [Fin.sum_univ_one, mulVec, dotProduct]
  change _ = backGain m y t k 0 0 * ((codeLG m t).F k 0 0 * _ - _) * _
  ring

/-- C59, lag-one moments, what holds: in one dimension the value is right when the filter mean of the next time is the predicted mean (as when the observation equals its prediction). Missing: other observations, and
several dimensions, where a scalar product is broadcast over the matrix. -/
theorem C59_lag_one_partial (m : LinGauss 1 e) (y : ℕ → Fin e → ℝ) (t : ℕ → ℝ) (h : (codeLG m t).Proper) (T : ℕ) (k : ℕ) (hk : k + 1 < T)
    (h0 : k < (smoother m y t T).2.length) (h2 : k < (Kalman.filter m y t T).length) (h3 : k + 1 < (Kalman.filter m y t T).length)
    (hpred : (Kalman.filter m y t T)[k + 1].1 0 = m.transMat (t k) (t (k + 1)) 0 0 * (Kalman.filter m y t T)[k].1 0) :
    (smoother m y t T).2[k] 0 0 = (codeLG m t).lagOne y T k 0 0 := by
  have := C59_lag_one_error m y t h T k hk h0 (by rw [(C59_smoother m y t h T (by omega)).1]; exact hk) h2 h3
  dsimp only at this
  rw [hpred, sub_self, mul_zero, zero_mul] at this
  linarith

/-- C59 fails for the lag-one moment: two times, unit model, observations 0 and 1. The true moment is 8/25 and the code returns 1/5. -/
theorem C59_lag_one_fails (t : ℕ → ℝ) :
    let y : ℕ → Fin 1 → ℝ := fun k => ![k]
    (trueLG (model1 1) t).Proper ∧ ∃ h : 0 < (smoother (model1 1) y t 2).2.length,
      (smoother (model1 1) y t 2).2[0] 0 0 = 1 / 5 ∧ (trueLG (model1 1) t).lagOne y 2 0 0 0 = 8 / 25 := by
  intro y
  have hlen : (smoother (model1 1) y t 2).2.length = 1 := (C59_smoother (model1 1) y t (model1_proper one_pos t) 2 (by norm_num)).2.1
  have htc : trueLG (model1 1) t = codeLG (model1 1) t := by simp [trueLG, codeLG, model1, mat11_t]
  have f0 : filt (model1 1) y t 0 = (![0], !![1 / 2]) := by
    rw [filt, filterInit]
    simp only [model1, transpose_one, Matrix.mul_one]
    rw [one11, observe11]
    simp [y]; norm_num
  have f1 : filt (model1 1) y t 1 = (![3 / 5], !![3 / 5]) := by
    rw [filt, f0, filterStep]
    simp only [model1, transpose_one, Matrix.mul_one, Matrix.one_mul, one_mulVec]
    rw [one11, mat11_add, observe11]
    simp [y]; norm_num
  have hg : backGain (model1 1) y t 0 0 0 = 1 / 3 := by
    rw [backGain, f0]
    simp only [codeLG, model1, transpose_one, Matrix.mul_one, Matrix.one_mul]
    rw [one11, mat11_add, mat11_inv, mat11_mul]
    simp; norm_num
  have hl := C59_lag_one_aux (model1 1) y t 2 (by norm_num) 0 (by omega)
  have hm := lagOne_moment (model1 1) y t (model1_proper one_pos t) 2 0 (by norm_num) 0 0
  simp only [Nat.reduceSub, Nat.reduceAdd, smth, f1, f0, hg] at hl hm
  refine ⟨model1_true_proper one_pos t, by omega, ?_, ?_⟩
  · rw [hl]; simp; norm_num
  · rw [htc, hm]
    simp only [Fin.sum_univ_one, hg]
    simp [codeLG, model1]; norm_num

end Mocat.Props
