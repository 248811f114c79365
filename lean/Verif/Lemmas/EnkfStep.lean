import Verif.Lemmas.EnsembleLimit
import Verif.Lemmas.GaussCov
import Verif.Lemmas.Subtape
import Verif.Model.Kalman
import Verif.Props.TekiChain
/-! Ensembles moved by linear Gaussian dynamics and by the stochastic Kalman update, as the ensembles grow. -/
namespace Mocat.Spec
open MeasureTheory ProbabilityTheory Filter Topology Matrix Mocat.Meas Mocat.MatGauss Mocat.Kalman
open scoped ENNReal

variable {d e a : ℕ}

theorem stdNormal_memLp_mul (i j : Fin d) : MemLp (fun z : Fin d → ℝ => z i * z j) 2 (stdNormal d) := by
  have h4 : ∀ i : Fin d, MemLp (fun z : Fin d → ℝ => z i) 4 (stdNormal d) := fun i =>
    (memLp_id_gaussianReal' 4 (by simp)).comp_measurePreserving (measurePreserving_eval (fun _ : Fin d => gaussianReal 0 1) i)
  have : ENNReal.HolderTriple 4 4 2 := ⟨by
    rw [← two_mul, ← div_eq_mul_inv]
    rw [ENNReal.div_eq_inv_mul, show (4 : ℝ≥0∞) = 2 * 2 by norm_num, ENNReal.mul_inv (by simp) (by simp), mul_assoc, ENNReal.inv_mul_cancel (by simp) (by simp), mul_one]⟩
  exact (h4 j).mul (h4 i)

section
variable {Ω : ℕ → Type*} [∀ n, MeasurableSpace (Ω n)] {μ : ∀ n, Measure (Ω n)} [∀ n, IsProbabilityMeasure (μ n)]

theorem Fresh.settles_normal {X : ℕ → Type*} [∀ n, MeasurableSpace (X n)] {x : ∀ n, Ω n → X n} {z : ∀ n, Ω n → Fin n → Fin a → ℝ} (h : Fresh μ x z (stdNormal a)) :
    Settles μ z 0 1 := by
  have h1 := h.settles (ξ := fun z => z) measurable_id stdNormal_memLp stdNormal_memLp_mul
  have e1 : (fun i => ∫ z : Fin a → ℝ, z i ∂stdNormal a) = 0 := funext fun i => stdNormal_mean i
  have e2 : covMatrix (stdNormal a) (fun z : Fin a → ℝ => z) (fun z => z) = 1 := by
    ext i j
    exact cov_stdNormal i j
  rw [e1, e2] at h1
  exact h1

theorem Fresh.cross_normal {x : ∀ n, Ω n → Fin n → Fin d → ℝ} {z : ∀ n, Ω n → Fin n → Fin a → ℝ} (h : Fresh μ x z (stdNormal a)) {m : Fin d → ℝ} {P : Matrix (Fin d) (Fin d) ℝ}
    (hx : Settles μ x m P) : InProb μ (fun n ω => sampleCov (x n ω) (z n ω)) 0 :=
  h.cross (ξ := fun z => z) measurable_id stdNormal_memLp hx.cov

/-- Independent draws: means and covariances converge to those of the distribution. -/
theorem settles_draws {X : ℕ → Type*} [∀ n, MeasurableSpace (X n)] {x : ∀ n, Ω n → X n} {z : ∀ n, Ω n → Fin n → Fin a → ℝ} (h : Fresh μ x z (stdNormal a)) (B : Matrix (Fin d) (Fin a) ℝ) (v : Fin d → ℝ) :
    Settles μ (fun n ω i => B *ᵥ z n ω i + v) v (B * Bᵀ) := by
  have h0 : Settles μ (fun (n : ℕ) (_ : Ω n) (_ : Fin n) => (0 : Fin d → ℝ)) 0 0 := by
    refine ⟨?_, ?_⟩
    · refine (inProb_const _).congr (.of_forall fun n ω => ?_)
      funext j
      simp [sampleMean]
    · refine (inProb_const _).congr (.of_forall fun n ω => ?_)
      rw [sampleCov_const_left]
  have hx : InProb μ (fun n ω => sampleCov (fun _ : Fin n => (0 : Fin d → ℝ)) (z n ω)) 0 :=
    (inProb_const _).congr (.of_forall fun n ω => (sampleCov_const_left _ _).symm)
  have := h0.affine' h.settles_normal hx (inProb_const (0 : Matrix (Fin d) (Fin d) ℝ)) (inProb_const v) (inProb_const B)
  simpa only [Matrix.zero_mulVec, zero_add, Matrix.zero_mul, Matrix.mul_one] using this

/-- Linear dynamics with independent normal noise. -/
theorem Settles.forecast {x : ∀ n, Ω n → Fin n → Fin d → ℝ} {m : Fin d → ℝ} {P : Matrix (Fin d) (Fin d) ℝ} (hx : Settles μ x m P) {z : ∀ n, Ω n → Fin n → Fin a → ℝ}
    (h : Fresh μ x z (stdNormal a)) (F : Matrix (Fin d) (Fin d) ℝ) (L : Matrix (Fin d) (Fin a) ℝ) :
    Settles μ (fun n ω i => F *ᵥ x n ω i + L *ᵥ z n ω i) (F *ᵥ m) (F * P * Fᵀ + L * Lᵀ) := by
  have := hx.affine' h.settles_normal (h.cross_normal hx) (inProb_const F) (inProb_const 0) (inProb_const L)
  simpa only [add_zero, Matrix.mul_one] using this

omit [∀ n, IsProbabilityMeasure (μ n)] in
theorem InProb.matInv {f : ∀ n, Ω n → Matrix (Fin a) (Fin a) ℝ} {A : Matrix (Fin a) (Fin a) ℝ} (hf : InProb μ f A) (hA : A.det ≠ 0) : InProb μ (fun n ω => (f n ω)⁻¹) A⁻¹ :=
  hf.comp (φ := fun M : Matrix (Fin a) (Fin a) ℝ => M⁻¹) <| by
    have h1 : ContinuousAt (fun M : Matrix (Fin a) (Fin a) ℝ => M.det) A := continuous_id.matrix_det.continuousAt
    have h2 : ContinuousAt (fun M : Matrix (Fin a) (Fin a) ℝ => (M.det)⁻¹ • M.adjugate) A := (h1.inv₀ hA).smul continuous_id.matrix_adjugate.continuousAt
    refine h2.congr (.of_forall fun M => ?_)
    simp only [inv_def, Ring.inverse_eq_inv']

/-- Covariance after the stochastic update with the gain of `P`. -/
theorem joseph {P : Matrix (Fin d) (Fin d) ℝ} (hP : P.PosDef) {R : Matrix (Fin e) (Fin e) ℝ} (hR : R.PosDef) (H : Matrix (Fin e) (Fin d) ℝ) {K : Matrix (Fin d) (Fin e) ℝ}
    (hK : K = P * Hᵀ * (H * P * Hᵀ + R)⁻¹) : (1 - K * H) * P * (1 - K * H)ᵀ + K * R * Kᵀ = P - K * H * P := by
  have hS := posDef_innovation H hP hR
  have hKS : K * (H * P * Hᵀ + R) = P * Hᵀ := by
    rw [hK, Matrix.mul_assoc, nonsing_inv_mul _ (PosDef.isUnit_det' hS), Matrix.mul_one]
  have h1 : K * R * Kᵀ = P * Hᵀ * Kᵀ - K * H * P * Hᵀ * Kᵀ := by
    rw [← hKS, Matrix.mul_add, Matrix.add_mul]
    simp only [Matrix.mul_assoc]
    abel
  rw [h1, transpose_sub, transpose_one, transpose_mul]
  simp only [Matrix.sub_mul, Matrix.mul_sub, Matrix.one_mul, Matrix.mul_one, Matrix.mul_assoc]
  abel

/-- The update of every member by the gain of the sample covariance, towards the observation plus independent noise. -/
theorem Settles.update {x : ∀ n, Ω n → Fin n → Fin d → ℝ} {m : Fin d → ℝ} {P : Matrix (Fin d) (Fin d) ℝ} (hx : Settles μ x m P) (hP : P.PosDef) {w : ∀ n, Ω n → Fin n → Fin e → ℝ}
    (h : Fresh μ x w (stdNormal e)) (H : Matrix (Fin e) (Fin d) ℝ) {L R : Matrix (Fin e) (Fin e) ℝ} (hL : L * Lᵀ = R) (hR : R.PosDef) (y : Fin e → ℝ) :
    Settles μ (fun n ω i => x n ω i + (sampleCov (x n ω) (x n ω) * Hᵀ * (H * sampleCov (x n ω) (x n ω) * Hᵀ + R)⁻¹) *ᵥ (y - (H *ᵥ x n ω i + L *ᵥ w n ω i)))
      (observe m P H R y).1 (observe m P H R y).2 := by
  have hS := posDef_innovation H hP hR
  have hK : InProb μ (fun n ω => sampleCov (x n ω) (x n ω) * Hᵀ * (H * sampleCov (x n ω) (x n ω) * Hᵀ + R)⁻¹) (P * Hᵀ * (H * P * Hᵀ + R)⁻¹) :=
    (hx.cov.matMul (inProb_const _)).matMul (((((inProb_const H).matMul hx.cov).matMul (inProb_const _)).matAdd (inProb_const R)).matInv (PosDef.isUnit_det' hS).ne_zero)
  have hA : InProb μ (fun n ω => 1 - sampleCov (x n ω) (x n ω) * Hᵀ * (H * sampleCov (x n ω) (x n ω) * Hᵀ + R)⁻¹ * H) (1 - P * Hᵀ * (H * P * Hᵀ + R)⁻¹ * H) :=
    (hK.matMul (inProb_const H)).comp (φ := fun M : Matrix (Fin d) (Fin d) ℝ => 1 - M) (continuous_const.sub continuous_id).continuousAt
  have hB : InProb μ (fun n ω => -(sampleCov (x n ω) (x n ω) * Hᵀ * (H * sampleCov (x n ω) (x n ω) * Hᵀ + R)⁻¹ * L)) (-(P * Hᵀ * (H * P * Hᵀ + R)⁻¹ * L)) :=
    (hK.matMul (inProb_const L)).comp (φ := fun M : Matrix (Fin d) (Fin e) ℝ => -M) continuous_neg.continuousAt
  have := hx.affine' h.settles_normal (h.cross_normal hx) hA (hK.matVec (inProb_const y)) hB
  have e1 : (1 - P * Hᵀ * (H * P * Hᵀ + R)⁻¹ * H) *ᵥ m + (P * Hᵀ * (H * P * Hᵀ + R)⁻¹) *ᵥ y = (observe m P H R y).1 := by
    unfold observe
    dsimp only
    rw [sub_mulVec, one_mulVec, mulVec_sub, mulVec_mulVec]
    abel
  have e2 : (1 - P * Hᵀ * (H * P * Hᵀ + R)⁻¹ * H) * P * (1 - P * Hᵀ * (H * P * Hᵀ + R)⁻¹ * H)ᵀ
      + -(P * Hᵀ * (H * P * Hᵀ + R)⁻¹ * L) * (1 : Matrix (Fin e) (Fin e) ℝ) * (-(P * Hᵀ * (H * P * Hᵀ + R)⁻¹ * L))ᵀ = (observe m P H R y).2 := by
    unfold observe
    dsimp only
    rw [← joseph hP hR H rfl, transpose_neg, Matrix.mul_one, Matrix.neg_mul, Matrix.mul_neg, neg_neg, transpose_mul _ L, Matrix.mul_assoc _ L, ← Matrix.mul_assoc L, hL]
    simp only [Matrix.mul_assoc]
  rw [e1, e2] at this
  have e3 : ∀ (n : ℕ) (ω : Ω n) (i : Fin n), (1 - sampleCov (x n ω) (x n ω) * Hᵀ * (H * sampleCov (x n ω) (x n ω) * Hᵀ + R)⁻¹ * H) *ᵥ x n ω i
      + -(sampleCov (x n ω) (x n ω) * Hᵀ * (H * sampleCov (x n ω) (x n ω) * Hᵀ + R)⁻¹ * L) *ᵥ w n ω i + (sampleCov (x n ω) (x n ω) * Hᵀ * (H * sampleCov (x n ω) (x n ω) * Hᵀ + R)⁻¹) *ᵥ y
      = x n ω i + (sampleCov (x n ω) (x n ω) * Hᵀ * (H * sampleCov (x n ω) (x n ω) * Hᵀ + R)⁻¹) *ᵥ (y - (H *ᵥ x n ω i + L *ᵥ w n ω i)) := by
    intro n ω i
    rw [sub_mulVec, one_mulVec, mulVec_sub, mulVec_add, mulVec_mulVec, mulVec_mulVec, neg_mulVec]
    abel
  simp only [e3] at this
  exact this

end

end Mocat.Spec
