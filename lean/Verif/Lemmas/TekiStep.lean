import Verif.Lemmas.EnkfStep
import Mathlib.Topology.Compactness.Compact
/-! Ensembles moved by the tempered Kalman update, as the ensembles grow. -/
namespace Mocat.Spec
open MeasureTheory ProbabilityTheory Filter Topology Matrix Mocat.Meas Mocat.MatGauss
open scoped ENNReal

variable {d e a : ℕ}

/-- Symmetric matrices near a positive definite one are positive definite. -/
theorem posDef_near {A : Matrix (Fin d) (Fin d) ℝ} (hA : A.PosDef) : ∀ᶠ M in 𝓝 A, Mᵀ = M → M.PosDef := by
  have hc : Continuous fun z : Matrix (Fin d) (Fin d) ℝ × (Fin d → ℝ) => z.2 ⬝ᵥ (z.1 *ᵥ z.2) :=
    continuous_snd.dotProduct (continuous_fst.matrix_mulVec continuous_snd)
  have h := (isCompact_sphere (0 : Fin d → ℝ) 1).eventually_forall_of_forall_eventually (x₀ := A) (P := fun M x => 0 < x ⬝ᵥ (M *ᵥ x)) fun x hx => by
    have hx0 : x ≠ 0 := fun h => by simp [h] at hx
    have h0 : 0 < x ⬝ᵥ (A *ᵥ x) := by simpa using hA.dotProduct_mulVec_pos hx0
    exact hc.continuousAt.eventually (lt_mem_nhds h0)
  filter_upwards [h] with M hM hs
  refine PosDef.of_dotProduct_mulVec_pos ?_ fun x hx => ?_
  · rw [IsHermitian, conjTranspose_eq_transpose_of_trivial, hs]
  · have hn : 0 < ‖x‖ := norm_pos_iff.2 hx
    have h1 := hM (‖x‖⁻¹ • x) (by rw [mem_sphere_zero_iff_norm, norm_smul, norm_inv, norm_norm, inv_mul_cancel₀ hn.ne'])
    rw [mulVec_smul, dotProduct_smul, smul_dotProduct, smul_smul, smul_eq_mul] at h1
    have h2 : 0 < ‖x‖⁻¹ * ‖x‖⁻¹ := by positivity
    simpa using (pos_iff_pos_of_mul_pos h1).1 h2

theorem quad_nonneg {P : Matrix (Fin d) (Fin d) ℝ} (hP : P.PosDef) (x : Fin d → ℝ) : 0 ≤ x ⬝ᵥ (P *ᵥ x) := by
  have := hP.posSemidef.dotProduct_mulVec_nonneg x
  rwa [star_trivial] at this

theorem quad_pos {P : Matrix (Fin d) (Fin d) ℝ} (hP : P.PosDef) {x : Fin d → ℝ} (hx : x ≠ 0) : 0 < x ⬝ᵥ (P *ᵥ x) := by
  have := hP.dotProduct_mulVec_pos hx
  rwa [star_trivial] at this

theorem quad_form (A : Matrix (Fin d) (Fin e) ℝ) (P : Matrix (Fin e) (Fin e) ℝ) (x : Fin d → ℝ) : x ⬝ᵥ ((A * P * Aᵀ) *ᵥ x) = (Aᵀ *ᵥ x) ⬝ᵥ (P *ᵥ (Aᵀ *ᵥ x)) := by
  rw [← mulVec_mulVec, ← mulVec_mulVec, dotProduct_mulVec x A, ← mulVec_transpose]

theorem joseph_posDef {P : Matrix (Fin d) (Fin d) ℝ} (hP : P.PosDef) {M : Matrix (Fin e) (Fin e) ℝ} (hM : M.PosDef) (H : Matrix (Fin e) (Fin d) ℝ) (K : Matrix (Fin d) (Fin e) ℝ) :
    ((1 - K * H) * P * (1 - K * H)ᵀ + K * M * Kᵀ).PosDef := by
  refine PosDef.of_dotProduct_mulVec_pos ?_ fun x hx => ?_
  · rw [IsHermitian, conjTranspose_eq_transpose_of_trivial, transpose_add]
    simp only [transpose_mul, transpose_transpose, PosDef.symm hP, PosDef.symm hM, Matrix.mul_assoc]
  · have e1 : star x ⬝ᵥ ((1 - K * H) * P * (1 - K * H)ᵀ + K * M * Kᵀ) *ᵥ x = ((1 - K * H)ᵀ *ᵥ x) ⬝ᵥ (P *ᵥ ((1 - K * H)ᵀ *ᵥ x)) + (Kᵀ *ᵥ x) ⬝ᵥ (M *ᵥ (Kᵀ *ᵥ x)) := by
      rw [star_trivial, add_mulVec, dotProduct_add, quad_form, quad_form]
    rw [e1]
    have hs1 : 0 ≤ ((1 - K * H)ᵀ *ᵥ x) ⬝ᵥ (P *ᵥ ((1 - K * H)ᵀ *ᵥ x)) := quad_nonneg hP _
    have hs2 : 0 ≤ (Kᵀ *ᵥ x) ⬝ᵥ (M *ᵥ (Kᵀ *ᵥ x)) := quad_nonneg hM _
    by_cases hK : Kᵀ *ᵥ x = 0
    · have h1 : (1 - K * H)ᵀ *ᵥ x = x := by
        rw [transpose_sub, transpose_one, transpose_mul, sub_mulVec, one_mulVec, ← mulVec_mulVec, hK, mulVec_zero, sub_zero]
      rw [h1] at hs1 ⊢
      have := quad_pos hP hx
      linarith
    · have := quad_pos hM hK
      linarith

section
variable {Ω : ℕ → Type*} [∀ n, MeasurableSpace (Ω n)] {μ : ∀ n, Measure (Ω n)}

/-- A factor of a converging matrix is bounded, so its products with vanishing matrices vanish. -/
theorem InProb.factor_mul {c : ∀ n, Ω n → Matrix (Fin a) (Fin a) ℝ} {C : Matrix (Fin a) (Fin a) ℝ} (hc : InProb μ (fun n ω => c n ω * (c n ω)ᵀ) C) {f : ∀ n, Ω n → Matrix (Fin a) (Fin e) ℝ}
    (hf : InProb μ f 0) : InProb μ (fun n ω => c n ω * f n ω) 0 := by
  refine InProb.matrix fun i j => ?_
  rw [inProb_real]
  intro ε hε
  set B : ℝ := Real.sqrt (C i i + 1) with hB
  have hB0 : 0 ≤ B := Real.sqrt_nonneg _
  have h1 : InProb μ (fun n ω => ∑ k, |f n ω k j|) 0 := by
    have := hf.comp (φ := fun M : Matrix (Fin a) (Fin e) ℝ => ∑ k, |M k j|) (Continuous.continuousAt (continuous_finsetSum _ fun k _ => (continuous_id.matrix_elem k j).abs))
    simpa using this
  have h2 := (inProb_real.1 (hc.entry i i)) 1 one_pos
  have h3 := (inProb_real.1 h1) (ε / (B + 1)) (by positivity)
  have h4 := h2.add h3
  rw [add_zero] at h4
  refine tendsto_of_tendsto_of_tendsto_of_le_of_le tendsto_const_nhds h4 (fun n => bot_le) fun n => ?_
  refine le_trans (measure_mono fun ω hω => ?_) (measure_union_le _ _)
  by_contra hcon
  rw [Set.mem_union, not_or] at hcon
  obtain ⟨g1, g2⟩ := hcon
  simp only [Set.mem_ofPred_eq, not_le, Matrix.zero_apply, sub_zero] at g1 g2 hω
  have hk : ∀ k, |c n ω i k| ≤ B := fun k => by
    refine Real.abs_le_sqrt ?_
    have h5 : c n ω i k ^ 2 ≤ (c n ω * (c n ω)ᵀ) i i := by
      rw [Matrix.mul_apply]
      simp only [transpose_apply, ← pow_two]
      exact Finset.single_le_sum (f := fun k => c n ω i k ^ 2) (fun k _ => sq_nonneg _) (Finset.mem_univ k)
    have := (abs_lt.1 g1).2
    linarith
  have h6 : |(c n ω * f n ω) i j| ≤ B * ∑ k, |f n ω k j| := by
    rw [Matrix.mul_apply, Finset.mul_sum]
    refine (Finset.abs_sum_le_sum_abs _ _).trans (Finset.sum_le_sum fun k _ => ?_)
    rw [abs_mul]
    exact mul_le_mul_of_nonneg_right (hk k) (abs_nonneg _)
  have h7 : ∑ k, |f n ω k j| < ε / (B + 1) := (le_abs_self _).trans_lt g2
  have h8 : B * ∑ k, |f n ω k j| < ε := by
    rw [lt_div_iff₀ (by positivity)] at h7
    have : 0 ≤ ∑ k, |f n ω k j| := Finset.sum_nonneg fun _ _ => abs_nonneg _
    nlinarith
  linarith

variable [∀ n, IsProbabilityMeasure (μ n)]

omit [∀ n, IsProbabilityMeasure (μ n)] in
/-- Normal perturbations with a factor of a converging matrix. -/
theorem Settles.factor {z : ∀ n, Ω n → Fin n → Fin a → ℝ} (hz : Settles μ z 0 1) {c : ∀ n, Ω n → Matrix (Fin a) (Fin a) ℝ} {C : Matrix (Fin a) (Fin a) ℝ}
    (hc : InProb μ (fun n ω => c n ω * (c n ω)ᵀ) C) : Settles μ (fun n ω i => c n ω *ᵥ z n ω i) 0 C := by
  have h0 : Settles μ (fun (n : ℕ) (_ : Ω n) (_ : Fin n) => (0 : Fin a → ℝ)) 0 0 := by
    refine ⟨?_, ?_⟩
    · refine (inProb_const _).congr (.of_forall fun n ω => ?_)
      funext j
      simp [sampleMean]
    · refine (inProb_const _).congr (.of_forall fun n ω => ?_)
      rw [sampleCov_const_left]
  have hm : InProb μ (fun n ω => c n ω *ᵥ sampleMean (z n ω)) 0 := by
    have h1 : InProb μ (fun n ω => (Matrix.of fun i (_ : Fin 1) => sampleMean (z n ω) i : Matrix (Fin a) (Fin 1) ℝ)) 0 := InProb.matrix fun i _ => hz.mean.apply i
    have h2 := hc.factor_mul h1
    refine InProb.pi fun i => ?_
    refine (h2.entry i 0).congr (.of_forall fun n ω => ?_)
    simp [Matrix.mul_apply, mulVec, dotProduct]
  have hv : InProb μ (fun n ω => c n ω * sampleCov (z n ω) (z n ω) * (c n ω)ᵀ) C := by
    have h1 : InProb μ (fun n ω => sampleCov (z n ω) (z n ω) - 1) 0 := by
      have := hz.cov.comp (φ := fun M : Matrix (Fin a) (Fin a) ℝ => M - 1) (continuous_id.sub continuous_const).continuousAt
      simpa using this
    have h2 := (hc.factor_mul h1).matTranspose
    rw [transpose_zero] at h2
    have h3 := (hc.factor_mul h2).matTranspose
    rw [transpose_zero] at h3
    have h4 := hc.matAdd h3
    rw [add_zero] at h4
    refine h4.congr (.of_forall fun n ω => ?_)
    rw [transpose_mul, transpose_transpose, Matrix.mul_sub, Matrix.mul_one, Matrix.sub_mul, add_sub_cancel]
  have := h0.affine (inProb_const (0 : Matrix (Fin a) (Fin a) ℝ)) (inProb_const (0 : Fin a → ℝ)) hm hv ((inProb_const _).congr (.of_forall fun n ω => by rw [sampleCov_const_left, Matrix.zero_mul]))
  simpa only [mulVec_zero, zero_add, Matrix.zero_mul, add_zero] using this

omit [∀ n, IsProbabilityMeasure (μ n)] in
theorem InProb.cross_factor {x : ∀ n, Ω n → Fin n → Fin d → ℝ} {z : ∀ n, Ω n → Fin n → Fin a → ℝ} (h : InProb μ (fun n ω => sampleCov (x n ω) (z n ω)) 0)
    {c : ∀ n, Ω n → Matrix (Fin a) (Fin a) ℝ} {C : Matrix (Fin a) (Fin a) ℝ} (hc : InProb μ (fun n ω => c n ω * (c n ω)ᵀ) C) :
    InProb μ (fun n ω => sampleCov (x n ω) fun i => c n ω *ᵥ z n ω i) 0 := by
  have h1 := h.matTranspose
  rw [transpose_zero] at h1
  have h2 := (hc.factor_mul h1).matTranspose
  rw [transpose_zero] at h2
  refine h2.congr (.of_forall fun n ω => ?_)
  rw [← sampleCov_transpose (fun i => c n ω *ᵥ z n ω i), sampleCov_mulVec_left, sampleCov_transpose]

omit [∀ n, IsProbabilityMeasure (μ n)] in
/-- Adding uncorrelated noise. -/
theorem Settles.add {u v : ∀ n, Ω n → Fin n → Fin a → ℝ} {m m' : Fin a → ℝ} {U V : Matrix (Fin a) (Fin a) ℝ} (hu : Settles μ u m U) (hv : Settles μ v m' V)
    (h : InProb μ (fun n ω => sampleCov (u n ω) (v n ω)) 0) (s : ℝ) : Settles μ (fun n ω i => s • u n ω i + v n ω i) (s • m + m') (s ^ 2 • U + V) := by
  refine ⟨?_, ?_⟩
  · have h1 := (((inProb_const (s • (1 : Matrix (Fin a) (Fin a) ℝ))).matVec hu.mean).vecAdd ((inProb_const (1 : Matrix (Fin a) (Fin a) ℝ)).matVec hv.mean)).vecAdd (inProb_const (0 : Fin a → ℝ))
    simp only [smul_mulVec, one_mulVec, add_zero] at h1
    refine h1.congr ?_
    filter_upwards [eventually_gt_atTop 0] with n hn ω
    have := sampleMean_affine hn (s • (1 : Matrix (Fin a) (Fin a) ℝ)) 1 0 (u n ω) (v n ω)
    simp only [smul_mulVec, one_mulVec, add_zero] at this
    exact this.symm
  · have h1 := ((hu.cov.comp (φ := fun M : Matrix (Fin a) (Fin a) ℝ => s ^ 2 • M) (continuous_const_smul _).continuousAt).matAdd
      ((h.comp (φ := fun M : Matrix (Fin a) (Fin a) ℝ => s • M) (continuous_const_smul _).continuousAt).matAdd
        (h.comp (φ := fun M : Matrix (Fin a) (Fin a) ℝ => (s • M)ᵀ) (Continuous.matrix_transpose (A := fun M : Matrix (Fin a) (Fin a) ℝ => s • M) (continuous_const_smul s)).continuousAt))).matAdd hv.cov
    simp only [smul_zero, transpose_zero, add_zero] at h1
    refine h1.congr (.of_forall fun n ω => ?_)
    have := sampleCov_affine (s • (1 : Matrix (Fin a) (Fin a) ℝ)) 1 0 (u n ω) (v n ω)
    simp only [smul_mulVec, one_mulVec, add_zero, transpose_smul, transpose_one, Matrix.mul_one, Matrix.one_mul, Matrix.smul_mul, Matrix.mul_smul, smul_smul, ← pow_two] at this
    rw [this]
    simp only [add_assoc, transpose_smul]

end

end Mocat.Spec
