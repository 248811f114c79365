import Verif.Lemmas.GaussProduct
import Mathlib.Probability.Independence.Integration
import Mathlib.Probability.Distributions.Gaussian.Real
/-! First and second moments of the multivariate normal distribution. -/
namespace Mocat.MatGauss
open Matrix MeasureTheory ProbabilityTheory Mocat.Spec Mocat.Meas

variable {d : ℕ}

theorem stdNormal_memLp (i : Fin d) : MemLp (fun z : Fin d → ℝ => z i) 2 (stdNormal d) :=
  (memLp_id_gaussianReal' 2 (by simp)).comp_measurePreserving (measurePreserving_eval (fun _ : Fin d => gaussianReal 0 1) i)

theorem stdNormal_integrable (i : Fin d) : Integrable (fun z : Fin d → ℝ => z i) (stdNormal d) := (stdNormal_memLp i).integrable (by norm_num)

theorem stdNormal_integrable_mul (i j : Fin d) : Integrable (fun z : Fin d → ℝ => z i * z j) (stdNormal d) := (stdNormal_memLp i).integrable_mul (stdNormal_memLp j)

theorem stdNormal_eval (i : Fin d) (f : ℝ → ℝ) (hf : Measurable f) : ∫ z, f (z i) ∂stdNormal d = ∫ x, f x ∂gaussianReal 0 1 := by
  have h := measurePreserving_eval (fun _ : Fin d => gaussianReal 0 1) i
  rw [← h.map_eq, integral_map h.measurable.aemeasurable hf.aestronglyMeasurable]
  rfl

theorem stdNormal_mean (i : Fin d) : ∫ z, z i ∂stdNormal d = 0 := by
  rw [stdNormal_eval i (fun x => x) measurable_id, integral_id_gaussianReal]

theorem stdNormal_second (i j : Fin d) : ∫ z, z i * z j ∂stdNormal d = if i = j then 1 else 0 := by
  split
  · next h =>
    subst h
    rw [stdNormal_eval i (fun x => x * x) (by fun_prop)]
    have hv := variance_id_gaussianReal (μ := 0) (v := 1)
    rw [variance_eq_integral (by fun_prop)] at hv
    simp only [id, integral_id_gaussianReal, sub_zero, NNReal.coe_one] at hv
    rw [← hv]
    congr 1
    ext x
    ring
  · next h =>
    have hi : iIndepFun (fun (k : Fin d) (z : Fin d → ℝ) => z k) (stdNormal d) :=
      iIndepFun_pi (μ := fun _ : Fin d => gaussianReal 0 1) (X := fun _ x => x) (fun _ => by fun_prop)
    have := (hi.indepFun h).integral_fun_mul_eq_mul_integral (stdNormal_integrable i).aestronglyMeasurable (stdNormal_integrable j).aestronglyMeasurable
    rw [this, stdNormal_mean, zero_mul]

theorem integral_gaussDensity_mul (m : Fin d → ℝ) (L : Matrix (Fin d) (Fin d) ℝ) (f : (Fin d → ℝ) → ℝ) :
    ∫ x, f x * gaussDensity m (L * Lᵀ) x = ∫ x, f x ∂gauss m (L * Lᵀ) := by
  rw [gauss, integral_withDensity_eq_integral_toReal_smul (continuous_gaussDensity m _).measurable.ennreal_ofReal (Filter.Eventually.of_forall fun _ => ENNReal.ofReal_lt_top)]
  refine integral_congr_ae (Filter.Eventually.of_forall fun x => ?_)
  dsimp only
  rw [ENNReal.toReal_ofReal, smul_eq_mul, mul_comm]
  unfold gaussDensity
  positivity

theorem gauss_integral_affine (m : Fin d → ℝ) (L : Matrix (Fin d) (Fin d) ℝ) (hL : L.det ≠ 0) (f : (Fin d → ℝ) → ℝ) (hf : Continuous f) :
    ∫ x, f x ∂gauss m (L * Lᵀ) = ∫ z, f (L *ᵥ z + m) ∂stdNormal d := by
  rw [← stdNormal_map_affine m L hL, integral_map _ hf.aestronglyMeasurable]
  have : Continuous (toLin' L) := LinearMap.continuous_of_finiteDimensional _
  exact (this.add continuous_const).measurable.aemeasurable

/-- The mean of `N(m, P)`. -/
theorem gauss_mean (m : Fin d → ℝ) {P : Matrix (Fin d) (Fin d) ℝ} (hP : P.PosDef) (i : Fin d) : ∫ x, x i * gaussDensity m P x = m i := by
  obtain ⟨L, rfl, hL⟩ := posDef_factor P hP
  rw [integral_gaussDensity_mul m L fun x => x i, gauss_integral_affine m L hL _ (by fun_prop)]
  simp only [Pi.add_apply, mulVec, dotProduct]
  rw [integral_add (integrable_finsetSum _ fun k _ => (stdNormal_integrable k).const_mul _) (integrable_const _), integral_finsetSum _ fun k _ => (stdNormal_integrable k).const_mul _]
  simp [integral_const_mul, stdNormal_mean]

/-- The second moments of `N(m, P)`. -/
theorem gauss_second (m : Fin d → ℝ) {P : Matrix (Fin d) (Fin d) ℝ} (hP : P.PosDef) (i j : Fin d) : ∫ x, x i * x j * gaussDensity m P x = P i j + m i * m j := by
  obtain ⟨L, rfl, hL⟩ := posDef_factor P hP
  rw [integral_gaussDensity_mul m L fun x => x i * x j, gauss_integral_affine m L hL _ (by fun_prop)]
  have hS : ∀ i, Integrable (fun z : Fin d → ℝ => ∑ k, L i k * z k) (stdNormal d) := fun i => integrable_finsetSum _ fun k _ => (stdNormal_integrable k).const_mul _
  have hSS : ∀ k l, Integrable (fun z : Fin d → ℝ => L i k * L j l * (z k * z l)) (stdNormal d) := fun k l => (stdNormal_integrable_mul k l).const_mul _
  have hS0 : ∀ i, ∫ z, ∑ k, L i k * z k ∂stdNormal d = 0 := by
    intro i
    rw [integral_finsetSum _ fun k _ => (stdNormal_integrable k).const_mul _]
    simp [integral_const_mul, stdNormal_mean]
  have e : (fun z : Fin d → ℝ => (L *ᵥ z + m) i * (L *ᵥ z + m) j)
      = fun z => (∑ k, ∑ l, L i k * L j l * (z k * z l)) + ((∑ k, L i k * z k) * m j + (m i * (∑ k, L j k * z k) + m i * m j)) := by
    ext z
    simp only [Pi.add_apply, mulVec, dotProduct]
    have : ∑ k, ∑ l, L i k * L j l * (z k * z l) = (∑ k, L i k * z k) * ∑ l, L j l * z l := by
      rw [Finset.sum_mul_sum]
      refine Finset.sum_congr rfl fun k _ => Finset.sum_congr rfl fun l _ => by ring
    rw [this]; ring
  have i1 : Integrable (fun z : Fin d → ℝ => ∑ k, ∑ l, L i k * L j l * (z k * z l)) (stdNormal d) := integrable_finsetSum _ fun k _ => integrable_finsetSum _ fun l _ => hSS k l
  have i2 : Integrable (fun z : Fin d → ℝ => (∑ k, L i k * z k) * m j) (stdNormal d) := (hS i).mul_const _
  have i3 : Integrable (fun z : Fin d → ℝ => m i * (∑ k, L j k * z k)) (stdNormal d) := (hS j).const_mul _
  have i4 : Integrable (fun _ : Fin d → ℝ => m i * m j) (stdNormal d) := integrable_const _
  have i34 : Integrable (fun z : Fin d → ℝ => m i * (∑ k, L j k * z k) + m i * m j) (stdNormal d) := i3.add i4
  have i234 : Integrable (fun z : Fin d → ℝ => (∑ k, L i k * z k) * m j + (m i * (∑ k, L j k * z k) + m i * m j)) (stdNormal d) := i2.add i34
  rw [e, integral_add i1 i234, integral_add i2 i34, integral_add i3 i4, integral_mul_const, integral_const_mul, hS0, hS0,
    integral_finsetSum _ fun k _ => integrable_finsetSum _ fun l _ => hSS k l]
  have : ∀ k, ∫ z, ∑ l, L i k * L j l * (z k * z l) ∂stdNormal d = L i k * L j k := by
    intro k
    rw [integral_finsetSum _ fun l _ => hSS k l]
    simp [integral_const_mul, stdNormal_second]
  simp [this, Matrix.mul_apply]

theorem gauss_integrable_of (m : Fin d → ℝ) (L : Matrix (Fin d) (Fin d) ℝ) (hL : L.det ≠ 0) (f : (Fin d → ℝ) → ℝ) (hf : Continuous f)
    (h : Integrable (fun z => f (L *ᵥ z + m)) (stdNormal d)) : Integrable fun x => f x * gaussDensity m (L * Lᵀ) x := by
  have hc : Continuous fun z : Fin d → ℝ => L *ᵥ z + m := by
    have : Continuous (toLin' L) := LinearMap.continuous_of_finiteDimensional _
    exact this.add continuous_const
  have h2 : Integrable f (gauss m (L * Lᵀ)) := by
    rw [← stdNormal_map_affine m L hL]
    exact (integrable_map_measure hf.aestronglyMeasurable hc.measurable.aemeasurable).2 h
  rw [gauss, integrable_withDensity_iff (continuous_gaussDensity m _).measurable.ennreal_ofReal (Filter.Eventually.of_forall fun _ => ENNReal.ofReal_lt_top)] at h2
  refine h2.congr (Filter.Eventually.of_forall fun x => ?_)
  dsimp only
  rw [ENNReal.toReal_ofReal]
  unfold gaussDensity
  positivity

theorem gauss_integrable_first (m : Fin d → ℝ) {P : Matrix (Fin d) (Fin d) ℝ} (hP : P.PosDef) (i : Fin d) : Integrable fun x => x i * gaussDensity m P x := by
  obtain ⟨L, rfl, hL⟩ := posDef_factor P hP
  refine gauss_integrable_of m L hL (fun x => x i) (by fun_prop) ?_
  simp only [Pi.add_apply, mulVec, dotProduct]
  exact (integrable_finsetSum _ fun k _ => (stdNormal_integrable k).const_mul _).add (integrable_const _)

theorem gauss_integrable_second (m : Fin d → ℝ) {P : Matrix (Fin d) (Fin d) ℝ} (hP : P.PosDef) (i j : Fin d) : Integrable fun x => x i * x j * gaussDensity m P x := by
  obtain ⟨L, rfl, hL⟩ := posDef_factor P hP
  refine gauss_integrable_of m L hL (fun x => x i * x j) (by fun_prop) ?_
  have : ∀ i, MemLp (fun z : Fin d → ℝ => (L *ᵥ z + m) i) 2 (stdNormal d) := by
    intro i
    simp only [Pi.add_apply, mulVec, dotProduct]
    exact (memLp_finsetSum _ fun k _ => (stdNormal_memLp k).const_mul _).add (memLp_const _)
  exact (this i).integrable_mul (this j)

/-- Proportional normal densities are equal, with equal parameters. -/
theorem gauss_unique {m m' : Fin d → ℝ} {P P' : Matrix (Fin d) (Fin d) ℝ} (hP : P.PosDef) (hP' : P'.PosDef) {c c' : ℝ} (hc : c ≠ 0)
    (h : ∀ x, c * gaussDensity m P x = c' * gaussDensity m' P' x) : c = c' ∧ m = m' ∧ P = P' := by
  have hcc : c = c' := by
    have := congrArg (fun f : (Fin d → ℝ) → ℝ => ∫ x, f x) (funext h)
    simp only [integral_const_mul, integral_gaussDensity _ hP, integral_gaussDensity _ hP', mul_one] at this
    exact this
  subst hcc
  have hd : ∀ x, gaussDensity m P x = gaussDensity m' P' x := fun x => mul_left_cancel₀ hc (h x)
  have hm : m = m' := by
    ext i
    rw [← gauss_mean m hP i, ← gauss_mean m' hP' i]
    simp only [hd]
  refine ⟨rfl, hm, ?_⟩
  subst hm
  ext i j
  have h1 := gauss_second m hP i j
  have h2 := gauss_second m hP' i j
  simp only [hd] at h1
  linarith

end Mocat.MatGauss
