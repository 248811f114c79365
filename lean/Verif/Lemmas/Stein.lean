import Verif.Model.Kernels
import Mathlib.Probability.Distributions.Gaussian.Real
import Mathlib.MeasureTheory.Integral.Pi
import Mathlib.Tactic.Linarith
import Mathlib.Tactic.FieldSimp
import Mathlib.Tactic.NormNum
/-! Gaussian integrals for the Stein kernel of the Gaussian kernel: it is an inner product of square-integrable features. -/
namespace Mocat.Stein
open MeasureTheory ProbabilityTheory Mocat.Kernels Matrix

/-- The normalising constant of `exp (-2 (z / h)^2)`. -/
noncomputable def cst (h : ℝ) : ℝ := √(2 * Real.pi * (h ^ 2 / 4))

theorem cst_pos {h : ℝ} (hh : h ≠ 0) : 0 < cst h := by
  unfold cst
  have := Real.pi_pos
  positivity

/-- The variance `h^2 / 4`. -/
noncomputable def varOf (h : ℝ) : NNReal := ⟨h ^ 2 / 4, by positivity⟩

theorem varOf_ne {h : ℝ} (hh : h ≠ 0) : varOf h ≠ 0 := by
  intro e
  have h1 : h ^ 2 / 4 = 0 := congrArg NNReal.toReal e
  have : 0 < h ^ 2 / 4 := by positivity
  exact this.ne' h1

theorem exp_eq {h : ℝ} (hh : h ≠ 0) (m z : ℝ) :
    Real.exp (-2 * ((z - m) / h) ^ 2) = cst h * gaussianPDFReal m (varOf h) z := by
  have h1 : ((varOf h : NNReal) : ℝ) = h ^ 2 / 4 := rfl
  rw [gaussianPDFReal_def, h1, ← cst, ← mul_assoc, mul_inv_cancel₀ (cst_pos hh).ne', one_mul]
  congr 1
  field_simp
  ring

theorem quad_moments (m : ℝ) (v : NNReal) (A B C : ℝ) :
    Integrable (fun z => A + B * (z - m) + C * (z - m) ^ 2) (gaussianReal m v) ∧
    ∫ z, (A + B * (z - m) + C * (z - m) ^ 2) ∂gaussianReal m v = A + C * v := by
  have h2 : MemLp (fun z : ℝ => z - m) 2 (gaussianReal m v) := by
    have := (memLp_id_gaussianReal' (μ := m) (v := v) 2 (by simp)).sub (memLp_const m)
    exact this
  have i1 : Integrable (fun z : ℝ => z - m) (gaussianReal m v) := h2.integrable (by norm_num)
  have i2 : Integrable (fun z : ℝ => (z - m) ^ 2) (gaussianReal m v) := h2.integrable_sq
  have hv := variance_id_gaussianReal (μ := m) (v := v)
  rw [variance_eq_integral (by fun_prop)] at hv
  simp only [id, integral_id_gaussianReal] at hv
  have e1 : ∫ z, (z - m) ∂gaussianReal m v = 0 := by
    have i0 : Integrable (fun z : ℝ => z) (gaussianReal m v) := (memLp_id_gaussianReal' (μ := m) (v := v) 1 (by simp)).integrable le_rfl
    rw [integral_sub i0 (integrable_const m)]
    simp [integral_id_gaussianReal]
  have iB : Integrable (fun z : ℝ => B * (z - m)) (gaussianReal m v) := i1.const_mul B
  have iC : Integrable (fun z : ℝ => C * (z - m) ^ 2) (gaussianReal m v) := i2.const_mul C
  have iAB : Integrable (fun z : ℝ => A + B * (z - m)) (gaussianReal m v) := (integrable_const A).add iB
  refine ⟨iAB.add iC, ?_⟩
  rw [integral_add iAB iC, integral_add (integrable_const A) iB, integral_const_mul, integral_const_mul, hv, e1]
  simp

theorem quad_integral {h : ℝ} (hh : h ≠ 0) (m A B C : ℝ) :
    Integrable (fun z => Real.exp (-2 * ((z - m) / h) ^ 2) * (A + B * (z - m) + C * (z - m) ^ 2)) ∧
    ∫ z, Real.exp (-2 * ((z - m) / h) ^ 2) * (A + B * (z - m) + C * (z - m) ^ 2) = cst h * (A + C * (h ^ 2 / 4)) := by
  obtain ⟨h1, h2⟩ := quad_moments m (varOf h) A B C
  simp_rw [exp_eq hh, mul_assoc]
  constructor
  · refine Integrable.const_mul ?_ _
    rw [gaussianReal_of_var_ne_zero m (varOf_ne hh)] at h1
    have := (integrable_withDensity_iff_integrable_smul' (measurable_gaussianPDF m (varOf h))
      (Filter.Eventually.of_forall fun _ => gaussianPDF_lt_top)).1 h1
    simpa [gaussianPDF, ENNReal.toReal_ofReal, gaussianPDFReal_nonneg] using this
  · rw [integral_const_mul]
    congr 1
    have := integral_gaussianReal_eq_integral_smul (μ := m) (varOf_ne hh) (f := fun z => A + B * (z - m) + C * (z - m) ^ 2)
    simp only [smul_eq_mul] at this
    rw [← this, h2]
    rfl

/-- One coordinate of a feature, centred at `z`: a Gaussian bump times an affine function. -/
noncomputable def feat (h α β a z : ℝ) : ℝ := Real.exp (-((a - z) / h) ^ 2) * (α + β * (a - z))

theorem feat_mul {h : ℝ} (hh : h ≠ 0) (α α' β a b z : ℝ) :
    feat h α β a z * feat h α' β b z = Real.exp (-0.5 * ((a - b) / h) ^ 2) * (Real.exp (-2 * ((z - (a + b) / 2) / h) ^ 2) *
      ((α + β * (a - b) / 2) * (α' - β * (a - b) / 2) + -(β * (α + α')) * (z - (a + b) / 2) + β ^ 2 * (z - (a + b) / 2) ^ 2)) := by
  have e : Real.exp (-((a - z) / h) ^ 2) * Real.exp (-((b - z) / h) ^ 2)
      = Real.exp (-0.5 * ((a - b) / h) ^ 2) * Real.exp (-2 * ((z - (a + b) / 2) / h) ^ 2) := by
    rw [← Real.exp_add, ← Real.exp_add]
    congr 1
    field_simp
    ring
  calc feat h α β a z * feat h α' β b z
      = (Real.exp (-((a - z) / h) ^ 2) * Real.exp (-((b - z) / h) ^ 2)) * ((α + β * (a - z)) * (α' + β * (b - z))) := by
        unfold feat; ring
    _ = _ := by rw [e]; ring

theorem feat_integrable {h : ℝ} (hh : h ≠ 0) (α α' β a b : ℝ) : Integrable fun z => feat h α β a z * feat h α' β b z := by
  simp_rw [feat_mul hh]
  exact (quad_integral hh _ _ _ _).1.const_mul _

theorem feat_integral {h : ℝ} (hh : h ≠ 0) (α α' β a b : ℝ) :
    ∫ z, feat h α β a z * feat h α' β b z = cst h * (Real.exp (-0.5 * ((a - b) / h) ^ 2) *
      ((α + β * (a - b) / 2) * (α' - β * (a - b) / 2) + β ^ 2 * (h ^ 2 / 4))) := by
  simp_rw [feat_mul hh]
  rw [integral_const_mul, (quad_integral hh _ _ _ _).2]
  ring

variable {d : ℕ}

/-- The feature of coordinate `i` at the point `x` with gradient `g`. -/
noncomputable def feature (h : Fin d → ℝ) (i : Fin d) (x g z : Fin d → ℝ) : ℝ :=
  ∏ j, feat (h j) (if j = i then g i else 1) (if j = i then -2 / h i ^ 2 else 0) (x j) (z j)

theorem feature_mul (h : Fin d → ℝ) (i : Fin d) (x y g g' z : Fin d → ℝ) :
    feature h i x g z * feature h i y g' z = ∏ j, (feat (h j) (if j = i then g i else 1) (if j = i then -2 / h i ^ 2 else 0) (x j) (z j) *
      feat (h j) (if j = i then g' i else 1) (if j = i then -2 / h i ^ 2 else 0) (y j) (z j)) := by
  rw [feature, feature, Finset.prod_mul_distrib]

theorem feature_integrable (h : Fin d → ℝ) (hh : ∀ j, h j ≠ 0) (i : Fin d) (x y g g' : Fin d → ℝ) :
    Integrable fun z => feature h i x g z * feature h i y g' z := by
  simp_rw [feature_mul]
  exact Integrable.fintype_prod (f := fun j z => feat (h j) (if j = i then g i else 1) (if j = i then -2 / h i ^ 2 else 0) (x j) z *
      feat (h j) (if j = i then g' i else 1) (if j = i then -2 / h i ^ 2 else 0) (y j) z) fun j => feat_integrable (hh j) _ _ _ _ _

/-- The `i`-th term of the Stein kernel of the Gaussian kernel. -/
noncomputable def steinTerm (k : Kernel d) (x y g g' : Fin d → ℝ) (i : Fin d) : ℝ :=
  k.diagGradXY x y i + k.gradX x y i * g' i + g i * k.gradY x y i + k.call x y * (g i * g' i)

theorem steinKernel_eq (k : Kernel d) (x y g g' : Fin d → ℝ) : steinKernel k x y g g' = ∑ i, steinTerm k x y g g' i := by
  simp only [steinKernel, steinTerm, dotProduct, Finset.sum_add_distrib, Finset.mul_sum]

theorem gaussian_call_prod (h x y : Fin d → ℝ) : (gaussian h).call x y = ∏ j, Real.exp (-0.5 * ((x j - y j) / h j) ^ 2) := by
  rw [← Real.exp_sum, ← Finset.mul_sum]; rfl

theorem feature_integral (h : Fin d → ℝ) (hh : ∀ j, h j ≠ 0) (i : Fin d) (x y g g' : Fin d → ℝ) :
    ∫ z, feature h i x g z * feature h i y g' z = (∏ j, cst (h j)) * steinTerm (gaussian h) x y g g' i := by
  simp_rw [feature_mul]
  rw [integral_fintype_prod_volume_eq_prod fun j z => feat (h j) (if j = i then g i else 1) (if j = i then -2 / h i ^ 2 else 0) (x j) z *
      feat (h j) (if j = i then g' i else 1) (if j = i then -2 / h i ^ 2 else 0) (y j) z]
  simp_rw [feat_integral (hh _)]
  rw [Finset.prod_mul_distrib, Finset.prod_mul_distrib]
  congr 1
  rw [← gaussian_call_prod, Finset.prod_eq_single i]
  · have := hh i
    simp only [if_true, steinTerm]
    simp only [gaussian]
    field_simp
    ring
  · intro j _ hj; simp [hj]
  · intro hi; exact absurd (Finset.mem_univ i) hi

/-- The Stein kernel of the Gaussian kernel is positive semidefinite, for any vectors in place of the gradients. -/
theorem stein_psd {n : ℕ} (h : Fin d → ℝ) (hh : ∀ j, h j ≠ 0) (vals grads : Fin n → Fin d → ℝ) (w : Fin n → ℝ) :
    0 ≤ ∑ a, ∑ b, w a * w b * steinKernel (gaussian h) (vals a) (vals b) (grads a) (grads b) := by
  have hc : 0 < ∏ j, cst (h j) := Finset.prod_pos fun j _ => cst_pos (hh j)
  have key : ∀ i, 0 ≤ ∑ a, ∑ b, w a * w b * steinTerm (gaussian h) (vals a) (vals b) (grads a) (grads b) i := by
    intro i
    have e : (∏ j, cst (h j)) * ∑ a, ∑ b, w a * w b * steinTerm (gaussian h) (vals a) (vals b) (grads a) (grads b) i
        = ∫ z, (∑ a, w a * feature h i (vals a) (grads a) z) ^ 2 := by
      have e1 : ∀ z, (∑ a, w a * feature h i (vals a) (grads a) z) ^ 2
          = ∑ a, ∑ b, w a * w b * (feature h i (vals a) (grads a) z * feature h i (vals b) (grads b) z) := by
        intro z
        rw [sq, Finset.sum_mul_sum]
        exact Finset.sum_congr rfl fun a _ => Finset.sum_congr rfl fun b _ => by ring
      simp_rw [e1]
      rw [integral_finsetSum _ fun a _ => integrable_finsetSum _ fun b _ => (feature_integrable h hh i _ _ _ _).const_mul _, Finset.mul_sum]
      refine Finset.sum_congr rfl fun a _ => ?_
      rw [integral_finsetSum _ fun b _ => (feature_integrable h hh i _ _ _ _).const_mul _, Finset.mul_sum]
      refine Finset.sum_congr rfl fun b _ => ?_
      rw [integral_const_mul, feature_integral h hh]
      ring
    have : 0 ≤ ∫ z, (∑ a, w a * feature h i (vals a) (grads a) z) ^ 2 := integral_nonneg fun z => sq_nonneg _
    rw [← e] at this
    exact nonneg_of_mul_nonneg_right this hc
  have : ∑ a, ∑ b, w a * w b * steinKernel (gaussian h) (vals a) (vals b) (grads a) (grads b)
      = ∑ i, ∑ a, ∑ b, w a * w b * steinTerm (gaussian h) (vals a) (vals b) (grads a) (grads b) i := by
    simp_rw [steinKernel_eq, Finset.mul_sum]
    rw [Finset.sum_comm (s := Finset.univ (α := Fin d))]
    refine Finset.sum_congr rfl fun a _ => ?_
    rw [Finset.sum_comm (s := Finset.univ (α := Fin d))]
  rw [this]
  exact Finset.sum_nonneg fun i _ => key i

end Mocat.Stein
