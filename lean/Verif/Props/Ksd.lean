import Verif.Props.Kernels
import Verif.Lemmas.Stein
import Verif.Lemmas.GaussMoments
import Mathlib.Analysis.Calculus.LineDeriv.IntegrationByParts
import Mathlib.Analysis.Calculus.LineDeriv.Basic
/-!
# C89: the kernelised Stein discrepancy of exact draws

`ksd` compares a sample with the law whose gradients it is given. Its square averages the Stein kernel over pairs of particles. The Stein
identity says that this kernel has mean zero under the target in either argument, so that the expected square for `n` independent exact
draws is of order `1 / n`. The identity needs the gradient of the log density. The code uses the gradient of the potential, of opposite
sign, so with the gradients stored in a sample the identity fails.
-/
namespace Mocat.Props
open MeasureTheory ProbabilityTheory Mocat.Kernels Mocat.Stein Mocat.Meas Matrix

variable {d : ℕ}

/-- Specification: the law with density `exp (-U)`. -/
noncomputable def lawOf (U : (Fin d → ℝ) → ℝ) : Measure (Fin d → ℝ) := volume.withDensity fun y => ENNReal.ofReal (Real.exp (-U y))

/-- A potential `U`, normalised, with gradient `gU`, whose gradient has finite second moments under the law with density `exp (-U)`. -/
structure SmoothTarget (U : (Fin d → ℝ) → ℝ) (gU : (Fin d → ℝ) → Fin d → ℝ) : Prop where
  grad : ∀ y i, HasDerivAt (fun t => U (Function.update y i t)) (gU y i) (y i)
  meas : Measurable U
  gmeas : Measurable gU
  prob : IsProbabilityMeasure (lawOf U)
  second : ∀ i, MemLp (fun y => gU y i) 2 (lawOf U)

/-! ## Bounds on the Gaussian kernel and its derivatives -/

theorem call_cont (h : Fin d → ℝ) : Continuous fun p : (Fin d → ℝ) × (Fin d → ℝ) => (gaussian h).call p.1 p.2 := by
  simp only [gaussian]; fun_prop

theorem gradX_cont (h : Fin d → ℝ) (i : Fin d) : Continuous fun p : (Fin d → ℝ) × (Fin d → ℝ) => (gaussian h).gradX p.1 p.2 i := by
  simp only [gaussian]; fun_prop

theorem gradY_cont (h : Fin d → ℝ) (i : Fin d) : Continuous fun p : (Fin d → ℝ) × (Fin d → ℝ) => (gaussian h).gradY p.1 p.2 i := by
  simp only [gaussian]; fun_prop

theorem diag_cont (h : Fin d → ℝ) (i : Fin d) : Continuous fun p : (Fin d → ℝ) × (Fin d → ℝ) => (gaussian h).diagGradXY p.1 p.2 i := by
  simp only [gaussian]; fun_prop

theorem call_le (h : Fin d → ℝ) (x y : Fin d → ℝ) (i : Fin d) : (gaussian h).call x y ≤ Real.exp (-0.5 * ((x i - y i) / h i) ^ 2) := by
  simp only [gaussian]
  apply Real.exp_le_exp.2
  have : ((x i - y i) / h i) ^ 2 ≤ ∑ j, ((x j - y j) / h j) ^ 2 :=
    Finset.single_le_sum (f := fun j => ((x j - y j) / h j) ^ 2) (fun j _ => sq_nonneg _) (Finset.mem_univ i)
  linarith

theorem u_mul_call (h : Fin d → ℝ) (x y : Fin d → ℝ) (i : Fin d) :
    ((x i - y i) / h i) ^ 2 * (gaussian h).call x y ≤ 2 ∧ |(x i - y i) / h i| * (gaussian h).call x y ≤ 1 := by
  have h0 := (C36_values h x y).2.1
  have h1 := call_le h x y i
  set u := (x i - y i) / h i
  have hE : Real.exp (-0.5 * u ^ 2) * Real.exp (0.5 * u ^ 2) = 1 := by rw [← Real.exp_add]; simp
  have hp := Real.exp_pos (-0.5 * u ^ 2)
  have hq := Real.add_one_le_exp (0.5 * u ^ 2)
  constructor
  · have : u ^ 2 ≤ 2 * Real.exp (0.5 * u ^ 2) := by linarith
    calc u ^ 2 * (gaussian h).call x y ≤ (2 * Real.exp (0.5 * u ^ 2)) * Real.exp (-0.5 * u ^ 2) :=
          mul_le_mul this h1 h0.le (by positivity)
      _ = 2 := by linarith
  · have : |u| ≤ Real.exp (0.5 * u ^ 2) := by
      have := sq_nonneg (|u| - 1)
      have h2 : |u| ^ 2 = u ^ 2 := sq_abs u
      nlinarith
    calc |u| * (gaussian h).call x y ≤ Real.exp (0.5 * u ^ 2) * Real.exp (-0.5 * u ^ 2) :=
          mul_le_mul this h1 h0.le (by positivity)
      _ = 1 := by linarith

theorem call_bound (h : Fin d → ℝ) (x y : Fin d → ℝ) : ‖(gaussian h).call x y‖ ≤ 1 := by
  rw [Real.norm_eq_abs, abs_of_pos (C36_values h x y).2.1]
  exact (C36_values h x y).2.2.1

theorem gradX_bound (h : Fin d → ℝ) (hh : ∀ i, h i ≠ 0) (x y : Fin d → ℝ) (i : Fin d) : ‖(gaussian h).gradX x y i‖ ≤ 1 / |h i| := by
  have e : (gaussian h).gradX x y i = -((x i - y i) / h i * (gaussian h).call x y) / h i := by
    have := hh i
    simp only [gaussian]; field_simp
    ring
  rw [e, Real.norm_eq_abs, abs_div, abs_neg, abs_mul, abs_of_pos (C36_values h x y).2.1]
  exact div_le_div_of_nonneg_right (u_mul_call h x y i).2 (abs_nonneg _)

theorem gradY_bound (h : Fin d → ℝ) (hh : ∀ i, h i ≠ 0) (x y : Fin d → ℝ) (i : Fin d) : ‖(gaussian h).gradY x y i‖ ≤ 1 / |h i| := by
  have e : (gaussian h).gradY x y i = -(gaussian h).gradX x y i := by simp only [gaussian]; ring
  rw [e, norm_neg]
  exact gradX_bound h hh x y i

theorem diag_bound (h : Fin d → ℝ) (hh : ∀ i, h i ≠ 0) (x y : Fin d → ℝ) (i : Fin d) : ‖(gaussian h).diagGradXY x y i‖ ≤ 3 / h i ^ 2 := by
  have e : (gaussian h).diagGradXY x y i = ((gaussian h).call x y - ((x i - y i) / h i) ^ 2 * (gaussian h).call x y) / h i ^ 2 := by
    have := hh i
    simp only [gaussian]; field_simp
  have hpos : (0 : ℝ) < h i ^ 2 := by have := hh i; positivity
  rw [e, Real.norm_eq_abs, abs_div, abs_of_pos hpos]
  refine div_le_div_of_nonneg_right ?_ hpos.le
  have h1 := C36_values h x y
  have h2 := (u_mul_call h x y i).1
  have h3 : 0 ≤ ((x i - y i) / h i) ^ 2 * (gaussian h).call x y := mul_nonneg (sq_nonneg _) h1.2.1.le
  rw [abs_le]
  constructor <;> linarith [h1.2.1, h1.2.2.1]

/-- The derivative of `grad_x` in the second argument is the mixed derivative too. -/
theorem gradX_deriv_y (h : Fin d → ℝ) (hh : ∀ i, h i ≠ 0) (x y : Fin d → ℝ) (i : Fin d) :
    HasDerivAt (fun t => (gaussian h).gradX x (Function.update y i t) i) ((gaussian h).diagGradXY x y i) (y i) := by
  have h1 := C36_gradY h x y i
  have h2 : HasDerivAt (fun t => Function.update y i t i - x i) 1 (y i) := by
    simp only [Function.update_self]
    exact (hasDerivAt_id (y i)).sub_const (x i)
  have h3 := (h2.mul h1).div_const (h i ^ 2)
  have e : (fun t => (gaussian h).gradX x (Function.update y i t) i)
      = fun t => (Function.update y i t i - x i) * (gaussian h).call x (Function.update y i t) / h i ^ 2 := rfl
  rw [e]
  refine h3.congr_deriv ?_
  rw [Function.update_eq_self]
  have := hh i
  simp only [gaussian]
  field_simp
  ring

theorem lineDeriv_of_update {f : (Fin d → ℝ) → ℝ} {f' : ℝ} {y : Fin d → ℝ} {i : Fin d}
    (hf : HasDerivAt (fun t => f (Function.update y i t)) f' (y i)) : HasLineDerivAt ℝ f f' y (Pi.single i 1) := by
  unfold HasLineDerivAt
  have h1 : HasDerivAt (fun t : ℝ => y i + t) 1 0 := (hasDerivAt_id (0 : ℝ)).const_add (y i)
  have h2 : HasDerivAt (fun t => f (Function.update y i t)) f' (y i + 0) := by rwa [add_zero]
  have h3 := HasDerivAt.comp (0 : ℝ) h2 h1
  rw [mul_one] at h3
  refine h3.congr_of_eventuallyEq (Filter.Eventually.of_forall fun t => ?_)
  simp only [Function.comp]
  congr 1
  funext j
  by_cases hj : j = i
  · subst hj; simp
  · simp [hj]

theorem integral_lawOf {U : (Fin d → ℝ) → ℝ} (hU : Measurable U) (f : (Fin d → ℝ) → ℝ) :
    ∫ y, f y ∂lawOf U = ∫ y, Real.exp (-U y) * f y := by
  rw [lawOf, integral_withDensity_eq_integral_toReal_smul (by fun_prop) (Filter.Eventually.of_forall fun _ => ENNReal.ofReal_lt_top)]
  simp [ENNReal.toReal_ofReal (Real.exp_nonneg _)]

theorem integrable_lawOf {U : (Fin d → ℝ) → ℝ} (hU : Measurable U) {f : (Fin d → ℝ) → ℝ} (hf : Integrable f (lawOf U)) :
    Integrable fun y => Real.exp (-U y) * f y := by
  have := (integrable_withDensity_iff_integrable_smul' (f := fun y => ENNReal.ofReal (Real.exp (-U y))) (by fun_prop)
    (Filter.Eventually.of_forall fun _ => ENNReal.ofReal_lt_top)).1 hf
  simpa [ENNReal.toReal_ofReal (Real.exp_nonneg _)] using this

/-- Integration by parts against the law with density `exp (-U)`, in one coordinate. -/
theorem law_by_parts {U : (Fin d → ℝ) → ℝ} {gU : (Fin d → ℝ) → Fin d → ℝ} (hT : SmoothTarget U gU) (i : Fin d)
    {F F' : (Fin d → ℝ) → ℝ} {c c' : ℝ} (cF : Measurable F) (cF' : Measurable F') (bF : ∀ y, ‖F y‖ ≤ c) (bF' : ∀ y, ‖F' y‖ ≤ c')
    (hF : ∀ y, HasDerivAt (fun t => F (Function.update y i t)) (F' y) (y i)) :
    Integrable (fun y => F' y + F y * -gU y i) (lawOf U) ∧ ∫ y, (F' y + F y * -gU y i) ∂lawOf U = 0 := by
  have := hT.prob
  have hg : Integrable (fun y => -gU y i) (lawOf U) := ((hT.second i).integrable (by norm_num)).neg
  have i1 : Integrable F' (lawOf U) :=
    (memLp_top_of_bound cF'.aestronglyMeasurable _ (Filter.Eventually.of_forall bF')).integrable le_top
  have i0 : Integrable F (lawOf U) :=
    (memLp_top_of_bound cF.aestronglyMeasurable _ (Filter.Eventually.of_forall bF)).integrable le_top
  have i2 : Integrable (fun y => F y * -gU y i) (lawOf U) :=
    hg.bdd_mul cF.aestronglyMeasurable (Filter.Eventually.of_forall bF)
  refine ⟨i1.add i2, ?_⟩
  rw [integral_add i1 i2, integral_lawOf hT.meas, integral_lawOf hT.meas]
  have j1 : Integrable fun y => F' y * Real.exp (-U y) :=
    (integrable_lawOf hT.meas i1).congr (Filter.Eventually.of_forall fun y => mul_comm _ _)
  have j0 : Integrable fun y => F y * Real.exp (-U y) :=
    (integrable_lawOf hT.meas i0).congr (Filter.Eventually.of_forall fun y => mul_comm _ _)
  have j2 : Integrable fun y => F y * (Real.exp (-U y) * -gU y i) :=
    (integrable_lawOf hT.meas i2).congr (Filter.Eventually.of_forall fun y => by ring)
  have hb := integral_bilinear_hasLineDerivAt_right_eq_neg_left_of_integrable (μ := (volume : Measure (Fin d → ℝ)))
    (f := F) (f' := F') (g := fun y => Real.exp (-U y)) (g' := fun y => Real.exp (-U y) * -gU y i) (v := Pi.single i 1)
    (B := ContinuousLinearMap.mul ℝ ℝ) j1 j2 j0 (fun y _ => lineDeriv_of_update (hF y))
    (fun y _ => lineDeriv_of_update (by simpa using (hT.grad y i).neg.exp))
  simp only [ContinuousLinearMap.mul_apply'] at hb
  have e1 : ∫ y, Real.exp (-U y) * (F y * -gU y i) = ∫ y, F y * (Real.exp (-U y) * -gU y i) :=
    integral_congr_ae (Filter.Eventually.of_forall fun y => by ring)
  have e2 : ∫ y, Real.exp (-U y) * F' y = ∫ y, F' y * Real.exp (-U y) :=
    integral_congr_ae (Filter.Eventually.of_forall fun y => mul_comm _ _)
  rw [e1, e2, hb]
  ring

/-- C89 (Stein identity), what holds: given the gradient of the LOG DENSITY of the target in place of `grad_potential`, the Stein kernel
averages to zero over the target in its second argument, at every first argument, for the Gaussian kernel with any bandwidths and
any smooth target. Missing: the samplers store the gradient of the potential, which has the opposite sign (`C89_fails`). -/
theorem C89_stein_partial (h : Fin d → ℝ) (hh : ∀ i, h i ≠ 0) {U : (Fin d → ℝ) → ℝ} {gU : (Fin d → ℝ) → Fin d → ℝ}
    (hT : SmoothTarget U gU) (x : Fin d → ℝ) :
    ∫ y, steinKernel (gaussian h) x y (-gU x) (-gU y) ∂lawOf U = 0 := by
  have hsec : Continuous fun y : Fin d → ℝ => (x, y) := by fun_prop
  have key := fun i => law_by_parts hT i
    (F := fun y => (gaussian h).gradX x y i + -gU x i * (gaussian h).call x y)
    (F' := fun y => (gaussian h).diagGradXY x y i + -gU x i * (gaussian h).gradY x y i)
    (((gradX_cont h i).comp hsec).add (continuous_const.mul ((call_cont h).comp hsec))).measurable
    (((diag_cont h i).comp hsec).add (continuous_const.mul ((gradY_cont h i).comp hsec))).measurable
    (fun y => (norm_add_le _ _).trans (add_le_add (gradX_bound h hh x y i)
      ((norm_mul_le _ _).trans (mul_le_mul_of_nonneg_left (call_bound h x y) (norm_nonneg _)))))
    (fun y => (norm_add_le _ _).trans (add_le_add (diag_bound h hh x y i)
      ((norm_mul_le _ _).trans (mul_le_mul_of_nonneg_left (gradY_bound h hh x y i) (norm_nonneg _)))))
    (fun y => (gradX_deriv_y h hh x y i).add ((C36_gradY h x y i).const_mul (-gU x i)))
  have e : ∀ y, steinKernel (gaussian h) x y (-gU x) (-gU y)
      = ∑ i, ((gaussian h).diagGradXY x y i + -gU x i * (gaussian h).gradY x y i
        + ((gaussian h).gradX x y i + -gU x i * (gaussian h).call x y) * -gU y i) := by
    intro y
    rw [steinKernel_eq]
    refine Finset.sum_congr rfl fun i _ => ?_
    simp only [steinTerm, Pi.neg_apply]
    ring
  simp_rw [e]
  rw [integral_finsetSum _ fun i _ => (key i).1]
  exact Finset.sum_eq_zero fun i _ => (key i).2

/-! ## The mean square over independent draws -/

theorem stein_pair_integrable (h : Fin d → ℝ) (hh : ∀ i, h i ≠ 0) {μ : Measure (Fin d → ℝ)} [IsProbabilityMeasure μ]
    {g : (Fin d → ℝ) → Fin d → ℝ} (hg : ∀ i, MemLp (fun y => g y i) 2 μ) :
    Integrable (fun p : (Fin d → ℝ) × (Fin d → ℝ) => steinKernel (gaussian h) p.1 p.2 (g p.1) (g p.2)) (μ.prod μ) := by
  simp_rw [steinKernel_eq, steinTerm]
  refine integrable_finsetSum _ fun i _ => ?_
  have gi : Integrable (fun y => g y i) μ := (hg i).integrable (by norm_num)
  have g1 : Integrable (fun p : (Fin d → ℝ) × (Fin d → ℝ) => g p.1 i) (μ.prod μ) := gi.comp_fst μ
  have g2 : Integrable (fun p : (Fin d → ℝ) × (Fin d → ℝ) => g p.2 i) (μ.prod μ) := gi.comp_snd μ
  have g12 : Integrable (fun p : (Fin d → ℝ) × (Fin d → ℝ) => g p.1 i * g p.2 i) (μ.prod μ) := gi.mul_prod gi
  have t1 : Integrable (fun p : (Fin d → ℝ) × (Fin d → ℝ) => (gaussian h).diagGradXY p.1 p.2 i) (μ.prod μ) :=
    (memLp_top_of_bound (diag_cont h i).measurable.aestronglyMeasurable _
      (Filter.Eventually.of_forall fun p => diag_bound h hh p.1 p.2 i)).integrable le_top
  have t2 : Integrable (fun p : (Fin d → ℝ) × (Fin d → ℝ) => (gaussian h).gradX p.1 p.2 i * g p.2 i) (μ.prod μ) :=
    g2.bdd_mul (gradX_cont h i).measurable.aestronglyMeasurable (Filter.Eventually.of_forall fun p => gradX_bound h hh p.1 p.2 i)
  have t3 : Integrable (fun p : (Fin d → ℝ) × (Fin d → ℝ) => g p.1 i * (gaussian h).gradY p.1 p.2 i) (μ.prod μ) :=
    g1.mul_bdd (gradY_cont h i).measurable.aestronglyMeasurable (Filter.Eventually.of_forall fun p => gradY_bound h hh p.1 p.2 i)
  have t4 : Integrable (fun p : (Fin d → ℝ) × (Fin d → ℝ) => (gaussian h).call p.1 p.2 * (g p.1 i * g p.2 i)) (μ.prod μ) :=
    g12.bdd_mul (call_cont h).measurable.aestronglyMeasurable (Filter.Eventually.of_forall fun p => call_bound h p.1 p.2)
  exact ((t1.add t2).add t3).add t4

theorem stein_diag (h : Fin d → ℝ) (hh : ∀ i, h i ≠ 0) (x g : Fin d → ℝ) :
    steinKernel (gaussian h) x x g g = ∑ i, (1 / h i ^ 2 + g i ^ 2) := by
  rw [steinKernel_eq]
  refine Finset.sum_congr rfl fun i _ => ?_
  have := hh i
  simp only [steinTerm, gaussian, sub_self, zero_div]
  simp
  field_simp

theorem map_pair_pi {n : ℕ} {μ : Measure (Fin d → ℝ)} [IsProbabilityMeasure μ] {a b : Fin n} (hab : a ≠ b) :
    (Measure.pi fun _ : Fin n => μ).map (fun v => (v a, v b)) = μ.prod μ := by
  have hi : iIndepFun (fun (k : Fin n) (v : Fin n → Fin d → ℝ) => v k) (Measure.pi fun _ : Fin n => μ) :=
    iIndepFun_pi (μ := fun _ : Fin n => μ) (X := fun _ x => x) (fun _ => by fun_prop)
  have := (indepFun_iff_map_prod_eq_prod_map_map (measurable_pi_apply a).aemeasurable (measurable_pi_apply b).aemeasurable).1 (hi.indepFun hab)
  rw [this]
  have ev := fun k : Fin n => (measurePreserving_eval (fun _ : Fin n => μ) k).map_eq
  congr 1
  · exact ev a
  · exact ev b

/-- C89: without batches the number under the root is never negative for the Gaussian kernel, whatever vectors are passed as gradients and
whatever the weights, so `ksd` is a number and its square is the double average. -/
theorem C89_nonneg {n : ℕ} (h : Fin d → ℝ) (hh : ∀ i, h i ≠ 0) (vals grads : Fin n → Fin d → ℝ) (w : Fin n → ℝ) :
    0 ≤ ksdSum (gaussian h) vals grads w (fun _ => List.finRange n) ∧
    ksd (gaussian h) vals grads w (fun _ => List.finRange n) ^ 2 = ksdSum (gaussian h) vals grads w (fun _ => List.finRange n) := by
  have h1 : 0 ≤ ksdSum (gaussian h) vals grads w (fun _ => List.finRange n) := by
    rw [ksdSum_full]
    exact div_nonneg (stein_psd h hh vals grads w) (sq_nonneg _)
  exact ⟨h1, Real.sq_sqrt h1⟩

/-- C89: with minibatches it can be negative, and then the code returns NaN: two particles, each paired with the other only. -/
theorem C89_batch_negative : ∃ (vals grads : Fin 2 → Fin 1 → ℝ) (batch : Fin 2 → List (Fin 2)), (∀ i, (batch i).length = 1) ∧
    ksdSum (gaussian fun _ : Fin 1 => 1) vals grads (ksdWeights none) batch < 0 := by
  refine ⟨fun _ => 0, ![fun _ => 2, fun _ => -2], ![[1], [0]], ?_, ?_⟩
  · intro i; fin_cases i <;> rfl
  · simp [ksdSum, ksdWeights, steinKernel_eq, steinTerm, gaussian]
    norm_num

/-- The mean square discrepancy of `n` independent draws from `μ`, each with gradient `g`. -/
theorem mean_ksd {n : ℕ} (h : Fin d → ℝ) (hh : ∀ i, h i ≠ 0) {μ : Measure (Fin d → ℝ)} [IsProbabilityMeasure μ]
    {g : (Fin d → ℝ) → Fin d → ℝ} (gm : Measurable g) (hg : ∀ i, MemLp (fun y => g y i) 2 μ) :
    ∫ v, ksd (gaussian h) v (fun a => g (v a)) (ksdWeights none) (fun _ => List.finRange n) ^ 2 ∂(Measure.pi fun _ : Fin n => μ)
      = (∑ a : Fin n, ∑ b : Fin n, if a = b then ∑ i, (1 / h i ^ 2 + ∫ x, g x i ^ 2 ∂μ)
          else ∫ x, ∫ y, steinKernel (gaussian h) x y (g x) (g y) ∂μ ∂μ) / n ^ 2 := by
  have sm : Measurable fun p : (Fin d → ℝ) × (Fin d → ℝ) => steinKernel (gaussian h) p.1 p.2 (g p.1) (g p.2) := by
    simp_rw [steinKernel_eq, steinTerm]
    have hgi : ∀ i, Measurable fun y => g y i := fun i => (measurable_pi_apply i).comp gm
    refine Finset.measurable_sum _ fun i _ => ?_
    exact (((diag_cont h i).measurable.add ((gradX_cont h i).measurable.mul ((hgi i).comp measurable_snd))).add
      (((hgi i).comp measurable_fst).mul (gradY_cont h i).measurable)).add
      ((call_cont h).measurable.mul (((hgi i).comp measurable_fst).mul ((hgi i).comp measurable_snd)))
  have ip := stein_pair_integrable h hh hg
  -- one pair
  have hsq : ∀ i, Integrable (fun x => g x i ^ 2) μ := fun i => (hg i).integrable_sq
  have pair : ∀ a b : Fin n, Integrable (fun v : Fin n → Fin d → ℝ => steinKernel (gaussian h) (v a) (v b) (g (v a)) (g (v b)))
        (Measure.pi fun _ : Fin n => μ) ∧
      ∫ v, steinKernel (gaussian h) (v a) (v b) (g (v a)) (g (v b)) ∂(Measure.pi fun _ : Fin n => μ)
        = if a = b then ∑ i, (1 / h i ^ 2 + ∫ x, g x i ^ 2 ∂μ) else ∫ x, ∫ y, steinKernel (gaussian h) x y (g x) (g y) ∂μ ∂μ := by
    intro a b
    by_cases hab : a = b
    · subst hab
      simp_rw [stein_diag h hh, if_true]
      have ev := measurePreserving_eval (fun _ : Fin n => μ) a
      have hint : Integrable (fun x => ∑ i, (1 / h i ^ 2 + g x i ^ 2)) μ :=
        integrable_finsetSum _ fun i _ => (integrable_const _).add (hsq i)
      refine ⟨ev.integrable_comp_of_integrable hint, ?_⟩
      have e1 : ∫ v, ∑ i, (1 / h i ^ 2 + g (v a) i ^ 2) ∂(Measure.pi fun _ : Fin n => μ) = ∫ x, ∑ i, (1 / h i ^ 2 + g x i ^ 2) ∂μ := by
        conv_rhs => rw [← ev.map_eq]
        rw [integral_map ev.measurable.aemeasurable (by rw [ev.map_eq]; exact hint.aestronglyMeasurable)]
      have hadd : ∀ i, Integrable (fun x => 1 / h i ^ 2 + g x i ^ 2) μ := fun i => (integrable_const _).add (hsq i)
      rw [e1, integral_finsetSum _ fun i _ => hadd i]
      refine Finset.sum_congr rfl fun i _ => ?_
      rw [integral_add (integrable_const _) (hsq i)]
      simp
    · rw [if_neg hab]
      have hm := map_pair_pi (μ := μ) hab
      have mm : Measurable fun v : Fin n → Fin d → ℝ => (v a, v b) := by fun_prop
      constructor
      · have := ip
        rw [← hm] at this
        exact this.comp_measurable mm
      · rw [← integral_prod _ ip, ← hm, integral_map mm.aemeasurable sm.aestronglyMeasurable]
  simp_rw [(C89_nonneg h hh _ _ _).2, ksdSum_full]
  rw [integral_div]
  have hn : (∑ i : Fin n, ksdWeights (n := n) none i) = n := by simp [ksdWeights]
  rw [hn]
  congr 1
  simp only [ksdWeights, one_mul]
  rw [integral_finsetSum _ fun a _ => integrable_finsetSum _ fun b _ => (pair a b).1]
  refine Finset.sum_congr rfl fun a _ => ?_
  rw [integral_finsetSum _ fun b _ => (pair a b).1]
  exact Finset.sum_congr rfl fun b _ => (pair a b).2

/-- C89, what holds: if the gradient of the log density is passed, the expected square of `ksd` over `n` independent exact draws is a
constant of the target and the kernel divided by `n`. -/
theorem C89_mean_partial {n : ℕ} (h : Fin d → ℝ) (hh : ∀ i, h i ≠ 0) {U : (Fin d → ℝ) → ℝ} {gU : (Fin d → ℝ) → Fin d → ℝ}
    (hT : SmoothTarget U gU) :
    ∫ v, ksd (gaussian h) v (fun a => -gU (v a)) (ksdWeights none) (fun _ => List.finRange n) ^ 2 ∂(Measure.pi fun _ : Fin n => lawOf U)
      = (∑ i, (1 / h i ^ 2 + ∫ x, gU x i ^ 2 ∂lawOf U)) / n := by
  have := hT.prob
  rw [mean_ksd h hh (μ := lawOf U) (g := fun x => -gU x) hT.gmeas.neg fun i => (hT.second i).neg]
  simp_rw [C89_stein_partial h hh hT]
  simp only [Pi.neg_apply, neg_sq, integral_zero, Finset.sum_ite_eq, Finset.mem_univ, if_true, Finset.sum_const, Finset.card_univ,
    Fintype.card_fin, nsmul_eq_mul]
  rcases Nat.eq_zero_or_pos n with rfl | hn
  · simp
  · have : (n : ℝ) ≠ 0 := by positivity
    field_simp

/-! ## What the code does with stored gradients -/

/-- A standard normal target in `d` dimensions, whose potential has gradient `x` at `x`. -/
noncomputable def stdU (x : Fin d → ℝ) : ℝ := ∑ i, ((x i) ^ 2 / 2 + Real.log √(2 * Real.pi))

theorem lawOf_stdU : lawOf (stdU (d := d)) = stdNormal d := by
  rw [stdNormal_eq_withDensity, lawOf]
  congr 1
  funext x
  congr 1
  rw [stdU, ← Finset.sum_neg_distrib, Real.exp_sum]
  refine Finset.prod_congr rfl fun i _ => ?_
  have : 0 < √(2 * Real.pi) := by have := Real.pi_pos; positivity
  rw [neg_add, Real.exp_add, Real.exp_neg (Real.log _), Real.exp_log this, gaussianPDFReal_def]
  simp only [NNReal.coe_one, mul_one, sub_zero]
  rw [mul_comm]
  congr 2
  ring

theorem stdU_smooth : SmoothTarget (stdU (d := d)) (fun x => x) where
  grad y i := by
    unfold stdU
    have h1 : ∀ j, HasDerivAt (fun t => (Function.update y i t j) ^ 2 / 2 + Real.log √(2 * Real.pi)) (if j = i then y i else 0) (y i) := by
      intro j
      by_cases hj : j = i
      · subst hj
        simp only [Function.update_self, if_true]
        have := (((hasDerivAt_id (y j)).pow 2).div_const 2).add_const (Real.log √(2 * Real.pi))
        refine this.congr_deriv ?_
        simp
      · simp only [Function.update_of_ne hj, if_neg hj]
        exact hasDerivAt_const _ _
    have := HasDerivAt.fun_sum (u := Finset.univ) fun j _ => h1 j
    simpa using this
  meas := by unfold stdU; fun_prop
  gmeas := measurable_id
  prob := by rw [lawOf_stdU]; infer_instance
  second i := by rw [lawOf_stdU]; exact MatGauss.stdNormal_memLp i

/-- Non-vacuity of `C89_mean_partial`: for the standard normal in `d` dimensions and bandwidth 1 the mean square is `2 d / n`. -/
example (n : ℕ) : ∫ v, ksd (gaussian fun _ : Fin d => 1) v (fun a => -(v a)) (ksdWeights none) (fun _ => List.finRange n) ^ 2
    ∂(Measure.pi fun _ : Fin n => stdNormal d) = 2 * d / n := by
  have := C89_mean_partial (n := n) (fun _ : Fin d => (1 : ℝ)) (fun _ => one_ne_zero) stdU_smooth
  rw [lawOf_stdU] at this
  rw [this]
  congr 1
  have hs : ∀ i : Fin d, ∫ x, x i ^ 2 ∂stdNormal d = 1 := by
    intro i
    have := MatGauss.stdNormal_second (d := d) i i
    simpa [sq] using this
  simp_rw [hs]
  norm_num [mul_comm]

theorem code_inner (x : Fin 1 → ℝ) :
    ∫ y, steinKernel (gaussian fun _ : Fin 1 => 1) x y x y ∂stdNormal 1
      = cst √2 / √(2 * Real.pi) * (Real.exp (-(x 0) ^ 2 / 4) * (1 + (x 0) ^ 2 / 2)) := by
  have e : ∀ y : Fin 1 → ℝ, steinKernel (gaussian fun _ : Fin 1 => 1) x y x y = Real.exp (-0.5 * (x 0 - y 0) ^ 2) * (1 + x 0 * y 0) := by
    intro y
    simp only [steinKernel_eq, steinTerm, gaussian, Finset.univ_unique, Fin.default_eq_zero, Finset.sum_singleton, Fin.isValue, div_one,
      one_pow]
    ring
  simp_rw [e]
  rw [MatGauss.stdNormal_eval 0 (fun t => Real.exp (-0.5 * (x 0 - t) ^ 2) * (1 + x 0 * t)) (by fun_prop),
    integral_gaussianReal_eq_integral_smul one_ne_zero]
  have h2 : √2 ≠ 0 := by positivity
  have hs : √2 ^ 2 = (2 : ℝ) := Real.sq_sqrt (by norm_num)
  have e2 : ∀ t, gaussianPDFReal 0 1 t • (Real.exp (-0.5 * (x 0 - t) ^ 2) * (1 + x 0 * t))
      = (Real.exp (-(x 0) ^ 2 / 4) / √(2 * Real.pi)) * (Real.exp (-2 * ((t - x 0 / 2) / √2) ^ 2)
        * ((1 + (x 0) ^ 2 / 2) + x 0 * (t - x 0 / 2) + 0 * (t - x 0 / 2) ^ 2)) := by
    intro t
    have e3 : Real.exp (-t ^ 2 / 2) * Real.exp (-0.5 * (x 0 - t) ^ 2)
        = Real.exp (-(x 0) ^ 2 / 4) * Real.exp (-2 * ((t - x 0 / 2) / √2) ^ 2) := by
      rw [← Real.exp_add, ← Real.exp_add, div_pow, hs]
      congr 1
      ring
    rw [gaussianPDFReal_def, smul_eq_mul]
    simp only [NNReal.coe_one, mul_one, sub_zero]
    calc (√(2 * Real.pi))⁻¹ * Real.exp (-t ^ 2 / 2) * (Real.exp (-0.5 * (x 0 - t) ^ 2) * (1 + x 0 * t))
        = (√(2 * Real.pi))⁻¹ * (Real.exp (-t ^ 2 / 2) * Real.exp (-0.5 * (x 0 - t) ^ 2)) * (1 + x 0 * t) := by ring
      _ = _ := by rw [e3]; ring
  simp_rw [e2]
  rw [integral_const_mul, (quad_integral h2 _ _ _ _).2]
  ring

/-- C89, what fails: with the gradients of the potential, as the samplers store them and as `ksd` reads them from a sample, the expected
square for independent exact draws from a standard normal (whose potential has gradient `x` at `x`) stays above a positive constant,
for every sample size. -/
theorem C89_fails : ∃ c > 0, ∀ n : ℕ, 0 < n →
    c ≤ ∫ v, ksd (gaussian fun _ : Fin 1 => 1) v (fun a => v a) (ksdWeights none) (fun _ => List.finRange n) ^ 2
      ∂(Measure.pi fun _ : Fin n => stdNormal 1) := by
  have hc : 0 < cst √2 / √(2 * Real.pi) := div_pos (cst_pos (by positivity)) (by have := Real.pi_pos; positivity)
  have ip := stein_pair_integrable (μ := stdNormal 1) (fun _ : Fin 1 => (1 : ℝ)) (fun _ => one_ne_zero) (g := fun x => x)
    fun i => MatGauss.stdNormal_memLp i
  have io := ip.integral_prod_left
  simp only at io
  simp_rw [code_inner] at io
  have hpos : 0 < ∫ x : Fin 1 → ℝ, ∫ y, steinKernel (gaussian fun _ : Fin 1 => 1) x y x y ∂stdNormal 1 ∂stdNormal 1 := by
    simp_rw [code_inner]
    rw [integral_pos_iff_support_of_nonneg (fun x => by positivity) io]
    have : Function.support (fun x : Fin 1 → ℝ => cst √2 / √(2 * Real.pi) * (Real.exp (-(x 0) ^ 2 / 4) * (1 + (x 0) ^ 2 / 2))) = Set.univ := by
      ext x
      simp only [Function.mem_support, Set.mem_univ, iff_true]
      have : 0 < 1 + (x 0) ^ 2 / 2 := by positivity
      positivity
    rw [this]
    simp
  refine ⟨min (∫ x : Fin 1 → ℝ, ∫ y, steinKernel (gaussian fun _ : Fin 1 => 1) x y x y ∂stdNormal 1 ∂stdNormal 1) 1,
    lt_min hpos one_pos, fun n hn => ?_⟩
  have := mean_ksd (n := n) (fun _ : Fin 1 => (1 : ℝ)) (fun _ => one_ne_zero) (μ := stdNormal 1) (g := fun x => x) measurable_id
    fun i => MatGauss.stdNormal_memLp i
  rw [this, le_div_iff₀ (by positivity)]
  set c := min (∫ x : Fin 1 → ℝ, ∫ y, steinKernel (gaussian fun _ : Fin 1 => 1) x y x y ∂stdNormal 1 ∂stdNormal 1) 1
  have hle : ∑ a : Fin n, ∑ b : Fin n, c ≤ ∑ a : Fin n, ∑ b : Fin n, if a = b then ∑ i : Fin 1, (1 / (1 : ℝ) ^ 2 + ∫ x, x i ^ 2 ∂stdNormal 1)
      else ∫ x : Fin 1 → ℝ, ∫ y, steinKernel (gaussian fun _ : Fin 1 => 1) x y x y ∂stdNormal 1 ∂stdNormal 1 := by
    refine Finset.sum_le_sum fun a _ => Finset.sum_le_sum fun b _ => ?_
    split
    · refine (min_le_right _ _).trans ?_
      have : 0 ≤ ∫ x : Fin 1 → ℝ, x 0 ^ 2 ∂stdNormal 1 := integral_nonneg fun x => sq_nonneg _
      simp only [Finset.univ_unique, Fin.default_eq_zero, Finset.sum_singleton, Fin.isValue]
      linarith
    · exact min_le_left _ _
  refine le_trans (le_of_eq ?_) hle
  simp
  ring

end Mocat.Props
