import Verif.Model.AbcScenarios
import Mathlib.MeasureTheory.Function.Jacobian
import Mathlib.MeasureTheory.Integral.IntervalIntegral.FundThmCalculus
import Mathlib.Analysis.Calculus.Deriv.Pi
import Mathlib.LinearAlgebra.Determinant
/-!
# C67: transformed priors are changes of variables; C77: the one-parameter g-and-k scenarios
-/
namespace Mocat.Props
open Mocat Mocat.AbcScenarios MeasureTheory ProbabilityTheory
open scoped ENNReal NNReal

variable {d : ℕ}

/-! ## Coordinatewise changes of variables -/

/-- The derivative of a coordinatewise map. -/
noncomputable def coordDeriv (v : Fin d → ℝ) : (Fin d → ℝ) →L[ℝ] (Fin d → ℝ) :=
  ContinuousLinearMap.pi fun i => v i • ContinuousLinearMap.proj i

theorem det_coordDeriv (v : Fin d → ℝ) : (coordDeriv v).det = ∏ i, v i := by
  have : (coordDeriv v : (Fin d → ℝ) →ₗ[ℝ] (Fin d → ℝ)) = Matrix.toLin' (Matrix.diagonal v) := by
    apply LinearMap.ext; intro x
    ext i
    simp [coordDeriv, Matrix.mulVec_diagonal]
  rw [ContinuousLinearMap.det, this, LinearMap.det_toLin', Matrix.det_diagonal]

theorem hasFDerivAt_coord (f f' : Fin d → ℝ → ℝ) (hf : ∀ i x, HasDerivAt (f i) (f' i x) x) (x : Fin d → ℝ) :
    HasFDerivAt (fun y i => f i (y i)) (coordDeriv fun i => f' i (x i)) x := by
  rw [hasFDerivAt_pi']
  intro i
  have h := (hf i (x i)).hasFDerivAt.comp x (ContinuousLinearMap.proj (R := ℝ) (φ := fun _ : Fin d => ℝ) i).hasFDerivAt
  have e : (ContinuousLinearMap.proj i).comp (coordDeriv fun i => f' i (x i))
      = (ContinuousLinearMap.toSpanSingleton ℝ (f' i (x i))).comp
        (ContinuousLinearMap.proj (R := ℝ) (φ := fun _ : Fin d => ℝ) i) := by
    apply ContinuousLinearMap.ext
    intro v
    simp [coordDeriv, mul_comm]
  rw [e]
  exact h

theorem lintegral_coord (f f' : Fin d → ℝ → ℝ) (hf : ∀ i x, HasDerivAt (f i) (f' i x) x) (hinj : ∀ i, Function.Injective (f i))
    (g : (Fin d → ℝ) → ℝ≥0∞) :
    ∫⁻ y in {y | ∀ i, y i ∈ Set.range (f i)}, g y = ∫⁻ x : Fin d → ℝ, ENNReal.ofReal |∏ i, f' i (x i)| * g (fun i => f i (x i)) := by
  have hrange : {y : Fin d → ℝ | ∀ i, y i ∈ Set.range (f i)} = (fun (x : Fin d → ℝ) i => f i (x i)) '' Set.univ := by
    ext y
    simp only [Set.mem_ofPred_eq, Set.mem_range, Set.image_univ]
    constructor
    · intro h
      choose x hx using h
      exact ⟨x, funext hx⟩
    · rintro ⟨x, rfl⟩ i
      exact ⟨x i, rfl⟩
  rw [hrange, lintegral_image_eq_lintegral_abs_det_fderiv_mul volume MeasurableSet.univ
    (fun x _ => (hasFDerivAt_coord f f' hf x).hasFDerivWithinAt)
    (fun x _ y _ h => funext fun i => hinj i (congrFun h i))]
  simp only [Measure.restrict_univ, det_coordDeriv]

/-! ## C67: exponential transform (SIR, Lotka-Volterra) -/

/-- C67: `constrain` and `unconstrain` are mutually inverse between all points and the points with positive coordinates. -/
theorem C67_exp_inverse (x y : Fin d → ℝ) (hy : ∀ i, 0 < y i) :
    unconstrainLog (constrainExp x) = (fun i => Fl.fin (x i)) ∧
    (∀ i, 0 < constrainExp x i) ∧
    ∃ z : Fin d → ℝ, unconstrainLog y = (fun i => Fl.fin (z i)) ∧ constrainExp z = y := by
  refine ⟨?_, fun i => Real.exp_pos _, fun i => Real.log (y i), ?_, ?_⟩
  · funext i
    simp only [unconstrainLog, constrainExp, flog, if_neg (Real.exp_pos (x i)).le.not_gt, if_neg (Real.exp_pos (x i)).ne', Real.log_exp]
  · funext i
    simp only [unconstrainLog, flog, if_neg (hy i).le.not_gt, if_neg (hy i).ne']
  · funext i; exact Real.exp_log (hy i)

/-- C67: the transformed potential is the original one at the constrained point minus the log of the Jacobian determinant of `constrain`. -/
theorem C67_exp_potential (rates x : Fin d → ℝ) :
    transformedPriorPotential rates x = priorPotential rates (constrainExp x) - Real.log |(fderiv ℝ constrainExp x).det| := by
  have hd : fderiv ℝ constrainExp x = coordDeriv fun i => Real.exp (x i) :=
    (hasFDerivAt_coord (fun _ => Real.exp) (fun _ => Real.exp) (fun _ y => Real.hasDerivAt_exp y) x).fderiv
  rw [hd, det_coordDeriv, ← Real.exp_sum, abs_of_pos (Real.exp_pos _), Real.log_exp, transformedPriorPotential, priorPotential,
    Finset.sum_sub_distrib]
  rfl

theorem measurableSet_openBox (mins maxs : Fin d → ℝ) : MeasurableSet {y : Fin d → ℝ | (∀ i, mins i < y i) ∧ ∀ i, y i < maxs i} := by
  have : {y : Fin d → ℝ | (∀ i, mins i < y i) ∧ ∀ i, y i < maxs i} = Set.pi Set.univ fun i => Set.Ioo (mins i) (maxs i) := by
    ext y; simp only [Set.mem_ofPred_eq, Set.mem_pi, Set.mem_univ, true_imp_iff, Set.mem_Ioo]
    exact ⟨fun h i => ⟨h.1 i, h.2 i⟩, fun h => ⟨fun i => (h i).1, fun i => (h i).2⟩⟩
  rw [this]
  exact MeasurableSet.univ_pi fun i => measurableSet_Ioo

/-- The density of the uniform prior is `exp(-1)` on the box. -/
theorem lintegral_gkUniform (mins maxs : Fin d → ℝ) (g : (Fin d → ℝ) → ℝ≥0∞) :
    ∫⁻ y, g y * ENNReal.ofReal (match gkUniformPotential mins maxs y with | .fin v => Real.exp (-v) | _ => 0)
      = ENNReal.ofReal (Real.exp (-1)) * ∫⁻ y in {y | (∀ i, mins i < y i) ∧ ∀ i, y i < maxs i}, g y := by
  have hmeas := measurableSet_openBox mins maxs
  rw [← lintegral_indicator hmeas, ← lintegral_const_mul' _ _ ENNReal.ofReal_ne_top]
  apply lintegral_congr
  intro y
  by_cases hy : (∀ i, mins i < y i) ∧ ∀ i, y i < maxs i
  · rw [Set.indicator_of_mem (show y ∈ {y : Fin d → ℝ | (∀ i, mins i < y i) ∧ ∀ i, y i < maxs i} from hy)]
    simp only [gkUniformPotential, if_pos hy.1, if_pos hy.2]
    rw [mul_comm]
  · rw [Set.indicator_of_notMem (show y ∉ {y : Fin d → ℝ | (∀ i, mins i < y i) ∧ ∀ i, y i < maxs i} from hy), mul_zero]
    have : gkUniformPotential mins maxs y = Fl.pinf := by
      simp only [gkUniformPotential]
      by_cases h2 : ∀ i, y i < maxs i
      · rw [if_pos h2, if_neg fun h1 => hy ⟨h1, h2⟩]
      · rw [if_neg h2]
    rw [this]; simp

/-- C67: the density `exp(-potential)` of the transformed scenario, mapped by `constrain`, is the density of the original
scenario on the positive orthant. -/
theorem C67_exp_change (rates : Fin d → ℝ) (g : (Fin d → ℝ) → ℝ≥0∞) :
    ∫⁻ x, g (constrainExp x) * ENNReal.ofReal (Real.exp (-transformedPriorPotential rates x))
      = ∫⁻ y in {y | ∀ i, 0 < y i}, g y * ENNReal.ofReal (Real.exp (-priorPotential rates y)) := by
  have h := lintegral_coord (d := d) (fun _ => Real.exp) (fun _ => Real.exp) (fun _ y => Real.hasDerivAt_exp y)
    (fun _ => Real.exp_injective) fun y => g y * ENNReal.ofReal (Real.exp (-priorPotential rates y))
  simp only [Real.range_exp, Set.mem_Ioi] at h
  rw [h]
  apply lintegral_congr
  intro x
  have e : Real.exp (-transformedPriorPotential rates x)
      = |∏ i, Real.exp (x i)| * Real.exp (-priorPotential rates fun i => Real.exp (x i)) := by
    rw [← Real.exp_sum, abs_of_pos (Real.exp_pos _), ← Real.exp_add]
    congr 1
    simp only [transformedPriorPotential, priorPotential, Finset.sum_sub_distrib]
    ring
  rw [e, ENNReal.ofReal_mul (abs_nonneg _), mul_left_comm]
  rfl

/-- C67: a prior sample of the transformed scenario is the `unconstrain`ed prior sample, so `constrain` gives it back (for
draws below `1 - 1e-6`, see C66). -/
theorem C67_exp_sample (rates u : Fin d → ℝ) (hpos : ∀ i, 0 < priorSample rates u i) :
    ∃ z : Fin d → ℝ, transformedPriorSample rates u = (fun i => Fl.fin (z i)) ∧ constrainExp z = priorSample rates u :=
  (C67_exp_inverse 0 (priorSample rates u) hpos).2.2

/-! ## The normal distribution function -/

theorem normCdf_eq (x : ℝ) : normCdf x = ∫ t in Set.Iic x, gaussianPDFReal 0 1 t := by
  rw [normCdf, cdf_eq_real, measureReal_def, gaussianReal_apply_eq_integral _ one_ne_zero, ENNReal.toReal_ofReal]
  exact integral_nonneg fun t => gaussianPDFReal_nonneg _ _ _

theorem continuous_pdf : Continuous (gaussianPDFReal 0 1) := by
  unfold gaussianPDFReal; fun_prop

theorem normCdf_hasDerivAt (x : ℝ) : HasDerivAt normCdf (gaussianPDFReal 0 1 x) x := by
  have hi : ∀ s : Set ℝ, IntegrableOn (gaussianPDFReal 0 1) s := fun s => (integrable_gaussianPDFReal 0 1).integrableOn
  have e : normCdf = fun y => (∫ t in Set.Iic (0 : ℝ), gaussianPDFReal 0 1 t) + ∫ t in (0 : ℝ)..y, gaussianPDFReal 0 1 t := by
    funext y
    rw [normCdf_eq, ← intervalIntegral.integral_Iic_sub_Iic (hi _) (hi _)]
    ring
  rw [e]
  apply HasDerivAt.const_add
  exact intervalIntegral.integral_hasDerivAt_right (continuous_pdf.intervalIntegrable _ _)
    continuous_pdf.stronglyMeasurable.stronglyMeasurableAtFilter continuous_pdf.continuousAt

theorem normCdf_strictMono : StrictMono normCdf := by
  apply strictMono_of_deriv_pos
  intro x
  rw [(normCdf_hasDerivAt x).deriv]
  exact gaussianPDFReal_pos _ _ _ one_ne_zero

theorem range_normCdf : Set.range normCdf = Set.Ioo 0 1 := by
  have hcont : Continuous normCdf := continuous_iff_continuousAt.mpr fun x => (normCdf_hasDerivAt x).continuousAt
  have hbot : Filter.Tendsto normCdf Filter.atBot (nhds 0) := tendsto_cdf_atBot _
  have htop : Filter.Tendsto normCdf Filter.atTop (nhds 1) := tendsto_cdf_atTop _
  ext y
  constructor
  · rintro ⟨x, rfl⟩
    constructor
    · exact lt_of_le_of_lt (cdf_nonneg _ (x - 1)) (normCdf_strictMono (by linarith))
    · exact lt_of_lt_of_le (normCdf_strictMono (by linarith : x < x + 1)) (cdf_le_one _ (x + 1))
  · rintro ⟨h0, h1⟩
    apply mem_range_of_exists_le_of_exists_ge hcont
    · exact ((hbot.eventually_lt_const h0).exists).imp fun _ h => h.le
    · exact ((htop.eventually_const_lt h1).exists).imp fun _ h => h.le

/-- Library assumption on `norm.ppf`: it inverts `norm.cdf`. -/
def ValidPpf (ppf : ℝ → ℝ) : Prop := ∀ x, ppf (normCdf x) = x

/-- Such a function exists. -/
theorem exists_validPpf : ∃ ppf, ValidPpf ppf :=
  ⟨Function.invFun normCdf, Function.leftInverse_invFun normCdf_strictMono.injective⟩

/-! ## C67: uniform priors (g-and-k) -/

/-- C67: `constrain` and `unconstrain` are mutually inverse between all points and the open prior box. -/
theorem C67_gk_inverse (ppf : ℝ → ℝ) (hppf : ValidPpf ppf) (mins maxs x y : Fin d → ℝ) (hbox : ∀ i, mins i < maxs i)
    (hy : ∀ i, mins i < y i ∧ y i < maxs i) :
    gkUnconstrain ppf mins maxs (gkConstrain mins maxs x) = x ∧
    (∀ i, mins i < gkConstrain mins maxs x i ∧ gkConstrain mins maxs x i < maxs i) ∧
    gkConstrain mins maxs (gkUnconstrain ppf mins maxs y) = y := by
  have hw : ∀ i, 0 < maxs i - mins i := fun i => sub_pos.mpr (hbox i)
  refine ⟨?_, fun i => ?_, ?_⟩
  · funext i
    simp only [gkUnconstrain, gkConstrain, add_sub_cancel_left]
    rw [mul_div_assoc, div_self (hw i).ne', mul_one, hppf]
  · have hr : normCdf (x i) ∈ Set.Ioo (0 : ℝ) 1 := range_normCdf ▸ Set.mem_range_self _
    simp only [gkConstrain]
    have := hw i
    constructor <;> nlinarith [hr.1, hr.2]
  · funext i
    have hmem : (y i - mins i) / (maxs i - mins i) ∈ Set.range normCdf := by
      rw [range_normCdf]
      exact ⟨div_pos (by linarith [hy i]) (hw i), (div_lt_one (hw i)).mpr (by linarith [hy i])⟩
    obtain ⟨z, hz⟩ := hmem
    simp only [gkUnconstrain, gkConstrain, ← hz, hppf z]
    rw [hz, div_mul_cancel₀ _ (hw i).ne']
    ring

/-- C67: the density `exp(-potential)` of the transformed scenario, mapped by `constrain`, is a constant multiple of the density of the
uniform prior of the untransformed scenario: constant on the open box and zero outside. The constant does not depend on the point. -/
theorem C67_gk_change (mins maxs : Fin d → ℝ) (hbox : ∀ i, mins i < maxs i) :
    ∃ C : ℝ, 0 < C ∧ ∀ g : (Fin d → ℝ) → ℝ≥0∞,
      ∫⁻ x, g (gkConstrain mins maxs x) * ENNReal.ofReal (Real.exp (-gkTransformedPotential x))
        = ENNReal.ofReal C * ∫⁻ y, g y * ENNReal.ofReal
            (match gkUniformPotential mins maxs y with | .fin v => Real.exp (-v) | _ => 0) := by
  classical
  have hw : ∀ i, 0 < maxs i - mins i := fun i => sub_pos.mpr (hbox i)
  set W : ℝ := ∏ i, (maxs i - mins i) with hW
  have hWpos : 0 < W := Finset.prod_pos fun i _ => hw i
  have hpi : 0 < √(2 * Real.pi) := by positivity
  refine ⟨√(2 * Real.pi) ^ d * W⁻¹ * Real.exp 1, by positivity, fun g => ?_⟩
  have hdens : ∀ x : Fin d → ℝ, Real.exp (-gkTransformedPotential x)
      = (√(2 * Real.pi) ^ d * W⁻¹) * |∏ i, (gaussianPDFReal 0 1 (x i) * (maxs i - mins i))| := by
    intro x
    rw [Finset.prod_mul_distrib, abs_of_pos (mul_pos (Finset.prod_pos fun i _ => gaussianPDFReal_pos _ _ _ one_ne_zero) hWpos)]
    have : ∏ i, gaussianPDFReal 0 1 (x i) = (√(2 * Real.pi) ^ d)⁻¹ * Real.exp (-gkTransformedPotential x) := by
      simp only [gaussianPDFReal, NNReal.coe_one, mul_one, sub_zero]
      rw [Finset.prod_mul_distrib, Finset.prod_const, Finset.card_univ, Fintype.card_fin, ← Real.exp_sum, inv_pow]
      congr 2
      rw [gkTransformedPotential, Finset.mul_sum, ← Finset.sum_neg_distrib]
      apply Finset.sum_congr rfl; intro i _; ring
    rw [this]
    field_simp
  have hcoord := lintegral_coord (d := d) (fun i z => mins i + normCdf z * (maxs i - mins i))
    (fun i z => gaussianPDFReal 0 1 z * (maxs i - mins i))
    (fun i z => ((normCdf_hasDerivAt z).mul_const _).const_add _)
    (fun i a b h => normCdf_strictMono.injective (mul_right_cancel₀ (hw i).ne' (add_left_cancel h))) g
  have hset : {y : Fin d → ℝ | ∀ i, y i ∈ Set.range fun z => mins i + normCdf z * (maxs i - mins i)}
      = {y | (∀ i, mins i < y i) ∧ ∀ i, y i < maxs i} := by
    obtain ⟨ppf, hppf⟩ := exists_validPpf
    ext y
    simp only [Set.mem_ofPred_eq, Set.mem_range]
    constructor
    · intro h
      choose x hx using h
      have hx' : gkConstrain mins maxs x = y := funext hx
      have := (C67_gk_inverse ppf hppf mins maxs x (fun i => (mins i + maxs i) / 2) hbox
        (fun i => ⟨by linarith [hbox i], by linarith [hbox i]⟩)).2.1
      rw [hx'] at this
      exact ⟨fun i => (this i).1, fun i => (this i).2⟩
    · rintro ⟨h1, h2⟩ i
      exact ⟨_, congrFun (C67_gk_inverse ppf hppf mins maxs 0 y hbox fun i => ⟨h1 i, h2 i⟩).2.2 i⟩
  rw [hset] at hcoord
  rw [lintegral_gkUniform, hcoord, ← mul_assoc, ← ENNReal.ofReal_mul (by positivity)]
  have hc : √(2 * Real.pi) ^ d * W⁻¹ * Real.exp 1 * Real.exp (-1) = √(2 * Real.pi) ^ d * W⁻¹ := by
    rw [mul_assoc _ (Real.exp 1), ← Real.exp_add]; simp
  rw [hc, ← lintegral_const_mul' _ _ ENNReal.ofReal_ne_top]
  apply lintegral_congr
  intro x
  rw [hdens x, ENNReal.ofReal_mul (by positivity), mul_comm (g _), mul_assoc]
  rfl

/-- C67: a draw from the uniform prior (made from draws `u` uniform on the unit cube) has the density `exp(-potential)` up to a constant. -/
theorem C67_gk_sample (mins maxs : Fin d → ℝ) (hbox : ∀ i, mins i < maxs i) :
    ∃ C : ℝ, 0 < C ∧ ∀ g : (Fin d → ℝ) → ℝ≥0∞,
      ∫⁻ u in {u | (∀ i, 0 < u i) ∧ ∀ i, u i < 1}, g (gkUniformSample mins maxs u)
        = ENNReal.ofReal C * ∫⁻ y, g y * ENNReal.ofReal
            (match gkUniformPotential mins maxs y with | .fin v => Real.exp (-v) | _ => 0) := by
  classical
  have hw : ∀ i, 0 < maxs i - mins i := fun i => sub_pos.mpr (hbox i)
  set W : ℝ := ∏ i, (maxs i - mins i) with hW
  have hWpos : 0 < W := Finset.prod_pos fun i _ => hw i
  refine ⟨W⁻¹ * Real.exp 1, by positivity, fun g => ?_⟩
  rw [lintegral_gkUniform, ← mul_assoc, ← ENNReal.ofReal_mul (by positivity), mul_assoc W⁻¹, ← Real.exp_add, add_neg_cancel, Real.exp_zero, mul_one,
    ← lintegral_indicator (measurableSet_openBox mins maxs)]
  have hcoord := lintegral_coord (d := d) (fun i z => mins i + z * (maxs i - mins i)) (fun i _ => 1 * (maxs i - mins i))
    (fun i z => ((hasDerivAt_id z).mul_const _).const_add _)
    (fun i a b h => mul_right_cancel₀ (hw i).ne' (add_left_cancel h)) ({y : Fin d → ℝ | (∀ i, mins i < y i) ∧ ∀ i, y i < maxs i}.indicator g)
  have huniv : {y : Fin d → ℝ | ∀ i, y i ∈ Set.range fun z => mins i + z * (maxs i - mins i)} = Set.univ := by
    refine Set.eq_univ_of_forall fun y i => ⟨(y i - mins i) / (maxs i - mins i), ?_⟩
    simp only [div_mul_cancel₀ _ (hw i).ne']
    ring
  rw [huniv, Measure.restrict_univ] at hcoord
  rw [hcoord, ← lintegral_indicator (measurableSet_openBox _ _), ← lintegral_const_mul' _ _ ENNReal.ofReal_ne_top]
  refine lintegral_congr fun u => ?_
  simp only [one_mul]
  rw [abs_of_pos hWpos, ← mul_assoc, ← ENNReal.ofReal_mul (by positivity), inv_mul_cancel₀ hWpos.ne', ENNReal.ofReal_one, one_mul]
  have hiff : u ∈ {u : Fin d → ℝ | (∀ i, (0 : ℝ) < u i) ∧ ∀ i, u i < (1 : ℝ)} ↔
      (fun i => mins i + u i * (maxs i - mins i)) ∈ {y : Fin d → ℝ | (∀ i, mins i < y i) ∧ ∀ i, y i < maxs i} := by
    simp only [Set.mem_ofPred_eq]
    refine and_congr (forall_congr' fun i => ?_) (forall_congr' fun i => ?_)
    · rw [lt_add_iff_pos_right, mul_pos_iff_of_pos_right (hw i)]
    · rw [show (mins i + u i * (maxs i - mins i) < maxs i) ↔ u i * (maxs i - mins i) < 1 * (maxs i - mins i) by constructor <;> intro h <;> linarith,
        mul_lt_mul_iff_left₀ (hw i)]
  by_cases hu : u ∈ {u : Fin d → ℝ | (∀ i, (0 : ℝ) < u i) ∧ ∀ i, u i < (1 : ℝ)}
  · rw [Set.indicator_of_mem hu, Set.indicator_of_mem (hiff.1 hu)]; rfl
  · rw [Set.indicator_of_notMem hu, Set.indicator_of_notMem fun h => hu (hiff.2 h)]

/-- C67: the transformed scenario simulates data at the constrained parameters. -/
theorem C67_gk_data (c : ℝ) (mins maxs x : Fin 4 → ℝ) (z : ℝ) :
    gkTransformedData c mins maxs x z = gkData c (gkConstrain mins maxs x) z := rfl

/-- The hypotheses of the C67 theorems can be met: the default box of the g-and-k scenarios. -/
example : (∀ _ : Fin 4, (0 : ℝ) < 10) ∧ (∃ ppf, ValidPpf ppf) ∧ ∀ i : Fin 4, (0 : ℝ) < (fun _ => 3) i ∧ (fun _ => (3 : ℝ)) i < 10 :=
  ⟨fun _ => by norm_num, exists_validPpf, fun _ => by norm_num⟩

/-! ## C77: fixing all but one parameter -/

/-- C77. The one-parameter scenario should be the four-parameter one with `B`, `g`, `k` fixed. It is when `c = k`. -/
theorem C77_only_a_partial (c B g : ℝ) (a z : ℝ) : gkOnlyAData c B g c ![a] z = gkData c ![a, B, g, c] z := rfl

/-- C77, exact: at a non-zero draw (with `B ≠ 0` and a non-zero skewness factor) the two agree only if `c = k`: the exponent `k` is not used. -/
theorem C77_only_a_iff (c B g k : ℝ) (a z : ℝ) (hz : z ≠ 0) (hB : B ≠ 0)
    (hs : 1 + c * (1 - Real.exp (-g * z)) / (1 + Real.exp (-g * z)) ≠ 0) :
    gkOnlyAData c B g k ![a] z = gkData c ![a, B, g, k] z ↔ c = k := by
  have h1 : 1 < 1 + z ^ 2 := by have : 0 < z ^ 2 := by positivity
                                linarith
  constructor
  · intro h
    have h2 : a + B * (1 + c * (1 - Real.exp (-g * z)) / (1 + Real.exp (-g * z))) * z * (1 + z ^ 2) ^ c
      = a + B * (1 + c * (1 - Real.exp (-g * z)) / (1 + Real.exp (-g * z))) * z * (1 + z ^ 2) ^ k := h
    have h3 := mul_left_cancel₀ (mul_ne_zero (mul_ne_zero hB hs) hz) (add_left_cancel h2)
    exact (Real.rpow_right_inj (by linarith) h1.ne').mp h3
  · rintro rfl; rfl

/-- C77 fails at the default settings `c = 0.8`, `B = 1`, `g = 2`, `k = 0.5`, for every non-zero draw. -/
theorem C77_fails (a z : ℝ) (hz : z ≠ 0) : gkOnlyAData 0.8 1 2 0.5 ![a] z ≠ gkData 0.8 ![a, 1, 2, 0.5] z := by
  intro h
  have hpos := Real.exp_pos (-2 * z)
  have hs : 1 + 0.8 * (1 - Real.exp (-2 * z)) / (1 + Real.exp (-2 * z)) ≠ 0 := by
    apply ne_of_gt
    have : 0 < (1 + Real.exp (-2 * z)) + 0.8 * (1 - Real.exp (-2 * z)) := by nlinarith
    have h2 := div_pos this (by linarith : 0 < 1 + Real.exp (-2 * z))
    rw [add_div, div_self (by linarith : (1 + Real.exp (-2 * z)) ≠ 0)] at h2
    exact h2
  have := (C77_only_a_iff 0.8 1 2 0.5 a z hz one_ne_zero hs).mp h
  norm_num at this

/-- The transformed one-parameter scenario is the untransformed one at the constrained parameter. -/
theorem C77_only_a_transformed (c B g k : ℝ) (mins maxs x : Fin 1 → ℝ) (z : ℝ) :
    gkOnlyATransformedData c B g k mins maxs x z = gkOnlyAData c B g k (gkConstrain mins maxs x) z := rfl

end Mocat.Props
