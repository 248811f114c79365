import Verif.Props.Ksd
import Verif.Props.Svgd
import Mathlib.LinearAlgebra.Matrix.Charpoly.Coeff
import Mathlib.Analysis.Calculus.Deriv.Polynomial
import Mathlib.Analysis.Calculus.Deriv.Pi
/-!
# C131: what an SVGD update does to exact draws, and why it descends

Averages over ensembles of independent draws from the posterior of the move of one update, and the rate at which the moves reduce the objective SVGD descends (potential minus log Jacobian).
-/
namespace Mocat.Props
open MeasureTheory ProbabilityTheory Mocat.Kernels Mocat.Stein Mocat.Meas Mocat.Svgd Matrix Filter
open scoped Topology

variable {d n : ℕ}

/-! ## Specification -/

/-- The field along which SVGD moves a point `x`: the average over the particles of kernel times minus gradient, plus the gradient of the kernel in its first argument. -/
noncomputable def steinField (k : Kernel d) (vals grads : Fin n → Fin d → ℝ) (x : Fin d → ℝ) : Fin d → ℝ :=
  fun c => (∑ j, (-k.call (vals j) x * grads j c + k.gradX (vals j) x c)) / n

/-- The objective on a map `T` of points with Jacobian matrices `J`, evaluated on the particles: mean potential of the images minus mean log absolute Jacobian determinant. Up to a constant, the Kullback-Leibler
divergence from the law of the moved particles to the posterior. -/
noncomputable def objective (U : (Fin d → ℝ) → ℝ) (vals : Fin n → Fin d → ℝ) (T : (Fin d → ℝ) → Fin d → ℝ) (J : Fin n → Matrix (Fin d) (Fin d) ℝ) : ℝ :=
  (∑ i, (U (T (vals i)) - Real.log |(J i).det|)) / n

/-! ## The update -/

theorem full_batch (k : Kernel d) (vals grads : Fin n → Fin d → ℝ) (i : Fin n) :
    kernelisedGradMatrix vals grads k (fun _ => List.finRange n) i = steinField k vals grads (vals i) := by
  funext c
  simp only [kernelisedGradMatrix, steinField, List.length_finRange]
  rw [← List.sum_ofFn, List.ofFn_eq_map]

/-- The first update of a run with full batches, plain gradient steps and a kernel whose parameters are not adapted. -/
theorem first_update {K θ : Type*} (env : Svgd.Env K θ ℝ n d) (step : ℕ → ℝ) (ho : env.optimiser = sgd step) (key : K) (kp : θ) (ha : ∀ v, env.adapt v kp = kp)
    {U : (Fin d → ℝ) → ℝ} {gU : (Fin d → ℝ) → Fin d → ℝ} (hp : ∀ x k, env.potentialAndGrad x k = (U x, gU x)) (v : Fin n → Fin d → ℝ) (i : Fin n) (c : Fin d) :
    (Svgd.update env n (Svgd.startup env v key kp).1 (Svgd.startup env v key kp).2).1.value i c = v i c + step 1 * steinField (env.kernel kp) v (fun j => gU (v j)) (v i) c := by
  rw [← full_batch]
  simp only [Svgd.update, Svgd.startup, ho, sgd, getBatchInds, if_true, ha, hp]
  ring_nf

/-! ## Exact draws -/

/-- The contribution of a particle at `y` to the move of a particle at `x`. -/
noncomputable def pull (h : Fin d → ℝ) (gU : (Fin d → ℝ) → Fin d → ℝ) (c : Fin d) (y x : Fin d → ℝ) : ℝ := -(gaussian h).call y x * gU y c + (gaussian h).gradX y x c

theorem pull_measurable (h : Fin d → ℝ) {gU : (Fin d → ℝ) → Fin d → ℝ} (gm : Measurable gU) (c : Fin d) : Measurable fun p : (Fin d → ℝ) × (Fin d → ℝ) => pull h gU c p.1 p.2 := by
  have h1 : Measurable fun p : (Fin d → ℝ) × (Fin d → ℝ) => gU p.1 c := (measurable_pi_apply c).comp (gm.comp measurable_fst)
  exact ((call_cont h).measurable.neg.mul h1).add (gradX_cont h c).measurable

theorem pull_mean (h : Fin d → ℝ) (hh : ∀ i, h i ≠ 0) {U : (Fin d → ℝ) → ℝ} {gU : (Fin d → ℝ) → Fin d → ℝ} (hT : SmoothTarget U gU) (c : Fin d) (x : Fin d → ℝ) :
    ∫ y, pull h gU c y x ∂lawOf U = 0 := by
  have hsec : Continuous fun y : Fin d → ℝ => (y, x) := by fun_prop
  have := (law_by_parts hT c (F := fun y => (gaussian h).call y x) (F' := fun y => (gaussian h).gradX y x c) ((call_cont h).comp hsec).measurable ((gradX_cont h c).comp hsec).measurable
    (fun y => call_bound h y x) (fun y => gradX_bound h hh y x c) (fun y => C36_gradX h y x c)).2
  rw [← this]
  refine integral_congr_ae (Eventually.of_forall fun y => ?_)
  simp only [pull]; ring

theorem pull_self (h : Fin d → ℝ) (gU : (Fin d → ℝ) → Fin d → ℝ) (c : Fin d) (x : Fin d → ℝ) : pull h gU c x x = -gU x c := by
  simp [pull, gaussian]

theorem pull_self_mean (h : Fin d → ℝ) {U : (Fin d → ℝ) → ℝ} {gU : (Fin d → ℝ) → Fin d → ℝ} (hT : SmoothTarget U gU) (c : Fin d) : ∫ x, pull h gU c x x ∂lawOf U = 0 := by
  have := (law_by_parts hT c (F := fun _ => 1) (F' := fun _ => 0) (c := 1) (c' := 0) measurable_const measurable_const (fun _ => by simp) (fun _ => by simp) (fun y => hasDerivAt_const _ _)).2
  simp only [pull_self]
  simpa using this

theorem pull_bound (h : Fin d → ℝ) (hh : ∀ i, h i ≠ 0) (gU : (Fin d → ℝ) → Fin d → ℝ) (c : Fin d) (y x : Fin d → ℝ) : |pull h gU c y x| ≤ |gU y c| + 1 / |h c| := by
  refine (abs_add_le _ _).trans (add_le_add ?_ (gradX_bound h hh y x c))
  rw [abs_mul, abs_neg]
  exact mul_le_of_le_one_left (abs_nonneg _) (call_bound h y x)

/-- Redrawing one coordinate of independent draws gives independent draws. -/
theorem redraw {μ : Measure (Fin d → ℝ)} [IsProbabilityMeasure μ] (j : Fin n) :
    MeasurePreserving (fun z : (Fin n → Fin d → ℝ) × (Fin d → ℝ) => Function.update z.1 j z.2) ((Measure.pi fun _ : Fin n => μ).prod μ) (Measure.pi fun _ : Fin n => μ) := by
  have hm : Measurable fun z : (Fin n → Fin d → ℝ) × (Fin d → ℝ) => Function.update z.1 j z.2 := by
    refine measurable_pi_lambda _ fun k => ?_
    by_cases hk : k = j
    · subst hk; simpa using measurable_snd
    · simp only [Function.update_of_ne hk]; exact (measurable_pi_apply k).comp measurable_fst
  refine ⟨hm, (Measure.pi_eq fun s hs => ?_).symm⟩
  rw [Measure.map_apply hm (MeasurableSet.univ_pi hs)]
  have e : (fun z : (Fin n → Fin d → ℝ) × (Fin d → ℝ) => Function.update z.1 j z.2) ⁻¹' Set.univ.pi s = (Set.univ.pi (Function.update s j Set.univ)) ×ˢ s j := by
    ext ⟨v, y⟩
    simp only [Set.mem_preimage, Set.mem_univ_pi, Set.mem_prod]
    constructor
    · intro hz
      refine ⟨fun k => ?_, by simpa using hz j⟩
      by_cases hk : k = j
      · subst hk; simp
      · simpa [Function.update_of_ne hk] using hz k
    · rintro ⟨h1, h2⟩ k
      by_cases hk : k = j
      · subst hk; simpa using h2
      · simpa [Function.update_of_ne hk] using h1 k
  rw [e, Measure.prod_prod, Measure.pi_pi, ← Finset.mul_prod_erase _ _ (Finset.mem_univ j), ← Finset.mul_prod_erase Finset.univ (fun k => μ (s k)) (Finset.mem_univ j)]
  simp only [Function.update_self, measure_univ, one_mul]
  rw [mul_comm]
  congr 1
  refine Finset.prod_congr rfl fun k hk => ?_
  rw [Function.update_of_ne (Finset.ne_of_mem_erase hk)]

/-- If redrawing coordinate `j` alone gives mean zero, the mean is zero. -/
theorem redraw_zero {μ : Measure (Fin d → ℝ)} [IsProbabilityMeasure μ] (j : Fin n) {f : (Fin n → Fin d → ℝ) → ℝ} (hf : Integrable f (Measure.pi fun _ : Fin n => μ))
    (h0 : ∀ v, ∫ y, f (Function.update v j y) ∂μ = 0) : ∫ v, f v ∂(Measure.pi fun _ : Fin n => μ) = 0 := by
  have hr := redraw (n := n) (μ := μ) j
  have hi : Integrable (fun z : (Fin n → Fin d → ℝ) × (Fin d → ℝ) => f (Function.update z.1 j z.2)) ((Measure.pi fun _ : Fin n => μ).prod μ) := hr.integrable_comp_of_integrable hf
  have e : ∫ v, f v ∂(Measure.pi fun _ : Fin n => μ) = ∫ z, f (Function.update z.1 j z.2) ∂((Measure.pi fun _ : Fin n => μ).prod μ) := by
    conv_lhs => rw [← hr.map_eq]
    rw [integral_map hr.measurable.aemeasurable (by rw [hr.map_eq]; exact hf.aestronglyMeasurable)]
  rw [e, integral_prod _ hi]
  simp [h0]

theorem pull_pi_measurable (h : Fin d → ℝ) {gU : (Fin d → ℝ) → Fin d → ℝ} (gm : Measurable gU) (c : Fin d) (i j : Fin n) :
    Measurable fun v : Fin n → Fin d → ℝ => pull h gU c (v j) (v i) := by
  have h1 : Measurable fun v : Fin n → Fin d → ℝ => (v j, v i) := by fun_prop
  have h2 := pull_measurable h gm c
  generalize pull h gU c = f at h2 ⊢
  exact h2.comp h1

theorem grad_memLp {U : (Fin d → ℝ) → ℝ} {gU : (Fin d → ℝ) → Fin d → ℝ} (hT : SmoothTarget U gU) (c : Fin d) (j : Fin n) (a : ℝ) :
    MemLp (fun v : Fin n → Fin d → ℝ => |gU (v j) c| + a) 2 (Measure.pi fun _ : Fin n => lawOf U) := by
  have := hT.prob
  have h1 : MemLp (fun y => |gU y c| + a) 2 (lawOf U) := (hT.second c).abs.add (memLp_const a)
  exact h1.comp_measurePreserving (measurePreserving_eval (fun _ : Fin n => lawOf U) j)

section
variable {U : (Fin d → ℝ) → ℝ} {gU : (Fin d → ℝ) → Fin d → ℝ} (hT : SmoothTarget U gU) (h : Fin d → ℝ) (hh : ∀ i, h i ≠ 0) (c : Fin d)
include hT hh

theorem pull_memLp (i j : Fin n) : MemLp (fun v : Fin n → Fin d → ℝ => pull h gU c (v j) (v i)) 2 (Measure.pi fun _ : Fin n => lawOf U) := by
  have := hT.prob
  have hb := grad_memLp hT c j (1 / |h c|) (n := n)
  have hm : Measurable fun v : Fin n → Fin d → ℝ => pull h gU c (v j) (v i) := pull_pi_measurable h hT.gmeas c i j
  exact hb.mono' hm.aestronglyMeasurable (Eventually.of_forall fun v => pull_bound h hh gU c (v j) (v i))

theorem pull_zero (i j : Fin n) : ∫ v, pull h gU c (v j) (v i) ∂(Measure.pi fun _ : Fin n => lawOf U) = 0 := by
  have := hT.prob
  refine redraw_zero j ((pull_memLp hT h hh c i j).integrable (by norm_num)) fun v => ?_
  by_cases hij : i = j
  · subst hij; simp only [Function.update_self]; exact pull_self_mean h hT c
  · simp only [Function.update_self, Function.update_of_ne hij]; exact pull_mean h hh hT c (v i)

theorem pull_cross (i : Fin n) {j l : Fin n} (hjl : j ≠ l) : ∫ v, pull h gU c (v j) (v i) * pull h gU c (v l) (v i) ∂(Measure.pi fun _ : Fin n => lawOf U) = 0 := by
  have := hT.prob
  have key : ∀ {j l : Fin n}, j ≠ l → j ≠ i → ∫ v, pull h gU c (v j) (v i) * pull h gU c (v l) (v i) ∂(Measure.pi fun _ : Fin n => lawOf U) = 0 := by
    intro j l hjl hji
    refine redraw_zero j ((pull_memLp hT h hh c i j).integrable_mul (pull_memLp hT h hh c i l)) fun v => ?_
    simp only [Function.update_self, Function.update_of_ne hji.symm, Function.update_of_ne hjl.symm]
    rw [integral_mul_const, pull_mean h hh hT, zero_mul]
  by_cases hji : j = i
  · have hli : l ≠ i := fun e => hjl (hji.trans e.symm)
    rw [← key hjl.symm hli]
    exact integral_congr_ae (Eventually.of_forall fun v => mul_comm _ _)
  · exact key hjl hji

theorem pull_square (i j : Fin n) : ∫ v, pull h gU c (v j) (v i) ^ 2 ∂(Measure.pi fun _ : Fin n => lawOf U) ≤ 2 * (∫ x, gU x c ^ 2 ∂lawOf U + 1 / h c ^ 2) := by
  have := hT.prob
  have ev := measurePreserving_eval (fun _ : Fin n => lawOf U) j
  have i1 := (hT.second c).integrable_sq
  have i2 : Integrable (fun v : Fin n → Fin d → ℝ => gU (v j) c ^ 2) (Measure.pi fun _ : Fin n => lawOf U) := ev.integrable_comp_of_integrable i1
  have e : ∫ v, gU (v j) c ^ 2 ∂(Measure.pi fun _ : Fin n => lawOf U) = ∫ x, gU x c ^ 2 ∂lawOf U := by
    conv_rhs => rw [← ev.map_eq]
    rw [integral_map ev.measurable.aemeasurable (by rw [ev.map_eq]; exact i1.aestronglyMeasurable)]
  have i3 : Integrable (fun v : Fin n → Fin d → ℝ => 2 * (gU (v j) c ^ 2 + 1 / h c ^ 2)) (Measure.pi fun _ : Fin n => lawOf U) := (i2.add (integrable_const _)).const_mul 2
  refine (integral_mono (pull_memLp hT h hh c i j).integrable_sq i3 fun v => ?_).trans (le_of_eq ?_)
  · have hb := pull_bound h hh gU c (v j) (v i)
    have h1 : pull h gU c (v j) (v i) ^ 2 ≤ (|gU (v j) c| + 1 / |h c|) ^ 2 := by rw [← sq_abs]; exact pow_le_pow_left₀ (abs_nonneg _) hb 2
    have h2 : (1 / |h c|) ^ 2 = 1 / h c ^ 2 := by rw [div_pow, sq_abs, one_pow]
    have h3 := sq_nonneg (|gU (v j) c| - 1 / |h c|)
    have h4 := sq_abs (gU (v j) c)
    simp only
    nlinarith
  · rw [integral_const_mul, integral_add i2 (integrable_const _), e]
    simp

end

/-- C131: one update of SVGD on an ensemble of independent draws from the posterior (Gaussian kernel with fixed bandwidths, full batches, plain gradient steps) moves no coordinate of any particle on average, for
any number of particles, and its mean squared move is at most a constant divided by the number of particles. -/
theorem C131_stationary {K θ : Type*} (env : Svgd.Env K θ ℝ n d) (step : ℕ → ℝ) (ho : env.optimiser = sgd step) (key : K) (kp : θ) (ha : ∀ v, env.adapt v kp = kp)
    (h : Fin d → ℝ) (hh : ∀ i, h i ≠ 0) (hk : env.kernel kp = gaussian h) {U : (Fin d → ℝ) → ℝ} {gU : (Fin d → ℝ) → Fin d → ℝ} (hT : SmoothTarget U gU)
    (hp : ∀ x k, env.potentialAndGrad x k = (U x, gU x)) (i : Fin n) (c : Fin d) :
    ∫ v, ((Svgd.update env n (Svgd.startup env v key kp).1 (Svgd.startup env v key kp).2).1.value i c - v i c) ∂(Measure.pi fun _ : Fin n => lawOf U) = 0
    ∧ ∫ v, ((Svgd.update env n (Svgd.startup env v key kp).1 (Svgd.startup env v key kp).2).1.value i c - v i c) ^ 2 ∂(Measure.pi fun _ : Fin n => lawOf U)
      ≤ step 1 ^ 2 * (2 * (∫ x, gU x c ^ 2 ∂lawOf U + 1 / h c ^ 2)) / n := by
  have := hT.prob
  have hn : (0 : ℝ) < n := by exact_mod_cast (Fin.pos i)
  have e : ∀ v : Fin n → Fin d → ℝ, (Svgd.update env n (Svgd.startup env v key kp).1 (Svgd.startup env v key kp).2).1.value i c - v i c
      = step 1 / n * ∑ j, pull h gU c (v j) (v i) := by
    intro v
    rw [first_update env step ho key kp ha hp v i c, hk, add_sub_cancel_left]
    simp only [steinField, pull]
    ring
  have hI : ∀ j, Integrable (fun v : Fin n → Fin d → ℝ => pull h gU c (v j) (v i)) (Measure.pi fun _ : Fin n => lawOf U) := fun j => (pull_memLp hT h hh c i j).integrable (by norm_num)
  have hII : ∀ j l, Integrable (fun v : Fin n → Fin d → ℝ => pull h gU c (v j) (v i) * pull h gU c (v l) (v i)) (Measure.pi fun _ : Fin n => lawOf U) :=
    fun j l => (pull_memLp hT h hh c i j).integrable_mul (pull_memLp hT h hh c i l)
  simp only [e]
  constructor
  · rw [integral_const_mul, integral_finsetSum _ fun j _ => hI j]
    simp [pull_zero hT h hh c i]
  · have e2 : ∀ v : Fin n → Fin d → ℝ, (step 1 / n * ∑ j, pull h gU c (v j) (v i)) ^ 2 = (step 1 / n) ^ 2 * ∑ j, ∑ l, pull h gU c (v j) (v i) * pull h gU c (v l) (v i) := by
      intro v; rw [mul_pow, sq (∑ j, _), Finset.sum_mul_sum]
    simp only [e2]
    rw [integral_const_mul, integral_finsetSum _ fun j _ => integrable_finsetSum _ fun l _ => hII j l]
    have e3 : ∀ j, ∫ v, ∑ l, pull h gU c (v j) (v i) * pull h gU c (v l) (v i) ∂(Measure.pi fun _ : Fin n => lawOf U) ≤ 2 * (∫ x, gU x c ^ 2 ∂lawOf U + 1 / h c ^ 2) := by
      intro j
      rw [integral_finsetSum _ fun l _ => hII j l, Finset.sum_eq_single j (fun l _ hl => pull_cross hT h hh c i hl.symm) (fun hj => absurd (Finset.mem_univ j) hj)]
      simp only [← sq]
      exact pull_square hT h hh c i j
    calc (step 1 / n) ^ 2 * ∑ j, ∫ v, ∑ l, pull h gU c (v j) (v i) * pull h gU c (v l) (v i) ∂(Measure.pi fun _ : Fin n => lawOf U)
        ≤ (step 1 / n) ^ 2 * ∑ _j : Fin n, 2 * (∫ x, gU x c ^ 2 ∂lawOf U + 1 / h c ^ 2) := mul_le_mul_of_nonneg_left (Finset.sum_le_sum fun j _ => e3 j) (sq_nonneg _)
      _ = step 1 ^ 2 * (2 * (∫ x, gU x c ^ 2 ∂lawOf U + 1 / h c ^ 2)) / n := by
        rw [Finset.sum_const, Finset.card_univ, Fintype.card_fin, nsmul_eq_mul]; field_simp

/-! ## Descent -/

/-- The derivative of `log |det (1 + ε M)|` at zero is the trace. -/
theorem log_det_deriv (M : Matrix (Fin d) (Fin d) ℝ) : HasDerivAt (fun ε : ℝ => Real.log |(1 + ε • M).det|) M.trace 0 := by
  have e : (fun ε : ℝ => Real.log |(1 + ε • M).det|)
      = fun ε => Real.log (1 + M.trace * ε + (det (1 + (Polynomial.X : Polynomial ℝ) • M.map Polynomial.C)).divX.divX.eval ε * ε ^ 2) := by
    funext ε; rw [Real.log_abs, Matrix.det_one_add_smul]
  rw [e]
  have h1 := ((Polynomial.hasDerivAt (det (1 + (Polynomial.X : Polynomial ℝ) • M.map Polynomial.C)).divX.divX (0 : ℝ)).mul ((hasDerivAt_id (0 : ℝ)).pow 2))
  have h2 := (((hasDerivAt_id (0 : ℝ)).const_mul M.trace).const_add 1).add h1
  refine (h2.log (by simp)).congr_deriv ?_
  simp

/-- The field is differentiable everywhere. -/
theorem field_differentiable (h : Fin d → ℝ) (vals grads : Fin n → Fin d → ℝ) : Differentiable ℝ (steinField (gaussian h) vals grads) := by
  unfold steinField
  simp only [gaussian]
  fun_prop

/-- Its diagonal partial derivatives. -/
theorem field_diag (h : Fin d → ℝ) (hh : ∀ i, h i ≠ 0) (vals grads : Fin n → Fin d → ℝ) (x : Fin d → ℝ) {J : Matrix (Fin d) (Fin d) ℝ}
    (hJ : HasFDerivAt (steinField (gaussian h) vals grads) (LinearMap.toContinuousLinearMap (Matrix.toLin' J)) x) (c : Fin d) :
    J c c = (∑ j, (-(gaussian h).gradY (vals j) x c * grads j c + (gaussian h).diagGradXY (vals j) x c)) / n := by
  have h1 : HasDerivAt (fun t => steinField (gaussian h) vals grads (Function.update x c t) c) (J c c) (x c) := by
    have hu : HasDerivAt (fun t => Function.update x c t) (Pi.single c (1 : ℝ)) (x c) := hasDerivAt_update x c (x c)
    have hJ' : HasFDerivAt (steinField (gaussian h) vals grads) (LinearMap.toContinuousLinearMap (Matrix.toLin' J)) (Function.update x c (x c)) := by rwa [Function.update_eq_self]
    have := (hasDerivAt_pi.1 (hJ'.comp_hasDerivAt (x c) hu)) c
    refine this.congr_deriv ?_
    simp [Matrix.toLin'_apply]
  have h2 : HasDerivAt (fun t => steinField (gaussian h) vals grads (Function.update x c t) c)
      ((∑ j, (-(gaussian h).gradY (vals j) x c * grads j c + (gaussian h).diagGradXY (vals j) x c)) / n) (x c) := by
    simp only [steinField]
    refine HasDerivAt.div_const (HasDerivAt.fun_sum fun j _ => ?_) _
    exact ((C36_gradY h (vals j) x c).neg.mul_const _).add (gradX_deriv_y h hh (vals j) x c)
  exact h1.unique h2

/-- C131: moving every point along the field by which SVGD moves the particles changes the objective, at first order in the stepsize, by minus the square of the kernelised Stein discrepancy that `ksd` computes on the same
particles, gradients and kernel. So, unless that discrepancy is zero, every small enough stepsize reduces the objective. The field is differentiable, so the Jacobians exist, and the map with stepsize `step 1` is where
the first update puts the particles. -/
theorem C131_descent (h : Fin d → ℝ) (hh : ∀ i, h i ≠ 0) {U : (Fin d → ℝ) → ℝ} {gU : (Fin d → ℝ) → Fin d → ℝ} (vals : Fin n → Fin d → ℝ)
    (hU : ∀ i, HasFDerivAt U (LinearMap.toContinuousLinearMap (dotProductBilin ℝ ℝ (gU (vals i)))) (vals i)) :
    let grads := fun i => gU (vals i)
    let φ := steinField (gaussian h) vals grads
    let S := ksd (gaussian h) vals (fun i => -grads i) (ksdWeights none) (fun _ => List.finRange n)
    ∃ J : Fin n → Matrix (Fin d) (Fin d) ℝ, (∀ i, HasFDerivAt φ (LinearMap.toContinuousLinearMap (Matrix.toLin' (J i))) (vals i))
    ∧ (∀ (ε : ℝ) i, HasFDerivAt (fun x => x + ε • φ x) (LinearMap.toContinuousLinearMap (Matrix.toLin' (1 + ε • J i))) (vals i))
    ∧ HasDerivAt (fun ε : ℝ => objective U vals (fun x => x + ε • φ x) fun i => 1 + ε • J i) (-S ^ 2) 0
    ∧ (S ≠ 0 → ∀ᶠ ε in 𝓝[>] (0 : ℝ), objective U vals (fun x => x + ε • φ x) (fun i => 1 + ε • J i) < objective U vals id fun _ => 1)
    ∧ ∀ {K θ : Type} (env : Svgd.Env K θ ℝ n d) (step : ℕ → ℝ), env.optimiser = sgd step → ∀ (key : K) (kp : θ), (∀ v, env.adapt v kp = kp) → env.kernel kp = gaussian h →
      (∀ x k, env.potentialAndGrad x k = (U x, gU x)) →
      ∀ i, (Svgd.update env n (Svgd.startup env vals key kp).1 (Svgd.startup env vals key kp).2).1.value i = vals i + step 1 • φ (vals i) := by
  intro grads φ S
  set J : Fin n → Matrix (Fin d) (Fin d) ℝ := fun i => LinearMap.toMatrix' (fderiv ℝ φ (vals i) : (Fin d → ℝ) →ₗ[ℝ] Fin d → ℝ) with hJd
  have hJ : ∀ i, HasFDerivAt φ (LinearMap.toContinuousLinearMap (Matrix.toLin' (J i))) (vals i) := by
    intro i
    have := (field_differentiable h vals grads (vals i)).hasFDerivAt
    convert this using 1
    ext1 x
    simp [hJd, φ]
  have hd : HasDerivAt (fun ε : ℝ => objective U vals (fun x => x + ε • φ x) fun i => 1 + ε • J i) (-S ^ 2) 0 := by
    have h1 : ∀ i, HasDerivAt (fun ε : ℝ => U (vals i + ε • φ (vals i)) - Real.log |(1 + ε • J i).det|) (grads i ⬝ᵥ φ (vals i) - (J i).trace) 0 := by
      intro i
      have hl : HasDerivAt (fun ε : ℝ => vals i + ε • φ (vals i)) (φ (vals i)) 0 := by
        simpa using ((hasDerivAt_id (0 : ℝ)).smul_const (φ (vals i))).const_add (vals i)
      have hU' : HasFDerivAt U (LinearMap.toContinuousLinearMap (dotProductBilin ℝ ℝ (gU (vals i)))) (vals i + (0 : ℝ) • φ (vals i)) := by simpa using hU i
      exact (hU'.comp_hasDerivAt 0 hl).sub (log_det_deriv (J i))
    have h2 : HasDerivAt (fun ε : ℝ => objective U vals (fun x => x + ε • φ x) fun i => 1 + ε • J i) ((∑ i, (grads i ⬝ᵥ φ (vals i) - (J i).trace)) / n) 0 :=
      (HasDerivAt.fun_sum fun i _ => h1 i).div_const _
    refine h2.congr_deriv ?_
    rw [show S ^ 2 = _ from (C89_nonneg h hh vals (fun i => -grads i) (ksdWeights none)).2, ksdSum_full, Finset.sum_comm]
    simp only [ksdWeights, Finset.sum_const, Finset.card_univ, Fintype.card_fin, nsmul_eq_mul, mul_one, one_mul]
    have h3 : ∀ i, grads i ⬝ᵥ φ (vals i) - (J i).trace = -(∑ j, steinKernel (gaussian h) (vals j) (vals i) (-grads j) (-grads i)) / n := by
      intro i
      simp only [Matrix.trace, Matrix.diag, field_diag h hh vals grads (vals i) (hJ i), dotProduct, φ, steinField, steinKernel, ← Finset.sum_div, mul_div_assoc', Pi.neg_apply]
      rw [← sub_div, ← Finset.sum_sub_distrib, ← Finset.sum_neg_distrib]
      congr 1
      simp only [Finset.mul_sum, ← Finset.sum_sub_distrib]
      rw [Finset.sum_comm]
      refine Finset.sum_congr rfl fun j _ => ?_
      rw [← Finset.sum_add_distrib, ← Finset.sum_add_distrib, ← Finset.sum_add_distrib, ← Finset.sum_neg_distrib]
      refine Finset.sum_congr rfl fun c _ => ?_
      ring
    simp only [h3]
    rw [← Finset.sum_div, Finset.sum_neg_distrib]
    by_cases hn : (n : ℝ) = 0
    · simp [hn]
    · field_simp
  refine ⟨J, hJ, ?_, hd, ?_, ?_⟩
  · intro ε i
    have := (hasFDerivAt_id (𝕜 := ℝ) (vals i)).add ((hJ i).const_smul ε)
    refine this.congr_fderiv ?_
    ext1 x
    simp [Matrix.toLin'_apply]
  · intro hS
    have hneg : -S ^ 2 < 0 := by have := pow_pos (lt_of_le_of_ne (Real.sqrt_nonneg _) (Ne.symm hS) : 0 < S) 2; linarith
    have h0 : objective U vals (fun x => x + (0 : ℝ) • φ x) (fun i => 1 + (0 : ℝ) • J i) = objective U vals id fun _ => 1 := by simp [objective]
    rw [← h0]
    have hs := hasDerivWithinAt_iff_tendsto_slope.1 (hd.hasDerivWithinAt (s := Set.Ioi 0))
    have hs' : Tendsto (slope (fun ε : ℝ => objective U vals (fun x => x + ε • φ x) fun i => 1 + ε • J i) 0) (𝓝[>] 0) (𝓝 (-S ^ 2)) := by
      simpa using hs
    filter_upwards [hs'.eventually_lt_const hneg, self_mem_nhdsWithin] with ε h1 h2
    rw [slope_def_field, div_neg_iff] at h1
    have h3 : (0 : ℝ) < ε := h2
    rcases h1 with h1 | h1 <;> linarith [h1.1, h1.2]
  · intro K θ env step ho key kp ha hk hp i
    funext c
    rw [first_update env step ho key kp ha hp vals i c, hk]
    rfl

/-- Non-vacuity of `C131_descent`: a standard normal target in any dimension at least one, with a single particle anywhere: the potential has the stated gradient and the discrepancy is not zero. -/
example (x : Fin (d + 1) → ℝ) : HasFDerivAt (stdU (d := d + 1)) (LinearMap.toContinuousLinearMap (dotProductBilin ℝ ℝ x)) x
    ∧ ksd (gaussian fun _ : Fin (d + 1) => 1) (fun _ : Fin 1 => x) (fun _ => -x) (ksdWeights none) (fun _ => List.finRange 1) ≠ 0 := by
  constructor
  · have h1 : ∀ i : Fin (d + 1), HasFDerivAt (fun y : Fin (d + 1) → ℝ => y i ^ 2 / 2 + Real.log √(2 * Real.pi)) (x i • ContinuousLinearMap.proj (R := ℝ) (φ := fun _ : Fin (d + 1) => ℝ) i) x := by
      intro i
      have h0 : HasFDerivAt (fun y : Fin (d + 1) → ℝ => y i) (ContinuousLinearMap.proj (R := ℝ) (φ := fun _ : Fin (d + 1) => ℝ) i) x := hasFDerivAt_apply i x
      have h2 : HasDerivAt (fun t : ℝ => t ^ 2 / 2 + Real.log √(2 * Real.pi)) (x i) (x i) := by
        refine ((((hasDerivAt_id (x i)).pow 2).div_const 2).add_const _).congr_deriv ?_
        simp
      exact h2.comp_hasFDerivAt x h0
    refine (HasFDerivAt.fun_sum (u := Finset.univ) fun i _ => h1 i).congr_fderiv ?_
    ext1 y
    simp [dotProductBilin, dotProduct]
  · have hs := (C89_nonneg (fun _ : Fin (d + 1) => (1 : ℝ)) (fun _ => one_ne_zero) (fun _ : Fin 1 => x) (fun _ => -x) (ksdWeights none)).2
    rw [ksdSum_full] at hs
    intro h0
    rw [h0] at hs
    simp [ksdWeights, steinKernel, gaussian] at hs
    have : 0 ≤ x ⬝ᵥ x := Finset.sum_nonneg fun i _ => mul_self_nonneg _
    have hd : (0 : ℝ) ≤ d := Nat.cast_nonneg d
    linarith

end Mocat.Props
