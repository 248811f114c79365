import Verif.Props.AbcLaw
import Verif.Props.LinearInverse
/-!
# C102: as the threshold shrinks ABC answers become exact posterior answers
-/
namespace Mocat.Props
open Mocat Mocat.Abc Mocat.Ideal Mocat.Meas Mocat.Spec Mocat.LinearInverse Mocat.MatGauss Mocat.Covariance MeasureTheory ProbabilityTheory Filter Matrix
open scoped ENNReal Topology

variable {d e : ℕ}

/-- The data within distance `h` of the observed ones. -/
def near (y₀ : Fin e → ℝ) (h : ℝ) : Set (Fin e → ℝ) := {y | √(∑ i, (y i - y₀ i) ^ 2) < h}

theorem ball_euclid (y₀ : Fin e → ℝ) (h : ℝ) : ball (distanceFunction y₀) (Fl.fin h) = near y₀ h := by
  ext y; simp [ball, near, distanceFunction, Fl.lt]

theorem isOpen_near (y₀ : Fin e → ℝ) (h : ℝ) : IsOpen (near y₀ h) :=
  isOpen_lt (Real.continuous_sqrt.comp (continuous_finsetSum _ fun i _ => ((continuous_apply i).sub continuous_const).pow 2)) continuous_const

theorem near_subset_ball (y₀ : Fin e → ℝ) {h : ℝ} (hh : 0 < h) : near y₀ h ⊆ Metric.ball y₀ h := by
  intro y hy
  rw [Metric.mem_ball, dist_pi_lt_iff hh]
  intro i
  refine lt_of_le_of_lt ?_ hy
  rw [Real.dist_eq]
  refine Real.le_sqrt_of_sq_le ?_
  rw [sq_abs]
  exact Finset.single_le_sum (f := fun i => (y i - y₀ i) ^ 2) (fun i _ => sq_nonneg _) (Finset.mem_univ i)

theorem volume_near (y₀ : Fin e → ℝ) {h : ℝ} (hh : 0 < h) : volume (near y₀ h) ≠ 0 ∧ volume (near y₀ h) ≠ ⊤ := by
  refine ⟨((isOpen_near y₀ h).measure_pos volume ⟨y₀, by simpa [near] using hh⟩).ne', ?_⟩
  exact ((measure_mono (near_subset_ball y₀ hh)).trans_lt measure_ball_lt_top).ne

/-- Averages of a function over shrinking neighbourhoods tend to its value, if it is continuous there. -/
theorem tendsto_average (g : (Fin e → ℝ) → ℝ) (y₀ : Fin e → ℝ) (hc : ContinuousAt g y₀) :
    Tendsto (fun h => (∫⁻ y in near y₀ h, ENNReal.ofReal (g y)) / volume (near y₀ h)) (𝓝[>] 0) (𝓝 (ENNReal.ofReal (g y₀))) := by
  have hc' : ContinuousAt (fun y => ENNReal.ofReal (g y)) y₀ := ENNReal.continuous_ofReal.continuousAt.comp hc
  have hfin : ENNReal.ofReal (g y₀) ≠ ⊤ := ENNReal.ofReal_ne_top
  rw [ENNReal.tendsto_nhds hfin]
  intro ε hε
  have h1 : ∀ᶠ y in 𝓝 y₀, ENNReal.ofReal (g y) ∈ Set.Icc (ENNReal.ofReal (g y₀) - ε) (ENNReal.ofReal (g y₀) + ε) :=
    (ENNReal.tendsto_nhds hfin).1 hc' ε hε
  obtain ⟨δ, hδ, hb⟩ := Metric.eventually_nhds_iff_ball.1 h1
  filter_upwards [Ioo_mem_nhdsGT hδ] with h hh
  obtain ⟨v0, vt⟩ := volume_near y₀ hh.1
  have hsub : ∀ y ∈ near y₀ h, ENNReal.ofReal (g y) ∈ Set.Icc (ENNReal.ofReal (g y₀) - ε) (ENNReal.ofReal (g y₀) + ε) := fun y hy =>
    hb y (Metric.ball_subset_ball hh.2.le (near_subset_ball y₀ hh.1 hy))
  have hms := (isOpen_near y₀ h).measurableSet
  constructor
  · rw [ENNReal.le_div_iff_mul_le (Or.inl v0) (Or.inl vt), ← setLIntegral_const]
    exact setLIntegral_mono' hms fun y hy => (hsub y hy).1
  · rw [ENNReal.div_le_iff v0 vt, ← setLIntegral_const]
    exact setLIntegral_mono' hms fun y hy => (hsub y hy).2

section
variable {S : Set (Fin d → ℝ)} {V : (Fin d → ℝ) → ℝ} {sim : (Fin d → ℝ) → Tape → Fin e → ℝ}

/-- The likelihood-weighted prior integral of `f`. -/
noncomputable def exactInt (S : Set (Fin d → ℝ)) (V : (Fin d → ℝ) → ℝ) (g : (Fin d → ℝ) → (Fin e → ℝ) → ℝ) (y₀ : Fin e → ℝ) (f : (Fin d → ℝ) → ℝ≥0∞) : ℝ≥0∞ :=
  ∫⁻ x, f x * ENNReal.ofReal (g x y₀) ∂(target S V)

/-- What is assumed of the simulator: given the parameter its data have a density `g x`, bounded, and continuous at the observed data. -/
structure SimDensity (sim : (Fin d → ℝ) → Tape → Fin e → ℝ) (g : (Fin d → ℝ) → (Fin e → ℝ) → ℝ) (C : ℝ) (y₀ : Fin e → ℝ) : Prop where
  simMeas : Measurable fun z : (Fin d → ℝ) × Tape => sim z.1 z.2
  meas : Measurable fun z : (Fin d → ℝ) × (Fin e → ℝ) => g z.1 z.2
  nonneg : ∀ x y, 0 ≤ g x y
  bound : ∀ x y, g x y ≤ C
  law : ∀ x, ideal.map (sim x) = volume.withDensity fun y => ENNReal.ofReal (g x y)
  cont : ∀ x, ContinuousAt (g x) y₀

variable {g : (Fin d → ℝ) → (Fin e → ℝ) → ℝ} {C : ℝ} {y₀ : Fin e → ℝ}

theorem abcTarget_near (hS : MeasurableSet S) (hV : Measurable V) (hD : SimDensity sim g C y₀) {h : ℝ} (f : (Fin d → ℝ) → ℝ≥0∞) (hf : Measurable f) :
    ∫⁻ z, f z.1 ∂(abcTarget S V sim (ball (distanceFunction y₀) (Fl.fin h))) =
      ∫⁻ x, f x * (∫⁻ y in near y₀ h, ENNReal.ofReal (g x y)) ∂(target S V) := by
  have hms := (isOpen_near y₀ h).measurableSet
  have hB : MeasurableSet (ball (distanceFunction y₀) (Fl.fin h)) := by rw [ball_euclid]; exact hms
  rw [C87_marginal hS hV hD.simMeas _ _ hB f hf]
  refine lintegral_congr fun x => ?_
  congr 1
  have hx : Measurable (sim x) := hD.simMeas.comp measurable_prodMk_left
  have h1 : {τ | Fl.lt (distanceFunction y₀ (sim x τ)) (Fl.fin h)} = sim x ⁻¹' near y₀ h := by
    rw [← ball_euclid]; rfl
  rw [h1, ← Measure.map_apply hx hms, hD.law, withDensity_apply _ hms]

/-- The ABC integral of a bounded function over its neighbourhood's volume tends to the likelihood-weighted prior integral. -/
theorem tendsto_abcTarget [IsFiniteMeasure (target S V)] (hS : MeasurableSet S) (hV : Measurable V) (hD : SimDensity sim g C y₀)
    (f : (Fin d → ℝ) → ℝ≥0∞) (hf : Measurable f) {M : ℝ≥0∞} (hM : M ≠ ⊤) (hfM : ∀ x, f x ≤ M) :
    Tendsto (fun h => (∫⁻ z, f z.1 ∂(abcTarget S V sim (ball (distanceFunction y₀) (Fl.fin h)))) / volume (near y₀ h)) (𝓝[>] 0)
      (𝓝 (exactInt S V g y₀ f)) := by
  have hin : ∀ h, Measurable fun x => ∫⁻ y in near y₀ h, ENNReal.ofReal (g x y) := fun h =>
    Measurable.lintegral_prod_right' (f := fun z : (Fin d → ℝ) × (Fin e → ℝ) => ENNReal.ofReal (g z.1 z.2)) hD.meas.ennreal_ofReal
  have heq : ∀ᶠ h in 𝓝[>] (0 : ℝ), ∫⁻ x, f x * ((∫⁻ y in near y₀ h, ENNReal.ofReal (g x y)) / volume (near y₀ h)) ∂(target S V) =
      (∫⁻ z, f z.1 ∂(abcTarget S V sim (ball (distanceFunction y₀) (Fl.fin h)))) / volume (near y₀ h) := by
    filter_upwards with h
    rw [abcTarget_near hS hV hD f hf]
    simp only [div_eq_mul_inv, ← mul_assoc]
    exact lintegral_mul_const _ (hf.mul (hin h))
  refine Tendsto.congr' heq ?_
  refine tendsto_lintegral_filter_of_dominated_convergence (fun _ => M * ENNReal.ofReal C) ?_ ?_ ?_ ?_
  · filter_upwards with h
    exact hf.mul ((hin h).div_const _)
  · filter_upwards [self_mem_nhdsWithin] with h hh
    filter_upwards with x
    refine mul_le_mul' (hfM x) ?_
    obtain ⟨v0, vt⟩ := volume_near y₀ (h := h) hh
    rw [ENNReal.div_le_iff v0 vt, ← setLIntegral_const]
    exact lintegral_mono fun y => ENNReal.ofReal_le_ofReal (hD.bound x y)
  · rw [lintegral_const]
    exact ENNReal.mul_ne_top (ENNReal.mul_ne_top hM ENNReal.ofReal_ne_top) (measure_ne_top _ _)
  · filter_upwards with x
    exact ENNReal.Tendsto.const_mul (tendsto_average (g x) y₀ (hD.cont x)) (Or.inr ((hfM x).trans_lt hM.lt_top).ne)

/-- C102: for a simulator whose data have a bounded density, continuous at the observed data, a finite prior, and positive evidence,
the expectation of every bounded function under the normalised ABC posterior with the default distance tends, as the threshold
goes to 0, to its expectation under the exact posterior. -/
theorem C102_limit [IsFiniteMeasure (target S V)] (hS : MeasurableSet S) (hV : Measurable V) (hD : SimDensity sim g C y₀)
    (hev : exactInt S V g y₀ 1 ≠ 0) (f : (Fin d → ℝ) → ℝ≥0∞) (hf : Measurable f) {M : ℝ≥0∞} (hM : M ≠ ⊤) (hfM : ∀ x, f x ≤ M) :
    Tendsto (fun h => (∫⁻ z, f z.1 ∂(abcTarget S V sim (ball (distanceFunction y₀) (Fl.fin h)))) /
        abcTarget S V sim (ball (distanceFunction y₀) (Fl.fin h)) Set.univ) (𝓝[>] 0)
      (𝓝 (exactInt S V g y₀ f / exactInt S V g y₀ 1)) := by
  have h1 := tendsto_abcTarget hS hV hD f hf hM hfM
  have h2 := tendsto_abcTarget hS hV hD 1 measurable_one ENNReal.one_ne_top fun _ => le_rfl
  have hfin : exactInt S V g y₀ f ≠ ⊤ := by
    refine ne_top_of_le_ne_top (ENNReal.mul_ne_top (ENNReal.mul_ne_top hM (ENNReal.ofReal_ne_top (r := C))) (measure_ne_top (target S V) Set.univ)) ?_
    rw [← lintegral_const]
    exact lintegral_mono fun x => mul_le_mul' (hfM x) (ENNReal.ofReal_le_ofReal (hD.bound x y₀))
  have h3 := ENNReal.Tendsto.div h1 (Or.inr hev) h2 (Or.inr hfin)
  refine Tendsto.congr' ?_ h3
  filter_upwards [self_mem_nhdsWithin] with h hh
  obtain ⟨v0, vt⟩ := volume_near y₀ (h := h) hh
  have hu : ∫⁻ z, (1 : (Fin d → ℝ) → ℝ≥0∞) z.1 ∂(abcTarget S V sim (ball (distanceFunction y₀) (Fl.fin h))) =
      abcTarget S V sim (ball (distanceFunction y₀) (Fl.fin h)) Set.univ := by
    simp only [Pi.one_apply, lintegral_one]
  rw [hu, div_eq_mul_inv, div_eq_mul_inv, div_eq_mul_inv, div_eq_mul_inv, ENNReal.mul_inv (Or.inr (ENNReal.inv_ne_top.2 v0)) (Or.inr (ENNReal.inv_ne_zero.2 vt)), inv_inv]
  rw [mul_mul_mul_comm, ENNReal.inv_mul_cancel v0 vt, mul_one]

end

/-! ## The linear Gaussian inverse problem -/

/-- `likelihood_sample` of the linear Gaussian scenario on a tape. -/
noncomputable def tapeSim (q : ℝ → ℝ) (chol : Chol) (a : Args d e) (x : Fin d → ℝ) (τ : Tape) : Fin e → ℝ :=
  likelihoodSample chol a x (normalAt q e τ [])

theorem gaussDensity_le (m : Fin d → ℝ) {P : Matrix (Fin d) (Fin d) ℝ} (hP : P.PosDef) (x : Fin d → ℝ) :
    gaussDensity m P x ≤ √(P.det⁻¹ / (2 * Real.pi) ^ d) := by
  unfold gaussDensity
  refine mul_le_of_le_one_right (Real.sqrt_nonneg _) (Real.exp_le_one_iff.2 ?_)
  have : 0 ≤ (x - m) ⬝ᵥ (P⁻¹ *ᵥ (x - m)) := by
    have := hP.inv.posSemidef.dotProduct_mulVec_nonneg (x - m)
    simpa using this
  linarith

theorem linear_simDensity (chol : Chol) (hchol : IsLowerCholesky chol) (a : Args d e) (ha : ProperArgs a) {q : ℝ → ℝ} (hq : IsNormalDraw q) (y₀ : Fin e → ℝ) :
    SimDensity (tapeSim q chol a) (fun x y => gaussDensity (matrix a *ᵥ x) (cov a.likCov) y) (√((cov a.likCov).det⁻¹ / (2 * Real.pi) ^ e)) y₀ where
  simMeas := by
    have h2 : Measurable fun w : (Fin d → ℝ) × (Fin e → ℝ) => likelihoodSample chol a w.1 w.2 :=
      Continuous.measurable ((Continuous.matrix_mulVec continuous_const continuous_fst).add
        (Continuous.matrix_mulVec continuous_const continuous_snd))
    exact h2.comp (measurable_fst.prodMk ((measurable_normalAt hq []).comp measurable_snd))
  meas := measurable_gaussDensity_pair _ _
  nonneg := fun x y => (gaussDensity_pos _ ha.lik _).le
  bound := fun x y => gaussDensity_le _ ha.lik _
  law := by
    intro x
    have := C27_sample_linear (chol e) (hchol.isCholesky e) _ ha.lik (matrix a *ᵥ x)
    have hm : Measurable (sampleLeft (chol e (cov a.likCov)) (matrix a *ᵥ x)) :=
      Continuous.measurable ((Continuous.matrix_mulVec continuous_const continuous_id).add continuous_const)
    rw [← map_normalAt hq [], Measure.map_map hm (measurable_normalAt hq [])] at this
    unfold gauss at this
    rw [← this]
    congr 1
    funext τ
    simp only [tapeSim, likelihoodSample, Function.comp, sampleLeft, add_comm]
  cont := fun x => (continuous_gaussDensity _ _).continuousAt

theorem target_linear (chol : Chol) (hchol : IsLowerCholesky chol) (a : Args d e) (hp : DiagArg a.priorCov) :
    target Set.univ (priorPotential chol a) = gauss (LinearInverse.mean a) (cov a.priorCov) := by
  unfold gauss target
  congr 1
  funext x
  rw [Set.indicator_univ]
  rw [← diag_potential chol hchol hp]
  rfl

theorem measurable_priorPotential (chol : Chol) (hchol : IsLowerCholesky chol) (a : Args d e) (hp : DiagArg a.priorCov) : Measurable (priorPotential chol a) := by
  have : priorPotential chol a = fun x => -Real.log (gaussDensity (LinearInverse.mean a) (cov a.priorCov) x) := by
    funext x
    rw [← diag_potential chol hchol hp, Real.log_exp, neg_neg]; rfl
  rw [this]
  exact (Real.measurable_log.comp (continuous_gaussDensity _ _).measurable).neg

/-- C102 for the linear Gaussian inverse problem with float or diagonal covariances (for others its potentials are wrong, C101): as the threshold goes to 0
ABC expectations of every bounded function tend to its expectation under the Gaussian posterior `N(m + K (y - H m), P - K H P)`. -/
theorem C102_linear_gaussian (chol : Chol) (hchol : IsLowerCholesky chol) (a : Args d e) (hp : DiagArg a.priorCov) (hl : DiagArg a.likCov) {q : ℝ → ℝ}
    (hq : IsNormalDraw q) (f : (Fin d → ℝ) → ℝ≥0∞) (hf : Measurable f) {M : ℝ≥0∞} (hM : M ≠ ⊤) (hfM : ∀ x, f x ≤ M) :
    let post := gauss (postMean (LinearInverse.mean a) (cov a.priorCov) (matrix a) (cov a.likCov) (dataVec a)) (postCov (cov a.priorCov) (matrix a) (cov a.likCov))
    Tendsto (fun h =>
        (∫⁻ z, f z.1 ∂(abcTarget Set.univ (priorPotential chol a) (tapeSim q chol a) (ball (distanceFunction (dataVec a)) (Fl.fin h)))) /
        abcTarget Set.univ (priorPotential chol a) (tapeSim q chol a) (ball (distanceFunction (dataVec a)) (Fl.fin h)) Set.univ) (𝓝[>] 0)
      (𝓝 (∫⁻ x, f x ∂post)) := by
  intro post
  set m := LinearInverse.mean a with hm
  set P := cov a.priorCov with hPd
  set R := cov a.likCov with hRd
  set H := matrix a with hHd
  set y := dataVec a with hyd
  have hP : P.PosDef := hp.posDef
  have hR : R.PosDef := hl.posDef
  have ht := target_linear chol hchol a hp
  have hfinm : IsFiniteMeasure (target Set.univ (priorPotential chol a)) := by
    rw [ht]; have := gauss_isProb m hP; infer_instance
  have hpost : IsProbabilityMeasure post := gauss_isProb _ (cond_posDef H hP hR)
  set E := ENNReal.ofReal (gaussDensity (H *ᵥ m) (H * P * Hᵀ + R) y)
  have hE0 : E ≠ 0 := (ENNReal.ofReal_pos.2 (gaussDensity_pos _ (posDef_innovation H hP hR) _)).ne'
  have hEt : E ≠ ⊤ := ENNReal.ofReal_ne_top
  have key : ∀ f : (Fin d → ℝ) → ℝ≥0∞, Measurable f →
      exactInt Set.univ (priorPotential chol a) (fun x y => gaussDensity (H *ᵥ x) R y) y f = E * ∫⁻ x, f x ∂post := by
    intro f hf
    have hg : Measurable fun x => f x * ENNReal.ofReal (gaussDensity (H *ᵥ x) R y) :=
      hf.mul ((measurable_gaussDensity_pair H R).comp measurable_prodMk_right).ennreal_ofReal
    unfold exactInt
    have hpf : Measurable fun x => ENNReal.ofReal (gaussDensity (postMean m P H R y) (postCov P H R) x) * f x :=
      (continuous_gaussDensity _ _).measurable.ennreal_ofReal.mul hf
    rw [ht, lintegral_gauss _ hg, lintegral_gauss _ hf]
    refine Eq.trans ?_ (lintegral_const_mul E hpf)
    refine lintegral_congr fun x => ?_
    have hB := gauss_bayes H hP hR m x y
    have h1 := congrArg ENNReal.ofReal hB
    rw [ENNReal.ofReal_mul (gaussDensity_pos _ hR _).le, ENNReal.ofReal_mul (gaussDensity_pos _ (posDef_innovation H hP hR) _).le] at h1
    rw [← mul_assoc, ← mul_assoc]
    have h2 : ENNReal.ofReal (gaussDensity m P x) * f x * ENNReal.ofReal (gaussDensity (H *ᵥ x) R y) =
      (ENNReal.ofReal (gaussDensity (H *ᵥ x) R y) * ENNReal.ofReal (gaussDensity m P x)) * f x := by ring
    rw [h2, h1]
    rfl
  have hone : exactInt Set.univ (priorPotential chol a) (fun x y => gaussDensity (H *ᵥ x) R y) y 1 = E := by
    rw [key 1 measurable_one]
    simp only [Pi.one_apply, lintegral_one, measure_univ, mul_one]
  have hlim := C102_limit (S := Set.univ) MeasurableSet.univ (measurable_priorPotential chol hchol a hp)
    (linear_simDensity chol hchol a ⟨hP, hR⟩ hq y) (by rw [hone]; exact hE0) f hf hM hfM
  rw [hone, key f hf, mul_comm, ENNReal.mul_div_cancel_right hE0 hEt] at hlim
  exact hlim

/-- Non-vacuity: one unknown observed twice, with a float prior covariance and a diagonal noise covariance. -/
example : ∃ (chol : Chol) (q : ℝ → ℝ), IsLowerCholesky chol ∧ IsNormalDraw q ∧
    DiagArg (Arg.float 2 : Arg (Matrix (Fin 1) (Fin 1) ℝ)) ∧ DiagArg (Arg.arr (diagonal ![2, 3]) : Arg (Matrix (Fin 2) (Fin 2) ℝ)) := by
  obtain ⟨chol, h, _⟩ := exists_isLowerCholesky
  obtain ⟨q, hq⟩ := exists_isNormalDraw
  exact ⟨chol, q, h, hq, (two_pos : (0 : ℝ) < 2), ![2, 3], fun i => by fin_cases i <;> norm_num, rfl⟩

end Mocat.Props
