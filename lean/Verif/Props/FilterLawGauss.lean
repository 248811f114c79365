import Verif.Props.FilterLaw
import Verif.Props.NonlinearGaussian
/-!
# C86 for nonlinear Gaussian models: bootstrap filter and optimal filter
-/
namespace Mocat.Props
open Matrix MeasureTheory Mocat Mocat.Filtering Mocat.Ideal Mocat.Meas Mocat.NonlinearGaussian Mocat.Spec Mocat.Covariance Mocat.MatGauss
open scoped ENNReal

variable {d e n : ℕ}

/-- A filter with other keys: a key `k` is turned into the draws `g k`. -/
def reKey {X K K' : Type} {dy : ℕ} (g : K' → K) (f : Filtering.Filter X K dy) : Filtering.Filter X K' dy where
  initialSample y t k := f.initialSample y t (g k)
  initialLogWeight := f.initialLogWeight
  proposalSample x t y t' k := f.proposalSample x t y t' (g k)
  intermediateLogWeight := f.intermediateLogWeight

/-- The same for a model. -/
def reKeyModel {X Y K K' : Type} (g : K' → K) (m : Ssm.Model X Y K) : Ssm.Model X Y K' where
  initialPotential := m.initialPotential
  initialSample t k := m.initialSample t (g k)
  transitionPotential := m.transitionPotential
  transitionSample x t t' k := m.transitionSample x t t' (g k)
  likelihoodPotential := m.likelihoodPotential
  likelihoodSample x t k := m.likelihoodSample x t (g k)

/-- `random.normal(key, (n,))` for every `n`, on a tape. -/
def normalsAt (q : ℝ → ℝ) (ω : Tape) (k : Keys.Key) (n : ℕ) : Fin n → ℝ := normalAt q n ω k

theorem normalAt_dependsOn (q : ℝ → ℝ) (n : ℕ) (k : Keys.Key) : DependsOn (fun ω => normalAt q n ω k) (below k) := by
  intro ω ω' h
  funext j
  simp only [normalAt]
  rw [h (k, j) ⟨[], rfl⟩]

theorem measurable_vecMul (A : Matrix (Fin d) (Fin e) ℝ) : Measurable fun x : Fin d → ℝ => x ᵥ* A := by
  refine Continuous.measurable ?_
  refine continuous_pi fun i => ?_
  simp only [vecMul, dotProduct]
  fun_prop

theorem measurable_mulVec (A : Matrix (Fin e) (Fin d) ℝ) : Measurable fun x : Fin d → ℝ => A *ᵥ x := by
  have := measurable_vecMul Aᵀ
  simpa only [vecMul_transpose] using this

theorem measurable_gaussianPotential_mat (s : Matrix (Fin d) (Fin d) ℝ) (c : ℝ) :
    Measurable fun z : (Fin d → ℝ) × (Fin d → ℝ) => Gaussian.gaussianPotential z.1 z.2 .none (.mat s) (some c) := by
  refine Continuous.measurable ?_
  simp only [Gaussian.gaussianPotential, Gaussian.PArg.expand, Gaussian.vectorisedGaussianPotential, vecMul, dotProduct]
  fun_prop

section
variable {chol : Chol} (hchol : IsCholeskyAll chol) {m : NLG d e} (hm : ProperNLG m) (htr : ∀ t t', Measurable fun x => m.transFun x t t') {q : ℝ → ℝ} (hq : IsNormalDraw q)
include hchol hm htr hq

/-- A nonlinear Gaussian model simulated on a tape: first state from `N(mean, Σ₀)`, transitions from `N(f(x), LᵀL)` with `L` the factor of the transition covariance, likelihood potential as the code computes it. -/
theorem nlg_modelLaw : ModelLaw (fun ω => reKeyModel (normalsAt q ω) (m.model chol)) (fun _ => gauss m.initialMean m.initialCov)
    (fun x t t' => gauss (m.transFun x t t') ((chol d m.transCov)ᵀ * chol d m.transCov)) (fun x y _ => covPotential chol m.likCov (x ᵥ* m.likMatᵀ) y) where
  likelihood _ := rfl
  measurable_lik y t := by
    have h := (measurable_gaussianPotential_mat (chol e m.likCov)⁻¹ (1 / m.likCov.det)).comp ((measurable_const (a := y)).prodMk (measurable_vecMul m.likMatᵀ))
    exact h
  measurable_initial t k := by
    have h := ((measurable_vecMul (chol d m.initialCov)ᵀ).comp (measurable_normalAt (d := d) hq k)).add_const m.initialMean
    exact h
  measurable_transition t t' k := by
    have h := ((htr t t').comp measurable_fst).add ((measurable_vecMul (chol d m.transCov)).comp ((measurable_normalAt (d := d) hq k).comp (measurable_snd (α := Fin d → ℝ))))
    exact h
  reads_initial t k ω ω' h := by
    have := normalAt_dependsOn q d k h
    simp only at this
    simp only [reKeyModel, NLG.model, normalsAt, this]
  reads_transition x t t' k ω ω' h := by
    have := normalAt_dependsOn q d k h
    simp only at this
    simp only [reKeyModel, NLG.model, normalsAt, this]
  law_initial t k := by
    have h : Measurable (sampleRightT (chol d m.initialCov) m.initialMean) := (measurable_vecMul _).add_const _
    rw [← C27_sample_nonlinear (chol d) (hchol d) _ hm.init, ← map_normalAt hq k, Measure.map_map h (measurable_normalAt hq k)]
    rfl
  law_transition x t t' k := by
    have h : Measurable (sampleRight (chol d m.transCov) (m.transFun x t t')) := (measurable_vecMul _).const_add _
    rw [← C27_sample_transition (chol d) (hchol d) _ hm.trans, ← map_normalAt hq k, Measure.map_map h (measurable_normalAt hq k)]
    rfl

variable [NeZero n] {cat : (Fin n → Fl) → ℝ → Fin n} (hcat : IsCategoricalReal fun (w : Fin n → ℝ) u => cat (fun i => .fin (w i)) u)
include hcat

/-- C86 for the bootstrap filter on a nonlinear Gaussian model (any dimension, any measurable transition function, positive definite covariances). -/
theorem C86_nonlinear_gaussian (thr : ℝ) (y0 : Obs e) (ys : List (Obs e)) (t0 : ℝ) (ts : List ℝ) (hlen : ts.length = ys.length) (key : Keys.Key) {h : (Fin d → ℝ) → ℝ≥0∞} (hh : Measurable h) :
    ∃ out : Tape → Particles (Fin d → ℝ) n e, (∀ ω, run (tapeEnv cat ω) (bootstrap (reKeyModel (normalsAt q ω) (m.model chol))) thr (y0 :: ys) (t0 :: ts) key = some (out ω)) ∧
      ∫⁻ ω, ENNReal.ofReal (likelihoodEstimate thr (out ω)) * weightedMean h (out ω) ∂ideal
        = ∫⁻ x, ENNReal.ofReal (Real.exp (-covPotential chol m.likCov (x ᵥ* m.likMatᵀ) y0))
          * pathExpectation (fun x t t' => gauss (m.transFun x t t') ((chol d m.transCov)ᵀ * chol d m.transCov)) (fun x y _ => covPotential chol m.likCov (x ᵥ* m.likMatᵀ) y) h t0 (ys.zip ts) x
          ∂(gauss m.initialMean m.initialCov) :=
  C86_bootstrap (nlg_modelLaw hchol hm htr hq) hcat thr y0 ys t0 ts hlen key hh

omit hcat [NeZero n] in
theorem optimal_law : FilterLaw (fun ω => reKey (normalsAt q ω) (optimalFilter chol m)) (fun _ _ _ => 0) (fun x t _ y t' => logWeight chol m x t y t')
    (fun y _ => (stdNormal d).map (initialSample chol m y)) (fun x t y t' => (gauss (m.transFun x t t') m.transCov).withDensity fun x' => ENNReal.ofReal (gaussDensity (m.likMat *ᵥ x') m.likCov y)) := by
  have hmw : ∀ t y t', Measurable fun x => logWeight chol m x t y t' := fun t y t' => by
    have h := ((measurable_gaussianPotential_mat (cholSym chol (weightPrec chol m)) (weightPrec chol m).det).comp
      ((measurable_const (a := y)).prodMk ((measurable_vecMul m.likMatᵀ).comp (htr t t')))).neg
    exact h
  have hpm : ∀ t y t', Measurable fun x => proposalMean chol m x t y t' := fun t y t' => by
    have h := (htr t t').add ((measurable_vecMul (proposalGain chol m)ᵀ).comp (((measurable_vecMul m.likMatᵀ).comp (htr t t')).const_sub y))
    exact h
  have hps : ∀ t y t' k, Measurable fun z : (Fin d → ℝ) × Tape => proposalSample chol m z.1 t y t' (normalAt q d z.2 k) := fun t y t' k => by
    have h := ((hpm t y t').comp measurable_fst).add ((measurable_vecMul (cholSym chol (proposalCov chol m))ᵀ).comp ((measurable_normalAt (d := d) hq k).comp (measurable_snd (α := Fin d → ℝ))))
    exact h
  have his : ∀ y, Measurable (initialSample chol m y) := fun y => by
    have h := (measurable_vecMul (cholSym chol (initCondPrec chol m))⁻¹).const_add (initCondMean chol m y)
    exact h
  have hgm : ∀ (v : Fin d → ℝ) (C : Matrix (Fin d) (Fin d) ℝ), Measurable fun x => ENNReal.ofReal (gaussDensity v C x) := fun v C =>
    ENNReal.measurable_ofReal.comp (continuous_gaussDensity v C).measurable
  have hlm : ∀ y, Measurable fun x : Fin d → ℝ => ENNReal.ofReal (gaussDensity (m.likMat *ᵥ x) m.likCov y) := fun y => by
    have hc : Continuous fun v : Fin e → ℝ => gaussDensity v m.likCov y := by
      unfold gaussDensity
      have : Continuous fun v : Fin e → ℝ => (y - v) ⬝ᵥ (m.likCov⁻¹ *ᵥ (y - v)) := by
        simp only [dotProduct, mulVec]
        fun_prop
      fun_prop
    exact ENNReal.measurable_ofReal.comp (hc.measurable.comp (measurable_mulVec m.likMat))
  have hlaw : ∀ x t y t' k {h : (Fin d → ℝ) → ℝ≥0∞}, Measurable h →
      ∫⁻ ω, ENNReal.ofReal (Real.exp (logWeight chol m x t y t')) * h (proposalSample chol m x t y t' (normalAt q d ω k)) ∂ideal
        = ∫⁻ x', h x' ∂((gauss (m.transFun x t t') m.transCov).withDensity fun x' => ENNReal.ofReal (gaussDensity (m.likMat *ᵥ x') m.likCov y)) := by
    intro x t y t' k h hh
    have hpx : Measurable (proposalSample chol m x t y t') := by
      have h := (measurable_vecMul (cholSym chol (proposalCov chol m))ᵀ).const_add (proposalMean chol m x t y t')
      exact h
    have e1 : ∫⁻ ω, h (proposalSample chol m x t y t' (normalAt q d ω k)) ∂ideal = ∫⁻ x', h x' ∂(gauss (proposalMean chol m x t y t') (proposalCov chol m)) := by
      rw [← (C52_optimal_proposal hchol hm x t y t').1, ← map_normalAt hq k, Measure.map_map hpx (measurable_normalAt hq k), lintegral_map hh (hpx.comp (measurable_normalAt hq k))]
      rfl
    have hmm : Measurable fun ω => h (proposalSample chol m x t y t' (normalAt q d ω k)) := hh.comp (hpx.comp (measurable_normalAt hq k))
    rw [lintegral_const_mul _ hmm, e1, lintegral_withDensity_eq_lintegral_mul _ (hlm y) hh]
    unfold gauss
    rw [lintegral_withDensity_eq_lintegral_mul _ (hgm _ _) hh, lintegral_withDensity_eq_lintegral_mul _ (hgm _ _) ((hlm y).mul hh), ← lintegral_const_mul _ ((hgm _ _).mul hh)]
    refine lintegral_congr fun x' => ?_
    simp only [Pi.mul_apply]
    have hpos := gaussDensity_pos (proposalMean chol m x t y t') (proposalCov_posDef hchol hm) x'
    have hw := C52_optimal_weight hchol hm x t y t' x'
    rw [eq_div_iff hpos.ne'] at hw
    rw [← mul_assoc, ← mul_assoc, ← ENNReal.ofReal_mul (Real.exp_pos _).le, hw, ENNReal.ofReal_mul (gaussDensity_pos _ hm.trans _).le]
  refine ⟨fun _ _ _ _ => rfl, fun _ _ _ _ _ _ => rfl, fun _ _ => measurable_const, fun t y t' => (hmw t y t').comp measurable_fst, fun y t k => (his y).comp (measurable_normalAt hq k),
    fun t y t' k => hps t y t' k, fun y t k ω ω' h => ?_, fun x t y t' k ω ω' h => ?_, fun y t k h hh => ?_, fun x t y t' k h hh => hlaw x t y t' k hh, fun t y t' h hh => ?_⟩
  · have := normalAt_dependsOn q d k h
    simp only at this
    simp only [reKey, optimalFilter, normalsAt, this]
  · have := normalAt_dependsOn q d k h
    simp only at this
    simp only [reKey, optimalFilter, normalsAt, this]
  · simp only [Real.exp_zero, ENNReal.ofReal_one, one_mul]
    rw [← map_normalAt hq k, Measure.map_map (his y) (measurable_normalAt hq k), lintegral_map hh ((his y).comp (measurable_normalAt hq k))]
    rfl
  · rw [funext fun x => (hlaw x t y t' [] hh).symm]
    have hg : Measurable fun z : (Fin d → ℝ) × Tape => ENNReal.ofReal (Real.exp (logWeight chol m z.1 t y t')) * h (proposalSample chol m z.1 t y t' (normalAt q d z.2 [])) :=
      (ENNReal.measurable_ofReal.comp (Real.measurable_exp.comp ((hmw t y t').comp measurable_fst))).mul (hh.comp (hps t y t' []))
    exact Measurable.lintegral_prod_right' hg

/-- C86 for the optimal filter of a nonlinear Gaussian model: with the distribution of its first draws as the law of the first state, it estimates expectations of `h` of the last state times the likelihoods of the
observations after the first without bias. -/
theorem C86_optimal (thr : ℝ) (y0 : Obs e) (ys : List (Obs e)) (t0 : ℝ) (ts : List ℝ) (hlen : ts.length = ys.length) (key : Keys.Key) {h : (Fin d → ℝ) → ℝ≥0∞} (hh : Measurable h) :
    ∃ out : Tape → Particles (Fin d → ℝ) n e, (∀ ω, run (tapeEnv cat ω) (reKey (normalsAt q ω) (optimalFilter chol m)) thr (y0 :: ys) (t0 :: ts) key = some (out ω)) ∧
      ∫⁻ ω, ENNReal.ofReal (likelihoodEstimate thr (out ω)) * weightedMean h (out ω) ∂ideal
        = ∫⁻ x, pathExpectation (fun x t t' => gauss (m.transFun x t t') m.transCov) (fun x y _ => -Real.log (gaussDensity (m.likMat *ᵥ x) m.likCov y)) h t0 (ys.zip ts) x
          ∂((stdNormal d).map (initialSample chol m y0)) := by
  have hL := optimal_law hchol hm htr hq
  obtain ⟨out, h1, -, h2⟩ := C86_proper (n := n) hL hcat thr y0 ys t0 ts hlen key hh
  refine ⟨out, h1, h2.trans ?_⟩
  congr 1
  generalize ys.zip ts = os
  clear h1 h2
  induction os generalizing t0 with
  | nil => rfl
  | cons o os ih =>
    funext x
    have hlm : Measurable fun x : Fin d → ℝ => ENNReal.ofReal (gaussDensity (m.likMat *ᵥ x) m.likCov o.1) := by
      have hc : Continuous fun v : Fin e → ℝ => gaussDensity v m.likCov o.1 := by
        unfold gaussDensity
        have : Continuous fun v : Fin e → ℝ => (o.1 - v) ⬝ᵥ (m.likCov⁻¹ *ᵥ (o.1 - v)) := by
          simp only [dotProduct, mulVec]
          fun_prop
        fun_prop
      exact ENNReal.measurable_ofReal.comp (hc.measurable.comp (measurable_mulVec m.likMat))
    rw [future, pathExpectation, lintegral_withDensity_eq_lintegral_mul _ hlm (measurable_future hL hh os o.2)]
    refine lintegral_congr fun x' => ?_
    rw [neg_neg, Real.exp_log (gaussDensity_pos _ hm.lik _), ← congrFun (ih o.2) x']
    rfl

end

/-! ## A case that meets the hypotheses -/

/-- A factorisation of positive definite matrices exists. -/
theorem exists_isCholeskyAll : ∃ chol : Chol, IsCholeskyAll chol := by
  classical
  refine ⟨fun n A => if h : A.PosDef then (posDef_factor A h).choose else 1, fun n A hA => ?_⟩
  simp only [dif_pos hA]
  exact (posDef_factor A hA).choose_spec.1.symm

/-- An optimal filter with 5 particles for a nonlinear model in dimension 2 with correlated observation noise. -/
example (y0 y1 y2 : Obs 2) : ∃ (chol : Chol) (q : ℝ → ℝ) (cat : (Fin 5 → Fl) → ℝ → Fin 5),
    ∀ h : (Fin 2 → ℝ) → ℝ≥0∞, Measurable h → ∃ out : Tape → Particles (Fin 2 → ℝ) 5 2,
      (∀ ω, run (tapeEnv cat ω) (reKey (normalsAt q ω) (optimalFilter chol ⟨0, 1, fun x t t' i => Real.sin (x i) + (t' - t), 1, 1, covEx⟩)) (1 / 2) [y0, y1, y2] [0, 1, 3] [] = some (out ω)) ∧
      ∫⁻ ω, ENNReal.ofReal (likelihoodEstimate (1 / 2) (out ω)) * weightedMean h (out ω) ∂ideal
        = ∫⁻ x, pathExpectation (fun x t t' => gauss (fun i => Real.sin (x i) + (t' - t)) 1) (fun x y _ => -Real.log (gaussDensity ((1 : Matrix (Fin 2) (Fin 2) ℝ) *ᵥ x) covEx y)) h 0 [(y1, 1), (y2, 3)] x
          ∂((stdNormal 2).map (initialSample chol ⟨0, 1, fun x t t' i => Real.sin (x i) + (t' - t), 1, 1, covEx⟩ y0)) := by
  obtain ⟨chol, hchol⟩ := exists_isCholeskyAll
  obtain ⟨q, hq⟩ := exists_isNormalDraw
  refine ⟨chol, q, fun lw u => invCdfReal (fun i => match lw i with | .fin x => x | _ => 0) u, fun h hh => ?_⟩
  exact C86_optimal (n := 5) hchol (m := ⟨0, 1, fun x t t' i => Real.sin (x i) + (t' - t), 1, 1, covEx⟩) ⟨PosDef.one, PosDef.one, covEx_posDef⟩ (fun t t' => by fun_prop) hq
    isCategoricalReal_invCdfReal (1 / 2) y0 [y1, y2] 0 [1, 3] rfl [] hh

end Mocat.Props
