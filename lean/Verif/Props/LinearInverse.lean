import Verif.Model.LinearInverse
import Verif.Props.Covariance
import Verif.Lemmas.GaussProduct
import Verif.Lemmas.Subtape
import Verif.Lemmas.Cholesky
import Verif.Lemmas.GaussMoments
/-!
# C101: the linear Gaussian inverse problem is the model it is given, with its exact Gaussian posterior
-/
namespace Mocat.Props
open Matrix MeasureTheory ProbabilityTheory Mocat.Gaussian Mocat.Covariance Mocat.MatGauss Mocat.Spec Mocat.Meas Mocat.LinearInverse Mocat.Ideal
open scoped ENNReal

variable {d e : ℕ}

/-- What `jnp.linalg.cholesky` is assumed to do: a lower triangular factor of every positive definite matrix. -/
def IsLowerCholesky (chol : Chol) : Prop :=
  ∀ n (P : Matrix (Fin n) (Fin n) ℝ), P.PosDef → chol n P * (chol n P)ᵀ = P ∧ ∀ i j, i < j → chol n P i j = 0

theorem IsLowerCholesky.isCholesky {chol : Chol} (h : IsLowerCholesky chol) (n : ℕ) : IsCholesky (chol n) :=
  fun P hP => (h n P hP).1

/-- A lower triangular factor of a diagonal positive definite matrix commutes with its transpose. -/
theorem lower_factor_diagonal {L : Matrix (Fin d) (Fin d) ℝ} {v : Fin d → ℝ} (hv : ∀ i, 0 < v i)
    (hL : L * Lᵀ = diagonal v) (hlow : ∀ i j, i < j → L i j = 0) : Lᵀ * L = L * Lᵀ := by
  have hdet : IsUnit L.det := by
    have h := congrArg det hL
    rw [det_mul, det_transpose, det_diagonal] at h
    refine isUnit_iff_ne_zero.2 fun h0 => ?_
    rw [h0, zero_mul] at h
    exact (Finset.prod_pos fun i _ => hv i).ne h
  let _ : Invertible L := Matrix.invertibleOfIsUnitDet L hdet
  have hb : BlockTriangular L (OrderDual.toDual : Fin d → (Fin d)ᵒᵈ) := fun i j hij => hlow i j hij
  have hbi : BlockTriangular L⁻¹ (OrderDual.toDual : Fin d → (Fin d)ᵒᵈ) := blockTriangular_inv_of_blockTriangular hb
  have hT : Lᵀ = L⁻¹ * diagonal v := by rw [← hL, ← Matrix.mul_assoc, nonsing_inv_mul _ hdet, Matrix.one_mul]
  have hdiag : L = diagonal fun i => L i i := by
    ext i j
    rcases lt_trichotomy i j with h | h | h
    · rw [hlow i j h, diagonal_apply_ne _ h.ne]
    · subst h; rw [diagonal_apply_eq]
    · rw [diagonal_apply_ne _ h.ne']
      have h1 := congrFun (congrFun hT j) i
      rw [transpose_apply, mul_diagonal, hbi (show (OrderDual.toDual i : (Fin d)ᵒᵈ) < OrderDual.toDual j from h), zero_mul] at h1
      exact h1
  rw [hdiag, diagonal_transpose]

/-- C27 for diagonal matrix covariances, with the factor `jnp.linalg.cholesky` returns: samples are drawn from, and
potentials are minus log densities of, `N(mean, Σ)`. Missing: other matrices, for which it is false (`C27_violated`). -/
theorem C27_diagonal_partial (chol : Chol) (hchol : IsLowerCholesky chol) (v mean : Fin d → ℝ) (hv : ∀ i, 0 < v i) :
    (stdNormal d).map (sampleLeft (chol d (diagonal v)) mean) = gauss mean (diagonal v) ∧
    (stdNormal d).map (sampleRightT (chol d (diagonal v)) mean) = gauss mean (diagonal v) ∧
    (stdNormal d).map (sampleRight (chol d (diagonal v)) mean) = gauss mean (diagonal v) ∧
    ∀ x, ∃ u, ssmPotential (resetCovariance (chol d) (.mat (diagonal v))) mean x = .num u ∧
      Real.exp (-u) = gaussDensity mean (diagonal v) x := by
  have hP : (diagonal v : Matrix (Fin d) (Fin d) ℝ).PosDef := PosDef.diagonal hv
  exact C27_consistent_partial (chol d) (hchol.isCholesky d) _ hP
    (lower_factor_diagonal hv (hchol d _ hP).1 (hchol d _ hP).2) mean

/-- The arguments fit together: a float matrix means as many observations as unknowns. -/
def FitArgs (a : Args d e) : Prop := a.likMatrix.isFloat = true → e = d

/-- C101, dimensions: construction fails exactly if mean, matrix and both covariances are all floats; otherwise the scenario has
`d` unknowns and `e` observations. -/
theorem C101_dimension (a : Args d e) (ha : FitArgs a) :
    (dim a = none ↔ a.priorMean.isFloat = true ∧ a.priorCov.isFloat = true ∧ a.likMatrix.isFloat = true ∧ a.likCov.isFloat = true) ∧
    (dim a ≠ none → dim a = some d ∧ dimObs a = some e) := by
  obtain ⟨pm, pc, da, lm, lc⟩ := a
  unfold FitArgs at ha
  rcases pm with c | m <;> rcases pc with c | P <;> rcases lm with c | H <;> rcases lc with c | R <;>
    simp_all [dim, dimObs, extractDimension, Arg.shape, Arg.isFloat]

/-- C101, float arguments stand for constant vectors and multiples of the identity. -/
theorem C101_floats (a : Args d d) (c : ℝ) :
    (a.priorMean = .float c → LinearInverse.mean a = fun _ => c) ∧ (a.priorCov = .float c → cov a.priorCov = c • 1) ∧
    (a.likMatrix = .float c → matrix a = c • 1) ∧ (a.likCov = .float c → cov a.likCov = c • 1) := by
  refine ⟨fun h => ?_, fun h => ?_, fun h => ?_, fun h => ?_⟩
  · simp [LinearInverse.mean, h]
  · simp [cov, h]
  · ext i j; simp [matrix, h, Matrix.one_apply, Fin.ext_iff]
  · simp [cov, h]

/-- The covariances are positive definite. -/
structure ProperArgs (a : Args d e) : Prop where
  prior : (cov a.priorCov).PosDef
  lik : (cov a.likCov).PosDef

/-- (Specification.) The joint law of `x ~ N(m, P)` and `y ~ N(H x, R)`. -/
noncomputable def jointGauss (m : Fin d → ℝ) (P : Matrix (Fin d) (Fin d) ℝ) (H : Matrix (Fin e) (Fin d) ℝ) (R : Matrix (Fin e) (Fin e) ℝ) :
    Measure ((Fin d → ℝ) × (Fin e → ℝ)) :=
  (volume.prod volume).withDensity fun z => ENNReal.ofReal (gaussDensity m P z.1 * gaussDensity (H *ᵥ z.1) R z.2)

theorem lintegral_gauss (m : Fin d → ℝ) {P : Matrix (Fin d) (Fin d) ℝ} {f : (Fin d → ℝ) → ℝ≥0∞} (hf : Measurable f) :
    ∫⁻ x, f x ∂(gauss m P) = ∫⁻ x, ENNReal.ofReal (gaussDensity m P x) * f x := by
  unfold gauss
  rw [lintegral_withDensity_eq_lintegral_mul _ (continuous_gaussDensity m P).measurable.ennreal_ofReal hf]
  rfl

theorem measurable_gaussDensity_pair (H : Matrix (Fin e) (Fin d) ℝ) (R : Matrix (Fin e) (Fin e) ℝ) :
    Measurable fun z : (Fin d → ℝ) × (Fin e → ℝ) => gaussDensity (H *ᵥ z.1) R z.2 := by
  have h : ∀ z : (Fin d → ℝ) × (Fin e → ℝ), gaussDensity (H *ᵥ z.1) R z.2 = gaussDensity 0 R (z.2 - H *ᵥ z.1) := by
    intro z; unfold gaussDensity; rw [sub_zero]
  simp only [h]
  refine (continuous_gaussDensity 0 R).measurable.comp (Continuous.measurable ?_)
  exact continuous_snd.sub ((Continuous.matrix_mulVec continuous_const continuous_fst))

/-- C101, simulation: a parameter drawn with `prior_sample` and data drawn at it with `likelihood_sample`, with different keys,
have the joint law of `x ~ N(m, P)`, `y ~ N(H x, R)`, for all positive definite covariances. -/
theorem C101_simulation (chol : Chol) (hchol : IsLowerCholesky chol) (a : Args d e) (ha : ProperArgs a) {q : ℝ → ℝ}
    (hq : IsNormalDraw q) (k k' : Keys.Key) (hk : k ≠ k') :
    ideal.map (fun ω => (priorSample chol a (normalAt q d ω k),
        likelihoodSample chol a (priorSample chol a (normalAt q d ω k)) (normalAt q e ω k'))) =
      jointGauss (LinearInverse.mean a) (cov a.priorCov) (matrix a) (cov a.likCov) := by
  have hpair : ideal.map (fun ω => (normalAt q d ω k, normalAt q e ω k')) = (stdNormal d).prod (stdNormal e) := by
    have hdisj : Disjoint {s : Site | s.1 = k} {s : Site | s.1 = k'} := by
      rw [Set.disjoint_left]; intro s h1 h2; exact hk ((Eq.symm h1).trans h2)
    rw [map_pair hdisj (measurable_normalAt hq k) (measurable_normalAt hq k') (normalAt_below q d k) (normalAt_below q e k'),
      map_normalAt hq, map_normalAt hq]
  set m := LinearInverse.mean a
  set P := cov a.priorCov
  set R := cov a.likCov
  set H := matrix a
  have h1 : Measurable fun z : Fin d → ℝ => priorSample chol a z :=
    Continuous.measurable (continuous_const.add (Continuous.matrix_mulVec continuous_const continuous_id))
  have h2 : Measurable fun w : (Fin d → ℝ) × (Fin e → ℝ) => likelihoodSample chol a w.1 w.2 :=
    Continuous.measurable ((Continuous.matrix_mulVec continuous_const continuous_fst).add
      (Continuous.matrix_mulVec continuous_const continuous_snd))
  have hG : Measurable fun w : (Fin d → ℝ) × (Fin e → ℝ) =>
      (priorSample chol a w.1, likelihoodSample chol a (priorSample chol a w.1) w.2) :=
    (h1.comp measurable_fst).prodMk (h2.comp ((h1.comp measurable_fst).prodMk measurable_snd))
  have e1 : ideal.map (fun ω => (priorSample chol a (normalAt q d ω k),
        likelihoodSample chol a (priorSample chol a (normalAt q d ω k)) (normalAt q e ω k'))) =
      ((stdNormal d).prod (stdNormal e)).map fun w => (priorSample chol a w.1, likelihoodSample chol a (priorSample chol a w.1) w.2) := by
    rw [← hpair, Measure.map_map hG ((measurable_normalAt hq k).prodMk (measurable_normalAt hq k'))]
    rfl
  rw [e1]
  have l1 : (stdNormal d).map (priorSample chol a) = gauss m P := by
    have := C27_sample_linear (chol d) (hchol.isCholesky d) P ha.prior m
    rw [← this]; congr 1; funext z; simp only [priorSample, sampleLeft, add_comm, m, P]
  have l2 : ∀ x, (stdNormal e).map (likelihoodSample chol a x) = gauss (H *ᵥ x) R := by
    intro x
    have := C27_sample_linear (chol e) (hchol.isCholesky e) R ha.lik (H *ᵥ x)
    rw [← this]; congr 1; funext z; simp only [likelihoodSample, sampleLeft, add_comm, H, R]
  refine Measure.ext_of_lintegral _ fun f hf => ?_
  have hx : ∀ x, Measurable fun y => f (x, y) := fun x => hf.comp measurable_prodMk_left
  have hinner : Measurable fun x => ∫⁻ y, f (x, y) ∂(gauss (H *ᵥ x) R) := by
    have : ∀ x, ∫⁻ y, f (x, y) ∂(gauss (H *ᵥ x) R) = ∫⁻ y, ENNReal.ofReal (gaussDensity (H *ᵥ x) R y) * f (x, y) :=
      fun x => lintegral_gauss _ (hx x)
    simp only [this]
    exact Measurable.lintegral_prod_right' (f := fun z : (Fin d → ℝ) × (Fin e → ℝ) => ENNReal.ofReal (gaussDensity (H *ᵥ z.1) R z.2) * f z)
      ((measurable_gaussDensity_pair H R).ennreal_ofReal.mul hf)
  have hfG : Measurable fun w : (Fin d → ℝ) × (Fin e → ℝ) => f (priorSample chol a w.1, likelihoodSample chol a (priorSample chol a w.1) w.2) := hf.comp hG
  rw [lintegral_map hf hG, lintegral_prod _ hfG.aemeasurable]
  have e2 : ∀ z, ∫⁻ w, f (priorSample chol a z, likelihoodSample chol a (priorSample chol a z) w) ∂(stdNormal e) =
      ∫⁻ y, f (priorSample chol a z, y) ∂(gauss (H *ᵥ priorSample chol a z) R) := by
    intro z
    have hz : Measurable (likelihoodSample chol a (priorSample chol a z)) := h2.comp measurable_prodMk_left
    rw [← l2, lintegral_map (hx _) hz]
  refine (lintegral_congr e2).trans ?_
  rw [← lintegral_map (f := fun x => ∫⁻ y, f (x, y) ∂(gauss (H *ᵥ x) R)) hinner h1, l1, lintegral_gauss _ hinner]
  unfold jointGauss
  have hdm : Measurable fun z : (Fin d → ℝ) × (Fin e → ℝ) => ENNReal.ofReal (gaussDensity m P z.1 * gaussDensity (H *ᵥ z.1) R z.2) :=
    (((continuous_gaussDensity m P).measurable.comp measurable_fst).mul (measurable_gaussDensity_pair H R)).ennreal_ofReal
  rw [lintegral_withDensity_eq_lintegral_mul _ hdm hf]
  have hprod : Measurable fun z : (Fin d → ℝ) × (Fin e → ℝ) => ENNReal.ofReal (gaussDensity m P z.1 * gaussDensity (H *ᵥ z.1) R z.2) * f z := hdm.mul hf
  refine Eq.trans ?_ (lintegral_prod _ hprod.aemeasurable).symm
  refine lintegral_congr fun x => ?_
  have hz : Measurable fun y => ENNReal.ofReal (gaussDensity (H *ᵥ x) R y) * f (x, y) :=
    ((continuous_gaussDensity (H *ᵥ x) R).measurable.ennreal_ofReal).mul (hx x)
  rw [lintegral_gauss _ (hx x), ← lintegral_const_mul _ hz]
  refine lintegral_congr fun y => ?_
  rw [ENNReal.ofReal_mul (gaussDensity_pos _ ha.prior _).le, mul_assoc]

/-- A covariance argument that is a float or a diagonal matrix, with positive variances. -/
def DiagArg {n : ℕ} : Arg (Matrix (Fin n) (Fin n) ℝ) → Prop
  | .float c => 0 < c
  | .arr M => ∃ v : Fin n → ℝ, (∀ i, 0 < v i) ∧ M = diagonal v

theorem DiagArg.cov_eq {n : ℕ} {c : Arg (Matrix (Fin n) (Fin n) ℝ)} (h : DiagArg c) :
    ∃ v : Fin n → ℝ, (∀ i, 0 < v i) ∧ cov c = diagonal v := by
  cases c with
  | float c => exact ⟨fun _ => c, fun _ => h, by rw [cov, smul_one_eq_diagonal]⟩
  | arr M => exact h

theorem DiagArg.posDef {n : ℕ} {c : Arg (Matrix (Fin n) (Fin n) ℝ)} (h : DiagArg c) : (cov c).PosDef := by
  obtain ⟨v, hv, he⟩ := h.cov_eq
  rw [he]; exact PosDef.diagonal hv

/-- The normalised density that `gaussian_potential` computes for a diagonal covariance. -/
theorem diag_potential (chol : Chol) (hchol : IsLowerCholesky chol) {n : ℕ} {c : Arg (Matrix (Fin n) (Fin n) ℝ)} (h : DiagArg c)
    (m x : Fin n → ℝ) :
    Real.exp (-(gaussianPotential x m .none (.mat (chol n (cov c))⁻¹) (some (1 / (cov c).det)))) = gaussDensity m (cov c) x := by
  obtain ⟨v, hv, he⟩ := h.cov_eq
  rw [he]
  obtain ⟨u, hu, hd⟩ := (C27_diagonal_partial chol hchol v m hv).2.2.2 x
  have : u = gaussianPotential x m .none (.mat (chol n (diagonal v))⁻¹) (some (1 / (diagonal v).det)) := by
    simp only [ssmPotential, resetCovariance] at hu
    exact (DetVal.num.inj hu).symm
  rw [← this, hd]

/-- Posterior mean and covariance of the linear Gaussian inverse problem (Specification). -/
noncomputable def postMean (m : Fin d → ℝ) (P : Matrix (Fin d) (Fin d) ℝ) (H : Matrix (Fin e) (Fin d) ℝ) (R : Matrix (Fin e) (Fin e) ℝ) (y : Fin e → ℝ) :
    Fin d → ℝ := m + (P * Hᵀ * (H * P * Hᵀ + R)⁻¹) *ᵥ (y - H *ᵥ m)
noncomputable def postCov (P : Matrix (Fin d) (Fin d) ℝ) (H : Matrix (Fin e) (Fin d) ℝ) (R : Matrix (Fin e) (Fin e) ℝ) : Matrix (Fin d) (Fin d) ℝ :=
  P - P * Hᵀ * (H * P * Hᵀ + R)⁻¹ * H * P

/-- C101, potentials, for float and diagonal covariances: `exp` of minus the prior potential is the prior density; `exp` of minus
prior plus likelihood potential is a constant times the density of the exact posterior `N(m + K (y - H m), P - K H P)`,
`K = P Hᵀ (H P Hᵀ + R)⁻¹`; if the data are an array the constant is the evidence `N(y; H m, H P Hᵀ + R)`. Missing: other
covariances, for which it is false (`C101_fails_matrix`), and the constant for float data (`C101_fails_evidence`). -/
theorem C101_posterior_partial (chol : Chol) (hchol : IsLowerCholesky chol) (a : Args d e) (hp : DiagArg a.priorCov) (hl : DiagArg a.likCov) :
    let m := LinearInverse.mean a; let P := cov a.priorCov; let H := matrix a; let R := cov a.likCov; let y := dataVec a
    (∀ x, Real.exp (-(priorPotential chol a x)) = gaussDensity m P x) ∧
    (∃ c, 0 < c ∧ ∀ x, Real.exp (-(priorPotential chol a x + likelihoodPotential chol a x)) =
      c * gaussDensity (postMean m P H R y) (postCov P H R) x) ∧
    (a.data.isFloat = false → ∀ x, Real.exp (-(priorPotential chol a x + likelihoodPotential chol a x)) =
      gaussDensity (H *ᵥ m) (H * P * Hᵀ + R) y * gaussDensity (postMean m P H R y) (postCov P H R) x) := by
  intro m P H R y
  have hP := hp.posDef
  have hR := hl.posDef
  have h1 : ∀ x, Real.exp (-(priorPotential chol a x)) = gaussDensity m P x := fun x => diag_potential chol hchol hp _ _
  have hT : ∀ x : Fin d → ℝ, x ᵥ* Hᵀ = H *ᵥ x := fun x => vecMul_transpose H x
  have hB := fun x => gauss_bayes H hP hR m x y
  have harr : ∀ x, Real.exp (-(gaussianPotential y (x ᵥ* Hᵀ) .none (.mat (chol e R)⁻¹) (some (1 / R.det)))) = gaussDensity (H *ᵥ x) R y := by
    intro x; rw [hT]; exact diag_potential chol hchol hl _ _
  have hev : 0 < gaussDensity (H *ᵥ m) (H * P * Hᵀ + R) y := gaussDensity_pos _ (posDef_innovation H hP hR) _
  have h3 : a.data.isFloat = false → ∀ x, Real.exp (-(priorPotential chol a x + likelihoodPotential chol a x)) =
      gaussDensity (H *ᵥ m) (H * P * Hᵀ + R) y * gaussDensity (postMean m P H R y) (postCov P H R) x := by
    intro hf x
    have hlp : likelihoodPotential chol a x = gaussianPotential y (x ᵥ* Hᵀ) .none (.mat (chol e R)⁻¹) (some (1 / R.det)) := by
      simp only [likelihoodPotential, y, dataVec, R, H]
      cases hda : a.data with
      | float c => rw [hda] at hf; cases hf
      | arr y' => rfl
    rw [neg_add, Real.exp_add, h1, hlp, harr, mul_comm]
    exact hB x
  refine ⟨h1, ?_, h3⟩
  cases hda : a.data with
  | arr y' => exact ⟨_, hev, h3 (by rw [hda]; rfl)⟩
  | float c =>
    set C := Real.exp (negLogZ e (some (1 / R.det)) - negLogZ 1 (some (1 / R.det)))
    refine ⟨C * gaussDensity (H *ᵥ m) (H * P * Hᵀ + R) y, mul_pos (Real.exp_pos _) hev, fun x => ?_⟩
    have hlp : likelihoodPotential chol a x = gaussianPotential y (x ᵥ* Hᵀ) .none (.mat (chol e R)⁻¹) (some (1 / R.det)) -
        (negLogZ e (some (1 / R.det)) - negLogZ 1 (some (1 / R.det))) := by
      simp only [likelihoodPotential, y, dataVec, R, H, hda, gaussianPotential, defaultPrec, PArg.expand, defaultDet]
      ring
    rw [hlp, show -(priorPotential chol a x + (gaussianPotential y (x ᵥ* Hᵀ) .none (.mat (chol e R)⁻¹) (some (1 / R.det)) -
        (negLogZ e (some (1 / R.det)) - negLogZ 1 (some (1 / R.det))))) =
      -(priorPotential chol a x) + (-(gaussianPotential y (x ᵥ* Hᵀ) .none (.mat (chol e R)⁻¹) (some (1 / R.det))) +
        (negLogZ e (some (1 / R.det)) - negLogZ 1 (some (1 / R.det)))) by ring, Real.exp_add, Real.exp_add, h1, harr]
    have := hB x
    change gaussDensity m P x * (gaussDensity (H *ᵥ x) R y * C) = _
    rw [show gaussDensity m P x * (gaussDensity (H *ᵥ x) R y * C) = C * (gaussDensity (H *ᵥ x) R y * gaussDensity m P x) by ring, this]
    simp only [postMean, postCov]; ring

/-- C101 fails for full covariances: with prior covariance `[[1,1],[1,2]]` the prior potential is not minus the log of the density
that `prior_sample` draws from (`C101_simulation`). -/
theorem C101_fails_matrix (chol : Chol) (hchol : IsLowerCholesky chol) (hex : chol 2 covEx = cholEx) :
    let a : Args 2 2 := ⟨.float 0, .arr covEx, .float 0, .float 1, .float 1⟩
    ProperArgs a ∧ Real.exp (-(priorPotential chol a ![1, 0])) ≠ gaussDensity (LinearInverse.mean a) (cov a.priorCov) ![1, 0] := by
  intro a
  refine ⟨⟨covEx_posDef, ?_⟩, ?_⟩
  · exact DiagArg.posDef (c := .float 1) one_pos
  · have hm : LinearInverse.mean a = 0 := by funext i; simp [a, LinearInverse.mean]
    rw [hm]
    refine (C27_violated (chol 2) (hchol.isCholesky 2) hex).1 (priorPotential chol a ![1, 0]) ?_
    unfold priorPotential
    rw [hm]
    rfl

/-- C101 fails for the default data `0.` with two observations: the likelihood potential lacks `log (2 π) / 2`, so `exp` of minus
it is not the likelihood. -/
theorem C101_fails_evidence (chol : Chol) (hchol : IsLowerCholesky chol) (x : Fin 2 → ℝ) :
    let a : Args 2 2 := ⟨.arr 0, .float 1, .float 0, .float 1, .float 1⟩
    Real.exp (-(likelihoodPotential chol a x)) = √(2 * Real.pi) * gaussDensity (matrix a *ᵥ x) (cov a.likCov) (dataVec a) ∧
    √(2 * Real.pi) ≠ 1 := by
  intro a
  have hR : cov a.likCov = (1 : Matrix (Fin 2) (Fin 2) ℝ) := by simp [a, cov]
  have hpi : (0 : ℝ) < 2 * Real.pi := by positivity
  constructor
  · have h := diag_potential chol hchol (c := a.likCov) one_pos (matrix a *ᵥ x) (dataVec a)
    have hlp : likelihoodPotential chol a x = gaussianPotential (dataVec a) (matrix a *ᵥ x) .none (.mat (chol 2 (cov a.likCov))⁻¹) (some (1 / (cov a.likCov).det)) -
        Real.log (2 * Real.pi) / 2 := by
      have hT : x ᵥ* (matrix a)ᵀ = matrix a *ᵥ x := vecMul_transpose _ x
      simp only [likelihoodPotential, hT]
      simp only [a, dataVec, gaussianPotential, defaultPrec, PArg.expand, defaultDet, negLogZ]
      push_cast
      ring
    rw [hlp, neg_sub, sub_eq_add_neg, Real.exp_add, h]
    congr 1
    rw [← Real.exp_log hpi, Real.sqrt_eq_rpow, ← Real.exp_mul, Real.exp_log hpi]
    congr 1; ring
  · intro h
    have h2 : 2 * Real.pi = 1 := by
      have := Real.sq_sqrt hpi.le
      rw [h] at this; linarith
    linarith [Real.pi_gt_three]

/-- C101 fails for a one-dimensional covariance array: `prior_sample` moves all coordinates by the same number, so differences of
coordinates are never random; and each coordinate has the sum of all variances of the array as its variance. -/
theorem C101_fails_vector (m v z : Fin d → ℝ) (i j : Fin d) : sampleVec m v z i - sampleVec m v z j = m i - m j ∧
    ((∀ k, 0 ≤ v k) → ∫ z, sampleVec m v z i ∂stdNormal d = m i ∧ ∫ z, (sampleVec m v z i - m i) ^ 2 ∂stdNormal d = ∑ k, v k) := by
  refine ⟨by simp [sampleVec], fun hv => ⟨?_, ?_⟩⟩
  · simp only [sampleVec, dotProduct]
    rw [integral_add (integrable_const _) (integrable_finsetSum _ fun k _ => (stdNormal_integrable k).const_mul _),
      integral_finsetSum _ fun k _ => (stdNormal_integrable k).const_mul _]
    simp [integral_const_mul, stdNormal_mean]
  · simp only [sampleVec, dotProduct, add_sub_cancel_left, pow_two, Finset.sum_mul_sum]
    have hi : ∀ k l, Integrable (fun z : Fin d → ℝ => √(v k) * z k * (√(v l) * z l)) (stdNormal d) := fun k l =>
      ((stdNormal_integrable_mul k l).const_mul (√(v k) * √(v l))).congr (.of_forall fun z => by ring)
    rw [integral_finsetSum _ fun k _ => integrable_finsetSum _ fun l _ => hi k l]
    refine Finset.sum_congr rfl fun k _ => ?_
    rw [integral_finsetSum _ fun l _ => hi k l]
    have he : ∀ l, ∫ z : Fin d → ℝ, √(v k) * z k * (√(v l) * z l) ∂stdNormal d = √(v k) * √(v l) * if k = l then 1 else 0 := fun l => by
      rw [← stdNormal_second, ← integral_const_mul]
      congr 1; funext z; ring
    simp only [he, mul_ite, mul_one, mul_zero, Finset.sum_ite_eq, Finset.mem_univ, if_true]
    exact Real.mul_self_sqrt (hv k)

/-- Non-vacuity: there is a lower triangular Cholesky factorisation, and one that agrees with the true factor on the counterexample. -/
theorem exists_isLowerCholesky : ∃ chol : Chol, IsLowerCholesky chol ∧ chol 2 covEx = cholEx := by
  classical
  have h : ∀ n (P : Matrix (Fin n) (Fin n) ℝ), ∃ L : Matrix (Fin n) (Fin n) ℝ,
      (P.PosDef → L * Lᵀ = P ∧ ∀ i j, i < j → L i j = 0) ∧ (∀ h : n = 2, P = h ▸ covEx → L = h ▸ cholEx) := by
    intro n P
    by_cases h2 : ∃ h : n = 2, P = h ▸ covEx
    · obtain ⟨rfl, rfl⟩ := h2
      exact ⟨cholEx, fun _ => ⟨cholEx_spec, by intro i j h; fin_cases i <;> fin_cases j <;> simp_all [cholEx]⟩, fun _ _ => rfl⟩
    · by_cases hP : P.PosDef
      · obtain ⟨L, hL⟩ := Cholesky.exists_lower_factor hP
        exact ⟨L, fun _ => hL, fun h e => absurd ⟨h, e⟩ h2⟩
      · exact ⟨0, fun h => absurd h hP, fun h e => absurd ⟨h, e⟩ h2⟩
  choose chol h1 using h
  exact ⟨chol, fun n P hP => (h1 n P).1 hP, (h1 2 covEx).2 rfl rfl⟩

example : DiagArg (Arg.arr (diagonal ![2, 3]) : Arg (Matrix (Fin 2) (Fin 2) ℝ)) ∧
    dim (⟨.float 0, .float 1, .float 0, .arr !![1, 2], .float 1⟩ : Args 2 1) = some 2 ∧
    dimObs (⟨.float 0, .float 1, .float 0, .arr !![1, 2], .float 1⟩ : Args 2 1) = some 1 := by
  refine ⟨⟨![2, 3], fun i => by fin_cases i <;> norm_num, rfl⟩, rfl, rfl⟩

end Mocat.Props
