import Verif.Model.SsmConstruct
import Verif.Props.Covariance
import Mathlib.MeasureTheory.Measure.Lebesgue.EqHaar
/-!
# C145: state-space models are built with matching dimensions and defaults, and sample with the covariances they are given
-/
namespace Mocat.Props
open Mocat Mocat.SsmConstruct Matrix MeasureTheory Mocat.Meas Mocat.Gaussian Mocat.Spec Mocat.Covariance

/-! ## Specification -/

/-- Arguments of matching shapes for states with `n` entries and observations with `m`: what is given, and what is left out. -/
structure Given (n m : ℕ) where
  mean : Option (Fin n → ℝ) := none
  cov : Option (Matrix (Fin n) (Fin n) ℝ) := none
  F : Option (Matrix (Fin n) (Fin n) ℝ) := none
  Q : Option (Matrix (Fin n) (Fin n) ℝ) := none
  H : Option (Matrix (Fin m) (Fin n) ℝ) := none
  R : Option (Matrix (Fin m) (Fin m) ℝ) := none

/-- The call. -/
def Given.args {n m : ℕ} (g : Given n m) : Args where
  initialMean := g.mean.map .vec
  initialCov := g.cov.map .mat
  transMat := g.F.map .mat
  transCov := g.Q.map .mat
  likMat := g.H.map .mat
  likCov := g.R.map .mat

/-- The observation matrix meant: the identity if none is given (then `m = n`). -/
def Given.obs {n m : ℕ} (g : Given n m) : Matrix (Fin m) (Fin n) ℝ := g.H.getD (Matrix.of fun i j => if (i : ℕ) = j then 1 else 0)

/-- An argument from which the constructor can tell the dimension. -/
def Given.Tells {n m : ℕ} (g : Given n m) : Prop := g.mean ≠ none ∨ g.cov ≠ none ∨ g.Q ≠ none ∨ g.H ≠ none ∨ g.R ≠ none

/-- The object stores what is meant. -/
structure HoldsGiven (chol : Chol) {n m : ℕ} (g : Given n m) (o : Obj) : Prop where
  dim : o.dim = n
  dimObs : o.dimObs = m
  mean : o.initialMean = .vec (g.mean.getD 0)
  cov : o.initialCov = .mat (g.cov.getD 1)
  covSqrt : o.initialCovSqrt = .mat (chol n (g.cov.getD 1))
  F : o.transMat = .mat (g.F.getD 1)
  Q : o.transCov = .mat (g.Q.getD 1)
  QSqrt : o.transCovSqrt = .mat (chol n (g.Q.getD 1))
  H : o.likMat = .mat g.obs
  R : o.likCov = .mat (g.R.getD 1)
  RSqrt : o.likCovSqrt = .mat (chol m (g.R.getD 1))

variable {n m : ℕ}

/-! ## What is stored -/

theorem getD_vec (o : Option (Fin n → ℝ)) : (o.map Val.vec).getD (zeros n) = .vec (o.getD 0) := by cases o <;> rfl
theorem getD_mat (o : Option (Matrix (Fin n) (Fin n) ℝ)) : (o.map Val.mat).getD (eye n) = .mat (o.getD 1) := by cases o <;> rfl

theorem covSqrt_mat (chol : Chol) (M : Matrix (Fin n) (Fin n) ℝ) : covSqrt chol (.mat M) = some (.mat (chol n M)) := by
  simp only [covSqrt, dif_pos, Fin.cast_refl, id]
  rfl

theorem getD_obs (g : Given n m) (hm : g.H = none → m = n) : (g.H.map Val.mat).getD (eye n) = .mat g.obs := by
  unfold Given.obs
  cases h : g.H with
  | some H => rfl
  | none =>
    obtain rfl := hm h
    simp only [Option.map_none, Option.getD_none, eye]
    congr 1
    ext i j
    simp [Matrix.one_apply, Fin.ext_iff]

theorem fill_stores (chol : Chol) (g : Given n m) (hm : g.H = none → m = n) : ∃ o, fill chol n g.args = some o ∧ HoldsGiven chol g o := by
  refine ⟨⟨n, m, .vec (g.mean.getD 0), .mat (g.cov.getD 1), .mat (chol n (g.cov.getD 1)), .mat (g.F.getD 1), .mat (g.Q.getD 1), .mat (chol n (g.Q.getD 1)), .mat g.obs, .mat (g.R.getD 1), .mat (chol m (g.R.getD 1))⟩, ?_,
    ⟨rfl, rfl, rfl, rfl, rfl, rfl, rfl, rfl, rfl, rfl, rfl⟩⟩
  unfold fill Given.args
  simp only [getD_vec, getD_mat, covSqrt_mat, getD_obs g hm, rows, Option.bind_eq_bind, Option.bind_some]
  rfl

theorem extract_tells (g : Given n m) (hm : g.H = none → m = n) (ht : g.Tells) : extractDim [g.args.initialMean, g.args.initialCov, g.args.transCov, g.args.likMat, g.args.likCov] = some n := by
  obtain ⟨mean, cov, F, Q, H, R⟩ := g
  simp only [Given.Tells] at ht
  simp only at hm
  cases mean with
  | some v => rfl
  | none => cases cov with
    | some v => rfl
    | none => cases Q with
      | some v => rfl
      | none => cases H with
        | some v => rfl
        | none => cases R with
          | some v => obtain rfl := hm rfl; rfl
          | none => simp at ht

/-- C145 for `TimeHomogenousLinearGaussian`: from arguments of matching shapes, any of them left out, the constructor stores the dimensions, the arguments given, zero and identity for the others, and the Cholesky
factors of the covariances. Missing: the transition matrix as the only argument. -/
theorem C145_linear_partial (chol : Chol) (g : Given n m) (hm : g.H = none → m = n) (dim : Option ℕ) (hd : ∀ k, dim = some k → k = n) (ht : dim ≠ none ∨ g.Tells) : ∃ o, linear chol dim g.args = some o ∧ HoldsGiven chol g o := by
  obtain ⟨o, ho, hs⟩ := fill_stores chol g hm
  refine ⟨o, ?_, hs⟩
  cases dim with
  | some k => obtain rfl := hd k rfl; exact ho
  | none =>
    have h := extract_tells g hm (ht.resolve_left fun h => h rfl)
    simp only [linear, h]
    exact ho

/-- C145 for `NonLinearGaussian` and its subclasses: likewise, where `dim` may be set by the class. Missing: covariances given as Python floats, which raise. -/
theorem C145_nonlinear_partial (chol : Chol) (g : Given n m) (hm : g.H = none → m = n) (dim : Option ℕ) (hd : ∀ k, dim = some k → k = n) (ht : dim ≠ none ∨ g.Tells) : ∃ o, nonlinear chol dim g.args = some o ∧ HoldsGiven chol g o :=
  C145_linear_partial chol g hm dim hd ht

/-- C145 for `Lorenz63` : three entries, with or without arguments. -/
theorem C145_lorenz63 (chol : Chol) (g : Given 3 m) (hm : g.H = none → m = 3) : ∃ o, lorenz63 chol g.args = some o ∧ HoldsGiven chol g o :=
  C145_nonlinear_partial chol g hm (some 3) (fun _ h => (Option.some.inj h).symm) (.inl (by simp))

/-- C145 for `Lorenz96` with its `dim` argument. Without it, see `C145_fails_lorenz96`. -/
theorem C145_lorenz96_partial (chol : Chol) (g : Given n m) (hm : g.H = none → m = n) : ∃ o, lorenz96 chol (some n) g.args = some o ∧ HoldsGiven chol g o :=
  C145_nonlinear_partial chol g hm (some n) (fun _ h => (Option.some.inj h).symm) (.inl (by simp))

/-! ## What is sampled -/

/-- C145, sampling from a `TimeHomogenousLinearGaussian`: states have `n` entries, observations `m`; with normal draws the initial law, the transition from any state and the observation of any state are the normal
distributions of the arguments, for all positive definite covariances. -/
theorem C145_linear_samples (chol : Chol) (hchol : ∀ n, IsCholesky (d := n) (chol n)) (g : Given n m) (o : Obj) (h : HoldsGiven chol g o) (hc : (g.cov.getD 1).PosDef) (hQ : (g.Q.getD 1).PosDef) (hR : (g.R.getD 1).PosDef) :
    (∃ s, (∀ z, initialSample o z = some (.vec (s (z n)))) ∧ (stdNormal n).map s = gauss (g.mean.getD 0) (g.cov.getD 1)) ∧
    (∀ x : Fin n → ℝ, ∃ s : (Fin n → ℝ) → Fin n → ℝ, (∀ z, transitionSample o x z = some (.vec (s (z n)))) ∧ (stdNormal n).map s = gauss (g.F.getD 1 *ᵥ x) (g.Q.getD 1)) ∧
    (∀ x : Fin n → ℝ, ∃ s : (Fin m → ℝ) → Fin m → ℝ, (∀ z, likelihoodSample o x z = some (.vec (s (z m)))) ∧ (stdNormal m).map s = gauss (g.obs *ᵥ x) (g.R.getD 1)) := by
  refine ⟨⟨sampleLeft (chol n (g.cov.getD 1)) (g.mean.getD 0), fun z => ?_, C27_sample_linear _ (hchol n) _ hc _⟩,
    fun x => ⟨sampleLeft (chol n (g.Q.getD 1)) (g.F.getD 1 *ᵥ x), fun z => ?_, C27_sample_linear _ (hchol n) _ hQ _⟩,
    fun x => ⟨sampleLeft (chol m (g.R.getD 1)) (g.obs *ᵥ x), fun z => ?_, C27_sample_linear _ (hchol m) _ hR _⟩⟩
  · have := h.dim
    subst this
    simp [initialSample, h.mean, h.covSqrt, matmul, SsmConstruct.add, sampleLeft]
    rfl
  · simp [transitionSample, h.F, h.QSqrt, matmul, SsmConstruct.add, SsmConstruct.reshape, sampleLeft, add_comm]
    rfl
  · simp [likelihoodSample, h.H, h.RSqrt, matmul, SsmConstruct.add, rows, sampleLeft, add_comm]
    rfl

/-- C145, sampling from a `NonLinearGaussian`: the initial law and the observations are those of the arguments, and the transition is normal about `transition_function` of the state. Missing: the covariance of
the transition is `LᵀL` for the Cholesky factor `L` of the covariance given, not the covariance `LLᵀ` itself (`C27_violated`). -/
theorem C145_nonlinear_samples_partial (chol : Chol) (hchol : ∀ n, IsCholesky (d := n) (chol n)) (g : Given n m) (o : Obj) (h : HoldsGiven chol g o) (hc : (g.cov.getD 1).PosDef) (hQ : (g.Q.getD 1).PosDef) (hR : (g.R.getD 1).PosDef) :
    (∃ s, (∀ z, nlInitialSample o z = some (.vec (s (z n)))) ∧ (stdNormal n).map s = gauss (g.mean.getD 0) (g.cov.getD 1)) ∧
    (∀ (f : {n : ℕ} → (Fin n → ℝ) → Fin n → ℝ) (x : Fin n → ℝ), ∃ s : (Fin n → ℝ) → Fin n → ℝ, (∀ z, nlTransitionSample o f x z = some (.vec (s (z n)))) ∧
      (stdNormal n).map s = gauss (f x) ((chol n (g.Q.getD 1))ᵀ * chol n (g.Q.getD 1))) ∧
    (∀ x : Fin n → ℝ, ∃ s : (Fin m → ℝ) → Fin m → ℝ, (∀ z, nlLikelihoodSample o x z = some (.vec (s (z m)))) ∧ (stdNormal m).map s = gauss (g.obs *ᵥ x) (g.R.getD 1)) := by
  refine ⟨⟨sampleRightT (chol n (g.cov.getD 1)) (g.mean.getD 0), fun z => ?_, C27_sample_nonlinear _ (hchol n) _ hc _⟩,
    fun f x => ⟨sampleRight (chol n (g.Q.getD 1)) (f x), fun z => ?_, C27_sample_transition _ (hchol n) _ hQ _⟩,
    fun x => ⟨sampleRightT (chol m (g.R.getD 1)) (g.obs *ᵥ x), fun z => ?_, C27_sample_nonlinear _ (hchol m) _ hR _⟩⟩
  · have := h.dim
    subst this
    simp [nlInitialSample, h.mean, h.covSqrt, matmul, SsmConstruct.transpose, SsmConstruct.add, sampleRightT]
    rfl
  · simp [nlTransitionSample, h.QSqrt, matmul, SsmConstruct.add, sampleRight]
    rfl
  · simp [nlLikelihoodSample, h.H, h.RSqrt, matmul, SsmConstruct.transpose, SsmConstruct.add, rows, sampleRightT, add_comm]
    rw [← Matrix.vecMul_transpose]
    rfl

/-! ## Where it fails -/

/-- C145 fails for the transition matrix alone: it determines the dimension, but the constructor raises. -/
theorem C145_fails_transition_matrix (chol : Chol) (F : Matrix (Fin n) (Fin n) ℝ) : linear chol none { transMat := some (.mat F) } = none := rfl

/-- C145 fails for arguments that do not match: nothing is checked. With a transition matrix for `n` entries and an observation covariance for `m`, the model is built for states with `m` entries, and raises at the
first transition, if `m ≠ n`. -/
theorem C145_fails_mismatch (chol : Chol) (hmn : m ≠ n) (F : Matrix (Fin n) (Fin n) ℝ) (R : Matrix (Fin m) (Fin m) ℝ) :
    ∃ o, linear chol none { transMat := some (.mat F), likCov := some (.mat R) } = some o ∧ o.dim = m ∧ (∀ z, ∃ x : Fin m → ℝ, initialSample o z = some (.vec x)) ∧
      ∀ (x : Fin m → ℝ) z, transitionSample o x z = none := by
  refine ⟨⟨m, m, zeros m, eye m, .mat (chol m 1), .mat F, eye m, .mat (chol m 1), eye m, .mat R, .mat (chol m R)⟩, ?_, rfl, fun z => ?_, fun x z => ?_⟩
  · simp [linear, fill, extractDim, eye, covSqrt_mat, rows]
  · simp [initialSample, matmul, SsmConstruct.add, zeros]
  · simp [transitionSample, matmul, hmn]

/-- C145 fails for `Lorenz96` given an initial mean but no `dim`: the dimension is 40 whatever the arguments, and the first draw raises unless the mean has 40 entries or one. -/
theorem C145_fails_lorenz96 (chol : Chol) (mean : Fin n → ℝ) (h40 : n ≠ 40) (h1 : n ≠ 1) : ∃ o, lorenz96 chol none { initialMean := some (.vec mean) } = some o ∧ o.dim = 40 ∧ ∀ z, nlInitialSample o z = none := by
  refine ⟨⟨40, 40, .vec mean, eye 40, .mat (chol 40 1), eye 40, eye 40, .mat (chol 40 1), eye 40, eye 40, .mat (chol 40 1)⟩, ?_, rfl, fun z => ?_⟩
  · simp [lorenz96, nonlinear, fill, eye, covSqrt_mat, rows]
  · simp [nlInitialSample, matmul, SsmConstruct.transpose, SsmConstruct.add, h40, h1]

theorem null_diagonal (mean : Fin n → ℝ) {i k : Fin n} (hik : i ≠ k) : (volume : Measure (Fin n → ℝ)) {x | x i - mean i = x k - mean k} = 0 := by
  have h := Measure.addHaar_submodule (volume : Measure (Fin n → ℝ)) (LinearMap.ker (LinearMap.proj (R := ℝ) (φ := fun _ : Fin n => ℝ) i - LinearMap.proj k)) (fun h => by
    have h2 : (Pi.single i 1 : Fin n → ℝ) ∈ LinearMap.ker (LinearMap.proj (R := ℝ) (φ := fun _ : Fin n => ℝ) i - LinearMap.proj k) := by rw [h]; trivial
    simp [hik.symm] at h2)
  have e : {x : Fin n → ℝ | x i - mean i = x k - mean k} = (fun x => x - mean) ⁻¹' (LinearMap.ker (LinearMap.proj (R := ℝ) (φ := fun _ : Fin n => ℝ) i - LinearMap.proj k) : Set (Fin n → ℝ)) := by
    ext x
    simp [sub_eq_zero]
  simp only [sub_eq_add_neg] at e ⊢
  rw [e, measure_preimage_add_right]
  simpa only [sub_eq_add_neg] using h

/-- C145 fails for covariances given as vectors of variances, which the constructors accept: all entries of an initial draw are moved from the mean by the same number, so that, in two or more dimensions, the draw
is not normal with independent entries of those variances, nor with any invertible covariance at all. -/
theorem C145_fails_vector (chol : Chol) (mean v : Fin n → ℝ) {i k : Fin n} (hik : i ≠ k) :
    ∃ o s, linear chol none { initialMean := some (.vec mean), initialCov := some (.vec v) } = some o ∧ (∀ z, initialSample o z = some (.vec (s (z n))) ∧ nlInitialSample o z = some (.vec (s (z n)))) ∧ (∀ z i k, s z i - mean i = s z k - mean k) ∧
      ∀ C, (stdNormal n).map s ≠ gauss mean C := by
  refine ⟨⟨n, n, .vec mean, .vec v, .vec fun i => √(v i), eye n, eye n, .mat (chol n 1), eye n, eye n, .mat (chol n 1)⟩, fun z i => (∑ j, √(v j) * z j) + mean i, ?_, fun z => ⟨?_, ?_⟩, fun z i k => ?_, fun C hC => ?_⟩
  · have hv : covSqrt chol (.vec v) = some (.vec fun i => √(v i)) := rfl
    simp [linear, fill, extractDim, eye, covSqrt_mat, hv, rows]
  · simp [initialSample, matmul, SsmConstruct.add, dotProduct]
  · simp [nlInitialSample, matmul, SsmConstruct.transpose, SsmConstruct.add, dotProduct, mul_comm]
  · simp
  · have hms : MeasurableSet {x : Fin n → ℝ | x i - mean i = x k - mean k} := measurableSet_eq_fun (by fun_prop) (by fun_prop)
    have h1 : (stdNormal n).map (fun (z : Fin n → ℝ) i => (∑ j, √(v j) * z j) + mean i) {x | x i - mean i = x k - mean k} = 1 := by
      rw [Measure.map_apply (by fun_prop) hms]
      have : (fun (z : Fin n → ℝ) i => (∑ j, √(v j) * z j) + mean i) ⁻¹' {x | x i - mean i = x k - mean k} = Set.univ := by
        ext z; simp
      rw [this, measure_univ]
    rw [hC, gauss] at h1
    have h2 := withDensity_absolutelyContinuous (volume : Measure (Fin n → ℝ)) (fun x => ENNReal.ofReal (gaussDensity mean C x)) (null_diagonal mean hik)
    rw [h2] at h1
    exact zero_ne_one h1

/-- A Python float as a covariance, which `NonLinearGaussian` announces (`initial_covariance: float`), raises. -/
theorem C145_fails_float (chol : Chol) (dim : Option ℕ) (a : Args) (c : ℝ) (h : a.initialCov = some (.py c)) : nonlinear chol dim a = none := by
  have : ∀ k, fill chol k a = none := fun k => by simp [fill, h, covSqrt]
  unfold nonlinear
  cases dim with
  | some k => exact this k
  | none =>
    simp only
    cases extractDim [a.initialMean, a.initialCov, a.transCov, a.likMat, a.likCov] with
    | none => rfl
    | some k => exact this k

/-! ## Cases -/

/-- Two-dimensional states of which the sum is observed: only the observation matrix is given. -/
example (chol : Chol) : ∃ o, linear chol none (Given.args (n := 2) (m := 1) { H := some !![1, 1] }) = some o ∧ o.dim = 2 ∧ o.dimObs = 1 ∧ o.likCov = .mat (1 : Matrix (Fin 1) (Fin 1) ℝ) := by
  obtain ⟨o, h, hs⟩ := C145_linear_partial chol (n := 2) (m := 1) { H := some !![1, 1] } (by simp) none (by simp) (.inr (by simp [Given.Tells]))
  exact ⟨o, h, hs.dim, hs.dimObs, hs.R⟩

/-- And it samples: the state from the standard normal, the observation about the sum of the state's entries. -/
example (chol : Chol) (hchol : ∀ n, IsCholesky (d := n) (chol n)) : ∃ o, linear chol none (Given.args (n := 2) (m := 1) { H := some !![1, 1] }) = some o ∧
    ∃ s : (Fin 2 → ℝ) → Fin 2 → ℝ, (∀ z, initialSample o z = some (.vec (s (z 2)))) ∧ (stdNormal 2).map s = gauss 0 1 := by
  obtain ⟨o, h, hs⟩ := C145_linear_partial chol (n := 2) (m := 1) { H := some !![1, 1] } (by simp) none (by simp) (.inr (by simp [Given.Tells]))
  exact ⟨o, h, (C145_linear_samples chol hchol _ o hs Matrix.PosDef.one Matrix.PosDef.one Matrix.PosDef.one).1⟩

end Mocat.Props
