import Verif.Spec.Gaussian
/-!
Specification: filtering and smoothing densities of a linear Gaussian state-space model
`x_0 ~ N(m₀, P₀)`, `x_{k+1} ~ N(F_k x_k, Q_k)`, `y_k ~ N(H_k x_k, R_k)`, by integrating the joint density over the other states.
-/
namespace Mocat.Spec
open Matrix MeasureTheory

variable {d e : ℕ}

/-- A linear Gaussian state-space model at the observed times. -/
structure LG (d e : ℕ) where
  m₀ : Fin d → ℝ
  P₀ : Matrix (Fin d) (Fin d) ℝ
  F : ℕ → Matrix (Fin d) (Fin d) ℝ
  Q : ℕ → Matrix (Fin d) (Fin d) ℝ
  H : ℕ → Matrix (Fin e) (Fin d) ℝ
  R : ℕ → Matrix (Fin e) (Fin e) ℝ

/-- All its covariances are positive definite. -/
structure LG.Proper (g : LG d e) : Prop where
  P₀ : g.P₀.PosDef
  Q : ∀ k, (g.Q k).PosDef
  R : ∀ k, (g.R k).PosDef

/-- `p(x_k, y_0, ..., y_k)` as a function of `x_k`: the earlier states are integrated out. -/
noncomputable def LG.forward (g : LG d e) (y : ℕ → Fin e → ℝ) : ℕ → (Fin d → ℝ) → ℝ
  | 0, x => gaussDensity g.m₀ g.P₀ x * gaussDensity (g.H 0 *ᵥ x) (g.R 0) (y 0)
  | k + 1, x => (∫ x', g.forward y k x' * gaussDensity (g.F k *ᵥ x') (g.Q k) x) * gaussDensity (g.H (k + 1) *ᵥ x) (g.R (k + 1)) (y (k + 1))

/-- `p(y_{k+1}, ..., y_{k+j} | x_k)`: the later states are integrated out. -/
noncomputable def LG.backward (g : LG d e) (y : ℕ → Fin e → ℝ) : ℕ → ℕ → (Fin d → ℝ) → ℝ
  | 0, _, _ => 1
  | j + 1, k, x => ∫ x', gaussDensity (g.F k *ᵥ x) (g.Q k) x' * gaussDensity (g.H (k + 1) *ᵥ x') (g.R (k + 1)) (y (k + 1)) * g.backward y j (k + 1) x'

/-- `p(x_k, y_0, ..., y_{T-1})` as a function of `x_k`. -/
noncomputable def LG.smoothing (g : LG d e) (y : ℕ → Fin e → ℝ) (T k : ℕ) (x : Fin d → ℝ) : ℝ :=
  g.forward y k x * g.backward y (T - 1 - k) k x

/-- `p(x_k, x_{k+1}, y_0, ..., y_{T-1})` as a function of the two states. -/
noncomputable def LG.smoothingPair (g : LG d e) (y : ℕ → Fin e → ℝ) (T k : ℕ) (x x' : Fin d → ℝ) : ℝ :=
  g.forward y k x * (gaussDensity (g.F k *ᵥ x) (g.Q k) x' * gaussDensity (g.H (k + 1) *ᵥ x') (g.R (k + 1)) (y (k + 1)) * g.backward y (T - 1 - (k + 1)) (k + 1) x')

/-- `E[(x_k)_i (x_{k+1})_j | y_0, ..., y_{T-1}]`. -/
noncomputable def LG.lagOne (g : LG d e) (y : ℕ → Fin e → ℝ) (T k : ℕ) (i j : Fin d) : ℝ :=
  (∫ x', ∫ x, x i * x' j * g.smoothingPair y T k x x') / ∫ x', ∫ x, g.smoothingPair y T k x x'

/-- `E[x_k | y_0, ..., y_k]`. -/
noncomputable def LG.filterMean (g : LG d e) (y : ℕ → Fin e → ℝ) (k : ℕ) : Fin d → ℝ :=
  fun i => (∫ x, x i * g.forward y k x) / ∫ x, g.forward y k x

/-- The covariance matrix of `x_k` given `y_0, ..., y_k`. -/
noncomputable def LG.filterCov (g : LG d e) (y : ℕ → Fin e → ℝ) (k : ℕ) : Matrix (Fin d) (Fin d) ℝ :=
  fun i j => (∫ x, x i * x j * g.forward y k x) / (∫ x, g.forward y k x) - g.filterMean y k i * g.filterMean y k j

end Mocat.Spec
