import Verif.Lemmas.MatGauss
/-!
# C26: `gaussian_potential`

The specification is Mathlib's normal density `gaussianPDFReal` (a product of them for diagonal precisions), and
integration against Lebesgue measure.
-/
namespace Mocat.Props
open Matrix MeasureTheory ProbabilityTheory Mocat.Gaussian Mocat.MatGauss
open scoped NNReal

variable {d : ℕ}

theorem log_gaussianPDFReal (m p x : ℝ) (hp : 0 < p) :
    Real.log (gaussianPDFReal m (Real.toNNReal p⁻¹) x)
      = -(0.5 * ((x - m) ^ 2 * p)) - (Real.log (2 * Real.pi) - Real.log p) / 2 := by
  have hv : ((Real.toNNReal p⁻¹ : ℝ≥0) : ℝ) = p⁻¹ := Real.coe_toNNReal _ (inv_nonneg.2 hp.le)
  have hpi : (0 : ℝ) < 2 * Real.pi := by positivity
  rw [gaussianPDFReal, hv, Real.log_mul (by positivity) (Real.exp_ne_zero _), Real.log_exp, Real.log_inv,
    Real.log_sqrt (by positivity), Real.log_mul hpi.ne' (by positivity), Real.log_inv]
  field_simp
  ring

/-- C26, diagonal precision: the potential is minus the log of the product of normal densities with means `mean i` and
variances `1 / p i`. -/
theorem C26_vector_density (x mean p : Fin d → ℝ) (hp : ∀ i, 0 < p i) :
    gaussianPotential x mean (.vec p) .none none
      = -Real.log (∏ i, gaussianPDFReal (mean i) (Real.toNNReal (p i)⁻¹) (x i)) := by
  have hne : ∀ i, gaussianPDFReal (mean i) (Real.toNNReal (p i)⁻¹) (x i) ≠ 0 := fun i =>
    (gaussianPDFReal_pos _ _ _ (by simpa using hp i)).ne'
  rw [Real.log_prod (fun i _ => hne i)]
  simp only [log_gaussianPDFReal _ _ _ (hp _)]
  simp only [gaussianPotential, defaultPrec, PArg.expand, defaultDet, negLogZ, mvGaussianPotentialDiag]
  rw [Real.log_prod (fun i _ => (hp i).ne'), Finset.mul_sum, Finset.sum_sub_distrib, ← Finset.sum_div,
    Finset.sum_sub_distrib]
  simp only [Finset.sum_neg_distrib, Finset.sum_const, Finset.card_univ, Fintype.card_fin, nsmul_eq_mul]
  ring

/-- C26: a float precision means that precision in every coordinate. -/
theorem C26_scalar (x mean : Fin d → ℝ) (c : ℝ) (detPrec : Option ℝ) :
    gaussianPotential x mean (.scalar c) .none detPrec = gaussianPotential x mean (.vec fun _ => c) .none detPrec ∧
    gaussianPotential x mean .none (.scalar c) detPrec = gaussianPotential x mean .none (.vec fun _ => c) detPrec :=
  ⟨rfl, rfl⟩

/-- C26: with neither precision nor root, the standard normal. -/
theorem C26_default (x mean : Fin d → ℝ) :
    gaussianPotential x mean .none .none none = -Real.log (∏ i, gaussianPDFReal (mean i) 1 (x i)) := by
  have := C26_vector_density x mean (fun _ => 1) (fun _ => one_pos)
  simp only [inv_one, Real.toNNReal_one] at this
  rw [← this]; rfl

/-- C26, diagonal root: same as the diagonal precision it is the root of (signs of the root do not matter). -/
theorem C26_vector_sqrt (x mean s p : Fin d → ℝ) (hp : ∀ i, s i ^ 2 = p i) (detPrec : Option ℝ) :
    gaussianPotential x mean .none (.vec s) detPrec = gaussianPotential x mean (.vec p) .none detPrec := by
  have h : (fun i => s i ^ 2) = p := funext hp
  cases detPrec with
  | some v => simp [gaussianPotential, defaultPrec, PArg.expand, defaultDet, h]
  | none =>
    simp only [gaussianPotential, defaultPrec, PArg.expand, defaultDet, h, ← Finset.prod_pow]

/-- C26, matrix root: same as the matrix precision `S Sᵀ`. -/
theorem C26_matrix_sqrt (x mean : Fin d → ℝ) (S P : Matrix (Fin d) (Fin d) ℝ) (hP : P = S * Sᵀ) (detPrec : Option ℝ) :
    gaussianPotential x mean .none (.mat S) detPrec = gaussianPotential x mean (.mat P) .none detPrec := by
  have h := sq_sum_eq_quad (x - mean) S
  cases detPrec <;>
    simp [gaussianPotential, defaultPrec, PArg.expand, defaultDet, vectorisedGaussianPotential, mvGaussianPotential, hP, h]

/-- C26: a diagonal matrix with its determinant is the same as the vector of its entries. -/
theorem C26_diagonal_matrix (x mean p : Fin d → ℝ) :
    gaussianPotential x mean (.mat (diagonal p)) .none (some (diagonal p).det)
      = gaussianPotential x mean (.vec p) .none none := by
  simp only [gaussianPotential, defaultPrec, PArg.expand, defaultDet, mvGaussianPotential, mvGaussianPotentialDiag,
    det_diagonal]
  congr 2
  simp only [vecMul_diagonal, dotProduct, Pi.sub_apply]
  exact Finset.sum_congr rfl fun i _ => by ring

/-- C26: without a determinant the full-matrix form is the same up to a constant (independent of the point and mean). -/
theorem C26_matrix_constant (P : Matrix (Fin d) (Fin d) ℝ) (det : ℝ) :
    ∃ c : ℝ, ∀ x mean : Fin d → ℝ,
      gaussianPotential x mean (.mat P) .none (some det) = gaussianPotential x mean (.mat P) .none none + c :=
  ⟨negLogZ d (some det), fun x mean => by
    simp [gaussianPotential, defaultPrec, PArg.expand, defaultDet, negLogZ]⟩

theorem std_integral : ∫ x : Fin d → ℝ, Real.exp (-(0.5 * ∑ i, x i ^ 2)) = (2 * Real.pi) ^ ((d : ℝ) / 2) := by
  have h : ∀ x : Fin d → ℝ, Real.exp (-(0.5 * ∑ i, x i ^ 2)) = ∏ i, Real.exp (-(1 / 2 : ℝ) * x i ^ 2) := by
    intro x
    rw [← Real.exp_sum, Finset.mul_sum, ← Finset.sum_neg_distrib]
    congr 1
    exact Finset.sum_congr rfl fun i _ => by ring
  simp only [h]
  rw [integral_fintype_prod_volume_eq_pow (fun x : ℝ => Real.exp (-(1 / 2 : ℝ) * x ^ 2)), integral_gaussian,
    Fintype.card_fin]
  have h2 : Real.pi / (1 / 2) = 2 * Real.pi := by ring
  rw [h2, Real.sqrt_eq_rpow, ← Real.rpow_natCast, ← Real.rpow_mul (by positivity)]
  congr 1; ring

/-- C26: with the determinant of the precision, the full-matrix potential is normalised, for every positive definite
precision and every dimension. -/
theorem C26_matrix_normalised (mean : Fin d → ℝ) (P : Matrix (Fin d) (Fin d) ℝ) (hP : P.PosDef) :
    ∫ x, Real.exp (-(gaussianPotential x mean (.mat P) .none (some P.det))) = 1 := by
  obtain ⟨S, hPS, hS⟩ := posDef_factor P hP
  have hdet : P.det = S.det ^ 2 := by rw [hPS, det_mul, det_transpose, pow_two]
  have hpot : ∀ x, Real.exp (-(gaussianPotential x mean (.mat P) .none (some P.det)))
      = ((2 * Real.pi) ^ ((d : ℝ) / 2))⁻¹ * |S.det| * Real.exp (-(0.5 * ∑ i, (((x - mean) ᵥ* S) i) ^ 2)) := by
    intro x
    have hpi : (0 : ℝ) < 2 * Real.pi := by positivity
    rw [sq_sum_eq_quad, ← hPS]
    simp only [gaussianPotential, defaultPrec, PArg.expand, defaultDet, mvGaussianPotential, negLogZ]
    rw [neg_add, Real.exp_add, mul_comm]
    congr 1
    rw [hdet, ← sq_abs, Real.log_pow, Real.rpow_def_of_pos hpi, ← Real.exp_neg,
      ← Real.exp_log (abs_pos.2 hS), ← Real.exp_add, Real.exp_log (abs_pos.2 hS)]
    congr 1
    push_cast
    ring
  simp only [hpot]
  rw [integral_const_mul, integral_linear S hS mean (fun y => Real.exp (-(0.5 * ∑ i, y i ^ 2))) (by fun_prop),
    std_integral]
  have h1 : |S.det| ≠ 0 := by simpa using hS
  have h2 : (2 * Real.pi) ^ ((d : ℝ) / 2) ≠ 0 := (Real.rpow_pos_of_pos (by positivity) _).ne'
  field_simp

/-- C26: every diagonal form is normalised. -/
theorem C26_vector_normalised (mean p : Fin d → ℝ) (hp : ∀ i, 0 < p i) :
    ∫ x, Real.exp (-(gaussianPotential x mean (.vec p) .none none)) = 1 := by
  have := C26_matrix_normalised mean (diagonal p) (PosDef.diagonal hp)
  simpa only [C26_diagonal_matrix] using this

/-- What `jnp.linalg.cholesky` is assumed to return: a factor of a positive definite matrix. -/
def IsCholesky (chol : Matrix (Fin d) (Fin d) ℝ → Matrix (Fin d) (Fin d) ℝ) : Prop :=
  ∀ P, P.PosDef → chol P * (chol P)ᵀ = P

/-- The `prec` / `sqrt_prec` arguments for which a batch can be evaluated: non-negative vectors, positive definite
matrices. -/
def Valid : PArg d → Prop
  | .none => True
  | .scalar c => 0 ≤ c
  | .vec p => ∀ i, 0 ≤ p i
  | .mat P => P.PosDef

/-- C26: the vectorised call equals the row-by-row calls, for every combination of arguments. -/
theorem C26_batch {n : ℕ} (chol) (hchol : IsCholesky (d := d) chol) (x : Fin n → Fin d → ℝ) (mean : Fin d → ℝ)
    (prec sqrtPrec : PArg d) (hv : Valid prec) (detPrec : Option ℝ) (k : Fin n) :
    gaussianPotentialBatch chol x mean prec sqrtPrec detPrec k = gaussianPotential (x k) mean prec sqrtPrec detPrec := by
  cases sqrtPrec with
  | scalar s => cases prec <;> rfl
  | vec s => cases prec <;> rfl
  | mat s => cases prec <;> rfl
  | none =>
    cases prec with
    | none => simp [gaussianPotentialBatch, gaussianPotential, defaultPrec, PArg.expand]
    | scalar c =>
      have hc : (0 : ℝ) ≤ c := hv
      simp [gaussianPotentialBatch, gaussianPotential, defaultPrec, PArg.expand, hc]
    | vec p =>
      have hc : ∀ i, (0 : ℝ) ≤ p i := hv
      simp [gaussianPotentialBatch, gaussianPotential, defaultPrec, PArg.expand, hc]
    | mat P =>
      have hc : P.PosDef := hv
      have := sq_sum_eq_quad (x k - mean) (chol P)
      rw [hchol P hc] at this
      simp [gaussianPotentialBatch, gaussianPotential, defaultPrec, PArg.expand, vectorisedGaussianPotential,
        mvGaussianPotential, this]

/-- Non-vacuity: the precision `[[2,1],[1,2]]` is positive definite, with root `[[√2,0],[1/√2,√(3/2)]]`; a Cholesky function
exists. -/
example : (!![2, 1; 1, 2] : Matrix (Fin 2) (Fin 2) ℝ).PosDef := by
  refine PosDef.of_dotProduct_mulVec_pos ?_ ?_
  · ext i j; fin_cases i <;> fin_cases j <;> simp [conjTranspose]
  · intro x hx
    simp only [dotProduct, mulVec, Fin.sum_univ_two, of_apply, cons_val', cons_val_fin_one, cons_val_zero, cons_val_one,
      Pi.star_apply, star_trivial]
    have : x 0 ≠ 0 ∨ x 1 ≠ 0 := by
      by_contra h
      push Not at h
      exact hx (by ext i; fin_cases i; exacts [h.1, h.2])
    rcases this with h | h
    · nlinarith [sq_pos_of_ne_zero h, sq_nonneg (x 0 + x 1), sq_nonneg (x 1)]
    · nlinarith [sq_pos_of_ne_zero h, sq_nonneg (x 0 + x 1), sq_nonneg (x 0)]

open Classical in
example : ∃ chol, IsCholesky (d := d) chol :=
  ⟨fun P => if h : P.PosDef then (posDef_factor P h).choose else 0, fun P hP => by
    simp only [dif_pos hP]; exact (posDef_factor P hP).choose_spec.1.symm⟩

end Mocat.Props
