import Verif.Model.Kernels
import Mathlib.Analysis.SpecialFunctions.ExpDeriv
import Mathlib.Analysis.SpecialFunctions.Pow.Deriv
import Mathlib.Algebra.BigOperators.Field
import Mathlib.Tactic.Linarith
import Mathlib.Tactic.FieldSimp
import Mathlib.Tactic.NormNum
/-!
# C36, C37, C71, C72: kernels and their derivatives, kernelised Stein discrepancy
-/
namespace Mocat.Props
open Mocat.Kernels Matrix

variable {d : ℕ}

/-- Specification: `g x y i` is the partial derivative of `k` in the `i`-th coordinate of its first argument. -/
def IsGradX (k : (Fin d → ℝ) → (Fin d → ℝ) → ℝ) (g : (Fin d → ℝ) → (Fin d → ℝ) → Fin d → ℝ) : Prop :=
  ∀ x y i, HasDerivAt (fun t => k (Function.update x i t) y) (g x y i) (x i)

/-- Same in the second argument. -/
def IsGradY (k : (Fin d → ℝ) → (Fin d → ℝ) → ℝ) (g : (Fin d → ℝ) → (Fin d → ℝ) → Fin d → ℝ) : Prop :=
  ∀ x y i, HasDerivAt (fun t => k x (Function.update y i t)) (g x y i) (y i)

/-- `g x y i` is the mixed derivative in the `i`-th coordinates of both arguments, given the derivative `gy` in the second. -/
def IsMixed (gy g : (Fin d → ℝ) → (Fin d → ℝ) → Fin d → ℝ) : Prop :=
  ∀ x y i, HasDerivAt (fun t => gy (Function.update x i t) y i) (g x y i) (x i)

theorem quad_deriv_x (h x y : Fin d → ℝ) (i : Fin d) (c : ℝ) :
    HasDerivAt (fun t => c + 0.5 * ∑ j, ((Function.update x i t j - y j) / h j) ^ 2)
      ((x i - y i) / h i ^ 2) (x i) := by
  have h1 : ∀ t, ∑ j, ((Function.update x i t j - y j) / h j) ^ 2
      = ((t - y i) / h i) ^ 2 + ∑ j ∈ Finset.univ.erase i, ((x j - y j) / h j) ^ 2 := by
    intro t
    rw [← Finset.add_sum_erase _ _ (Finset.mem_univ i), Function.update_self]
    congr 1
    exact Finset.sum_congr rfl fun j hj => by rw [Function.update_of_ne (Finset.ne_of_mem_erase hj)]
  simp_rw [h1]
  have h2 : HasDerivAt (fun t => (t - y i) / h i) (1 / h i) (x i) := ((hasDerivAt_id (x i)).sub_const (y i)).div_const (h i)
  have h3 := (((h2.pow 2).add_const (∑ j ∈ Finset.univ.erase i, ((x j - y j) / h j) ^ 2)).const_mul (0.5 : ℝ)).const_add c
  refine h3.congr_deriv ?_
  by_cases hh : h i = 0
  · simp [hh]
  · norm_num; field_simp

theorem quad_deriv_y (h x y : Fin d → ℝ) (i : Fin d) (c : ℝ) :
    HasDerivAt (fun t => c + 0.5 * ∑ j, ((x j - Function.update y i t j) / h j) ^ 2)
      (-((x i - y i) / h i ^ 2)) (y i) := by
  have h1 : ∀ t, ∑ j, ((x j - Function.update y i t j) / h j) ^ 2
      = ∑ j, ((Function.update y i t j - x j) / h j) ^ 2 := fun t =>
    Finset.sum_congr rfl fun j _ => by rw [← neg_sub, neg_div, neg_sq]
  simp_rw [h1]
  refine (quad_deriv_x h y x i c).congr_deriv ?_
  rw [← neg_div, neg_sub]

/-! ## C36 -/

theorem gaussian_call_eq (h : Fin d → ℝ) (x y : Fin d → ℝ) :
    (gaussian h).call x y = Real.exp (-(0 + 0.5 * ∑ i, ((x i - y i) / h i) ^ 2)) := by
  simp only [gaussian]; congr 1; ring

/-- C36: `grad_x` is the derivative in the first argument. -/
theorem C36_gradX (h : Fin d → ℝ) : IsGradX (gaussian h).call (gaussian h).gradX := by
  intro x y i
  simp_rw [gaussian_call_eq]
  refine (quad_deriv_x h x y i 0).neg.exp.congr_deriv ?_
  simp only [Pi.neg_apply]
  rw [Function.update_eq_self, ← gaussian_call_eq]
  simp only [gaussian]; ring

/-- C36: `grad_y` is the derivative in the second argument. -/
theorem C36_gradY (h : Fin d → ℝ) : IsGradY (gaussian h).call (gaussian h).gradY := by
  intro x y i
  simp_rw [gaussian_call_eq]
  refine (quad_deriv_y h x y i 0).neg.exp.congr_deriv ?_
  simp only [Pi.neg_apply]
  rw [Function.update_eq_self, ← gaussian_call_eq]
  simp only [gaussian]; ring

/-- C36: `diag_grad_xy` is the mixed derivative, for all non-zero bandwidths. -/
theorem C36_diagGradXY (h : Fin d → ℝ) (hh : ∀ i, h i ≠ 0) : IsMixed (gaussian h).gradY (gaussian h).diagGradXY := by
  intro x y i
  have h1 := C36_gradX h x y i
  have h2 : HasDerivAt (fun t => Function.update x i t i - y i) 1 (x i) := by
    simp only [Function.update_self]
    exact (hasDerivAt_id (x i)).sub_const (y i)
  have h3 := (h2.mul h1).div_const (h i ^ 2)
  have e : (fun t => (gaussian h).gradY (Function.update x i t) y i)
      = fun t => (Function.update x i t i - y i) * (gaussian h).call (Function.update x i t) y / h i ^ 2 := rfl
  rw [e]
  refine h3.congr_deriv ?_
  rw [Function.update_eq_self]
  have := hh i
  simp only [gaussian]
  field_simp
  ring

/-- C36: symmetric, at most 1, positive, and 1 on the diagonal. -/
theorem C36_values (h : Fin d → ℝ) (x y : Fin d → ℝ) :
    (gaussian h).call x y = (gaussian h).call y x ∧ 0 < (gaussian h).call x y ∧ (gaussian h).call x y ≤ 1 ∧
    (gaussian h).call x x = 1 := by
  refine ⟨?_, Real.exp_pos _, ?_, ?_⟩
  · simp only [gaussian]
    congr 2
    exact Finset.sum_congr rfl fun i _ => by rw [← neg_sub, neg_div, neg_sq]
  · simp only [gaussian]
    apply Real.exp_le_one_iff.2
    have : 0 ≤ ∑ i, ((x i - y i) / h i) ^ 2 := Finset.sum_nonneg fun i _ => sq_nonneg _
    linarith
  · simp [gaussian]

/-- C36: it is 1 only on the diagonal. -/
theorem C36_separates (h : Fin d → ℝ) (hh : ∀ i, h i ≠ 0) (x y : Fin d → ℝ) :
    (gaussian h).call x y = 1 ↔ x = y := by
  constructor
  · intro h1
    simp only [gaussian, Real.exp_eq_one_iff] at h1
    have h2 : ∑ i, ((x i - y i) / h i) ^ 2 = 0 := by linarith
    funext i
    have h3 := (Finset.sum_eq_zero_iff_of_nonneg (fun i _ => sq_nonneg _)).1 h2 i (Finset.mem_univ i)
    have h4 := pow_eq_zero_iff two_ne_zero |>.1 h3
    have := (div_eq_zero_iff.1 h4).resolve_right (hh i)
    linarith
  · rintro rfl; simp [gaussian]

/-! ## C37 -/

theorem imqBase_pos (c : ℝ) (hc : 0 < c) (h x y : Fin d → ℝ) : 0 < imqBase c h x y := by
  have : 0 ≤ ∑ i, ((x i - y i) / h i) ^ 2 := Finset.sum_nonneg fun i _ => sq_nonneg _
  unfold imqBase; linarith

/-- C37: `grad_y` is the derivative in the second argument, for `c > 0`. -/
theorem C37_gradY (c beta : ℝ) (hc : 0 < c) (h : Fin d → ℝ) : IsGradY (imq c beta h).call (imq c beta h).gradY := by
  intro x y i
  have hb := imqBase_pos c hc h x y
  have h1 := quad_deriv_y h x y i c
  have h2 := h1.rpow_const (p := beta) (Or.inl (by rw [Function.update_eq_self]; exact hb.ne'))
  refine h2.congr_deriv ?_
  rw [Function.update_eq_self]
  simp only [imq, imqBase]; ring

/-- C37: the derivative in the first argument is `grad_x` divided by the bandwidth. -/
theorem C37_gradX_scaled (c beta : ℝ) (hc : 0 < c) (h : Fin d → ℝ) :
    IsGradX (imq c beta h).call fun x y i => (imq c beta h).gradX x y i / h i := by
  intro x y i
  have hb := imqBase_pos c hc h x y
  have h1 := quad_deriv_x h x y i c
  have h2 := h1.rpow_const (p := beta) (Or.inl (by rw [Function.update_eq_self]; exact hb.ne'))
  refine h2.congr_deriv ?_
  rw [Function.update_eq_self]
  simp only [imq, imqBase]; ring

/-- C37, what holds: with bandwidth 1 `grad_x` is the derivative. -/
theorem C37_gradX_partial (c beta : ℝ) (hc : 0 < c) :
    IsGradX (imq c beta (fun _ : Fin d => 1)).call (imq c beta (fun _ : Fin d => 1)).gradX := by
  have := C37_gradX_scaled c beta hc (fun _ : Fin d => 1)
  simpa using this

/-- C37, what fails: with bandwidth 2 (default `c`, `beta`) it is not, already in one dimension. -/
theorem C37_gradX_wrong : ¬ IsGradX (imq 1 (-0.5) (fun _ : Fin 1 => 2)).call (imq 1 (-0.5) (fun _ : Fin 1 => 2)).gradX := by
  intro hbad
  have h1 := C37_gradX_scaled 1 (-0.5) one_pos (fun _ : Fin 1 => (2 : ℝ)) (fun _ => 2) (fun _ => 0) 0
  have h2 := hbad (fun _ => 2) (fun _ => 0) 0
  have := h1.unique h2
  have hb := imqBase_pos 1 one_pos (fun _ : Fin 1 => (2 : ℝ)) (fun _ => 2) (fun _ => 0)
  have hp := Real.rpow_pos_of_pos hb (-0.5 - 1)
  simp only [imq] at this
  norm_num at this hp
  linarith

/-- The true mixed derivative. -/
noncomputable def imqMixed (c beta : ℝ) (h x y : Fin d → ℝ) (i : Fin d) : ℝ :=
  (-beta * imqBase c h x y ^ (beta - 1)
    - beta * (beta - 1) * ((x i - y i) / h i) ^ 2 * imqBase c h x y ^ (beta - 2)) / h i ^ 2

theorem imqMixed_isMixed (c beta : ℝ) (hc : 0 < c) (h : Fin d → ℝ) : IsMixed (imq c beta h).gradY (imqMixed c beta h) := by
  intro x y i
  have hb := imqBase_pos c hc h x y
  have h1 := quad_deriv_x h x y i c
  have h2 := h1.rpow_const (p := beta - 1) (Or.inl (by rw [Function.update_eq_self]; exact hb.ne'))
  have h3 : HasDerivAt (fun t => -((Function.update x i t i - y i) / h i) / h i * beta) (-(1 / h i) / h i * beta) (x i) := by
    simp only [Function.update_self]
    exact (((((hasDerivAt_id (x i)).sub_const (y i)).div_const (h i)).neg).div_const (h i)).mul_const beta
  have h4 := h3.mul h2
  have e : (fun t => (imq c beta h).gradY (Function.update x i t) y i)
      = fun t => (-((Function.update x i t i - y i) / h i) / h i * beta) *
        (c + 0.5 * ∑ j, ((Function.update x i t j - y j) / h j) ^ 2) ^ (beta - 1) := rfl
  rw [e]
  refine h4.congr_deriv ?_
  rw [Function.update_eq_self, show beta - 1 - 1 = beta - 2 by ring]
  simp only [imqMixed, imqBase]
  by_cases hh : h i = 0
  · simp [hh]
  · field_simp; ring

/-- C37, what holds: `diag_grad_xy` is the mixed derivative wherever the two points agree in that coordinate. -/
theorem C37_diagGradXY_partial (c beta : ℝ) (hc : 0 < c) (h x y : Fin d → ℝ) (i : Fin d) (hxy : x i = y i) :
    HasDerivAt (fun t => (imq c beta h).gradY (Function.update x i t) y i) ((imq c beta h).diagGradXY x y i) (x i) := by
  refine (imqMixed_isMixed c beta hc h x y i).congr_deriv ?_
  simp [imqMixed, imq, hxy]

/-- C37, what fails: elsewhere it is not (sign of the second term), for every `beta` other than 0 and 1, all bandwidths,
`c > 0` and all points that differ in the coordinate. -/
theorem C37_diagGradXY_wrong (c beta : ℝ) (hc : 0 < c) (hb0 : beta ≠ 0) (hb1 : beta ≠ 1) (h x y : Fin d → ℝ) (i : Fin d)
    (hh : h i ≠ 0) (hxy : x i ≠ y i) :
    ¬ HasDerivAt (fun t => (imq c beta h).gradY (Function.update x i t) y i) ((imq c beta h).diagGradXY x y i) (x i) := by
  intro hbad
  have := (imqMixed_isMixed c beta hc h x y i).unique hbad
  have hp := (Real.rpow_pos_of_pos (imqBase_pos c hc h x y) (beta - 2)).ne'
  simp only [imqMixed, imq] at this
  rw [div_left_inj' (pow_ne_zero 2 hh)] at this
  have h0 : beta * (beta - 1) * ((x i - y i) / h i) ^ 2 * imqBase c h x y ^ (beta - 2) = 0 := by linarith
  have h1 : (x i - y i) / h i ≠ 0 := div_ne_zero (sub_ne_zero.2 hxy) hh
  exact mul_ne_zero (mul_ne_zero (mul_ne_zero hb0 (sub_ne_zero.2 hb1)) (pow_ne_zero 2 h1)) hp h0

/-- C37: symmetric and positive for `c > 0`. -/
theorem C37_values (c beta : ℝ) (hc : 0 < c) (h x y : Fin d → ℝ) :
    (imq c beta h).call x y = (imq c beta h).call y x ∧ 0 < (imq c beta h).call x y := by
  refine ⟨?_, Real.rpow_pos_of_pos (imqBase_pos c hc h x y) beta⟩
  simp only [imq, imqBase]
  congr 3
  exact Finset.sum_congr rfl fun i _ => by rw [← neg_sub, neg_div, neg_sq]

/-! ## C71 -/

theorem prec_quad (P : Matrix (Fin d) (Fin d) ℝ) (hP : Pᵀ = P) (h : ℝ) (x y : Fin d → ℝ) (i : Fin d) :
    HasDerivAt (fun t => ((fun j => (Function.update x i t j - y j) / h) ᵥ* P ⬝ᵥ fun j => (Function.update x i t j - y j) / h))
      (2 * (P *ᵥ fun j => x j - y j) i / h ^ 2) (x i) := by
  have hv : ∀ j, HasDerivAt (fun t => (Function.update x i t j - y j) / h) (if j = i then 1 / h else 0) (x i) := by
    intro j
    by_cases hj : j = i
    · subst hj
      simp only [Function.update_self, if_true]
      exact ((hasDerivAt_id (x j)).sub_const (y j)).div_const h
    · simp only [Function.update_of_ne hj, if_neg hj]
      exact hasDerivAt_const _ _
  have h1 : HasDerivAt (fun t => ∑ k, (∑ j, ((Function.update x i t j - y j) / h) * P j k) * ((Function.update x i t k - y k) / h))
      (∑ k, ((∑ j, (if j = i then 1 / h else 0) * P j k) * ((Function.update x i (x i) k - y k) / h)
        + (∑ j, ((Function.update x i (x i) j - y j) / h) * P j k) * (if k = i then 1 / h else 0))) (x i) := by
    refine HasDerivAt.fun_sum fun k _ => ?_
    exact (HasDerivAt.fun_sum fun j _ => (hv j).mul_const (P j k)).mul (hv k)
  have e : (fun t => ((fun j => (Function.update x i t j - y j) / h) ᵥ* P ⬝ᵥ fun j => (Function.update x i t j - y j) / h))
      = fun t => ∑ k, (∑ j, ((Function.update x i t j - y j) / h) * P j k) * ((Function.update x i t k - y k) / h) := rfl
  rw [e]
  refine h1.congr_deriv ?_
  have hs : ∀ a b, P a b = P b a := fun a b => congrFun (congrFun hP b) a
  rw [Function.update_eq_self, Finset.sum_add_distrib]
  simp only [ite_mul, zero_mul, mul_ite, mul_zero, Finset.sum_ite_eq', Finset.mem_univ, if_true, mulVec, dotProduct]
  rw [Finset.sum_mul, ← Finset.sum_add_distrib, Finset.mul_sum, Finset.sum_div]
  refine Finset.sum_congr rfl fun j _ => ?_
  rw [hs j i]
  by_cases hh : h = 0
  · simp [hh]
  · field_simp; ring

/-- C71: for a symmetric precision matrix `grad_x` is the derivative in the first argument. -/
theorem C71_gradX (P : Matrix (Fin d) (Fin d) ℝ) (hP : Pᵀ = P) (h : ℝ) : IsGradX (precCall h P) (precGradX h P) := by
  intro x y i
  refine ((prec_quad P hP h x y i).const_mul (-0.5 : ℝ)).exp.congr_deriv ?_
  rw [Function.update_eq_self]
  have : (fun j => y j - x j) = -fun j => x j - y j := by funext j; simp
  simp only [precGradX, precCall, this, mulVec_neg, Pi.neg_apply]
  ring

/-- C71: `grad_y` is minus `grad_x`, and the kernel is symmetric, so it is the derivative in the second argument. -/
theorem C71_gradY (P : Matrix (Fin d) (Fin d) ℝ) (hP : Pᵀ = P) (h : ℝ) : IsGradY (precCall h P) (precGradY h P) := by
  intro x y i
  have hsymm : ∀ a b, precCall h P a b = precCall h P b a := by
    intro a b
    have : (fun j => (a j - b j) / h) = -fun j => (b j - a j) / h := by
      funext j; simp only [Pi.neg_apply]; rw [← neg_div, neg_sub]
    simp only [precCall, this, neg_vecMul, neg_dotProduct_neg]
  have := C71_gradX P hP h y x i
  simp_rw [hsymm _ x] at this
  refine this.congr_deriv ?_
  simp only [precGradX, precGradY]
  rw [hsymm]

/-- C71, what holds: in one dimension `diag_grad_xy` (a 1×1 matrix) is the mixed derivative. -/
theorem C71_diag_partial (p h : ℝ) (hh : h ≠ 0) (x y : Fin 1 → ℝ) :
    HasDerivAt (fun t => precGradY h (Matrix.of fun _ _ : Fin 1 => p) (Function.update x 0 t) y 0)
      (precDiagGradXY h (Matrix.of fun _ _ : Fin 1 => p) x y 0 0) (x 0) := by
  have hP : (Matrix.of fun _ _ : Fin 1 => p)ᵀ = Matrix.of fun _ _ : Fin 1 => p := rfl
  have h1 := C71_gradX _ hP h x y 0
  have h2 : HasDerivAt (fun t => p * (t - y 0) / h ^ 2) (p / h ^ 2) (x 0) := by
    have := (((hasDerivAt_id (x 0)).sub_const (y 0)).const_mul p).div_const (h ^ 2)
    simpa using this
  have h3 := h2.mul h1
  have e : (fun t => precGradY h (Matrix.of fun _ _ : Fin 1 => p) (Function.update x 0 t) y 0)
      = fun t => p * (t - y 0) / h ^ 2 * precCall h (Matrix.of fun _ _ : Fin 1 => p) (Function.update x 0 t) y := by
    funext t
    simp [precGradY, mulVec, dotProduct]
  rw [e]
  refine h3.congr_deriv ?_
  rw [Function.update_eq_self]
  simp only [precGradX, precDiagGradXY, mulVec, dotProduct, Finset.univ_unique, Fin.default_eq_zero, Finset.sum_singleton,
    Matrix.smul_apply, Matrix.mul_apply, Matrix.of_apply, smul_eq_mul]
  field_simp
  ring

/-- C71, what fails: in dimension 2 with identity precision and bandwidth 1 at equal points, the entries of `diag_grad_xy` sum to 4, where
the sum of the mixed derivatives (the trace) is 2. -/
theorem C71_diag_wrong (x : Fin 2 → ℝ) :
    ∑ i, ∑ j, precDiagGradXY 1 (1 : Matrix (Fin 2) (Fin 2) ℝ) x x i j = 4 ∧
    ∀ i, HasDerivAt (fun t => precGradY 1 (1 : Matrix (Fin 2) (Fin 2) ℝ) (Function.update x i t) x i) 1 (x i) := by
  constructor
  · simp [precDiagGradXY, precCall]; norm_num
  · intro i
    have h1 := C71_gradX (1 : Matrix (Fin 2) (Fin 2) ℝ) transpose_one 1 x x i
    have h2 : HasDerivAt (fun t => t - x i) 1 (x i) := (hasDerivAt_id (x i)).sub_const (x i)
    have h3 := h2.mul h1
    have e : (fun t => precGradY 1 (1 : Matrix (Fin 2) (Fin 2) ℝ) (Function.update x i t) x i)
        = fun t => (t - x i) * precCall 1 (1 : Matrix (Fin 2) (Fin 2) ℝ) (Function.update x i t) x := by
      funext t; simp [precGradY]
    rw [e]
    refine h3.congr_deriv ?_
    simp [precCall]

/-! ## C72 -/

/-- C72: multiplying all weights by a positive constant, i.e. shifting the log weights, does not change the discrepancy,
for any kernel and any batches. -/
theorem C72_shift {n : ℕ} (k : Kernel d) (vals grads : Fin n → Fin d → ℝ) (lw : Fin n → ℝ) (c : ℝ)
    (batch : Fin n → List (Fin n)) :
    ksd k vals grads (ksdWeights (some fun i => lw i + c)) batch = ksd k vals grads (ksdWeights (some lw)) batch := by
  simp only [ksd, ksdSum, ksdWeights, Real.exp_add]
  congr 1
  refine Finset.sum_congr rfl fun i _ => ?_
  congr 1
  refine List.map_congr_left fun j _ => ?_
  have h1 : ((batch i).map fun i => Real.exp (lw i) * Real.exp c).sum
      = ((batch i).map fun i => Real.exp (lw i)).sum * Real.exp c := by
    rw [List.sum_map_mul_right]
  rw [h1, ← Finset.sum_mul]
  have hc := (Real.exp_pos c).ne'
  rw [show steinKernel k (vals i) (vals j) (grads i) (grads j) * (Real.exp (lw i) * Real.exp c) * (Real.exp (lw j) * Real.exp c)
      = (steinKernel k (vals i) (vals j) (grads i) (grads j) * Real.exp (lw i) * Real.exp (lw j)) * (Real.exp c * Real.exp c) by ring,
    show (∑ i, Real.exp (lw i)) * Real.exp c * (((batch i).map fun i => Real.exp (lw i)).sum * Real.exp c)
      = ((∑ i, Real.exp (lw i)) * ((batch i).map fun i => Real.exp (lw i)).sum) * (Real.exp c * Real.exp c) by ring,
    mul_div_mul_right _ _ (mul_ne_zero hc hc)]

/-- C72: equal log weights give the unweighted discrepancy. -/
theorem C72_equal {n : ℕ} (k : Kernel d) (vals grads : Fin n → Fin d → ℝ) (c : ℝ) (batch : Fin n → List (Fin n)) :
    ksd k vals grads (ksdWeights (some fun _ => c)) batch = ksd k vals grads (ksdWeights none) batch := by
  have := C72_shift k vals grads (fun _ => 0) c batch
  simp only [zero_add] at this
  rw [this]
  congr 1
  funext i
  simp [ksdWeights]

theorem ksdSum_full {n : ℕ} (k : Kernel d) (vals grads : Fin n → Fin d → ℝ) (w : Fin n → ℝ) :
    ksdSum k vals grads w (fun _ => List.finRange n)
      = (∑ i, ∑ j, w i * w j * steinKernel k (vals i) (vals j) (grads i) (grads j)) / (∑ i, w i) ^ 2 := by
  simp only [ksdSum]
  rw [Finset.sum_div]
  refine Finset.sum_congr rfl fun i _ => ?_
  rw [← List.ofFn_eq_map, ← List.ofFn_eq_map, List.sum_ofFn, List.sum_ofFn, Finset.sum_div]
  exact Finset.sum_congr rfl fun j _ => by ring

/-- C72: without batches it is the square root of the weighted double average of the Stein kernel. -/
theorem C72_full_batch {n : ℕ} (k : Kernel d) (vals grads : Fin n → Fin d → ℝ) (w : Fin n → ℝ) :
    ksd k vals grads w (fun _ => List.finRange n)
      = Real.sqrt ((∑ i, ∑ j, w i * w j * steinKernel k (vals i) (vals j) (grads i) (grads j)) / (∑ i, w i) ^ 2) := by
  rw [ksd, ksdSum_full]

/-- C72: permuting the sample changes nothing (full batches). -/
theorem C72_perm {n : ℕ} (k : Kernel d) (vals grads : Fin n → Fin d → ℝ) (w : Fin n → ℝ) (σ : Equiv.Perm (Fin n)) :
    ksd k (vals ∘ σ) (grads ∘ σ) (w ∘ σ) (fun _ => List.finRange n) = ksd k vals grads w (fun _ => List.finRange n) := by
  rw [C72_full_batch, C72_full_batch]
  congr 2
  · rw [← Equiv.sum_comp σ fun i => ∑ j, w i * w j * steinKernel k (vals i) (vals j) (grads i) (grads j)]
    refine Finset.sum_congr rfl fun i _ => ?_
    exact Equiv.sum_comp σ fun j => w (σ i) * w j * steinKernel k (vals (σ i)) (vals j) (grads (σ i)) (grads j)
  · congr 1
    exact Equiv.sum_comp σ w

/-- Non-vacuity: one particle under a standard normal potential at the origin has squared discrepancy `d` (the trace term of the Stein kernel). -/
example : ksd (gaussian fun _ : Fin 3 => 1) (fun _ : Fin 1 => 0) (fun _ => 0) (ksdWeights none) (fun _ => List.finRange 1)
    = Real.sqrt 3 := by
  rw [C72_full_batch]
  simp [steinKernel, gaussian, ksdWeights]

end Mocat.Props
