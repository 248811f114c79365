import Verif.Model.Bfgs
import Mathlib.LinearAlgebra.Matrix.SchurComplement
import Mathlib.LinearAlgebra.Matrix.NonsingularInverse
import Mathlib.Tactic.Module
import Mathlib.Tactic.FieldSimp
import Mathlib.Tactic.Linarith
/-! Matrix form of the BFGS products. -/
namespace Mocat.Bfgs
open Matrix

variable {d : ℕ}

/-- The factor `I - p qᵀ`. -/
def factor (pq : Vec d × Vec d) : Matrix (Fin d) (Fin d) ℝ := 1 - vecMulVec pq.1 pq.2

theorem factor_mulVec (pq : Vec d × Vec d) (c : Vec d) : factor pq *ᵥ c = c - (pq.2 ⬝ᵥ c) • pq.1 := by
  rw [factor, sub_mulVec, one_mulVec, vecMulVec_mulVec]
  simp

theorem factor_transpose (pq : Vec d × Vec d) : (factor pq)ᵀ = factor (pq.2, pq.1) := by
  simp [factor, transpose_sub, transpose_vecMulVec]

@[simp] theorem factor_zero : factor ((0, 0) : Vec d × Vec d) = 1 := by simp [factor]

theorem factor_det (pq : Vec d × Vec d) : (factor pq).det = 1 - pq.1 ⬝ᵥ pq.2 := by
  have := det_one_add_replicateCol_mul_replicateRow (ι := Unit) (-pq.1) pq.2
  rw [factor, sub_eq_add_neg, ← neg_vecMulVec, vecMulVec_eq Unit, this]
  simp [dotProduct_comm, sub_eq_add_neg]

/-- Product of the factors, the last pair leftmost. -/
def facs : List (Vec d × Vec d) → Matrix (Fin d) (Fin d) ℝ
  | [] => 1
  | pq :: l => facs l * factor pq

theorem facs_append (a b : List (Vec d × Vec d)) : facs (a ++ b) = facs b * facs a := by
  induction a with
  | nil => simp [facs]
  | cons x a ih => simp [facs, ih, Matrix.mul_assoc]

theorem facs_replicate_zero (n : ℕ) : facs (List.replicate n ((0, 0) : Vec d × Vec d)) = 1 := by
  induction n with
  | zero => rfl
  | succ n ih => rw [List.replicate_succ, facs, ih]; simp

theorem foldl_facs (l : List (Vec d × Vec d)) (c : Vec d) :
    l.foldl (fun c pq => c - (pq.2 ⬝ᵥ c) • pq.1) c = facs l *ᵥ c := by
  induction l generalizing c with
  | nil => simp [facs]
  | cons x l ih => rw [List.foldl_cons, ih, facs, ← mulVec_mulVec, factor_mulVec]

theorem foldl_facs_transpose (l : List (Vec d × Vec d)) (c : Vec d) :
    l.reverse.foldl (fun c pq => c - (pq.1 ⬝ᵥ c) • pq.2) c = (facs l)ᵀ *ᵥ c := by
  induction l generalizing c with
  | nil => simp [facs]
  | cons x l ih =>
    rw [List.reverse_cons, List.foldl_append, ih, List.foldl_cons, List.foldl_nil, facs, transpose_mul, ← mulVec_mulVec,
      factor_transpose, factor_mulVec]

/-- The matrix of `bfgs_sqrt_prod`. -/
def sqrtMat (pq : List (Vec d × Vec d)) (diag : Diag d) : Matrix (Fin d) (Fin d) ℝ := facs pq * diagonal diag.at

theorem sqrtProd_eq (pq : List (Vec d × Vec d)) (z : Vec d) (diag : Diag d) :
    sqrtProd pq z diag = sqrtMat pq diag *ᵥ z := by
  rw [sqrtProd, foldl_facs, sqrtMat, ← mulVec_mulVec]
  congr 1
  funext i; simp [mulVec_diagonal]

theorem sqrtTransposeProd_eq (pq : List (Vec d × Vec d)) (z : Vec d) (diag : Diag d) :
    sqrtTransposeProd pq z diag = (sqrtMat pq diag)ᵀ *ᵥ z := by
  rw [sqrtTransposeProd, foldl_facs_transpose, sqrtMat, transpose_mul, diagonal_transpose, ← mulVec_mulVec]
  funext i; simp [mulVec_diagonal]

theorem sqrtMat_det (pq : List (Vec d × Vec d)) (diag : Diag d) :
    (sqrtMat pq diag).det = (∏ i, diag.at i) * (pq.map fun pq => 1 - pq.1 ⬝ᵥ pq.2).prod := by
  have h : (facs pq).det = (pq.map fun pq => 1 - pq.1 ⬝ᵥ pq.2).prod := by
    induction pq with
    | nil => simp [facs]
    | cons x l ih => rw [facs, det_mul, ih, factor_det, List.map_cons, List.prod_cons, mul_comm]
  rw [sqrtMat, det_mul, det_diagonal, h, mul_comm]

theorem sqrtMat_pad (pq : List (Vec d × Vec d)) (n : ℕ) (diag : Diag d) :
    sqrtMat (pq ++ List.replicate n (0, 0)) diag = sqrtMat pq diag := by
  simp [sqrtMat, facs_append, facs_replicate_zero]

/-- The Hessian matrix of a list of `(u, t)`. -/
def hess (ut : List (Vec d × Vec d)) (diag : Diag d) : Matrix (Fin d) (Fin d) ℝ :=
  sqrtMat ut diag * (sqrtMat ut diag)ᵀ

theorem hess_transpose (ut : List (Vec d × Vec d)) (diag : Diag d) : (hess ut diag)ᵀ = hess ut diag := by
  simp [hess, transpose_mul]

theorem sqrtMat_snoc (l : List (Vec d × Vec d)) (x : Vec d × Vec d) (diag : Diag d) :
    sqrtMat (l ++ [x]) diag = factor x * sqrtMat l diag := by
  simp [sqrtMat, facs_append, facs, Matrix.mul_assoc]

theorem hess_snoc (l : List (Vec d × Vec d)) (x : Vec d × Vec d) (diag : Diag d) :
    hess (l ++ [x]) diag = factor x * hess l diag * (factor x)ᵀ := by
  simp [hess, sqrtMat_snoc, transpose_mul, Matrix.mul_assoc]

theorem quad_hess (ut : List (Vec d × Vec d)) (diag : Diag d) (z : Vec d) :
    z ⬝ᵥ (hess ut diag *ᵥ z) = ∑ i, ((sqrtMat ut diag)ᵀ *ᵥ z) i ^ 2 := by
  rw [hess, ← mulVec_mulVec, dotProduct_mulVec, ← mulVec_transpose]
  simp [dotProduct, pow_two]

/-- Algebra of one BFGS update: with `a = √(sBs / sy)`, `u = a y + B s`, `t = s / sBs`, `p = s / sy`, `q = B s / a + y`:
`(I - t uᵀ)(I - p qᵀ) = I`. -/
theorem factor_inverse (s y b : Vec d) (sy sB : ℝ) (hsy : 0 < sy) (hsB : 0 < sB) (h1 : s ⬝ᵥ y = sy) (h2 : s ⬝ᵥ b = sB) :
    factor ((1 / sB) • s, Real.sqrt (sB / sy) • y + b) * factor ((1 / sy) • s, Real.sqrt (sy / sB) • b + y) = 1 := by
  set a := Real.sqrt (sB / sy) with ha
  have hapos : 0 < a := Real.sqrt_pos.2 (div_pos hsB hsy)
  have ha2 : a ^ 2 = sB / sy := Real.sq_sqrt (div_pos hsB hsy).le
  have hinv : Real.sqrt (sy / sB) = a⁻¹ := by rw [ha, ← Real.sqrt_inv, inv_div]
  rw [hinv]
  have hup : (a • y + b) ⬝ᵥ ((1 / sy) • s) = a + a ^ 2 := by
    rw [dotProduct_smul, add_dotProduct, smul_dotProduct, dotProduct_comm y s, dotProduct_comm b s, h1, h2, ha2]
    simp only [smul_eq_mul]; field_simp
  have hp : (1 / sy) • s = a ^ 2 • ((1 / sB) • s) := by
    rw [ha2, smul_smul]; congr 1; field_simp
  have hq : a • (a⁻¹ • b + y) = a • y + b := by
    rw [smul_add, smul_smul, mul_inv_cancel₀ hapos.ne', one_smul, add_comm]
  simp only [factor]
  rw [Matrix.sub_mul, Matrix.mul_sub, Matrix.mul_sub, vecMulVec_mul_vecMulVec, hup, Matrix.mul_one, Matrix.mul_one,
    Matrix.one_mul, ← hq, hp]
  ext i j
  simp only [Matrix.sub_apply, vecMulVec_apply, Pi.smul_apply, Pi.add_apply, smul_eq_mul]
  field_simp
  ring

theorem pad_hess (uts : List (Vec d × Vec d)) (n : ℕ) (diag : Diag d) (s : Vec d) :
    sqrtProd (uts ++ List.replicate n (0, 0)) (sqrtTransposeProd (uts ++ List.replicate n (0, 0)) s diag) diag
      = hess uts diag *ᵥ s := by
  rw [sqrtTransposeProd_eq, sqrtProd_eq, sqrtMat_pad, mulVec_mulVec]; rfl

theorem bodyFun_used (diag : Diag d) (rInf : Prop) (uts : List (Vec d × Vec d)) (n : ℕ) (p : Pair d)
    (hu : Used rInf (p.s ⬝ᵥ (hess uts diag *ᵥ p.s)) (p.s ⬝ᵥ p.y) p.flag) :
    bodyFun diag rInf (uts ++ List.replicate n (0, 0)) p =
      { p := (1 / (p.s ⬝ᵥ p.y)) • p.s
        q := Real.sqrt ((p.s ⬝ᵥ p.y) / (p.s ⬝ᵥ (hess uts diag *ᵥ p.s))) • (hess uts diag *ᵥ p.s) + p.y
        u := Real.sqrt ((p.s ⬝ᵥ (hess uts diag *ᵥ p.s)) / (p.s ⬝ᵥ p.y)) • p.y + hess uts diag *ᵥ p.s
        t := (1 / (p.s ⬝ᵥ (hess uts diag *ᵥ p.s))) • p.s } := by
  unfold bodyFun
  dsimp only
  rw [pad_hess]
  exact if_pos hu

theorem bodyFun_skip (diag : Diag d) (rInf : Prop) (uts : List (Vec d × Vec d)) (n : ℕ) (p : Pair d)
    (hu : ¬ Used rInf (p.s ⬝ᵥ (hess uts diag *ᵥ p.s)) (p.s ⬝ᵥ p.y) p.flag) :
    bodyFun diag rInf (uts ++ List.replicate n (0, 0)) p = ⟨0, 0, 0, 0⟩ := by
  unfold bodyFun
  dsimp only
  rw [pad_hess]
  exact if_neg hu

end Mocat.Bfgs
