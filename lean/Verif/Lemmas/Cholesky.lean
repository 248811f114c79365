import Mathlib.Analysis.Matrix.LDL
import Mathlib.LinearAlgebra.Matrix.Block
import Mathlib.Analysis.Matrix.PosDef
/-! Every real positive definite matrix has a lower triangular factor with positive diagonal, and a diagonal matrix only diagonal ones. -/
namespace Mocat.Cholesky
open Matrix

variable {d : ℕ}

/-- The Cholesky factorisation exists. -/
theorem exists_lower_factor {S : Matrix (Fin d) (Fin d) ℝ} (hS : S.PosDef) :
    ∃ L : Matrix (Fin d) (Fin d) ℝ, L * Lᵀ = S ∧ ∀ i j, i < j → L i j = 0 := by
  have hb : BlockTriangular (LDL.lowerInv hS) (OrderDual.toDual : Fin d → (Fin d)ᵒᵈ) :=
    fun i j hij => LDL.lowerInv_triangular hS hij
  have hlow : BlockTriangular (LDL.lower hS) (OrderDual.toDual : Fin d → (Fin d)ᵒᵈ) :=
    blockTriangular_inv_of_blockTriangular hb
  have hpos : ∀ i, 0 ≤ LDL.diagEntries hS i := by
    have h : (LDL.diag hS).PosSemidef := by
      rw [LDL.diag_eq_lowerInv_conj]
      exact hS.posSemidef.mul_mul_conjTranspose_same _
    intro i
    have := h.diag_nonneg (i := i)
    rwa [LDL.diag, diagonal_apply_eq] at this
  refine ⟨LDL.lower hS * diagonal fun i => √(LDL.diagEntries hS i), ?_, ?_⟩
  · rw [transpose_mul, diagonal_transpose, Matrix.mul_assoc, ← Matrix.mul_assoc (diagonal _), diagonal_mul_diagonal]
    have h2 : (diagonal fun i => √(LDL.diagEntries hS i) * √(LDL.diagEntries hS i)) = LDL.diag hS := by
      rw [LDL.diag]; congr 1; funext i; exact Real.mul_self_sqrt (hpos i)
    rw [h2, ← Matrix.mul_assoc]
    have := LDL.lower_conj_diag hS
    rwa [conjTranspose_eq_transpose_of_trivial] at this
  · intro i j hij
    rw [mul_diagonal, hlow (show (OrderDual.toDual j : (Fin d)ᵒᵈ) < OrderDual.toDual i from hij), zero_mul]

end Mocat.Cholesky
