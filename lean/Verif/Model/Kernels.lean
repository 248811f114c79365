import Mathlib.Analysis.SpecialFunctions.Pow.Real
import Mathlib.Data.Matrix.Mul
/-!
# Model of `mocat/src/kernels.py` and of `ksd` in `mocat/src/metrics.py` 88-130

Points are `Fin d → ℝ`. A bandwidth (float or array) is given as the vector it broadcasts to.
-/
namespace Mocat.Kernels
open Matrix

variable {d : ℕ}

/-- kernels.py 17-79, `Kernel` (after `_flex_params` has filled in the parameters). -/
structure Kernel (d : ℕ) where
  call : (Fin d → ℝ) → (Fin d → ℝ) → ℝ
  gradX : (Fin d → ℝ) → (Fin d → ℝ) → Fin d → ℝ
  gradY : (Fin d → ℝ) → (Fin d → ℝ) → Fin d → ℝ
  diagGradXY : (Fin d → ℝ) → (Fin d → ℝ) → Fin d → ℝ

/-- kernels.py 82-116, `Gaussian` -/
noncomputable def gaussian (bandwidth : Fin d → ℝ) : Kernel d :=
  let call := fun x y : Fin d → ℝ => Real.exp (-0.5 * ∑ i, ((x i - y i) / bandwidth i) ^ 2)
  { call := call
    gradX := fun x y i => (y i - x i) * call x y / bandwidth i ^ 2
    gradY := fun x y i => (x i - y i) * call x y / bandwidth i ^ 2
    diagGradXY := fun x y i => (bandwidth i ^ 2 - (x i - y i) ^ 2) * call x y / bandwidth i ^ 4 }

/-- kernels.py 130-137, `PreconditionedGaussian._call` (float bandwidth) -/
noncomputable def precCall (bandwidth : ℝ) (P : Matrix (Fin d) (Fin d) ℝ) (x y : Fin d → ℝ) : ℝ :=
  let diff := fun i => (x i - y i) / bandwidth
  Real.exp (-0.5 * (diff ᵥ* P ⬝ᵥ diff))

/-- kernels.py 139-145, `_grad_x` -/
noncomputable def precGradX (bandwidth : ℝ) (P : Matrix (Fin d) (Fin d) ℝ) (x y : Fin d → ℝ) (i : Fin d) : ℝ :=
  (P *ᵥ fun j => y j - x j) i / bandwidth ^ 2 * precCall bandwidth P x y

/-- kernels.py 147-153, `_grad_y` -/
noncomputable def precGradY (bandwidth : ℝ) (P : Matrix (Fin d) (Fin d) ℝ) (x y : Fin d → ℝ) (i : Fin d) : ℝ :=
  (P *ᵥ fun j => x j - y j) i / bandwidth ^ 2 * precCall bandwidth P x y

/-- kernels.py 155-162, `_diag_grad_xy`: `precision * diff ** 2` broadcasts along rows, so the result is a matrix. -/
noncomputable def precDiagGradXY (bandwidth : ℝ) (P : Matrix (Fin d) (Fin d) ℝ) (x y : Fin d → ℝ) :
    Matrix (Fin d) (Fin d) ℝ :=
  precCall bandwidth P x y •
    ((1 / bandwidth ^ 2) • P * Matrix.of fun i j => 1 - P i j * ((x j - y j) / bandwidth) ^ 2)

/-- `c + 0.5 * sum(square((x - y) / bandwidth))` -/
noncomputable def imqBase (c : ℝ) (bandwidth x y : Fin d → ℝ) : ℝ := c + 0.5 * ∑ i, ((x i - y i) / bandwidth i) ^ 2

/-- kernels.py 165-217, `IMQ` -/
noncomputable def imq (c beta : ℝ) (bandwidth : Fin d → ℝ) : Kernel d where
  call x y := imqBase c bandwidth x y ^ beta
  gradX x y i := (x i - y i) / bandwidth i * beta * imqBase c bandwidth x y ^ (beta - 1)
  gradY x y i := -((x i - y i) / bandwidth i) / bandwidth i * beta * imqBase c bandwidth x y ^ (beta - 1)
  diagGradXY x y i := (-beta * imqBase c bandwidth x y ^ (beta - 1)
    + beta * (beta - 1) * ((x i - y i) / bandwidth i) ^ 2 * imqBase c bandwidth x y ^ (beta - 2)) / bandwidth i ^ 2

/-- metrics.py 115-123, `k_0_inds`, without the weights. -/
noncomputable def steinKernel (k : Kernel d) (x y gx gy : Fin d → ℝ) : ℝ :=
  ∑ i, k.diagGradXY x y i + k.gradX x y ⬝ᵥ gy + gx ⬝ᵥ k.gradY x y + k.call x y * (gx ⬝ᵥ gy)

/-- metrics.py 88-130, the number under the square root in `ksd`. `batch i` are the batch indices of particle `i`: `arange n` without
a batch size, else row `i` of a random `(n, batchsize)` array. -/
noncomputable def ksdSum {n : ℕ} (k : Kernel d) (vals grads : Fin n → Fin d → ℝ) (weights : Fin n → ℝ)
    (batch : Fin n → List (Fin n)) : ℝ :=
  let sumWeights := ∑ i, weights i
  ∑ i, ((batch i).map fun j =>
    steinKernel k (vals i) (vals j) (grads i) (grads j) * weights i * weights j
      / (sumWeights * ((batch i).map weights).sum)).sum

/-- metrics.py 130, `ksd`. The root of a negative number is NaN in the code and 0 here: statements that need a valid root are about
`ksdSum`. -/
noncomputable def ksd {n : ℕ} (k : Kernel d) (vals grads : Fin n → Fin d → ℝ) (weights : Fin n → ℝ)
    (batch : Fin n → List (Fin n)) : ℝ :=
  Real.sqrt (ksdSum k vals grads weights batch)

/-- metrics.py 108-111: weights from log weights, or ones. -/
noncomputable def ksdWeights {n : ℕ} (logWeight : Option (Fin n → ℝ)) : Fin n → ℝ :=
  match logWeight with
  | none => fun _ => 1
  | some lw => fun i => Real.exp (lw i)

end Mocat.Kernels
