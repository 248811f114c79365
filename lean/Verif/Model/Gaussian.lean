import Mathlib.Analysis.SpecialFunctions.Log.Basic
import Mathlib.Analysis.SpecialFunctions.Pow.Real
import Mathlib.Analysis.Real.Pi.Bounds
import Mathlib.Data.Matrix.Mul
/-!
# Model of `mocat/src/utils.py` 25-105 (`gaussian_potential`)
-/
namespace Mocat.Gaussian
open Matrix

variable {d : ℕ}

/-- A `prec` / `sqrt_prec` argument of `gaussian_potential` (utils.py 51-52): `None`, a float (or 0-d
array), a 1-d array, or a 2-d array. -/
inductive PArg (d : ℕ) where
  | none
  | scalar (c : ℝ)
  | vec (v : Fin d → ℝ)
  | mat (m : Matrix (Fin d) (Fin d) ℝ)

/-- utils.py 61-65: floats are expanded to `jnp.ones(d) * prec`. -/
def PArg.expand : PArg d → PArg d
  | .scalar c => .vec fun _ => c
  | a => a

/-- utils.py 33-38, `_mv_gaussian_potential`. -/
noncomputable def mvGaussianPotential (x mean : Fin d → ℝ) (prec : Matrix (Fin d) (Fin d) ℝ) : ℝ :=
  let diff := x - mean
  0.5 * ((diff ᵥ* prec) ⬝ᵥ diff)

/-- utils.py 41-46, `_mv_gaussian_potential_diag` (one row of `x`). -/
noncomputable def mvGaussianPotentialDiag (x mean precDiag : Fin d → ℝ) : ℝ :=
  0.5 * ∑ i, (x i - mean i) ^ 2 * precDiag i

/-- utils.py 25-30, `_vectorised_gaussian_potential` (one row of `x`). -/
noncomputable def vectorisedGaussianPotential (x mean : Fin d → ℝ) (sqrtPrec : Matrix (Fin d) (Fin d) ℝ) : ℝ :=
  let diff := x - mean
  0.5 * ∑ i, ((diff ᵥ* sqrtPrec) i) ^ 2

/-- utils.py 58-59: with neither `prec` nor `sqrt_prec`, `prec = 1.` -/
def defaultPrec (prec sqrtPrec : PArg d) : PArg d :=
  match prec, sqrtPrec with
  | .none, .none => .scalar 1
  | p, _ => p

/-- utils.py 67-71: `det_prec` when not given. Arguments already expanded. -/
noncomputable def defaultDet (prec sqrtPrec : PArg d) (detPrec : Option ℝ) : Option ℝ :=
  match detPrec with
  | some v => some v
  | none =>
    match prec, sqrtPrec with
    | .vec p, _ => some (∏ i, p i)
    | _, .vec s => some ((∏ i, s i) ^ 2)
    | _, _ => none

/-- utils.py 73-79: `neg_log_z`. -/
noncomputable def negLogZ (d : ℕ) : Option ℝ → ℝ
  | none => 0
  | some det => (d * Real.log (2 * Real.pi) - Real.log det) / 2

/-- utils.py 49-105, `gaussian_potential` for a single point (`x.ndim == 1`, or a float in dimension 1:
line 55). `mean` floats are broadcast to a constant vector. Not modelled: Python ints as `prec`
(they raise AttributeError), warnings. -/
noncomputable def gaussianPotential (x mean : Fin d → ℝ) (prec sqrtPrec : PArg d) (detPrec : Option ℝ) : ℝ :=
  let prec := (defaultPrec prec sqrtPrec).expand
  let sqrtPrec := sqrtPrec.expand
  let z := negLogZ d (defaultDet prec sqrtPrec detPrec)
  let out := match sqrtPrec, prec with
    -- lines 81-88
    | .none, .vec p => mvGaussianPotentialDiag x mean p
    | .none, .mat p => mvGaussianPotential x mean p
    | .none, _ => mvGaussianPotentialDiag x mean (fun _ => 1)
    -- lines 101-104
    | .mat s, _ => vectorisedGaussianPotential x mean s
    | .vec s, _ => mvGaussianPotentialDiag x mean (fun i => s i ^ 2)
    | .scalar s, _ => mvGaussianPotentialDiag x mean (fun _ => s ^ 2)
  out + z

/-- utils.py 49-105, `gaussian_potential` for a batch (`x.ndim == 2`): lines 89-105.
`cholesky` is `jnp.linalg.cholesky`. The mean is a vector broadcast over rows. -/
noncomputable def gaussianPotentialBatch {n : ℕ}
    (cholesky : Matrix (Fin d) (Fin d) ℝ → Matrix (Fin d) (Fin d) ℝ)
    (x : Fin n → Fin d → ℝ) (mean : Fin d → ℝ) (prec sqrtPrec : PArg d) (detPrec : Option ℝ) : Fin n → ℝ :=
  let prec := (defaultPrec prec sqrtPrec).expand
  let sqrtPrec := sqrtPrec.expand
  let z := negLogZ d (defaultDet prec sqrtPrec detPrec)
  let sqrtPrec' := match sqrtPrec, prec with
    | .none, .vec p => PArg.vec fun i => Real.sqrt (p i)
    | .none, .mat p => PArg.mat (cholesky p)
    | s, _ => s
  fun k =>
    (match sqrtPrec' with
    | .none => mvGaussianPotentialDiag (x k) mean (fun _ => 1)
    | .scalar s => mvGaussianPotentialDiag (x k) mean (fun _ => s ^ 2)
    | .vec s => mvGaussianPotentialDiag (x k) mean (fun i => s i ^ 2)
    | .mat s => vectorisedGaussianPotential (x k) mean s) + z

/-- `gaussian_potential(x)` with all defaults, as used for momenta. -/
noncomputable def gaussianPotentialDefault (x : Fin d → ℝ) : ℝ :=
  gaussianPotential x 0 .none .none none

end Mocat.Gaussian
