import Verif.Model.Covariance
/-!
# The constructor of `Gaussian`: scenarios/toy_examples.py 17-44

Arrays with one axis are lists, so that arguments whose lengths do not match can be written down. Arithmetic on them follows the
broadcasting rule of NumPy. Points are arrays with one axis; `clean_1d` (core.py 133-143), which makes a row of the point when
the dimension is 1, changes nothing in what follows. Arguments that are Python floats, which have no `shape`, are modelled by
`MeanArg.float` and raise.
-/
namespace Mocat.GaussianConstruct
open Matrix Mocat.Covariance

/-- The argument `mean`. -/
inductive MeanArg where
  | none
  | float (c : ℝ)
  | arr (l : List ℝ)

/-- The argument `covariance`: missing, an array with one axis, or a square matrix. -/
inductive CovArg where
  | none
  | arr (l : List ℝ)
  | mat (d : ℕ) (m : Matrix (Fin d) (Fin d) ℝ)

/-- What is stored: `dim`, `mean` and the factor `precision_sqrt`. -/
structure Obj where
  dim : ℕ
  mean : List ℝ
  precSqrt : List ℝ ⊕ (Σ d : ℕ, Matrix (Fin d) (Fin d) ℝ)

/-- toy_examples.py 25-38; the factor is that of utils.py 247-262. `none`: the constructor raises (a float has no `shape`). -/
noncomputable def new (chol : ∀ d, Matrix (Fin d) (Fin d) ℝ → Matrix (Fin d) (Fin d) ℝ) (dim : ℕ) (mean : MeanArg) (cov : CovArg) :
    Option Obj :=
  -- lines 30-35
  let d : Option ℕ := match mean, cov with
    | .float _, _ => .none
    | .arr m, _ => some m.length
    | .none, .arr v => some v.length
    | .none, .mat d _ => some d
    | .none, .none => some dim
  d.map fun d =>
    { dim := d
      -- line 36
      mean := match mean with
        | .arr m => m
        | _ => List.replicate dim 0
      -- line 37
      precSqrt := match cov with
        | .none => .inl ((List.replicate dim (1 : ℝ)).map fun v => 1 / √v)
        | .arr v => .inl (v.map fun v => 1 / √v)
        | .mat d m => .inr ⟨d, (chol d m)⁻¹⟩ }

/-- Length of the result of an elementwise operation; `none`: the shapes do not go together. -/
def broadcast (a b : ℕ) : Option ℕ :=
  if a = b then some a else if a = 1 then some b else if b = 1 then some a else none

/-- Entry `i` of an array stretched to a longer one if it has a single entry. -/
def entry (l : List ℝ) (i : ℕ) : ℝ := if l.length = 1 then l.getD 0 0 else l.getD i 0

/-- toy_examples.py 40-44, `likelihood_potential` at a point; `none`: it raises. -/
noncomputable def potential (o : Obj) (x : List ℝ) : Option ℝ :=
  (broadcast x.length o.mean.length).bind fun n =>
    let diff := fun i => entry x i - entry o.mean i
    match o.precSqrt with
    | .inl s => (broadcast n s.length).map fun k => 0.5 * ∑ i ∈ Finset.range k, (diff i * entry s i) ^ 2
    | .inr ⟨d, s⟩ => if n = d then some (0.5 * ∑ i, ((fun j : Fin d => diff j) ᵥ* sᵀ) i ^ 2) else none

end Mocat.GaussianConstruct
