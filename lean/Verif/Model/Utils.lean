import Mathlib.Analysis.Real.Sqrt
import Mathlib.Algebra.BigOperators.Fin
import Mathlib.Data.Matrix.Mul
/-!
# Model of parts of `mocat/src/utils.py`: `leave_one_out_indices`, `bisect`, the localisation matrix
-/
namespace Mocat.Utils

/-- utils.py 17-22: `jnp.where(arange(n) < remove_index, full[:-1], full[1:])` with `full = arange(n + 1)`. -/
def leaveOneOut (n : ℕ) (r : ℤ) : List ℕ :=
  List.zipWith (fun (i : ℕ) (ab : ℕ × ℕ) => if (i : ℤ) < r then ab.1 else ab.2)
    (List.range n) ((List.range (n + 1)).dropLast.zip (List.range (n + 1)).tail)

/-! ## bisect -/

/-- Loop state of `bisect` (utils.py 212-218): bounds, evaluations, iteration. -/
@[ext] structure BState where
  lo : ℝ
  hi : ℝ
  flo : ℝ
  fhi : ℝ
  iter : ℕ

open Classical in
/-- utils.py 212-217, negated `conv_check`: the loop stops. -/
def BState.stop (maxIter : ℕ) (tol : ℝ) (s : BState) : Prop :=
  min |s.flo| |s.fhi| < tol ∨ s.iter ≥ maxIter ∨ (s.flo < 0 ∧ s.fhi < 0) ∨ (s.flo > 0 ∧ s.fhi > 0)

open Classical in
/-- utils.py 219-230, `body_func`; `inc` is `increasing_bool`. -/
noncomputable def BState.step (f : ℝ → ℝ) (inc : Prop) (s : BState) : BState :=
  let newPos := s.lo - s.flo * (s.hi - s.lo) / (s.fhi - s.flo)
  let newEval := f newPos
  let replaceUpper := if inc then newEval > 0 else newEval < 0
  { lo := if replaceUpper then s.lo else newPos
    hi := if replaceUpper then newPos else s.hi
    flo := if replaceUpper then s.flo else newEval
    fhi := if replaceUpper then newEval else s.fhi
    iter := s.iter + 1 }

open Classical in
/-- utils.py 232-234, `while_loop`. -/
noncomputable def bisectLoop (f : ℝ → ℝ) (inc : Prop) (maxIter : ℕ) (tol : ℝ) (s : BState) : BState :=
  if _h : s.stop maxIter tol then s else bisectLoop f inc maxIter tol (s.step f inc)
termination_by maxIter - s.iter
decreasing_by
  have : ¬ s.iter ≥ maxIter := fun hh => _h (Or.inr (Or.inl hh))
  simp only [BState.step]; omega

/-- utils.py 209-210: the initial state. -/
def bisectInit (f : ℝ → ℝ) (a b : ℝ) : BState := ⟨a, b, f a, f b, 0⟩

/-- utils.py 205-237, `bisect(fun, bounds, max_iter, tol)`. -/
noncomputable def bisect (f : ℝ → ℝ) (a b : ℝ) (maxIter : ℕ) (tol : ℝ) : BState :=
  bisectLoop f (f b > f a) maxIter tol (bisectInit f a b)

/-! ## Localisation -/

/-- utils.py 442-447 -/
noncomputable def gcClose (z : ℝ) : ℝ := -0.25 * z ^ 5 + 0.5 * z ^ 4 + 5 / 8 * z ^ 3 - 5 / 3 * z ^ 2 + 1

/-- utils.py 450-457 -/
noncomputable def gcMid (z : ℝ) : ℝ :=
  1 / 12 * z ^ 5 - 0.5 * z ^ 4 + 5 / 8 * z ^ 3 + 5 / 3 * z ^ 2 - 5 * z + 4 - 2 / 3 / z

open Classical in
/-- utils.py 460-465 -/
noncomputable def gc (z radius : ℝ) : ℝ :=
  let zr := |z| / radius
  let out := 0
  let out := if z < radius then gcClose zr else out
  let out := if z ≥ radius ∧ z < 2 * radius then gcMid zr else out
  out

/-- utils.py 470-472: the (integer) distance on the circle of `dim` points. -/
def circDist (dim : ℕ) (i j : ℕ) : ℕ :=
  min (min ((j : ℤ) - i).natAbs ((j : ℤ) + dim - i).natAbs) ((j : ℤ) - dim - i).natAbs

/-- utils.py 468-473: row `i`, column `j`. -/
noncomputable def gcMatrix (dim : ℕ) (radius : ℝ) : Matrix (Fin dim) (Fin dim) ℝ :=
  fun i j => gc (circDist dim i j) radius

end Mocat.Utils
