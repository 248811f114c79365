import Verif.Base.Fl
import Mathlib.Data.Finset.Lattice.Fold
import Mathlib.Data.Fintype.Prod
import Mathlib.Data.Fintype.Basic
import Mathlib.Data.List.FinRange
/-!
# Two-dimensional scenarios: limits for plotting (scenarios/twodim/vectorise.py)

The potential is a function of the two coordinates; it is real, `+∞`, `-∞` or `nan` (underflow of the density is not modelled otherwise than by potential `+∞`).
Drawing itself (matplotlib) is not modelled.
-/
namespace Mocat.TwoDim

variable {m : ℕ}

/-- `jnp.linspace(-lim, lim, m)`; vectorise.py 60-61 has `m = 100`. -/
noncomputable def linspace (lim : ℝ) (i : Fin m) : ℝ := -lim + i * (2 * lim / (m - 1))

/-- vectorise.py 48-52, `vec_potential`: row `i` belongs to the `i`-th `y`, column `j` to the `j`-th `x`. -/
def vecPotential (pot : ℝ → ℝ → Fl) (xl yl : Fin m → ℝ) (i j : Fin m) : Fl := pot (xl j) (yl i)

open Classical in
/-- vectorise.py 18-29, `_find_first_non_zero_row`: the loop runs over the rows, upwards or downwards. `none`: no such row (the loop would not end, jax clamps the index). -/
noncomputable def findRow (M : Fin m → Fin m → Prop) (up : Bool) : Option (Fin m) :=
  (if up then List.finRange m else (List.finRange m).reverse).find? fun i => decide (∃ j, M i j)

/-- One call of `auto_axes_lims`. -/
inductive Step
  | typeError                       -- lines 67-68
  | loops                           -- the loop of `_find_first_non_zero_row` does not end
  | again (xlim ylim : ℝ)           -- lines 70-71, 80-82: the method calls itself
  | limits (xlim ylim : ℝ × ℝ)      -- lines 88-89

/-- The real number a finite value stands for. -/
def toReal : Fl → ℝ
  | .fin x => x
  | _ => 0

open Classical in
/-- vectorise.py 54-89, `auto_axes_lims` up to its recursive call, with an `m` by `m` grid. Lines 85-87 change local variables only. -/
noncomputable def step (m : ℕ) [NeZero m] (pot : ℝ → ℝ → Fl) (xlim ylim : ℝ) : Step :=
  let ix : Fin m → ℝ := linspace xlim
  let iy : Fin m → ℝ := linspace ylim
  let z := fun i j => Fl.exp (Fl.neg (vecPotential pot ix iy i j))
  if ∃ i j, z i j = .nan then .typeError
  else if ∃ i j, z i j = .pinf then .loops
  else
    let maxZ := (Finset.univ : Finset (Fin m × Fin m)).sup' Finset.univ_nonempty fun p => toReal (z p.1 p.2)
    if maxZ = 0 then .again (xlim / 1.5) (ylim / 1.5)
    else
      let keep := fun i j => maxZ / 10 < toReal (z i j)
      match findRow (fun i j => keep j i) true, findRow (fun i j => keep j i) false, findRow keep true, findRow keep false with
      | some x0, some x1, some y0, some y1 =>
        let hitX := xlim = |ix x0| ∨ xlim = |ix x1|
        let hitY := ylim = |iy y0| ∨ ylim = |iy y1|
        if hitX ∨ hitY then .again (if hitX then 2 * xlim else xlim) (if hitY then 2 * ylim else ylim)
        else .limits (ix x0, ix x1) (iy y0, iy y1)
      | _, _, _, _ => .loops

attribute [irreducible] step

/-- What a finished call leaves: an exception, or the attributes `xlim` and `ylim`. -/
inductive Result
  | typeError
  | limits (xlim ylim : ℝ × ℝ)

/-- vectorise.py 60-61: the grid has 100 points each way. -/
def gridSize : ℕ := 100

instance : NeZero gridSize := ⟨Nat.succ_ne_zero _⟩

/-- vectorise.py 54-89, `auto_axes_lims` with its recursive calls, `fuel` calls at most, on the 100 by 100 grid of the code; `none`: not finished by then. -/
noncomputable def autoAxesLims (pot : ℝ → ℝ → Fl) : ℕ → ℝ → ℝ → Option Result
  | 0, _, _ => none
  | fuel + 1, xlim, ylim =>
    match step gridSize pot xlim ylim with
    | .typeError => some .typeError
    | .loops => none
    | .again x y => autoAxesLims pot fuel x y
    | .limits x y => some (.limits x y)

/-- The attributes `xlim` and `ylim` of a scenario; they start as `None` (vectorise.py 38-39). -/
structure Obj where
  xlim : Option (ℝ × ℝ)
  ylim : Option (ℝ × ℝ)

/-- The limits `plot` draws in, and the object afterwards (vectorise.py 100-110). `ax` is the pair of limits of axes the caller passes. `none`: an exception or no end. -/
noncomputable def plotLims (fuel : ℕ) (o : Obj) (pot : ℝ → ℝ → Fl) (ax : Option ((ℝ × ℝ) × (ℝ × ℝ))) (xlim ylim : Option (ℝ × ℝ)) (recalc : Bool) :
    Option (Obj × (ℝ × ℝ) × (ℝ × ℝ)) :=
  match ax with
  | some l => some (o, l.1, l.2)
  | none =>
    match xlim, ylim with
    | some x, some y => some (o, x, y)
    | _, _ => do
      let o' ← if o.xlim.isNone || recalc then
          match autoAxesLims pot fuel 10 10 with
          | some (.limits x y) => some ⟨some x, some y⟩
          | _ => none
        else some o
      let x ← xlim.or o'.xlim
      let y ← ylim.or o'.ylim
      some (o', x, y)

end Mocat.TwoDim
