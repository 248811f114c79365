import Verif.Model.TwoDim
/-!
# What `plot` of a two-dimensional scenario draws: scenarios/twodim/vectorise.py 32-33, 91-124

The call of `contourf` is represented by its arguments. What Matplotlib makes of them, the colour map and further keyword
arguments are not modelled.
-/
namespace Mocat.TwoDim

/-- `jnp.linspace(lo, hi, m)`; a single point is the lower end. -/
noncomputable def linspaceOf (m : ℕ) (lim : ℝ × ℝ) (i : Fin m) : ℝ := lim.1 + i * ((lim.2 - lim.1) / (m - 1))

/-- The arguments of `contourf` (vectorise.py 32-33), and whether it was called on axes made by `plot`. -/
structure Drawing (m : ℕ) where
  xs : Fin m → ℝ
  ys : Fin m → ℝ
  z : Fin m → Fin m → Fl
  newAxes : Bool

/-- vectorise.py 91-124, `plot` with `plot_resolution = m`; `pot` is the scenario's potential with the key given. `none`: an
exception or no end. -/
noncomputable def plot (fuel m : ℕ) (o : Obj) (pot : ℝ → ℝ → Fl) (ax : Option ((ℝ × ℝ) × (ℝ × ℝ))) (xlim ylim : Option (ℝ × ℝ))
    (recalc showPotential : Bool) : Option (Obj × Drawing m) :=
  (plotLims fuel o pot ax xlim ylim recalc).map fun r =>
    let xs := linspaceOf m r.2.1
    let ys := linspaceOf m r.2.2
    let vals := vecPotential pot xs ys
    (r.1, ⟨xs, ys, if showPotential then vals else fun i j => Fl.exp (Fl.neg (vals i j)), ax.isNone⟩)

end Mocat.TwoDim
