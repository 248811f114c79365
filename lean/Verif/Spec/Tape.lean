import Verif.Model.Keys
import Verif.Base.Fl
import Verif.Lemmas.Measure
import Mathlib.Probability.Independence.InfinitePi
import Mathlib.Logic.Function.DependsOn
/-!
# An ideal random generator

`jax.random` is idealised as follows. A key is the path of splits that produced it (`Verif.Model.Keys`). Every key carries an array of independent uniform draws on `[0, 1)`, and the arrays of different keys are
independent: a *tape* gives the value at each (key, position). Every library draw (`uniform`, `categorical`, ...) with a key is a function of the tape at that key. Two draws with the same key therefore see the
same randomness, as in JAX; draws with different keys are independent.
-/
namespace Mocat.Ideal
open MeasureTheory ProbabilityTheory Mocat.Meas
open scoped ENNReal

/-- A key and a position in the array drawn with it. -/
abbrev Site := Keys.Key × ℕ

/-- All the randomness of a program. -/
abbrev Tape := Site → ℝ

/-- The law of an ideal tape: independent uniforms. -/
noncomputable def ideal : Measure Tape := Measure.infinitePi fun _ => unif

instance : IsProbabilityMeasure ideal := by unfold ideal; infer_instance

/-- `cat lw u` selects an index by the uniform `u`, as `random.categorical` does: for log weights whose exponentials are `w` (not all zero), index `j` has probability `w j / ∑ w`. -/
structure IsCategorical {N : ℕ} (cat : (Fin N → Fl) → ℝ → Fin N) : Prop where
  measurable : ∀ lw, Measurable (cat lw)
  prob : ∀ (lw : Fin N → Fl) (w : Fin N → ℝ), (∀ j, Fl.exp (lw j) = .fin (w j)) → 0 < ∑ j, w j → ∀ j, unif {u | cat lw u = j} = ENNReal.ofReal (w j / ∑ k, w k)

/-- The same for finite log weights, with joint measurability (for weights that are themselves random). -/
structure IsCategoricalReal {N : ℕ} (cat : (Fin N → ℝ) → ℝ → Fin N) : Prop where
  measurable : Measurable fun z : (Fin N → ℝ) × ℝ => cat z.1 z.2
  prob : ∀ lw j, unif {u | cat lw u = j} = ENNReal.ofReal (Real.exp (lw j) / ∑ k, Real.exp (lw k))

/-- `q u` turns a uniform into a standard normal draw, as `random.normal` does. -/
structure IsNormalDraw (q : ℝ → ℝ) : Prop where
  measurable : Measurable q
  law : unif.map q = gaussianReal 0 1

end Mocat.Ideal
