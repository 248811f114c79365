import Mathlib.Analysis.SpecialFunctions.Log.Basic
/-!
# Floating-point values with special values

`Fl` models IEEE floats as exact reals together with `nan`, `ninf = -∞` and `pinf = +∞`. Rounding and
overflow are not modelled; the rules for the special values are those of IEEE 754 and of `jax.numpy`.
The sign of zero is not modelled.
-/
namespace Mocat

inductive Fl where
  | nan
  | ninf
  | fin (x : ℝ)
  | pinf

namespace Fl

/-- unary minus -/
noncomputable def neg : Fl → Fl
  | nan => nan
  | ninf => pinf
  | fin x => fin (-x)
  | pinf => ninf

/-- IEEE addition: `nan` propagates, `∞ + (-∞) = nan`. -/
noncomputable def add : Fl → Fl → Fl
  | nan, _ => nan
  | _, nan => nan
  | fin x, fin y => fin (x + y)
  | fin _, b => b
  | a, fin _ => a
  | pinf, pinf => pinf
  | ninf, ninf => ninf
  | pinf, ninf => nan
  | ninf, pinf => nan

/-- IEEE subtraction -/
noncomputable def sub (a b : Fl) : Fl := add a (neg b)

/-- IEEE multiplication: `0 * ∞ = nan`. -/
noncomputable def mul : Fl → Fl → Fl
  | nan, _ => nan
  | _, nan => nan
  | fin x, fin y => fin (x * y)
  | fin x, pinf => if x = 0 then nan else if 0 < x then pinf else ninf
  | fin x, ninf => if x = 0 then nan else if 0 < x then ninf else pinf
  | pinf, fin x => if x = 0 then nan else if 0 < x then pinf else ninf
  | ninf, fin x => if x = 0 then nan else if 0 < x then ninf else pinf
  | pinf, pinf => pinf
  | pinf, ninf => ninf
  | ninf, pinf => ninf
  | ninf, ninf => pinf

/-- `jnp.exp` -/
noncomputable def exp : Fl → Fl
  | nan => nan
  | ninf => fin 0
  | fin x => fin (Real.exp x)
  | pinf => pinf

/-- `<` : false as soon as one operand is `nan`. -/
def lt : Fl → Fl → Prop
  | nan, _ => False
  | _, nan => False
  | fin x, fin y => x < y
  | ninf, ninf => False
  | ninf, _ => True
  | _, ninf => False
  | fin _, pinf => True
  | pinf, _ => False

/-- `jnp.minimum`: `nan` propagates. -/
noncomputable def minimum (a b : Fl) : Fl :=
  open Classical in
  match a, b with
  | nan, _ => nan
  | _, nan => nan
  | a, b => if lt b a then b else a

/-- `jnp.isnan` -/
def isNan : Fl → Bool
  | nan => true
  | _ => false

/-- Is the value a finite number? -/
def isFin : Fl → Prop
  | fin _ => True
  | _ => False

noncomputable instance : DecidablePred isFin := fun _ => Classical.dec _

end Fl
end Mocat
