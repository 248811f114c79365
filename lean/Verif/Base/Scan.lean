import Mathlib.Data.List.Basic
import Mathlib.Algebra.Order.Ring.Int
import Mathlib.Logic.Function.Iterate
import Mathlib.Data.List.Range
/-!
# `jax.lax.scan` and friends

Library primitives used by the modelled code.
-/
namespace Mocat

/-- `jax.lax.scan(f, init, xs)`: thread a carry through `xs`, collecting one output per element.
Library behaviour (JAX documentation); pytrees are ordinary Lean values. -/
def scan {c x y : Type*} (f : c → x → c × y) (init : c) : List x → c × List y
  | [] => (init, [])
  | a :: as =>
    let r := f init a
    let rest := scan f r.1 as
    (rest.1, r.2 :: rest.2)

/-- `jnp.arange(1, hi + 1)` for an integer `hi` (empty if `hi ≤ 0`). -/
def arangeFromOne (hi : ℤ) : List ℕ := (List.range hi.toNat).map (· + 1)

end Mocat
