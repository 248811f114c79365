import Mathlib.Data.Real.Basic
import Mathlib.Algebra.BigOperators.Group.List.Basic
/-!
# One-dimensional scenarios: `clean_1d`, core.py 133-143, and its use in `Scenario.__init__`, core.py 172-194

Arrays are a shape and their entries in row-major order. A python float is an array of shape `[]`. Potentials are functions of an array and a key. Adding arrays broadcasts a number over
the other array and raises (`none`) when the shapes differ otherwise: the other broadcasting rules of numpy are not modelled. The attributes `potential`, ... are values, so that assigning one does not
change the others; `getattr(scen, '_' + attr)` (core.py 141) reads what line 135 stored, as nothing else writes these names.
-/
namespace Mocat.OneDim

/-- An array: its shape and its entries in row-major order. -/
@[ext] structure Arr where
  shape : List ℕ
  data : List ℝ

/-- The entries are as many as the shape says. -/
def Arr.Valid (a : Arr) : Prop := a.data.length = a.shape.prod

/-- A python float. -/
def float (r : ℝ) : Arr := ⟨[], [r]⟩

/-- `jnp.atleast_1d` -/
def atleast1d (a : Arr) : Arr := if a.shape = [] then ⟨[1], a.data⟩ else a

/-- `jnp.reshape(x, (x.size, 1))` -/
def column (a : Arr) : Arr := ⟨[a.shape.prod, 1], a.data⟩

/-- `jnp.squeeze` -/
def squeeze (a : Arr) : Arr := ⟨a.shape.filter (· ≠ 1), a.data⟩

/-- A potential as the user writes it. -/
abbrev Pot (K : Type*) := Arr → K → Arr

variable {K : Type*}

/-- core.py 137-141, `cleaned_func` -/
def clean (f : Pot K) : Pot K := fun x k => squeeze (f (column (atleast1d x)) k)

/-- Numpy addition of arrays of the same shape, or of an array and a number. -/
def add (a b : Arr) : Option Arr :=
  if a.shape = b.shape then some ⟨a.shape, List.zipWith (· + ·) a.data b.data⟩
  else match a.shape, a.data, b.shape, b.data with
    | [], [r], s, l => some ⟨s, l.map (r + ·)⟩
    | s, l, [], [r] => some ⟨s, l.map (· + r)⟩
    | _, _, _, _ => none

/-- A number times an array. -/
def scale (t : ℝ) (a : Arr) : Arr := ⟨a.shape, a.data.map (t * ·)⟩

/-- What the user supplies for a scenario. -/
structure Spec (K : Type*) where
  dim : ℕ
  prior : Option (Pot K) := none
  lik : Option (Pot K) := none
  pot : Option (Pot K) := none
  temp : Option ℝ := none

/-- The attributes after construction that `potential` reads (core.py 190-194). -/
structure Scen (K : Type*) where
  prior : Pot K
  lik : Pot K
  temp : ℝ

/-- core.py 172-194. `none`: neither `potential` nor `likelihood_potential` is implemented, nothing is set up. -/
def construct (u : Spec K) : Option (Scen K) :=
  let zero : Pot K := fun _ _ => float 0
  let cl : Option (Pot K) → Option (Pot K) := fun f => if u.dim = 1 then f.map clean else f
  match cl u.lik, cl u.pot with
  | some l, _ => some ⟨(cl u.prior).getD zero, l, u.temp.getD 1⟩
  | none, some p => some ⟨(cl u.prior).getD zero, p, u.temp.getD 1⟩
  | none, none => none

/-- core.py 190-194: `scenario.potential(x, key)` -/
def Scen.potential (s : Scen K) : Arr → K → Option Arr := fun x k => add (s.prior x k) (scale s.temp (s.lik x k))

/-- core.py 199-202: assigning `likelihood_potential` later. -/
def Scen.setLik (s : Scen K) (f : Pot K) : Scen K := { s with lik := f }

/-- `jnp.sum(a, axis=-1)` of an array of shape `[n, m]` -/
noncomputable def sumLast (a : Arr) : Arr :=
  match a.shape with
  | [n, m] => ⟨[n], (List.range n).map fun i => ((a.data.drop (i * m)).take m).sum⟩
  | _ => ⟨[], [a.data.sum]⟩

/-- Applying a function to every entry, as `jnp.power(x, 4)`. -/
def entries (h : ℝ → ℝ) (a : Arr) : Arr := ⟨a.shape, a.data.map h⟩

/-- toy_examples.py 128-132, `DoubleWell.likelihood_potential`, on arrays (a difference of arrays of the same shape). -/
noncomputable def doubleWellArr (x : Arr) : Arr :=
  let a := entries (· / 4) (sumLast (entries (· ^ 4) x))
  let b := entries (· / 2) (sumLast (entries (· ^ 2) x))
  ⟨a.shape, List.zipWith (· - ·) a.data b.data⟩

end Mocat.OneDim
