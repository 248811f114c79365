import Mathlib.Data.Real.Basic
import Mathlib.Logic.Function.Basic
/-!
# State-space model objects and their gradient functions: ssm/ssm.py 22-42

Arguments of potentials are arrays (`E`), given as a list; a call with the wrong number of arguments raises, which is `none`. A potential
is a method: it reads the attributes of the object (`Θ`: means, covariances, ...) when it is called.
-/
namespace Mocat.SsmObject

/-- The three potentials: `initial_potential(x, t)`, `transition_potential(x_previous, t_previous, x_new, t_new)`,
`likelihood_potential(x, y, t)`. -/
inductive Slot | initial | transition | likelihood
  deriving DecidableEq

/-- ssm.py 33-42: the arguments with respect to which the gradient of a potential is taken. -/
def argnums : Slot → List ℕ
  | .initial => [0]
  | .transition => [0, 2]
  | .likelihood => [0]

/-- A potential as a method. -/
abbrev Method (Θ E : Type) := Θ → List E → Option ℝ

/-- What `grad` and `value_and_grad` of JAX do to a function of arrays: gradients for the listed arguments. -/
abbrev GradOp (E : Type) := List ℕ → (List E → Option ℝ) → List E → Option (List E)

/-- What a gradient attribute is: missing, supplied by the class or by keyword, or built from a method by `grad` (here with its argnums). -/
inductive GradAttr (Θ E : Type)
  | missing
  | own (g : Θ → List E → Option (List E))
  | built (f : Method Θ E) (args : List ℕ)

/-- What a `..._potential_and_grad` attribute is: missing, or built by `value_and_grad`. -/
inductive BothAttr (Θ E : Type)
  | missing
  | built (f : Method Θ E) (args : List ℕ)

/-- A model object. -/
structure Obj (Θ E : Type) where
  attrs : Θ
  pot : Slot → Method Θ E
  grad : Slot → GradAttr Θ E
  both : Slot → BothAttr Θ E

variable {Θ E : Type}

/-- ssm.py 22-42, `StateSpaceModel.__init__`, after the keywords have been stored (29-30): `own s` is a gradient of potential `s` supplied by the
class or by keyword. `value_and_grad` of the likelihood is built from the *initial* potential (line 42). -/
def construct (attrs : Θ) (pot : Slot → Method Θ E) (own : Slot → Option (Θ → List E → Option (List E))) : Obj Θ E where
  attrs := attrs
  pot := pot
  grad s := match own s with
    | some g => .own g
    | none => .built (pot s) (argnums s)
  both s := match own s with
    | some _ => .missing
    | none => match s with
      | .initial => .built (pot .initial) (argnums .initial)
      | .transition => .built (pot .transition) (argnums .transition)
      | .likelihood => .built (pot .initial) (argnums .likelihood)

/-- Assignments to attributes of the object: the model's constants, or a potential. -/
inductive Assign (Θ E : Type)
  | attrs (θ : Θ)
  | pot (s : Slot) (f : Method Θ E)

/-- Plain attribute assignment: nothing is rebuilt. -/
def setattr (o : Obj Θ E) : Assign Θ E → Obj Θ E
  | .attrs θ => { o with attrs := θ }
  | .pot s f => { o with pot := Function.update o.pot s f }

/-- `model.<slot>_potential(*args)` -/
def potential (o : Obj Θ E) (s : Slot) (args : List E) : Option ℝ := o.pot s o.attrs args

/-- `model.grad_<slot>_potential(*args)` -/
def gradPotential (grad : GradOp E) (o : Obj Θ E) (s : Slot) (args : List E) : Option (List E) :=
  match o.grad s with
  | .missing => none
  | .own g => g o.attrs args
  | .built f ns => grad ns (f o.attrs) args

/-- `model.<slot>_potential_and_grad(*args)` -/
def potentialAndGrad (grad : GradOp E) (o : Obj Θ E) (s : Slot) (args : List E) : Option (ℝ × List E) :=
  match o.both s with
  | .missing => none
  | .built f ns => do
    let v ← f o.attrs args
    let g ← grad ns (f o.attrs) args
    some (v, g)

end Mocat.SsmObject
