import Verif.Model.ToyExamples
import Mathlib.Analysis.Calculus.FDeriv.Basic
/-!
# A Gaussian mixture whose attributes are assigned: scenarios/toy_examples.py 54-116 with its compiled methods

`__setattr__` (86-90) replaces `component_potential`, `component_potentials`, `component_dens` and `dens` of the object by compiled versions of themselves. `jit` keeps the code of a function for each shape of its argument; the code
contains the attributes as they were when it was made. When `covariances` is assigned again the compiled functions are wrapped once more: the new `dens` calls the old `dens`, which has its code already. So for each
shape of `x` the code made at the first evaluation is used for ever. Here `n` and `d` are fixed, programs evaluate `dens`, `likelihood_potential` and its gradient (jax differentiates the stored code), but do not call the
component functions directly.
-/
namespace Mocat.MixtureSessions
open Matrix Mocat.ToyExamples

variable {n d : ℕ}

/-- The object: attributes given by the user, and for each shape of the leading axes of `x` the attributes contained in the code of `dens`. -/
structure Obj (n d : ℕ) where
  mixture : Mixture n d
  code : List ℕ → Option (Mixture n d)

/-- toy_examples.py 57-71: a new object. -/
def Obj.new (mx : Mixture n d) : Obj n d := ⟨mx, fun _ => none⟩

/-- What a program does. The argument `x` of an evaluation has shape `shape ++ [d]`; `x` here is the point at one position of the leading axes. -/
inductive Event (n d : ℕ)
  | means (m : Fin n → Fin d → ℝ)
  | weights (w : Fin n → ℝ)
  /-- `covariances` with one matrix for each component -/
  | covariances (c : Fin n → Matrix (Fin d) (Fin d) ℝ)
  /-- `covariances` with one matrix for all (line 79-80) -/
  | commonCovariance (c : Matrix (Fin d) (Fin d) ℝ)
  /-- `covariances = None` (line 76-78) -/
  | defaultCovariances
  | dens (shape : List ℕ) (x : Fin d → ℝ)
  | potential (shape : List ℕ) (x : Fin d → ℝ)
  | gradient (x : Fin d → ℝ)

/-- The attributes after an assignment (toy_examples.py 73-84). -/
def assigned (mx : Mixture n d) : Event n d → Mixture n d
  | .means m => { mx with means := m }
  | .weights w => { mx with weights := w }
  | .covariances c => { mx with covariances := c }
  | .commonCovariance c => { mx with covariances := fun _ => c }
  | .defaultCovariances => { mx with covariances := fun _ => 1 }
  | _ => mx

/-- What an evaluation gives: a number, or a gradient. -/
inductive Value (d : ℕ)
  | real (v : ℝ)
  | grad (g : (Fin d → ℝ) →L[ℝ] ℝ)

/-- The code that runs for a shape, and the object afterwards. -/
def Obj.run (o : Obj n d) (shape : List ℕ) : Mixture n d × Obj n d :=
  match o.code shape with
  | some mx => (mx, o)
  | none => (o.mixture, { o with code := Function.update o.code shape (some o.mixture) })

/-- One action (toy_examples.py 73-90 and 110-116, core.py 204-230 for the gradient, which jax takes at single points). -/
noncomputable def step (chol : Matrix (Fin d) (Fin d) ℝ → Matrix (Fin d) (Fin d) ℝ) (o : Obj n d) : Event n d → Obj n d × Option (Value d)
  | .dens shape x => ((o.run shape).2, some (.real (dens chol (o.run shape).1 x)))
  | .potential shape x => ((o.run shape).2, some (.real (mixturePotential chol (o.run shape).1 x)))
  | .gradient x => ((o.run []).2, some (.grad (fderiv ℝ (mixturePotential chol (o.run []).1) x)))
  | ev => ({ o with mixture := assigned o.mixture ev }, none)

/-- The object after a list of actions. -/
noncomputable def after (chol : Matrix (Fin d) (Fin d) ℝ → Matrix (Fin d) (Fin d) ℝ) : Obj n d → List (Event n d) → Obj n d
  | o, [] => o
  | o, ev :: h => after chol (step chol o ev).1 h

/-- What a further action returns. -/
noncomputable def result (chol : Matrix (Fin d) (Fin d) ℝ → Matrix (Fin d) (Fin d) ℝ) (mx : Mixture n d) (h : List (Event n d)) (ev : Event n d) : Option (Value d) :=
  (step chol (after chol (Obj.new mx) h) ev).2

end Mocat.MixtureSessions
