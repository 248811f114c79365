import Verif.Model.SsmObject
import Mathlib.Tactic.NormNum
/-!
# C105: gradients of a state-space model object
-/
namespace Mocat.Props
open Mocat.SsmObject

variable {Θ E : Type}

/-- The object after a sequence of assignments. -/
def ssmAfter (o : SsmObject.Obj Θ E) (as : List (SsmObject.Assign Θ E)) : SsmObject.Obj Θ E := as.foldl SsmObject.setattr o

/-- Potential `s` is not among the things assigned. -/
def NotReassigned (s : Slot) (as : List (SsmObject.Assign Θ E)) : Prop := ∀ s' f, SsmObject.Assign.pot s' f ∈ as → s' ≠ s

theorem ssmAfter_grad (as : List (SsmObject.Assign Θ E)) : ∀ o : SsmObject.Obj Θ E,
    (ssmAfter o as).grad = o.grad ∧ (ssmAfter o as).both = o.both := by
  induction as with
  | nil => intro o; exact ⟨rfl, rfl⟩
  | cons a as ih => intro o; cases a <;> exact ih _

theorem ssmAfter_pot (s : Slot) (as : List (SsmObject.Assign Θ E)) (h : NotReassigned s as) : ∀ o : SsmObject.Obj Θ E,
    (ssmAfter o as).pot s = o.pot s := by
  induction as with
  | nil => intro o; rfl
  | cons a as ih =>
    intro o
    have h' : NotReassigned s as := fun s' f hf => h s' f (List.mem_cons_of_mem _ hf)
    refine (ih h' (SsmObject.setattr o a)).trans ?_
    cases a with
    | attrs θ => rfl
    | pot s' f => exact Function.update_of_ne (Ne.symm (h s' f List.mem_cons_self)) _ _

/-- Which arguments of a potential are states: the first, and for a transition also the third. -/
def stateArgs : Slot → List ℕ
  | .initial => [0]
  | .transition => [0, 2]
  | .likelihood => [0]

theorem argnums_eq (s : Slot) : argnums s = stateArgs s := by cases s <;> rfl

/-- C105: whatever is assigned to the constants of the model (means, covariances, ...) and to other potentials, the gradient function of a
potential which has not itself been reassigned, and for which the class supplied no gradient, is the gradient, with respect to the states, of the current potential
at the current constants; for the initial and transition potentials the `..._and_grad` function returns the current value and that gradient.
Missing: reassigned potentials, likelihoods, and potentials whose gradient the class supplies (`C105_fails_*`). -/
theorem C105_gradients_partial (grad : GradOp E) (θ : Θ) (pot : Slot → Method Θ E) (own : Slot → Option (Θ → List E → Option (List E)))
    (as : List (SsmObject.Assign Θ E)) (s : Slot) (hown : own s = none) (hs : NotReassigned s as) (args : List E) :
    let o := ssmAfter (SsmObject.construct θ pot own) as
    SsmObject.gradPotential grad o s args = grad (stateArgs s) (SsmObject.potential o s) args ∧
    (s ≠ .likelihood → SsmObject.potentialAndGrad grad o s args =
      (SsmObject.potential o s args).bind fun v => (grad (stateArgs s) (SsmObject.potential o s) args).bind fun g => some (v, g)) := by
  intro o
  rw [← argnums_eq]
  have h1 := ssmAfter_grad as (SsmObject.construct θ pot own)
  have h2 := ssmAfter_pot s as hs (SsmObject.construct θ pot own)
  have h3 : (fun a => SsmObject.potential o s a) = pot s o.attrs := by
    funext a
    show (ssmAfter (SsmObject.construct θ pot own) as).pot s o.attrs a = _
    rw [h2]; rfl
  have h4 : SsmObject.potential o s = pot s o.attrs := h3
  constructor
  · unfold SsmObject.gradPotential
    rw [h4, show o.grad = _ from h1.1]
    simp [SsmObject.construct, hown]
  · intro hl
    unfold SsmObject.potentialAndGrad
    rw [h4, show o.both = _ from h1.2]
    cases s
    · simp [SsmObject.construct, hown]
    · simp [SsmObject.construct, hown]
    · exact absurd rfl hl

/-- C105, likelihood: `likelihood_potential_and_grad` evaluates the initial potential instead (on however many arguments it is given). -/
theorem C105_likelihood_both (grad : GradOp E) (θ : Θ) (pot : Slot → Method Θ E) (own : Slot → Option (Θ → List E → Option (List E)))
    (as : List (SsmObject.Assign Θ E)) (hown : own .likelihood = none) (args : List E) :
    let o := ssmAfter (SsmObject.construct θ pot own) as
    SsmObject.potentialAndGrad grad o .likelihood args =
      (pot .initial o.attrs args).bind fun v => (grad [0] (pot .initial o.attrs) args).bind fun g => some (v, g) := by
  intro o
  have h1 := ssmAfter_grad as (SsmObject.construct θ pot own)
  unfold SsmObject.potentialAndGrad
  rw [show o.both = _ from h1.2]
  simp [SsmObject.construct, hown, argnums]

/-- A one-dimensional model with scale `θ`: standard normal start, random walk, observations around the state. Calls with the wrong number of arguments raise. -/
noncomputable def lineModel : Slot → Method ℝ ℝ
  | .initial, θ, [x, _] => some (θ * x ^ 2 / 2)
  | .transition, θ, [x, _, x', _] => some (θ * (x' - x) ^ 2 / 2)
  | .likelihood, θ, [x, y, _] => some (θ * (y - x) ^ 2 / 2)
  | _, _, _ => none

/-- The gradients of `lineModel`, as a stand-in for `grad` (it differs from the derivative on other functions, which play no part): the gradient is
found from the value at 1 and 0 of the argument, quadratics being determined by three values. -/
noncomputable def quadGrad : GradOp ℝ := fun ns f args =>
  ns.mapM fun n => do
    let x ← args[n]?
    let a ← f (args.set n (x + 1))
    let b ← f (args.set n (x - 1))
    some ((a - b) / 2)

/-- C105 fails for the likelihood: called with state 1, observation 3, time 0, `likelihood_potential` is 2 and its gradient -2, while
`likelihood_potential_and_grad` raises; called with state and time it returns the initial potential. -/
theorem C105_fails_likelihood :
    let o := SsmObject.construct 1 lineModel (fun _ => none)
    SsmObject.potential o .likelihood [1, 3, 0] = some 2 ∧ SsmObject.gradPotential quadGrad o .likelihood [1, 3, 0] = some [-2] ∧
    SsmObject.potentialAndGrad quadGrad o .likelihood [1, 3, 0] = none ∧
    SsmObject.potentialAndGrad quadGrad o .likelihood [1, 0] = some (1 / 2, [1]) := by
  simp only [SsmObject.construct, SsmObject.potential, SsmObject.gradPotential, SsmObject.potentialAndGrad, lineModel, argnums, quadGrad]
  norm_num

/-- C105 fails for reassigned potentials: after `model.likelihood_potential = f` the gradient is still that of the old one. -/
theorem C105_fails_reassigned :
    let o := ssmAfter (SsmObject.construct 1 lineModel (fun _ => none)) [.pot .likelihood fun _ a => match a with
      | [x, y, _] => some (5 * (y - x))
      | _ => none]
    SsmObject.potential o .likelihood [1, 3, 0] = some 10 ∧ SsmObject.gradPotential quadGrad o .likelihood [1, 3, 0] = some [-2] ∧
    quadGrad [0] (SsmObject.potential o .likelihood) [1, 3, 0] = some [-5] := by
  simp only [SsmObject.construct, SsmObject.potential, SsmObject.gradPotential, lineModel, argnums, quadGrad, ssmAfter, List.foldl_cons, List.foldl_nil,
    SsmObject.setattr, Function.update_self]
  norm_num

/-- C105 fails for classes with their own gradient: `initial_potential_and_grad` is then missing. -/
theorem C105_fails_own (grad : GradOp E) (θ : Θ) (pot : Slot → Method Θ E) (own : Slot → Option (Θ → List E → Option (List E))) (s : Slot)
    (g : Θ → List E → Option (List E)) (hown : own s = some g) (args : List E) :
    SsmObject.potentialAndGrad grad (SsmObject.construct θ pot own) s args = none ∧
    SsmObject.gradPotential grad (SsmObject.construct θ pot own) s args = g θ args := by
  simp [SsmObject.potentialAndGrad, SsmObject.gradPotential, SsmObject.construct, hown]

/-- Non-vacuity of `C105_gradients_partial`: after the scale is changed to 3, the gradient of the transition potential is the new one. -/
example : SsmObject.gradPotential quadGrad (ssmAfter (SsmObject.construct 1 lineModel (fun _ => none)) [.attrs 3]) .transition [1, 0, 2, 1] = some [-3, 3] := by
  rw [(C105_gradients_partial quadGrad (1 : ℝ) lineModel (fun _ => none) [.attrs 3] .transition rfl (fun s' f h => by simp at h) _).1]
  simp only [stateArgs, quadGrad, SsmObject.potential, ssmAfter, List.foldl_cons, List.foldl_nil, SsmObject.setattr, SsmObject.construct, lineModel]
  norm_num

end Mocat.Props
