import Mathlib.Analysis.Calculus.FDeriv.Basic
/-!
# Scenario: core.py 124-230

Potentials are functions of a point and a random key. An attribute that is not implemented raises when
called: evaluation gives `none`. `clean_1d` (core.py 133-143), which only reshapes the argument for
one-dimensional scenarios, is modelled in `Model/OneDim.lean`.
-/
namespace Mocat.Scenario

variable {E K : Type} [NormedAddCommGroup E] [NormedSpace ℝ E]

/-- A potential -/
abbrev Pot (E K : Type) := E → K → ℝ

/-- What the attribute `potential` is: not implemented, a function supplied by the user, or the closure of core.py 192, which
reads the scenario when it is called. -/
inductive PotAttr (E K : Type) where
  | missing
  | user (f : Pot E K)
  | closure

/-- The functions from which `init_grad` built the gradients when it last ran (core.py 205-209). -/
structure Grads (E K : Type) where
  prior : Option (Pot E K)
  lik : Option (Pot E K)

/-- A scenario object: attributes, and whether its class keeps `Scenario.__setattr__`. -/
structure Scen (E K : Type) where
  prior : Option (Pot E K)
  lik : Option (Pot E K)
  pot : PotAttr E K
  temp : Option ℝ
  grads : Option (Grads E K)
  baseSetattr : Bool

/-- What the user supplies, as methods or keyword arguments. -/
structure Spec (E K : Type) where
  prior : Option (Pot E K) := none
  lik : Option (Pot E K) := none
  pot : Option (Pot E K) := none
  temp : Option ℝ := none
  baseSetattr : Bool := true

/-- core.py 204-230: (re)build the gradients from the current prior and likelihood. -/
def initGrad (s : Scen E K) : Scen E K := { s with grads := some ⟨s.prior, s.lik⟩ }

/-- core.py 161-197. During construction no gradients exist yet, so attribute assignment does not rebuild them. -/
def construct (u : Spec E K) : Scen E K :=
  let s : Scen E K :=
    { prior := u.prior, lik := u.lik, pot := (u.pot.map PotAttr.user).getD .missing, temp := u.temp, grads := none,
      baseSetattr := u.baseSetattr }
  let zero : Pot E K := fun _ _ => 0
  let s :=
    if u.pot.isSome || u.lik.isSome then
      -- lines 178-181
      let s := match s.lik, u.pot with
        | none, some f => { s with prior := some (s.prior.getD zero), lik := some f }
        | _, _ => s
      -- lines 183-184
      let s := { s with temp := some (s.temp.getD 1) }
      -- lines 186-188
      let s := { s with prior := some (s.prior.getD zero) }
      -- lines 190-194
      { s with pot := .closure }
    else s
  initGrad s

/-- Attributes that can be assigned. -/
inductive Assign (E K : Type) where
  | prior (f : Pot E K)
  | lik (f : Pot E K)
  | pot (f : Pot E K)
  | temp (t : ℝ)

/-- core.py 199-202, or (for classes with their own `__setattr__`, e.g. scenarios/toy_examples.py 46-51) plain assignment. -/
def setattr (s : Scen E K) : Assign E K → Scen E K
  | .temp t => { s with temp := some t }
  | .prior f => rebuild { s with prior := some f }
  | .lik f => rebuild { s with lik := some f }
  | .pot f => rebuild { s with pot := .user f }
where
  rebuild (s : Scen E K) : Scen E K := if s.baseSetattr && s.grads.isSome then initGrad s else s

/-- core.py 190-192: `tempered_potential(x, temperature, key)` -/
def temperedPotential (s : Scen E K) (x : E) (t : ℝ) (k : K) : Option ℝ :=
  match s.prior, s.lik with
  | some p, some l => some (p x k + t * l x k)
  | _, _ => none

/-- `potential(x, key)` -/
def potential (s : Scen E K) (x : E) (k : K) : Option ℝ :=
  match s.pot with
  | .missing => none
  | .user f => some (f x k)
  | .closure => s.temp.bind fun t => temperedPotential s x t k

/-- The gradient operator of JAX, applied to a potential. -/
abbrev GradOp (E K : Type) [NormedAddCommGroup E] [NormedSpace ℝ E] := Pot E K → E → K → (E →L[ℝ] ℝ)

/-- core.py 211-213, 225-227: `grad_potential(x, key)` -/
def gradPotential (grad : GradOp E K) (s : Scen E K) (x : E) (k : K) : Option (E →L[ℝ] ℝ) :=
  match s.grads, s.temp with
  | some ⟨some p, some l⟩, some t => some (grad p x k + t • grad l x k)
  | _, _ => none

/-- core.py 215-223, 228-230: `potential_and_grad(x, key)` -/
def potentialAndGrad (grad : GradOp E K) (s : Scen E K) (x : E) (k : K) : Option (ℝ × (E →L[ℝ] ℝ)) :=
  match s.grads, s.temp with
  | some ⟨some p, some l⟩, some t => some (p x k + t * l x k, grad p x k + t • grad l x k)
  | _, _ => none

end Mocat.Scenario
