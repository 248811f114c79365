import Verif.Model.Scenario
import Mathlib.Analysis.Calculus.FDeriv.Add
import Mathlib.Analysis.Calculus.FDeriv.Mul
import Mathlib.Analysis.Calculus.Deriv.Basic
/-!
# C09, C10: potentials and gradients of a scenario
-/
namespace Mocat.Props
open Mocat.Scenario

variable {E K : Type}

/-- The target the user means: prior (0 if missing) plus temperature times likelihood, where a scenario given only by its
potential has that as its likelihood; temperature 1 if not given. -/
def intendedPrior (u : Spec E K) : Pot E K := u.prior.getD fun _ _ => 0
def intendedLik (u : Spec E K) : Pot E K := u.lik.getD (u.pot.getD fun _ _ => 0)
def intendedTemp (u : Spec E K) : ℝ := u.temp.getD 1

/-- Current prior, likelihood and temperature after a history of assignments. -/
def current (start : Pot E K × Pot E K × ℝ) : List (Assign E K) → Pot E K × Pot E K × ℝ
  | [] => start
  | .prior f :: l => current (f, start.2.1, start.2.2) l
  | .lik f :: l => current (start.1, f, start.2.2) l
  | .temp t :: l => current (start.1, start.2.1, t) l
  | .pot _ :: l => current start l

/-- No assignment to `potential` itself. -/
def NoPot : List (Assign E K) → Prop
  | [] => True
  | .pot _ :: _ => False
  | _ :: l => NoPot l

theorem construct_spec (u : Spec E K) (h : u.pot.isSome ∨ u.lik.isSome) :
    (construct u).prior = some (intendedPrior u) ∧ (construct u).lik = some (intendedLik u) ∧
    (construct u).temp = some (intendedTemp u) ∧ (construct u).pot = .closure ∧
    (construct u).grads = some ⟨some (intendedPrior u), some (intendedLik u)⟩ ∧
    (construct u).baseSetattr = u.baseSetattr := by
  obtain ⟨prior, lik, pot, temp, b⟩ := u
  cases pot <;> cases lik <;>
    simp_all [construct, initGrad, intendedPrior, intendedLik, intendedTemp]

/-- C09, at construction: whatever combination of members is supplied (a potential or a likelihood at least),
`potential(x) = prior(x) + temperature * likelihood(x)`, the missing prior being 0, the missing likelihood being the
potential given, the missing temperature 1. -/
theorem C09_construct (u : Spec E K) (h : u.pot.isSome ∨ u.lik.isSome) (x : E) (k : K) :
    potential (construct u) x k = some (intendedPrior u x k + intendedTemp u * intendedLik u x k) := by
  obtain ⟨h1, h2, h3, h4, -, -⟩ := construct_spec u h
  simp [potential, h4, h3, temperedPotential, h1, h2]

/-- C09: a scenario given only by its potential has that potential at temperature 1. -/
theorem C09_only_potential (f : Pot E K) (x : E) (k : K) :
    potential (construct { pot := some f }) x k = some (f x k) := by
  rw [C09_construct _ (Or.inl rfl)]
  simp [intendedPrior, intendedLik, intendedTemp]

/-- C09: scenarios with a likelihood, and possibly prior, temperature and a (then unused) potential. -/
theorem C09_likelihood (p : Option (Pot E K)) (l : Pot E K) (f : Option (Pot E K)) (t : Option ℝ) (x : E) (k : K) :
    potential (construct { prior := p, lik := some l, pot := f, temp := t }) x k
      = some ((p.getD fun _ _ => 0) x k + t.getD 1 * l x k) := by
  rw [C09_construct _ (Or.inr rfl)]
  simp [intendedPrior, intendedLik, intendedTemp]

/-- What C09 implies for a scenario given a potential and a prior but no likelihood: the prior is added to the potential, so
a potential that already includes its prior counts it twice. -/
theorem C09_prior_counted_twice (p l : Pot E K) (x : E) (k : K) :
    potential (construct { prior := some p, pot := some fun x k => p x k + l x k }) x k
      = some (2 * p x k + l x k) := by
  rw [C09_construct _ (Or.inl rfl)]
  simp [intendedPrior, intendedLik, intendedTemp]; ring

/-- Invariant of a scenario without direct assignment to `potential`. -/
structure Fresh (s : Scen E K) (c : Pot E K × Pot E K × ℝ) : Prop where
  prior : s.prior = some c.1
  lik : s.lik = some c.2.1
  temp : s.temp = some c.2.2
  pot : s.pot = .closure
  grads : s.grads = some ⟨some c.1, some c.2.1⟩
  base : s.baseSetattr = true

theorem fresh_history (l : List (Assign E K)) (hl : NoPot l) : ∀ (s : Scen E K) (c : Pot E K × Pot E K × ℝ),
    Fresh s c → Fresh (l.foldl setattr s) (current c l) := by
  induction l with
  | nil => intro s c h; exact h
  | cons a l ih =>
    intro s c h
    cases a with
    | pot f => exact absurd hl (by simp [NoPot])
    | temp t =>
      refine ih hl _ _ ⟨h.prior, h.lik, rfl, h.pot, h.grads, h.base⟩
    | prior f =>
      refine ih hl _ _ ?_
      have : setattr s (.prior f) = initGrad { s with prior := some f } := by
        simp [setattr, setattr.rebuild, h.base, h.grads]
      rw [this]
      exact ⟨rfl, h.lik, h.temp, h.pot, by simp [initGrad, h.lik], h.base⟩
    | lik f =>
      refine ih hl _ _ ?_
      have : setattr s (.lik f) = initGrad { s with lik := some f } := by
        simp [setattr, setattr.rebuild, h.base, h.grads]
      rw [this]
      exact ⟨h.prior, rfl, h.temp, h.pot, by simp [initGrad, h.prior], h.base⟩

/-- C09, histories: after any sequence of assignments to prior, likelihood and temperature, `potential` is the current prior
plus the current temperature times the current likelihood. This holds for scenarios of every class. -/
theorem C09_history (u : Spec E K) (h : u.pot.isSome ∨ u.lik.isSome) (l : List (Assign E K)) (hl : NoPot l)
    (x : E) (k : K) :
    let c := current (intendedPrior u, intendedLik u, intendedTemp u) l
    potential (l.foldl setattr (construct u)) x k = some (c.1 x k + c.2.2 * c.2.1 x k) := by
  intro c
  have key : ∀ (l : List (Assign E K)), NoPot l → ∀ (s : Scen E K) (c : Pot E K × Pot E K × ℝ),
      (s.prior = some c.1 ∧ s.lik = some c.2.1 ∧ s.temp = some c.2.2 ∧ s.pot = .closure) →
      (l.foldl setattr s).prior = some (current c l).1 ∧ (l.foldl setattr s).lik = some (current c l).2.1 ∧
      (l.foldl setattr s).temp = some (current c l).2.2 ∧ (l.foldl setattr s).pot = .closure := by
    intro l
    induction l with
    | nil => intro _ s c h; exact h
    | cons a l ih =>
      intro hl s c ⟨h1, h2, h3, h4⟩
      have reb : ∀ s : Scen E K, (setattr.rebuild s).prior = s.prior ∧ (setattr.rebuild s).lik = s.lik ∧
          (setattr.rebuild s).temp = s.temp ∧ (setattr.rebuild s).pot = s.pot := by
        intro s; unfold setattr.rebuild; split <;> simp [initGrad]
      cases a with
      | pot f => exact absurd hl (by simp [NoPot])
      | temp t => exact ih hl _ _ ⟨h1, h2, rfl, h4⟩
      | prior f =>
        obtain ⟨r1, r2, r3, r4⟩ := reb { s with prior := some f }
        exact ih hl _ _ ⟨r1, r2.trans h2, r3.trans h3, r4.trans h4⟩
      | lik f =>
        obtain ⟨r1, r2, r3, r4⟩ := reb { s with lik := some f }
        exact ih hl _ _ ⟨r1.trans h1, r2, r3.trans h3, r4.trans h4⟩
  obtain ⟨h1, h2, h3, h4, -, -⟩ := construct_spec u h
  obtain ⟨a1, a2, a3, a4⟩ := key l hl (construct u) (intendedPrior u, intendedLik u, intendedTemp u) ⟨h1, h2, h3, h4⟩
  simp only [potential, a4, a3, Option.bind_some, temperedPotential, a1, a2]
  rfl

variable [NormedAddCommGroup E] [NormedSpace ℝ E]

/-- `grad` is a gradient: where a potential is differentiable it returns the derivative. -/
def IsGrad (grad : GradOp E K) : Prop :=
  ∀ (f : Pot E K) (x : E) (k : K), DifferentiableAt ℝ (fun y => f y k) x → HasFDerivAt (fun y => f y k) (grad f x k) x

/-- C10: for a scenario whose class keeps `Scenario.__setattr__`, after any sequence of assignments to prior, likelihood
and temperature: `grad_potential(x)` is the derivative at `x` of the current `potential`, and `potential_and_grad` returns
both, wherever the current prior and likelihood are differentiable. -/
theorem C10_gradients_fresh_partial (grad : GradOp E K) (hg : IsGrad grad) (u : Spec E K) (hb : u.baseSetattr = true)
    (h : u.pot.isSome ∨ u.lik.isSome) (l : List (Assign E K)) (hl : NoPot l) (x : E) (k : K)
    (hd : let c := current (intendedPrior u, intendedLik u, intendedTemp u) l
      DifferentiableAt ℝ (fun y => c.1 y k) x ∧ DifferentiableAt ℝ (fun y => c.2.1 y k) x) :
    let s := l.foldl setattr (construct u)
    ∃ (v : E → ℝ) (g : E →L[ℝ] ℝ), (∀ y, potential s y k = some (v y)) ∧ HasFDerivAt v g x ∧
      gradPotential grad s x k = some g ∧ potentialAndGrad grad s x k = some (v x, g) := by
  intro s
  obtain ⟨h1, h2, h3, h4, h5, h6⟩ := construct_spec u h
  have hf : Fresh (construct u) (intendedPrior u, intendedLik u, intendedTemp u) :=
    ⟨h1, h2, h3, h4, h5, h6.trans hb⟩
  have hs := fresh_history l hl _ _ hf
  set c := current (intendedPrior u, intendedLik u, intendedTemp u) l with hc
  obtain ⟨d1, d2⟩ := hd
  refine ⟨fun y => c.1 y k + c.2.2 * c.2.1 y k, grad c.1 x k + c.2.2 • grad c.2.1 x k, ?_, ?_, ?_, ?_⟩
  · intro y; exact C09_history u h l hl y k
  · exact (hg c.1 x k d1).add ((hg c.2.1 x k d2).const_mul c.2.2)
  · simp only [gradPotential, s, hs.grads, hs.temp]
  · simp only [potentialAndGrad, s, hs.grads, hs.temp]

/-- C10 fails after assigning `potential` directly: whatever function is assigned, `grad_potential` stays that of the
old prior and likelihood (while `potential` is the new function). -/
theorem C10_potential_assignment_stale (grad : GradOp E K) (u : Spec E K) (h : u.pot.isSome ∨ u.lik.isSome)
    (f : Pot E K) (x : E) (k : K) :
    potential (setattr (construct u) (.pot f)) x k = some (f x k) ∧
    gradPotential grad (setattr (construct u) (.pot f)) x k
      = some (grad (intendedPrior u) x k + intendedTemp u • grad (intendedLik u) x k) := by
  obtain ⟨h1, h2, h3, h4, h5, h6⟩ := construct_spec u h
  have hst : setattr (construct u) (.pot f) = { construct u with pot := .user f } := by
    simp only [setattr, setattr.rebuild]
    split
    · simp only [initGrad, h1, h2, h5]
    · rfl
  rw [hst]
  constructor
  · simp [potential]
  · simp [gradPotential, h5, h3]

/-- C10 fails for classes that replace `__setattr__` (the toy Gaussian, the mixture): after assigning a new likelihood the
gradient is still that of the old one, while the potential is the new one. -/
theorem C10_override_stale (grad : GradOp E K) (l l' : Pot E K) (x : E) (k : K) :
    let s := setattr (construct { lik := some l, baseSetattr := false }) (.lik l')
    potential s x k = some (l' x k) ∧ gradPotential grad s x k = some (grad (fun _ _ => 0) x k + (1 : ℝ) • grad l x k) := by
  intro s
  have hs : s = setattr (construct { lik := some l, baseSetattr := false }) (.lik l') := rfl
  simp [hs, setattr, setattr.rebuild, construct, initGrad, potential, temperedPotential, gradPotential]

/-- The derivative as gradient operator (so `IsGrad` can be met). -/
noncomputable def derivGrad : GradOp E K := fun f x k => fderiv ℝ (fun y => f y k) x

theorem derivGrad_isGrad : IsGrad (derivGrad (E := E) (K := K)) := fun _ _ _ h => h.hasFDerivAt

/-- Non-vacuity: prior `x`, likelihood `3x` at temperature 1/2; then likelihood `5x` and temperature 2 are assigned. -/
example : potential ([Assign.lik (fun x _ => 5 * x), .temp 2].foldl setattr
    (construct (E := ℝ) (K := Unit) { prior := some fun x _ => x, lik := some fun x _ => 3 * x, temp := some (1 / 2) }))
    7 () = some (7 + 2 * (5 * 7)) :=
  C09_history _ (Or.inr rfl) _ (by simp [NoPot]) 7 ()

/-- The two failures are real: the stale gradient differs from the gradient of the new potential. -/
example : ∃ (s : Scen ℝ Unit), (∃ f : Pot ℝ Unit, s = setattr (construct { lik := some fun x _ => x }) (.pot f)) ∧
    ∀ g, gradPotential derivGrad s 0 () = some g → ∀ v : ℝ → ℝ, (∀ y, potential s y () = some (v y)) →
      ¬ HasFDerivAt v g 0 := by
  refine ⟨_, ⟨fun x _ => 2 * x, rfl⟩, ?_⟩
  intro g hg v hv hder
  obtain ⟨h1, h2⟩ := C10_potential_assignment_stale (derivGrad (E := ℝ) (K := Unit)) { lik := some fun x _ => x }
    (Or.inr rfl) (fun x _ => 2 * x) 0 ()
  rw [h2, Option.some.injEq] at hg
  have hv' : v = fun y => 2 * y := by
    funext y
    have := (C10_potential_assignment_stale (derivGrad (E := ℝ) (K := Unit)) { lik := some fun x _ => x }
      (Or.inr rfl) (fun x _ => 2 * x) y ()).1
    rw [hv y, Option.some.injEq] at this; exact this
  have hd2 : HasFDerivAt v ((2 : ℝ) • ContinuousLinearMap.id ℝ ℝ) 0 := by
    rw [hv']
    exact (hasFDerivAt_id (𝕜 := ℝ) (0 : ℝ)).const_mul (2 : ℝ)
  have hgv : g = ContinuousLinearMap.id ℝ ℝ := by
    rw [← hg]
    simp [intendedPrior, intendedLik, intendedTemp, derivGrad]
  have := hder.unique hd2
  rw [hgv] at this
  have h1 := congrArg (fun L : ℝ →L[ℝ] ℝ => L 1) this
  norm_num at h1

end Mocat.Props
