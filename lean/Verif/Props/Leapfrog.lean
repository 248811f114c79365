import Verif.Lemmas.Leapfrog
/-!
# C18: leapfrog followed by a momentum flip is an involution
-/
namespace Mocat.Props
open Mocat Mocat.Mcmc

variable {K : Type*} {d : ℕ}

/-- The stored potentials and gradients of a state are those of its position: `prior x` and `lik x`
are value and gradient, `T` the temperature. -/
structure Consistent (prior lik : (Fin d → ℝ) → ℝ × (Fin d → ℝ)) (T : ℝ) (s : LfState d) : Prop where
  prior_val : s.priorPotential = (prior s.value).1
  prior_grad : s.gradPriorPotential = (prior s.value).2
  lik_val : s.likelihoodPotential = (lik s.value).1
  lik_grad : s.gradLikelihoodPotential = (lik s.value).2
  pot_val : s.potential = (prior s.value).1 + T * (lik s.value).1
  pot_grad : s.gradPotential = fun i => (prior s.value).2 i + T * (lik s.value).2 i

variable (prior lik : (Fin d → ℝ) → ℝ × (Fin d → ℝ))

/-- The gradient field followed by the integrator. -/
def gradField (T : ℝ) (x : Fin d → ℝ) : Fin d → ℝ := fun i => (prior x).2 i + T * (lik x).2 i

theorem consistent_ext {T : ℝ} {s t : LfState d} (hs : Consistent prior lik T s)
    (ht : Consistent prior lik T t) (hp : s.phase = t.phase) : s = t := by
  obtain ⟨hv, hm⟩ := Prod.mk.inj hp
  cases s; cases t
  obtain ⟨a1, a2, a3, a4, a5, a6⟩ := hs
  obtain ⟨b1, b2, b3, b4, b5, b6⟩ := ht
  simp only at *
  subst hv hm a1 a2 a3 a4 a5 a6 b1 b2 b3 b4 b5 b6
  rfl

theorem step_consistent (ε T : ℝ) (s : LfState d) (k : K) :
    Consistent prior lik T (leapfrogStep (fun x _ => prior x) (fun x _ => lik x) ε T s k).1 :=
  ⟨rfl, rfl, rfl, rfl, rfl, rfl⟩

theorem step_phase (ε T : ℝ) (s : LfState d) (k : K) (hs : Consistent prior lik T s) :
    (leapfrogStep (fun x _ => prior x) (fun x _ => lik x) ε T s k).1.phase
      = lfMap ε (gradField prior lik T) s.phase := by
  have h := hs.pot_grad
  simp only [leapfrogStep, LfState.phase, lfMap, gradField, h]

theorem foldl_consistent (ε T : ℝ) (s : LfState d) (keys : List K) (hs : Consistent prior lik T s) :
    let r := keys.foldl (fun s k => (leapfrogStep (fun x _ => prior x) (fun x _ => lik x) ε T s k).1) s
    Consistent prior lik T r ∧ r.phase = (lfMap ε (gradField prior lik T))^[keys.length] s.phase := by
  induction keys generalizing s with
  | nil => exact ⟨hs, rfl⟩
  | cons k ks ih =>
    have h := ih _ (step_consistent prior lik ε T s k)
    refine ⟨h.1, ?_⟩
    simp only [List.foldl_cons, List.length_cons, Function.iterate_succ_apply]
    rw [h.2, step_phase prior lik ε T s k hs]

variable (split : K → K × K) (splitN : K → ℕ → K × List K) (normal : K → Fin d → ℝ)

theorem flipMomenta_consistent {T : ℝ} {s : LfState d} (hs : Consistent prior lik T s) :
    Consistent prior lik T { s with momenta := fun i => - s.momenta i } :=
  ⟨hs.1, hs.2, hs.3, hs.4, hs.5, hs.6⟩

/-- The Underdamped proposal on phase space is: flip after `L` leapfrog steps; and what it stores is
consistent with the new position. -/
theorem proposal_phase (T : ℝ) (L : ℕ) (hlen : ∀ k, (splitN k L).2.length = L) (s : State (LfState d))
    (e : Extra K UDParams) (hs : Consistent prior lik T s.payload) :
    let p := ((underdamped split splitN normal (fun x _ => prior x) (fun x _ => lik x) T L).proposal s e).1.payload
    Consistent prior lik T p ∧
    p.phase = flip ((lfMap e.params.stepsize (gradField prior lik T))^[L] s.payload.phase) := by
  have h := foldl_consistent prior lik e.params.stepsize T s.payload (splitN e.key L).2 hs
  rw [hlen] at h
  simp only [underdamped]
  rw [leapfrog_last]
  refine ⟨flipMomenta_consistent prior lik h.1, ?_⟩
  rw [← h.2]; rfl

/-- C18: from any consistent state, the Underdamped proposal applied to its own output (with any random
keys and any other `extra` of the same stepsize) gives back the starting state: position, momenta,
potentials and gradients. `splitN k L` returns `L` keys; the gradient fields are arbitrary functions. -/
theorem C18_involution (T : ℝ) (L : ℕ) (hlen : ∀ k, (splitN k L).2.length = L) (s : State (LfState d))
    (e e' : Extra K UDParams) (hε : e'.params.stepsize = e.params.stepsize)
    (hs : Consistent prior lik T s.payload) :
    let smp := underdamped split splitN normal (fun x _ => prior x) (fun x _ => lik x) T L
    (smp.proposal (smp.proposal s e).1 e').1.payload = s.payload := by
  intro smp
  have h1 := proposal_phase prior lik split splitN normal T L hlen s e hs
  have h2 := proposal_phase prior lik split splitN normal T L hlen (smp.proposal s e).1 e' h1.1
  refine consistent_ext prior lik h2.1 hs ?_
  rw [h2.2, h1.2, hε, lf_iter_flip]

/-- C18: the stored potentials and gradients are those of the stored position after any proposal. -/
theorem C18_consistent (T : ℝ) (L : ℕ) (hlen : ∀ k, (splitN k L).2.length = L) (s : State (LfState d))
    (e : Extra K UDParams) (hs : Consistent prior lik T s.payload) :
    Consistent prior lik T
      ((underdamped split splitN normal (fun x _ => prior x) (fun x _ => lik x) T L).proposal s e).1.payload :=
  (proposal_phase prior lik split splitN normal T L hlen s e hs).1

/-- C18: `chain` rows. `leapfrog` returns `L + 1` positions and `2 L + 1` momenta, the first being the
initial ones. -/
theorem C18_chain_shape (prior lik : ValGrad K d) (s : LfState d) (ε : ℝ) (keys : List K) (T : ℝ) :
    (leapfrog prior lik s ε keys T).states.length = keys.length + 1 ∧
    (leapfrog prior lik s ε keys T).momenta.length = 2 * keys.length + 1 ∧
    (leapfrog prior lik s ε keys T).states.head? = some s ∧
    (leapfrog prior lik s ε keys T).momenta.head? = some s.momenta := by
  refine ⟨?_, ?_, rfl, rfl⟩
  · simp only [leapfrog, List.length_cons, List.length_map]
    congr 1
    induction keys generalizing s with
    | nil => rfl
    | cons k ks ih => simp [scan, ih]
  · simp only [leapfrog, List.length_cons]
    congr 1
    induction keys generalizing s with
    | nil => rfl
    | cons k ks ih => simp [scan, ih, leapfrogStep]; ring

/-- The consistent state at a position and momenta. -/
def stateAt (T : ℝ) (x p : Fin d → ℝ) : LfState d :=
  { value := x, momenta := p, priorPotential := (prior x).1, gradPriorPotential := (prior x).2
    likelihoodPotential := (lik x).1, gradLikelihoodPotential := (lik x).2
    potential := (prior x).1 + T * (lik x).1, gradPotential := fun i => (prior x).2 i + T * (lik x).2 i }

theorem stateAt_consistent (T : ℝ) (x p : Fin d → ℝ) : Consistent prior lik T (stateAt prior lik T x p) :=
  ⟨rfl, rfl, rfl, rfl, rfl, rfl⟩

/-- Non-vacuity of C18: a consistent state for a quartic potential with a discontinuous likelihood
gradient, in dimension 2, and a `splitN` that returns `L` keys. -/
example : ∃ (prior lik : (Fin 2 → ℝ) → ℝ × (Fin 2 → ℝ)) (s : LfState 2),
    Consistent prior lik 3 s ∧ s.momenta ≠ 0 ∧ (∀ k : ℕ, ((k, List.replicate 5 k)).2.length = 5) := by
  refine ⟨fun x => (∑ i, x i ^ 4, fun i => 4 * x i ^ 3), fun x => (|x 0|, fun _ => 1),
    stateAt _ _ 3 (fun _ => 1) (fun _ => 2), stateAt_consistent _ _ _ _ _, ?_, by simp⟩
  intro h
  have := congrFun h 0
  norm_num [stateAt] at this

end Mocat.Props
