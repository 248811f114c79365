import Verif.Model.MetropolisHastings
import Mathlib.Tactic.Ring
import Mathlib.Tactic.Linarith
/-!
# C17: the Metropolis-Hastings ratio satisfies detailed balance
-/
namespace Mocat.Props
open Mocat Mocat.Mcmc

/-- `exp (-p)` for a potential in `ℝ ∪ {+∞}` -/
noncomputable def boltzmann : Fl → ℝ
  | .fin x => Real.exp (-x)
  | _ => 0

/-- A potential value of a (possibly zero) density: a real or `+∞`. -/
def IsPotential : Fl → Prop
  | .fin _ => True
  | .pinf => True
  | _ => False

/-- The probability with which `Metropolis.correct` accepts: the acceptance value, NaN counting as 0. -/
def acceptProb : Fl → ℝ
  | .fin a => a
  | _ => 0

theorem minimum_exp_fin (r : ℝ) : Fl.minimum (Fl.fin 1) (Fl.exp (Fl.fin r)) = Fl.fin (min 1 (Real.exp r)) := by
  simp only [Fl.exp, Fl.minimum]
  by_cases h : Real.exp r < 1
  · rw [min_eq_right h.le]; exact if_pos h
  · rw [min_eq_left (not_lt.mp h)]; exact if_neg h

/-- C17: detailed balance `π(x) q(x→y) a(x→y) = π(y) q(y→x) a(y→x)` for all points, all potentials and all
proposal potentials, with `+∞` (zero density) allowed everywhere. -/
theorem C17_detailed_balance {P : Type*} (U : P → Fl) (Q : P → P → Fl) (hU : ∀ x, IsPotential (U x))
    (hQ : ∀ x y, IsPotential (Q x y)) (x y : P) :
    boltzmann (U x) * boltzmann (Q x y) * acceptProb (mhAcceptance U Q x y)
      = boltzmann (U y) * boltzmann (Q y x) * acceptProb (mhAcceptance U Q y x) := by
  have h1 := hU x; have h2 := hU y; have h3 := hQ x y; have h4 := hQ y x
  unfold mhAcceptance
  generalize U x = ux at *
  generalize U y = uy at *
  generalize Q x y = qxy at *
  generalize Q y x = qyx at *
  cases ux <;> cases uy <;> cases qxy <;> cases qyx <;>
    simp only [IsPotential] at h1 h2 h3 h4
  · rename_i a b c e
    simp only [Fl.neg, Fl.add, Fl.sub, minimum_exp_fin, acceptProb, boltzmann]
    rw [mul_min_of_nonneg _ _ (by positivity), mul_min_of_nonneg _ _ (by positivity), mul_one, mul_one, min_comm]
    simp only [← Real.exp_add]
    congr 2 <;> ring
  all_goals simp [Fl.neg, Fl.add, Fl.sub, Fl.exp, Fl.minimum, Fl.lt, acceptProb, boltzmann]

/-- C17: the flow is the smaller of the two one-way flows (so no correct acceptance rule for this proposal
accepts more often). -/
theorem C17_flow {P : Type*} (U : P → ℝ) (Q : P → P → ℝ) (x y : P) :
    Real.exp (-U x) * Real.exp (-Q x y)
      * acceptProb (mhAcceptance (fun x => Fl.fin (U x)) (fun x y => Fl.fin (Q x y)) x y)
      = min (Real.exp (-U x) * Real.exp (-Q x y)) (Real.exp (-U y) * Real.exp (-Q y x)) := by
  simp only [mhAcceptance, Fl.neg, Fl.add, Fl.sub, minimum_exp_fin, acceptProb]
  rw [mul_min_of_nonneg _ _ (by positivity), mul_one]
  simp only [← Real.exp_add]
  congr 2; ring

/-- C17: for a symmetric proposal the ratio is the one used by `RandomWalk`. -/
theorem C17_symmetric {P : Type*} (U : P → Fl) (Q : P → P → ℝ) (hQ : ∀ x y, Q x y = Q y x) (hU : ∀ x, IsPotential (U x))
    (x y : P) : mhAcceptance U (fun x y => Fl.fin (Q x y)) x y
      = Fl.minimum (Fl.fin 1) (Fl.exp (Fl.add (Fl.neg (U y)) (U x))) := by
  have h1 := hU x; have h2 := hU y
  unfold mhAcceptance
  generalize U x = ux at *
  generalize U y = uy at *
  cases ux <;> cases uy <;> simp only [IsPotential] at h1 h2 <;>
    simp [Fl.neg, Fl.add, Fl.sub, hQ x y]

/-- Non-vacuity: an asymmetric proposal on `ℝ` with a target supported on the positive half line. -/
example : ∃ (U : ℝ → Fl) (Q : ℝ → ℝ → Fl), (∀ x, IsPotential (U x)) ∧ (∀ x y, IsPotential (Q x y)) ∧
    Q 0 1 ≠ Q 1 0 ∧ U (-1) = Fl.pinf ∧ U 1 = Fl.fin 1 := by
  classical
  refine ⟨fun x => if 0 < x then Fl.fin x else Fl.pinf, fun x y => Fl.fin (x - 2 * y), ?_, ?_, ?_, ?_, ?_⟩
  · intro x; dsimp only; split_ifs <;> trivial
  · intro x y; trivial
  · simp only [ne_eq, Fl.fin.injEq]; norm_num
  · simp
  · simp

end Mocat.Props
