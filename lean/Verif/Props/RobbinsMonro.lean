import Verif.Props.Mcmc
import Mathlib.Analysis.SpecialFunctions.Pow.Real
import Mathlib.Algebra.BigOperators.Group.Finset.Basic
import Mathlib.Tactic.Ring
/-!
# C23: Robbins-Monro adaptation of the tuning parameter
-/
namespace Mocat.Props
open Mocat Mocat.Mcmc

variable {K σ π : Type*} {d : ℕ}

/-- The hooks of a sampler leave `extra.parameters` alone. -/
structure KeepsParams (smp : Sampler K σ π) : Prop where
  always : ∀ s e, (smp.always s e).2.params = e.params
  proposal : ∀ s e, (smp.proposal s e).2.params = e.params

/-- A correction returns the parameters it is given, if both extras have the same ones. -/
def CorrKeepsParams (corr : Correction K σ π) : Prop :=
  ∀ smp rs re ps pe, pe.params = re.params → (corr smp rs re ps pe).2.params = re.params

theorem keepsParams_randomWalk (split3 : Split3 K) (normal : K → Fin d → ℝ) (pot : (Fin d → ℝ) → K → Fl) :
    KeepsParams (randomWalk split3 normal pot) := ⟨fun _ _ => rfl, fun _ _ => rfl⟩

theorem keepsParams_underdamped (split : K → K × K) (splitN : K → ℕ → K × List K) (normal : K → Fin d → ℝ)
    (prior lik : ValGrad K d) (T : ℝ) (L : ℕ) :
    KeepsParams (underdamped split splitN normal prior lik T L) := ⟨fun _ _ => rfl, fun _ _ => rfl⟩

theorem corrKeepsParams_metropolis (split : K → K × K) (uniform : K → ℝ) :
    CorrKeepsParams (metropolis split uniform : Correction K σ π) := by
  intro smp rs re ps pe h
  obtain ⟨a, -, h1, h2⟩ := C14_all_or_nothing split uniform smp rs re ps pe
  by_cases hacc : Fl.lt (Fl.fin (uniform (split pe.key).2)) a
  · rw [h1 hacc]; exact h
  · rw [h2 hacc]

theorem corrKeepsParams_uncorrected : CorrKeepsParams (uncorrected : Correction K σ π) :=
  fun _ _ _ _ _ h => h

/-- The value of the tuned parameter after `k` updates. -/
noncomputable def paramAfter (rm : RM π) (smp : Sampler K σ π) (sup : Correction K σ π) (s0 : State σ) (e0 : Extra K π)
    (k : ℕ) : ℝ :=
  rm.get (bodyIter (update smp (rm.correct sup)) k (s0, e0)).2.params

/-- The acceptance probability recorded at update `k`. -/
noncomputable def alphaAt (rm : RM π) (smp : Sampler K σ π) (sup : Correction K σ π) (s0 : State σ) (e0 : Extra K π)
    (k : ℕ) : ℝ :=
  flToReal (bodyIter (update smp (rm.correct sup)) k (s0, e0)).1.alpha

/-- Is adaptation on at counter value `i`? -/
def Adapting (rm : RM π) (i : ℕ) : Prop := ∀ c, rm.adaptCutOff = some c → i ≤ c

theorem update_rm (rm : RM π) (hlens : ∀ p x, rm.get (rm.set p x) = x) (smp : Sampler K σ π)
    (sup : Correction K σ π) (hs : KeepsIter smp) (hc : CorrKeepsIter sup) (hp : KeepsParams smp)
    (hcp : CorrKeepsParams sup) (s : State σ) (e : Extra K π) :
    let r := update smp (rm.correct sup) s e
    (¬ Adapting rm (e.iter + 1) → r.2.params = e.params) ∧
    (Adapting rm (e.iter + 1) → rm.get r.2.params =
      (if rm.logUpdate then
        Real.exp (Real.log (rm.get e.params)
          - rm.scale * ((e.iter + 1 : ℕ) : ℝ) ^ (-rm.negExponent) * (flToReal r.1.alpha - rm.target) * rm.monotonicity)
       else rm.get e.params
          - rm.scale * ((e.iter + 1 : ℕ) : ℝ) ^ (-rm.negExponent) * (flToReal r.1.alpha - rm.target) * rm.monotonicity)) ∧
    r.1.tuned = rm.get r.2.params := by
  intro r
  simp only [r, update]
  set e1 : Extra K π := { e with iter := e.iter + 1 } with he1
  set rs := (smp.always s e1).1
  set re := (smp.always s e1).2 with hre
  set ps := (smp.proposal rs re).1
  set pe := (smp.proposal rs re).2 with hpe
  have hrei : re.iter = e.iter + 1 := hs.always _ _
  have hpei : pe.iter = e.iter + 1 := by rw [hpe, hs.proposal, hrei]
  have hrep : re.params = e.params := hp.always _ _
  have hpep : pe.params = re.params := hp.proposal _ _
  have hit : (sup smp rs re ps pe).2.iter = e.iter + 1 := by
    rcases hc smp rs re ps pe with h | h <;> rw [h] <;> assumption
  have hpar : (sup smp rs re ps pe).2.params = e.params := by rw [hcp _ _ _ _ _ hpep, hrep]
  simp only [RM.correct, hit]
  rcases hcut : rm.adaptCutOff with _ | c
  · refine ⟨fun h => absurd (fun c hc => by simp [hcut] at hc) h, fun _ => ?_, trivial⟩
    simp only [if_true, RM.adapt, hlens, hpar, hit, RM.stepsizeAt]
    by_cases hl : rm.logUpdate <;> simp [hl, logRobbinsMonroUpdate, robbinsMonroUpdate]
  · by_cases hle : e.iter + 1 ≤ c
    · refine ⟨fun h => absurd (fun c' hc => ?_) h, fun _ => ?_, trivial⟩
      · rw [hcut] at hc; cases hc; exact hle
      · simp only [hle, decide_true, if_true, RM.adapt, hlens, hpar, hit, RM.stepsizeAt]
        by_cases hl : rm.logUpdate <;> simp [hl, logRobbinsMonroUpdate, robbinsMonroUpdate]
    · refine ⟨fun _ => ?_, fun h => absurd (h c hcut) hle, trivial⟩
      simp [hle, hpar]

section
variable (rm : RM π) (hlens : ∀ p x, rm.get (rm.set p x) = x) (smp : Sampler K σ π)
  (sup : Correction K σ π) (hs : KeepsIter smp) (hc : CorrKeepsIter sup) (hp : KeepsParams smp)
  (hcp : CorrKeepsParams sup) (s0 : State σ) (e0 : Extra K π)
include hlens hs hc hp hcp

/-- C23: the update rule. At update `k + 1` of a run whose counter started at `k₀`, while
`k₀ + k + 1 ≤ adapt_cut_off`, the log of the parameter moves by
`scale * (k₀ + k + 1) ^ (-negExponent) * (target - alpha)` (times the monotonicity), where `alpha` is the
acceptance probability recorded in the new state. -/
theorem C23_update_rule (k : ℕ) (hlog : rm.logUpdate = true) (_hpos : 0 < paramAfter rm smp sup s0 e0 k)
    (had : Adapting rm (e0.iter + k + 1)) :
    Real.log (paramAfter rm smp sup s0 e0 (k + 1))
      = Real.log (paramAfter rm smp sup s0 e0 k)
        + rm.scale * ((e0.iter + k + 1 : ℕ) : ℝ) ^ (-rm.negExponent)
          * (rm.target - alphaAt rm smp sup s0 e0 (k + 1)) * rm.monotonicity := by
  have hit := C21_iter_counts smp (rm.correct sup) hs (corrKeepsIter_rm _ _ hc) s0 e0 k
  have h := (update_rm rm hlens smp sup hs hc hp hcp (bodyIter (update smp (rm.correct sup)) k (s0, e0)).1
    (bodyIter (update smp (rm.correct sup)) k (s0, e0)).2).2.1
  rw [hit] at h
  have h := h had
  rw [← bodyIter_succ (update smp (rm.correct sup)), if_pos hlog] at h
  rw [paramAfter, h, Real.log_exp, alphaAt, paramAfter]; ring

/-- C23: without `log_update` the parameter itself moves by that amount. -/
theorem C23_update_rule_linear (k : ℕ) (hlog : rm.logUpdate = false)
    (had : Adapting rm (e0.iter + k + 1)) :
    paramAfter rm smp sup s0 e0 (k + 1)
      = paramAfter rm smp sup s0 e0 k
        + rm.scale * ((e0.iter + k + 1 : ℕ) : ℝ) ^ (-rm.negExponent)
          * (rm.target - alphaAt rm smp sup s0 e0 (k + 1)) * rm.monotonicity := by
  have hit := C21_iter_counts smp (rm.correct sup) hs (corrKeepsIter_rm _ _ hc) s0 e0 k
  have h := (update_rm rm hlens smp sup hs hc hp hcp (bodyIter (update smp (rm.correct sup)) k (s0, e0)).1
    (bodyIter (update smp (rm.correct sup)) k (s0, e0)).2).2.1
  rw [hit] at h
  have h := h had
  rw [← bodyIter_succ (update smp (rm.correct sup)), hlog, if_neg (by simp)] at h
  rw [paramAfter, h, alphaAt, paramAfter]; ring

/-- C23: once the counter is past `adapt_cut_off` all the parameters are frozen. -/
theorem C23_frozen (k j : ℕ) (hk : ¬ Adapting rm (e0.iter + k + 1)) :
    (bodyIter (update smp (rm.correct sup)) (k + j) (s0, e0)).2.params
      = (bodyIter (update smp (rm.correct sup)) k (s0, e0)).2.params := by
  induction j with
  | zero => rfl
  | succ j ih =>
    have hit := C21_iter_counts smp (rm.correct sup) hs (corrKeepsIter_rm _ _ hc) s0 e0 (k + j)
    have h := (update_rm rm hlens smp sup hs hc hp hcp
      (bodyIter (update smp (rm.correct sup)) (k + j) (s0, e0)).1
      (bodyIter (update smp (rm.correct sup)) (k + j) (s0, e0)).2).1
    rw [hit] at h
    rw [← Nat.add_assoc, bodyIter_succ, h ?_, ih]
    intro hA; apply hk; intro c hc
    have := hA c hc; omega

/-- C23: with `log_update` the parameter stays positive for ever, whatever happens. -/
theorem C23_positive (hlog : rm.logUpdate = true) (h0 : 0 < rm.get e0.params) (k : ℕ) :
    0 < paramAfter rm smp sup s0 e0 k := by
  induction k with
  | zero => exact h0
  | succ k ih =>
    have h := update_rm rm hlens smp sup hs hc hp hcp (bodyIter (update smp (rm.correct sup)) k (s0, e0)).1
      (bodyIter (update smp (rm.correct sup)) k (s0, e0)).2
    rw [paramAfter, bodyIter_succ]
    by_cases hA : Adapting rm ((bodyIter (update smp (rm.correct sup)) k (s0, e0)).2.iter + 1)
    · rw [h.2.1 hA, if_pos hlog]; exact Real.exp_pos _
    · rw [h.1 hA]; exact ih

/-- C23: closed form. After `k` adapting updates the log of the parameter is its initial value plus the
weighted sum of all deviations of the recorded acceptance probabilities from the target. -/
theorem C23_closed_form (hlog : rm.logUpdate = true) (h0 : 0 < rm.get e0.params) (k : ℕ)
    (hk : Adapting rm (e0.iter + k)) :
    Real.log (paramAfter rm smp sup s0 e0 k)
      = Real.log (rm.get e0.params)
        + ∑ i ∈ Finset.range k, rm.scale * ((e0.iter + i + 1 : ℕ) : ℝ) ^ (-rm.negExponent)
          * (rm.target - alphaAt rm smp sup s0 e0 (i + 1)) * rm.monotonicity := by
  induction k with
  | zero => simp [paramAfter, bodyIter]
  | succ k ih =>
    rw [C23_update_rule rm hlens smp sup hs hc hp hcp s0 e0 k hlog
      (C23_positive rm hlens smp sup hs hc hp hcp s0 e0 hlog h0 k) hk,
      ih (fun c hc => by have := hk c hc; omega), Finset.sum_range_succ, add_assoc]

/-- C23: direction. For a metric that decreases in the parameter (the default: acceptance against
stepsize) and a positive `rm_stepsize_scale`, accepting more often than the target makes the parameter grow,
accepting less often makes it shrink. -/
theorem C23_direction (hlog : rm.logUpdate = true) (hinc : rm.increasing = false) (hscale : 0 < rm.scale)
    (h0 : 0 < rm.get e0.params) (k : ℕ) (had : Adapting rm (e0.iter + k + 1)) :
    (rm.target < alphaAt rm smp sup s0 e0 (k + 1) →
      paramAfter rm smp sup s0 e0 k < paramAfter rm smp sup s0 e0 (k + 1)) ∧
    (alphaAt rm smp sup s0 e0 (k + 1) < rm.target →
      paramAfter rm smp sup s0 e0 (k + 1) < paramAfter rm smp sup s0 e0 k) := by
  have hp0 := C23_positive rm hlens smp sup hs hc hp hcp s0 e0 hlog h0 k
  have hp1 := C23_positive rm hlens smp sup hs hc hp hcp s0 e0 hlog h0 (k + 1)
  have h := C23_update_rule rm hlens smp sup hs hc hp hcp s0 e0 k hlog hp0 had
  have hw : 0 < rm.scale * ((e0.iter + k + 1 : ℕ) : ℝ) ^ (-rm.negExponent) :=
    mul_pos hscale (Real.rpow_pos_of_pos (by positivity) _)
  have hm : rm.monotonicity = -1 := by simp [RM.monotonicity, hinc]
  rw [hm] at h
  constructor <;> intro hlt
  · refine (Real.log_lt_log_iff hp0 hp1).mp ?_
    rw [h]
    have := mul_pos hw (sub_pos.mpr hlt)
    linarith
  · refine (Real.log_lt_log_iff hp1 hp0).mp ?_
    rw [h]
    have := mul_pos hw (sub_pos.mpr hlt)
    linarith

/-- C23: on target the parameter does not move. -/
theorem C23_on_target (hlog : rm.logUpdate = true) (h0 : 0 < rm.get e0.params) (k : ℕ)
    (heq : alphaAt rm smp sup s0 e0 (k + 1) = rm.target) :
    paramAfter rm smp sup s0 e0 (k + 1) = paramAfter rm smp sup s0 e0 k := by
  have hp0 := C23_positive rm hlens smp sup hs hc hp hcp s0 e0 hlog h0 k
  have hp1 := C23_positive rm hlens smp sup hs hc hp hcp s0 e0 hlog h0 (k + 1)
  by_cases had : Adapting rm (e0.iter + k + 1)
  · have h := C23_update_rule rm hlens smp sup hs hc hp hcp s0 e0 k hlog hp0 had
    rw [heq, sub_self, mul_zero, zero_mul, add_zero] at h
    exact Real.log_injOn_pos hp1 hp0 h
  · unfold paramAfter
    rw [C23_frozen rm hlens smp sup hs hc hp hcp s0 e0 k 1 had]

/-- C23: the state of every update records the parameter value that the next update will use. -/
theorem C23_recorded (k : ℕ) :
    (bodyIter (update smp (rm.correct sup)) (k + 1) (s0, e0)).1.tuned
      = paramAfter rm smp sup s0 e0 (k + 1) := by
  have h := (update_rm rm hlens smp sup hs hc hp hcp (bodyIter (update smp (rm.correct sup)) k (s0, e0)).1
    (bodyIter (update smp (rm.correct sup)) k (s0, e0)).2).2.2
  rw [← bodyIter_succ (update smp (rm.correct sup))] at h
  exact h

end

/-- Settings of `RMMetropolis` with its defaults around `Underdamped` (target 0.651). -/
noncomputable def rmUnderdamped (cut : Option ℕ) : RM UDParams :=
  { get := UDParams.stepsize, set := fun p x => { p with stepsize := x }
    target := 651 / 1000, increasing := false, adaptCutOff := cut
    scale := 1, negExponent := 2 / 3, logUpdate := true }

/-- Non-vacuity of C23: Underdamped with RMMetropolis(Metropolis) keeps a positive stepsize. -/
example (split : K → K × K) (splitN : K → ℕ → K × List K) (normal : K → Fin d → ℝ)
    (prior lik : ValGrad K d) (uniform : K → ℝ) (s0) (e0 : Extra K UDParams) (h0 : 0 < e0.params.stepsize)
    (cut : Option ℕ) (k : ℕ) :
    0 < paramAfter (rmUnderdamped cut) (underdamped split splitN normal prior lik 1 3)
      (metropolis split uniform) s0 e0 k :=
  C23_positive (rmUnderdamped cut) (fun _ _ => rfl) _ _ (keepsIter_underdamped _ _ _ _ _ _ _) (corrKeepsIter_metropolis _ _)
    (keepsParams_underdamped _ _ _ _ _ _ _) (corrKeepsParams_metropolis _ _) _ _ rfl h0 k

/-- Non-vacuity: with a cut-off at 10, adaptation is on at 3 and off at 11. -/
example : Adapting (rmUnderdamped (some 10)) 3 ∧ ¬ Adapting (rmUnderdamped (some 10)) 11 := by
  constructor
  · intro c hc; simp [rmUnderdamped] at hc; omega
  · intro h; have := h 10 rfl; omega

end Mocat.Props
