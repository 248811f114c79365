import Verif.Model.Smc
import Verif.Lemmas.Mcmc
import Mathlib.Tactic.Linarith
/-!
# Lemmas about the SMC model
-/
namespace Mocat.Smc
open Mocat

variable {K π X ρ : Type*} {n : ℕ} [NeZero n]

/-- The ensemble an update works on: resampled or not. -/
noncomputable def basis (splitN : K → Fin (n + 2) → K) (categorical : K → (Fin n → ℝ) → Fin n → Fin n) (p : Params)
    (ens : Ensemble n X ρ) (e : Extra K π) : Ensemble n X ρ :=
  if resampleCriterion p ens then resample categorical ens (splitN e.key (Fin.last n).castSucc) else ens

/-- The extra after the key split. -/
def nextExtra (splitN : K → Fin (n + 2) → K) (e : Extra K π) : Extra K π :=
  { e with iter := e.iter + 1, key := splitN e.key (Fin.last (n + 1)) }

/-- The moved ensemble -/
noncomputable def moved (splitN : K → Fin (n + 2) → K) (categorical : K → (Fin n → ℝ) → Fin n → Fin n)
    (kernel : Kernel K π X ρ) (prior : X → ℝ) (p : Params) (ens : Ensemble n X ρ) (e : Extra K π) : Ensemble n X ρ :=
  fun i => forwardProposal kernel prior p (ens 0).temperature (basis splitN categorical p ens e i) (nextExtra splitN e)
    (splitN e.key i.castSucc.castSucc)

theorem update_eq (splitN : K → Fin (n + 2) → K) (categorical : K → (Fin n → ℝ) → Fin n → Fin n)
    (kernel : Kernel K π X ρ) (prior : X → ℝ) (c : Config) (p : Params) (ens : Ensemble n X ρ) (e : Extra K π) :
    update splitN categorical kernel prior c p ens e
      = adapt c p (basis splitN categorical p ens e) (moved splitN categorical kernel prior p ens e) (nextExtra splitN e) := rfl

theorem basis_cases (splitN : K → Fin (n + 2) → K) (categorical : K → (Fin n → ℝ) → Fin n → Fin n) (p : Params)
    (ens : Ensemble n X ρ) (e : Extra K π) :
    ((ens 0).ess ≤ p.essThresholdResample * n ∧
      basis splitN categorical p ens e = resample categorical ens (splitN e.key (Fin.last n).castSucc)) ∨
    (¬ (ens 0).ess ≤ p.essThresholdResample * n ∧ basis splitN categorical p ens e = ens) := by
  unfold basis resampleCriterion
  by_cases h : (ens 0).ess ≤ p.essThresholdResample * n
  · left; refine ⟨h, ?_⟩; rw [if_pos]; exact @decide_eq_true _ (_) h
  · right; refine ⟨h, ?_⟩; rw [if_neg]; rw [@decide_eq_false _ (_) h]; simp

/-- Fields that all particles share. -/
structure Shared (ens : Ensemble n X ρ) : Prop where
  temperature : ∀ i, (ens i).temperature = (ens 0).temperature
  ess : ∀ i, (ens i).ess = Real.exp (logEss fun j => (ens j).logWeight)
  logNorm : ∀ i, (ens i).logNorm = (ens 0).logNorm

omit [NeZero n] in
theorem lse_zero : lse (fun _ : Fin n => (0 : ℝ)) = Real.log n := by simp [lse]

theorem logEss_zero : Real.exp (logEss fun _ : Fin n => (0 : ℝ)) = n := by
  have : (0 : ℝ) < n := by exact_mod_cast Nat.pos_of_ne_zero (NeZero.ne n)
  simp only [logEss, mul_zero, lse_zero]
  rw [show 2 * Real.log n - Real.log n = Real.log n by ring, Real.exp_log this]

theorem basis_shared {splitN : K → Fin (n + 2) → K} {categorical : K → (Fin n → ℝ) → Fin n → Fin n} {p : Params}
    {ens : Ensemble n X ρ} {e : Extra K π} (h : Shared ens) : Shared (basis splitN categorical p ens e) ∧
      (basis splitN categorical p ens e 0).temperature = (ens 0).temperature ∧
      (basis splitN categorical p ens e 0).logNorm = (ens 0).logNorm := by
  rcases basis_cases splitN categorical p ens e with ⟨_, hb⟩ | ⟨_, hb⟩ <;> rw [hb]
  · refine ⟨⟨fun i => ?_, fun i => ?_, fun i => ?_⟩, ?_, ?_⟩
    · simp only [resample]; rw [h.temperature, h.temperature (categorical _ _ 0)]
    · simp only [resample]; exact logEss_zero.symm
    · simp only [resample]; rw [h.logNorm, h.logNorm (categorical _ _ 0)]
    · simp only [resample]; rw [h.temperature]
    · simp only [resample]; rw [h.logNorm]
  · exact ⟨h, rfl, rfl⟩

theorem adapt_shared {c : Config} {p : Params} {prev new : Ensemble n X ρ} {e : Extra K π} (h : Shared prev) :
    Shared (adapt c p prev new e).1 := by
  refine ⟨fun i => rfl, fun i => ?_, fun i => ?_⟩
  · simp only [adapt, one_mul]
  · simp only [adapt]; rw [h.logNorm]

theorem update_shared {splitN : K → Fin (n + 2) → K} {categorical : K → (Fin n → ℝ) → Fin n → Fin n}
    {kernel : Kernel K π X ρ} {prior : X → ℝ} {c : Config} {p : Params} {ens : Ensemble n X ρ} {e : Extra K π}
    (h : Shared ens) : Shared (update splitN categorical kernel prior c p ens e).1 := by
  rw [update_eq]; exact adapt_shared (basis_shared h).1

theorem startup_shared {kernel : Kernel K π X ρ} {prior lik : X → ℝ} {c : Config} {p : Params} {values : Fin n → X}
    {alpha0 : ℝ} {rest0 : ρ} {e : Extra K π} : Shared (startup kernel prior lik c p values alpha0 rest0 e).1 :=
  ⟨fun _ => rfl, fun _ => rfl, fun _ => rfl⟩

theorem update_iter {splitN : K → Fin (n + 2) → K} {categorical : K → (Fin n → ℝ) → Fin n → Fin n}
    {kernel : Kernel K π X ρ} {prior : X → ℝ} {c : Config} {p : Params} {ens : Ensemble n X ρ} {e : Extra K π} :
    (update splitN categorical kernel prior c p ens e).2.iter = e.iter + 1 := rfl

end Mocat.Smc
