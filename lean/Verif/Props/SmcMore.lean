import Verif.Model.SmcMore
import Verif.Props.Smc
import Verif.Lemmas.Leapfrog
import Mathlib.Tactic.Positivity
/-!
# C95: stepsize adaptation of `RMMetropolisedSMCSampler`. C96: gradients kept by tempered SMC samplers
-/
namespace Mocat.Props
open Mocat Mocat.Smc

variable {K π X ρ : Type*} {n d : ℕ} [NeZero n]

/-! ## C95 -/

/-- A Metropolised SMC setup with what `RMMetropolisedSMCSampler` adds. -/
structure RmSetup (K π X ρ : Type*) (n : ℕ) extends SmcSetup K π X ρ n where
  tune : Tune π
  target : ℝ
  rm : ℝ

namespace RmSetup

/-- Ensemble, `stepsize` array and extra after `k` updates. -/
noncomputable def rmState (S : RmSetup K π X ρ n) (k : ℕ) : (Ensemble n X ρ × (Fin n → ℝ)) × Extra K π :=
  bodyIter (rmUpdate S.tune S.target S.rm S.splitN S.categorical S.kernel S.prior S.config S.params) k (rmStartup S.tune S.start)

/-- The chain returned by `run`. -/
noncomputable def rmChain (S : RmSetup K π X ρ n) (manyNan : (Fin n → X) → Bool) : List (Ensemble n X ρ × ℝ) :=
  rmRunFrom S.tune S.target S.rm S.splitN S.categorical S.kernel S.prior S.config S.params manyNan (rmStartup S.tune S.start)

/-- The stepsize the user started with. -/
noncomputable def stepsize0 (S : RmSetup K π X ρ n) : ℝ := S.tune.get S.start.2.params

theorem rmState_succ (S : RmSetup K π X ρ n) (k : ℕ) :
    S.rmState (k + 1) = rmUpdate S.tune S.target S.rm S.splitN S.categorical S.kernel S.prior S.config S.params (S.rmState k).1 (S.rmState k).2 :=
  Mcmc.bodyIter_succ _ _ _

end RmSetup

/-- Mean acceptance probability of an ensemble under its normalised importance weights. -/
noncomputable def meanAcceptance (ens : Ensemble n X ρ) : ℝ :=
  ∑ i, Real.exp (ens i).logWeight / (∑ j, Real.exp (ens j).logWeight) * (ens i).mc.alpha

theorem average_exp_sub (lw v : Fin n → ℝ) (m : ℝ) :
    average (fun i => Real.exp (lw i - m)) v = ∑ i, Real.exp (lw i) / (∑ j, Real.exp (lw j)) * v i := by
  unfold average
  have hS : (∑ j, Real.exp (lw j)) ≠ 0 := (Finset.sum_pos (fun i _ => Real.exp_pos _) ⟨0, Finset.mem_univ _⟩).ne'
  have hm := (Real.exp_pos m).ne'
  simp only [Real.exp_sub]
  rw [← Finset.sum_div, Finset.sum_congr rfl (fun i _ => show v i * (Real.exp (lw i) / Real.exp m) = v i * Real.exp (lw i) / Real.exp m by ring),
    ← Finset.sum_div, div_div_div_cancel_right₀ hm, Finset.sum_div]
  exact Finset.sum_congr rfl fun i _ => by ring

/-- C95: the adaptation changes nothing but the stepsize: the new ensemble is that of the plain Metropolised sampler (which C38 to C42 describe) in the same situation. -/
theorem C95_ensemble (S : RmSetup K π X ρ n) (k : ℕ) :
    (S.rmState (k + 1)).1.1 = (Smc.update S.splitN S.categorical S.kernel S.prior S.config S.params (S.rmState k).1.1 (S.rmState k).2).1 := by
  rw [S.rmState_succ]; rfl

/-- The extra's stepsize is recorded in every row. -/
theorem C95_recorded (S : RmSetup K π X ρ n) (k : ℕ) (i : Fin n) : (S.rmState k).1.2 i = S.tune.get (S.rmState k).2.params := by
  cases k with
  | zero => exact one_mul _
  | succ k => rw [S.rmState_succ]; exact one_mul _

theorem rm_step (S : RmSetup K π X ρ n) (k : ℕ) :
    S.tune.get (S.rmState (k + 1)).2.params
      = Real.exp (Real.log (S.tune.get (S.rmState k).2.params) + S.rm * (meanAcceptance (S.rmState (k + 1)).1.1 - S.target)) := by
  rw [S.rmState_succ]
  simp only [rmUpdate, smcUpdate, rmAdapt, S.tune.get_set]
  rw [average_exp_sub]
  rfl

/-- C95: after `k` updates the stepsize recorded in every row is the initial one times `exp (rm * Σ (mean acceptance - target))`, the sum over the `k` updates made, the mean acceptance being
the average of the particles' acceptance probabilities under their normalised weights. -/
theorem C95_stepsize (S : RmSetup K π X ρ n) (h0 : 0 < S.stepsize0) (k : ℕ) (i : Fin n) :
    (S.rmState k).1.2 i
      = S.stepsize0 * Real.exp (S.rm * ∑ j ∈ Finset.range k, (meanAcceptance (S.rmState (j + 1)).1.1 - S.target)) := by
  rw [C95_recorded]
  induction k with
  | zero => simp only [Finset.range_zero, Finset.sum_empty, mul_zero, Real.exp_zero, mul_one]; rfl
  | succ k ih =>
    rw [rm_step, ih, Real.log_mul h0.ne' (Real.exp_pos _).ne', Real.log_exp, add_assoc, Real.exp_add, Real.exp_log h0, Finset.sum_range_succ]
    congr 2
    ring

/-- C95: the stepsize is positive for ever. -/
theorem C95_positive (S : RmSetup K π X ρ n) (h0 : 0 < S.stepsize0) (k : ℕ) (i : Fin n) : 0 < (S.rmState k).1.2 i := by
  rw [C95_stepsize S h0]; positivity

/-- C95: with a positive `rm_stepsize` the stepsize grows from one state to the next exactly if the mean acceptance of the new state is above the target, and shrinks exactly if it is below. -/
theorem C95_direction (S : RmSetup K π X ρ n) (h0 : 0 < S.stepsize0) (hrm : 0 < S.rm) (k : ℕ) (i : Fin n) :
    ((S.rmState k).1.2 i < (S.rmState (k + 1)).1.2 i ↔ S.target < meanAcceptance (S.rmState (k + 1)).1.1) ∧
    ((S.rmState (k + 1)).1.2 i < (S.rmState k).1.2 i ↔ meanAcceptance (S.rmState (k + 1)).1.1 < S.target) := by
  rw [C95_stepsize S h0, C95_stepsize S h0]
  constructor
  · rw [mul_lt_mul_iff_right₀ h0, Real.exp_lt_exp, mul_lt_mul_iff_right₀ hrm, Finset.sum_range_succ]
    constructor <;> intro h <;> linarith
  · rw [mul_lt_mul_iff_right₀ h0, Real.exp_lt_exp, mul_lt_mul_iff_right₀ hrm, Finset.sum_range_succ]
    constructor <;> intro h <;> linarith

/-- Contract of an inner sampler: acceptance probabilities are in `[0, 1]` after every update. -/
def Smc.Kernel.Accepts (kernel : Smc.Kernel K π X ρ) : Prop :=
  ∀ T s e, 0 ≤ (kernel.update T s e).1.alpha ∧ (kernel.update T s e).1.alpha ≤ 1

omit [NeZero n] in
theorem randomWalk_accepts (split : K → K × K) (split3 : Mcmc.Split3 K) (normal : K → Fin d → ℝ) (uniform : K → ℝ)
    (prior lik : (Fin d → ℝ) → ℝ) : Smc.Kernel.Accepts (rwKernel split split3 normal uniform prior lik) := by
  intro T s e
  obtain ⟨a, h0, h1, h⟩ := C14_alpha_range_randomWalk split3 normal (fun x _ => Fl.fin (prior x + T * lik x)) split uniform
    ⟨⟨s.value, Fl.fin s.potential⟩, Fl.fin s.alpha, s.rest⟩ e
  simp only [rwKernel]
  rw [h]
  exact ⟨h0, h1⟩

omit [NeZero n] in
theorem underdamped_accepts (split : K → K × K) (split3 : Mcmc.Split3 K) (splitN : K → ℕ → K × List K) (normal : K → Fin d → ℝ) (uniform : K → ℝ)
    (prior lik : (Fin d → ℝ) → ℝ × (Fin d → ℝ)) (L : ℕ) : Smc.Kernel.Accepts (udKernel split split3 splitN normal uniform prior lik L) := by
  intro T s e
  obtain ⟨a, h0, h1, h⟩ := C14_alpha_range_underdamped split splitN normal (fun x _ => prior x) (fun x _ => lik x) T L uniform
    ⟨{ s.rest.1 with value := s.value, potential := s.potential }, Fl.fin s.alpha, s.rest.2⟩ e
  simp only [udKernel]
  rw [h]
  exact ⟨h0, h1⟩

omit [NeZero n] in
theorem forward_alpha (kernel : Smc.Kernel K π X ρ) (hk : Smc.Kernel.Accepts kernel) (prior : X → ℝ) (p : Params) (T : ℝ) (q : Particle X ρ) (e : Extra K π) (key : K) :
    0 ≤ (forwardProposal kernel prior p T q e key).mc.alpha ∧ (forwardProposal kernel prior p T q e key).mc.alpha ≤ 1 := by
  simp only [forwardProposal]
  set start := kernel.startup T q.mc { e with key := key }
  set f := fun (c : MState X ρ × Extra K π) (_ : Unit) => (kernel.update T c.1 c.2, (kernel.update T c.1 c.2).1)
  have hinv := (smc_scan_inv f (fun _ => True) (fun s => 0 ≤ s.alpha ∧ s.alpha ≤ 1) (fun s a _ => ⟨trivial, hk T s.1 s.2⟩)
    (List.replicate p.mcmcSteps ()) start trivial).2
  generalize (scan f start (List.replicate p.mcmcSteps ())).2 = l at hinv
  have hs : 0 ≤ (l.map MState.alpha).sum ∧ (l.map MState.alpha).sum ≤ l.length := by
    induction l with
    | nil => simp
    | cons a l ih =>
      obtain ⟨h1, h2⟩ := ih fun o ho => hinv o (List.mem_cons_of_mem _ ho)
      obtain ⟨h3, h4⟩ := hinv a List.mem_cons_self
      simp only [List.map_cons, List.sum_cons, List.length_cons, Nat.cast_add, Nat.cast_one]
      exact ⟨by linarith, by linarith⟩
  exact ⟨div_nonneg hs.1 (Nat.cast_nonneg _), div_le_one_of_le₀ hs.2 (Nat.cast_nonneg _)⟩

theorem meanAcceptance_mem (ens : Ensemble n X ρ) (h : ∀ i, 0 ≤ (ens i).mc.alpha ∧ (ens i).mc.alpha ≤ 1) :
    0 ≤ meanAcceptance ens ∧ meanAcceptance ens ≤ 1 := by
  have hS : 0 < ∑ j, Real.exp (ens j).logWeight := Finset.sum_pos (fun i _ => Real.exp_pos _) ⟨0, Finset.mem_univ _⟩
  have hw : ∀ i, 0 ≤ Real.exp (ens i).logWeight / ∑ j, Real.exp (ens j).logWeight := fun i => by positivity
  refine ⟨Finset.sum_nonneg fun i _ => mul_nonneg (hw i) (h i).1, ?_⟩
  calc meanAcceptance ens ≤ ∑ i, Real.exp (ens i).logWeight / ∑ j, Real.exp (ens j).logWeight :=
        Finset.sum_le_sum fun i _ => mul_le_of_le_one_right (hw i) (h i).2
    _ = 1 := by rw [← Finset.sum_div, div_self hS.ne']

/-- C95: for a target in `[0, 1]` one update changes the logarithm of the stepsize by at most `rm` times the larger of `target` and `1 - target`. -/
theorem C95_bounded (S : RmSetup K π X ρ n) (hk : Smc.Kernel.Accepts S.kernel) (hrm : 0 ≤ S.rm) (k : ℕ) (i : Fin n) :
    |Real.log ((S.rmState (k + 1)).1.2 i) - Real.log ((S.rmState k).1.2 i)| ≤ S.rm * max S.target (1 - S.target) := by
  have hm : 0 ≤ meanAcceptance (S.rmState (k + 1)).1.1 ∧ meanAcceptance (S.rmState (k + 1)).1.1 ≤ 1 := by
    refine meanAcceptance_mem _ fun j => ?_
    rw [C95_ensemble, update_eq]
    exact forward_alpha S.kernel hk S.prior S.params _ _ _ _
  rw [C95_recorded, rm_step, Real.log_exp, C95_recorded, add_sub_cancel_left, abs_mul, abs_of_nonneg hrm]
  refine mul_le_mul_of_nonneg_left ?_ hrm
  rw [abs_le]
  have h1 := le_max_left S.target (1 - S.target)
  have h2 := le_max_right S.target (1 - S.target)
  constructor <;> linarith [hm.1, hm.2]

/-- The inner sampler made to use stepsize `x`, whatever the extra says. -/
def forced (tune : Tune π) (x : ℝ) (kernel : Smc.Kernel K π X ρ) : Smc.Kernel K π X ρ where
  startup T s e := kernel.startup T s { e with params := tune.set e.params x }
  update T s e := kernel.update T s { e with params := tune.set e.params x }

/-- Contract of an inner sampler: it does not change the parameters. -/
structure Smc.Kernel.KeepsParams (kernel : Smc.Kernel K π X ρ) : Prop where
  startup : ∀ T s e, (kernel.startup T s e).2.params = e.params
  update : ∀ T s e, (kernel.update T s e).2.params = e.params

omit [NeZero n] in
theorem scan_congr_inv {c x y : Type*} (f g : c → x → c × y) (P : c → Prop) (hf : ∀ s a, P s → f s a = g s a ∧ P (f s a).1) :
    ∀ (l : List x) (s : c), P s → scan f s l = scan g s l := by
  intro l
  induction l with
  | nil => intro s _; rfl
  | cons a l ih =>
    intro s hs
    obtain ⟨h1, h2⟩ := hf s a hs
    simp only [scan]
    rw [ih _ h2, h1]

omit [NeZero n] in
theorem forward_forced (tune : Tune π) (kernel : Smc.Kernel K π X ρ) (hk : Smc.Kernel.KeepsParams kernel) (prior : X → ℝ) (p : Params) (T : ℝ)
    (q : Particle X ρ) (e : Extra K π) (key : K) :
    forwardProposal (forced tune (tune.get e.params) kernel) prior p T q e key = forwardProposal kernel prior p T q e key := by
  have hst : (forced tune (tune.get e.params) kernel).startup T q.mc { e with key := key } = kernel.startup T q.mc { e with key := key } := by
    simp only [forced, tune.set_get]
  have hsc := scan_congr_inv
    (fun (c : MState X ρ × Extra K π) (_ : Unit) => ((forced tune (tune.get e.params) kernel).update T c.1 c.2, ((forced tune (tune.get e.params) kernel).update T c.1 c.2).1))
    (fun (c : MState X ρ × Extra K π) (_ : Unit) => (kernel.update T c.1 c.2, (kernel.update T c.1 c.2).1))
    (fun c => c.2.params = e.params)
    (fun s a hs => by
      have : (forced tune (tune.get e.params) kernel).update T s.1 s.2 = kernel.update T s.1 s.2 := by
        simp only [forced]
        rw [← hs, tune.set_get]
      simp only [this, hk.update, hs, and_self])
    (List.replicate p.mcmcSteps ()) (kernel.startup T q.mc { e with key := key }) (hk.startup _ _ _)
  simp only [forwardProposal]
  rw [hst, hsc]

/-- C95: every move of the update after state `k` is made with the stepsize recorded in state `k`: forcing the inner sampler to use that stepsize changes nothing. -/
theorem C95_used (S : RmSetup K π X ρ n) (hk : Smc.Kernel.KeepsParams S.kernel) (k : ℕ) :
    S.rmState (k + 1) = rmUpdate S.tune S.target S.rm S.splitN S.categorical (forced S.tune ((S.rmState k).1.2 0) S.kernel) S.prior S.config S.params
      (S.rmState k).1 (S.rmState k).2 := by
  rw [S.rmState_succ, C95_recorded]
  simp only [rmUpdate, smcUpdate]
  congr 1
  funext i
  exact (forward_forced S.tune S.kernel hk S.prior S.params _ _ { (S.rmState k).2 with iter := _, key := _ } _).symm

/-- C95: the chain a run returns consists of states as above with one stepsize each, starting with the initial stepsize. -/
theorem C95_chain (S : RmSetup K π X ρ n) (manyNan : (Fin n → X) → Bool) (k : ℕ) (hk : k < (S.rmChain manyNan).length) :
    (S.rmChain manyNan)[k] = ((S.rmState k).1.1, (S.rmState k).1.2 0) := by
  obtain ⟨m, -, h2, -, -⟩ := C12_run (rmUpdate S.tune S.target S.rm S.splitN S.categorical S.kernel S.prior S.config S.params)
    (fun s e => terminated S.config manyNan s.1 e) S.config.maxIter (rmStartup S.tune S.start)
  unfold RmSetup.rmChain rmRunFrom at hk ⊢
  simp only [h2, List.map_map, List.getElem_map, List.getElem_range, Function.comp_apply]
  rfl

omit [NeZero n] in
theorem metropolis_params {σ : Type*} (split : K → K × K) (uniform : K → ℝ) (smp : Mcmc.Sampler K σ π) (rs : Mcmc.State σ) (re : Mcmc.Extra K π) (ps : Mcmc.State σ)
    (pe : Mcmc.Extra K π) (h : pe.params = re.params) : (Mcmc.metropolis split uniform smp rs re ps pe).2.params = re.params := by
  obtain ⟨a, -, h1, h2⟩ := C14_all_or_nothing split uniform smp rs re ps pe
  by_cases hacc : Fl.lt (Fl.fin (uniform (split pe.key).2)) a
  · rw [h1 hacc]; exact h
  · rw [h2 hacc]

omit [NeZero n] in
theorem randomWalk_keepsParams (split : K → K × K) (split3 : Mcmc.Split3 K) (normal : K → Fin d → ℝ) (uniform : K → ℝ)
    (prior lik : (Fin d → ℝ) → ℝ) : Smc.Kernel.KeepsParams (rwKernel split split3 normal uniform prior lik) :=
  ⟨fun _ _ _ => rfl, fun _ _ _ => metropolis_params _ _ _ _ _ _ _ rfl⟩

omit [NeZero n] in
theorem underdamped_keepsParams (split : K → K × K) (split3 : Mcmc.Split3 K) (splitN : K → ℕ → K × List K) (normal : K → Fin d → ℝ) (uniform : K → ℝ)
    (prior lik : (Fin d → ℝ) → ℝ × (Fin d → ℝ)) (L : ℕ) : Smc.Kernel.KeepsParams (udKernel split split3 splitN normal uniform prior lik L) :=
  ⟨fun _ _ _ => rfl, fun _ _ _ => metropolis_params _ _ _ _ _ _ _ rfl⟩

/-- A run of two particles with the schedule [0, 1/2, 1] and `RandomWalk` inside, on a standard normal prior and a Gaussian likelihood: target 0.234, initial stepsize 1. -/
noncomputable def rmExample : RmSetup Unit ℝ (Fin 1 → ℝ) ℝ 2 where
  splitN _ _ := ()
  categorical _ _ i := i
  kernel := rwKernel (fun _ => ((), ())) (fun _ => ((), (), ())) (fun _ _ => 1) (fun _ => 1 / 2) (fun x => x 0 ^ 2 / 2) (fun x => (x 0 - 1) ^ 2 / 2)
  prior x := x 0 ^ 2 / 2
  lik x := (x 0 - 1) ^ 2 / 2
  config := Config.init (some [0, 1 / 2, 1]) 1 10000
  params := ⟨2, 0.9, 0.5, 0.00001, 1000⟩
  values i _ := i.val
  alpha0 := 1
  rest0 := 0
  extra0 := ⟨(), 0, 1⟩
  tune := Tune.randomWalk
  target := 0.234
  rm := 1

/-- Non-vacuity: the hypotheses of the theorems above hold in `rmExample`. -/
example : 0 < rmExample.stepsize0 ∧ 0 < rmExample.rm ∧ Smc.Kernel.Accepts rmExample.kernel ∧ Smc.Kernel.KeepsParams rmExample.kernel ∧
    |Real.log ((rmExample.rmState 1).1.2 0) - Real.log ((rmExample.rmState 0).1.2 0)| ≤ 0.766 := by
  have hs : 0 < rmExample.stepsize0 := by change (0 : ℝ) < 1; norm_num
  refine ⟨hs, by norm_num [rmExample], randomWalk_accepts _ _ _ _ _ _, by
    have h := randomWalk_keepsParams (K := Unit) (fun _ => ((), ())) (fun _ => ((), (), ())) (fun _ _ => 1) (fun _ => 1 / 2) (fun x : Fin 1 → ℝ => x 0 ^ 2 / 2)
      (fun x => (x 0 - 1) ^ 2 / 2)
    exact h, ?_⟩
  refine (C95_bounded rmExample (randomWalk_accepts _ _ _ _ _ _) (by norm_num [rmExample]) 0 0).trans ?_
  norm_num [rmExample]

/-! ## C96 -/

/-- Setup of a tempered SMC run on a scenario with gradients. `rest0 x` are the attributes (gradients and others) of a particle started at `x`. -/
structure GradSetup (K π ρ : Type*) (n d : ℕ) where
  splitN : K → Fin (n + 2) → K
  categorical : K → (Fin n → ℝ) → Fin n → Fin n
  kernel : Kernel K π (Fin d → ℝ) ρ
  write : ℝ → ρ → ρ
  prior : (Fin d → ℝ) → ℝ
  lik : (Fin d → ℝ) → ℝ
  config : Config
  params : Params
  values : Fin n → Fin d → ℝ
  alpha0 : ℝ
  rest0 : (Fin d → ℝ) → ρ
  extra0 : Extra K π

/-- The ensemble after `k` updates. -/
noncomputable def GradSetup.state (S : GradSetup K π ρ n d) (k : ℕ) : Ensemble n (Fin d → ℝ) ρ × Extra K π :=
  bodyIter (updateG S.write S.splitN S.categorical S.kernel S.prior S.config S.params) k
    (startupG S.write S.kernel S.prior S.lik S.config S.params S.values S.alpha0 S.rest0 S.extra0)

theorem GradSetup.state_zero (S : GradSetup K π ρ n d) :
    S.state 0 = startupG S.write S.kernel S.prior S.lik S.config S.params S.values S.alpha0 S.rest0 S.extra0 := rfl

theorem GradSetup.state_succ (S : GradSetup K π ρ n d) (k : ℕ) :
    S.state (k + 1) = updateG S.write S.splitN S.categorical S.kernel S.prior S.config S.params (S.state k).1 (S.state k).2 :=
  Mcmc.bodyIter_succ _ _ _

omit [NeZero n] in
theorem forward_rest (kernel : Smc.Kernel K π X ρ) (prior : X → ℝ) (p : Params) (T : ℝ) (q : Particle X ρ) (e : Extra K π) (key : K) (P : MState X ρ → Prop)
    (hs : P (kernel.startup T q.mc { e with key := key }).1) (hu : ∀ s e, P s → P (kernel.update T s e).1) :
    ∃ m : MState X ρ, P m ∧ m.value = (forwardProposal kernel prior p T q e key).mc.value ∧ m.rest = (forwardProposal kernel prior p T q e key).mc.rest := by
  simp only [forwardProposal]
  set start := kernel.startup T q.mc { e with key := key }
  set f := fun (c : MState X ρ × Extra K π) (_ : Unit) => (kernel.update T c.1 c.2, (kernel.update T c.1 c.2).1)
  have hinv := (smc_scan_inv f (fun c => P c.1) P (fun s a hs => ⟨hu s.1 s.2 hs, hu s.1 s.2 hs⟩) (List.replicate p.mcmcSteps ()) start hs).2
  refine ⟨_, ?_, rfl, rfl⟩
  rcases List.eq_nil_or_concat (scan f start (List.replicate p.mcmcSteps ())).2 with h | ⟨l, a, h⟩
  · rw [h]; exact hs
  · rw [h] at hinv ⊢
    rw [List.concat_eq_append, List.getLastD_concat]
    exact hinv a (by simp)

/-- The gradient attributes of an `Underdamped` particle belong to its value. -/
def FreshUd (prior lik : (Fin d → ℝ) → ℝ × (Fin d → ℝ)) (m : MState (Fin d → ℝ) (Mcmc.LfState d × ℝ)) : Prop :=
  m.rest.1.gradPriorPotential = (prior m.value).2 ∧ m.rest.1.gradLikelihoodPotential = (lik m.value).2

omit [NeZero n] in
theorem freshUd_update (split : K → K × K) (split3 : Mcmc.Split3 K) (splitN : K → ℕ → K × List K) (normal : K → Fin d → ℝ) (uniform : K → ℝ)
    (prior lik : (Fin d → ℝ) → ℝ × (Fin d → ℝ)) (L : ℕ) (T : ℝ) (s : MState (Fin d → ℝ) (Mcmc.LfState d × ℝ)) (e : Extra K Mcmc.UDParams)
    (hs : FreshUd prior lik s) : FreshUd prior lik ((udKernel split split3 splitN normal uniform prior lik L).update T s e).1 := by
  have hfold : ∀ (ε : ℝ) (keys : List K) (t : Mcmc.LfState d), t.gradPriorPotential = (prior t.value).2 ∧ t.gradLikelihoodPotential = (lik t.value).2 →
      (keys.foldl (fun s k => (Mcmc.leapfrogStep (fun x _ => prior x) (fun x _ => lik x) ε T s k).1) t).gradPriorPotential
        = (prior (keys.foldl (fun s k => (Mcmc.leapfrogStep (fun x _ => prior x) (fun x _ => lik x) ε T s k).1) t).value).2 ∧
      (keys.foldl (fun s k => (Mcmc.leapfrogStep (fun x _ => prior x) (fun x _ => lik x) ε T s k).1) t).gradLikelihoodPotential
        = (lik (keys.foldl (fun s k => (Mcmc.leapfrogStep (fun x _ => prior x) (fun x _ => lik x) ε T s k).1) t).value).2 := by
    intro ε keys
    induction keys with
    | nil => exact fun t ht => ht
    | cons k ks ih => exact fun t _ => ih _ ⟨rfl, rfl⟩
  set s' : Mcmc.State (Mcmc.LfState d) := ⟨{ s.rest.1 with value := s.value, potential := s.potential }, Fl.fin s.alpha, s.rest.2⟩
  set smp := Mcmc.underdamped split splitN normal (fun x _ => prior x) (fun x _ => lik x) T L with hsmp
  set al := smp.always s' { e with iter := e.iter + 1 } with hal
  obtain ⟨a, -, h1, h2⟩ := C14_all_or_nothing split uniform smp al.1 al.2 (smp.proposal al.1 al.2).1 (smp.proposal al.1 al.2).2
  have hupd : Mcmc.update smp (Mcmc.metropolis split uniform) s' e
    = Mcmc.metropolis split uniform smp al.1 al.2 (smp.proposal al.1 al.2).1 (smp.proposal al.1 al.2).2 := rfl
  change (Mcmc.update smp (Mcmc.metropolis split uniform) s' e).1.payload.gradPriorPotential
      = (prior (Mcmc.update smp (Mcmc.metropolis split uniform) s' e).1.payload.value).2 ∧
    (Mcmc.update smp (Mcmc.metropolis split uniform) s' e).1.payload.gradLikelihoodPotential
      = (lik (Mcmc.update smp (Mcmc.metropolis split uniform) s' e).1.payload.value).2
  rw [hupd]
  by_cases hacc : Fl.lt (Fl.fin (uniform (split (smp.proposal al.1 al.2).2.key).2)) a
  · rw [h1 hacc]
    have := hfold al.2.params.stepsize (splitN al.2.key L).2 al.1.payload hs
    rw [← Mcmc.leapfrog_last] at this
    exact this
  · rw [h2 hacc]; exact hs

/-- C96 for `Underdamped` (partial: for `RandomWalk` it is false, see `C96_randomWalk_fails`): after any number of updates every particle's gradients are those of its own value, and its `grad_potential` is the gradient of the tempered potential at
the temperature it records. -/
theorem C96_underdamped_partial (S : GradSetup K Mcmc.UDParams (Mcmc.LfState d × ℝ) n d) (split : K → K × K) (split3 : Mcmc.Split3 K) (splitN : K → ℕ → K × List K) (normal : K → Fin d → ℝ)
    (uniform : K → ℝ) (prior lik : (Fin d → ℝ) → ℝ × (Fin d → ℝ)) (L : ℕ) (hk : S.kernel = udKernel split split3 splitN normal uniform prior lik L) (hw : S.write = udWrite) (k : ℕ) (i : Fin n) :
    ((S.state k).1 i).mc.rest.1.gradPriorPotential = (prior ((S.state k).1 i).mc.value).2 ∧
    ((S.state k).1 i).mc.rest.1.gradLikelihoodPotential = (lik ((S.state k).1 i).mc.value).2 ∧
    ((S.state k).1 i).mc.rest.1.gradPotential
      = fun j => (prior ((S.state k).1 i).mc.value).2 j + ((S.state k).1 i).temperature * (lik ((S.state k).1 i).mc.value).2 j := by
  cases k with
  | zero =>
    rw [S.state_zero]
    simp only [startupG, hk, udKernel, zero_add, and_self]
  | succ k =>
    rw [S.state_succ]
    simp only [updateG, smcUpdate, adaptG, adapt, hk, hw, udWrite]
    obtain ⟨m, hm, hv, hr⟩ := forward_rest (udKernel split split3 splitN normal uniform prior lik L) S.prior S.params ((S.state k).1 0).temperature
      ((if resampleCriterion S.params (S.state k).1 = true then resample S.categorical (S.state k).1 (S.splitN (S.state k).2.key (Fin.last n).castSucc) else (S.state k).1) i)
      { (S.state k).2 with iter := (S.state k).2.iter + 1, key := S.splitN (S.state k).2.key (Fin.last (n + 1)) } (S.splitN (S.state k).2.key i.castSucc.castSucc)
      (FreshUd prior lik) ⟨rfl, rfl⟩ (fun s e hs => freshUd_update _ _ _ _ _ _ _ _ _ s e hs)
    simp only [FreshUd, hv, hr] at hm
    exact ⟨hm.1, hm.2, funext fun j => by rw [hm.1, hm.2]⟩

/-- C96: with `RandomWalk` as inner sampler, the gradients a particle records are always those of one of the initial values, combined at the temperature it records. -/
theorem C96_randomWalk_stale (S : GradSetup K ℝ (Grads d) n d) (split : K → K × K) (split3 : Mcmc.Split3 K) (normal : K → Fin d → ℝ) (uniform : K → ℝ)
    (gradPrior gradLik : (Fin d → ℝ) → Fin d → ℝ) (hk : S.kernel = rwKernelG split split3 normal uniform S.prior S.lik) (hw : S.write = Grads.write)
    (h0 : S.rest0 = initGrads gradPrior gradLik) (k : ℕ) (i : Fin n) :
    ∃ j, ((S.state k).1 i).mc.rest.prior = gradPrior (S.values j) ∧ ((S.state k).1 i).mc.rest.lik = gradLik (S.values j) ∧
      ((S.state k).1 i).mc.rest.potential = fun a => gradPrior (S.values j) a + ((S.state k).1 i).temperature * gradLik (S.values j) a := by
  induction k generalizing i with
  | zero =>
    refine ⟨i, ?_⟩
    rw [S.state_zero]
    simp only [startupG, hk, rwKernelG, hw, h0, Grads.write, initGrads, zero_add, and_self]
  | succ k ih =>
    rw [S.state_succ]
    simp only [updateG, smcUpdate, adaptG, adapt, hk, hw, Grads.write]
    set q := (if resampleCriterion S.params (S.state k).1 = true then resample S.categorical (S.state k).1 (S.splitN (S.state k).2.key (Fin.last n).castSucc) else (S.state k).1) i with hq
    have hqr : ∃ i', q.mc.rest = ((S.state k).1 i').mc.rest := by
      rw [hq]
      split_ifs
      · exact ⟨_, rfl⟩
      · exact ⟨_, rfl⟩
    obtain ⟨i', hi'⟩ := hqr
    obtain ⟨m, hm, hv, hr⟩ := forward_rest (rwKernelG split split3 normal uniform S.prior S.lik) S.prior S.params ((S.state k).1 0).temperature q
      { (S.state k).2 with iter := (S.state k).2.iter + 1, key := S.splitN (S.state k).2.key (Fin.last (n + 1)) } (S.splitN (S.state k).2.key i.castSucc.castSucc)
      (fun m => m.rest = q.mc.rest) rfl (fun s e hs => hs)
    obtain ⟨j, hj1, hj2, -⟩ := ih i'
    refine ⟨j, ?_⟩
    rw [← hr, hm, hi', hj1, hj2]
    simp

/-- One particle started at 0 with target potential `x ^ 2 / 2` for prior and likelihood, schedule [0, 1/2, 1] and `RandomWalk` inside with stepsize 1; the normal draws are 1 and the uniform draws 0. -/
noncomputable def staleExample : GradSetup Unit ℝ (Grads 1) 1 1 where
  splitN _ _ := ()
  categorical _ _ i := i
  kernel := rwKernelG (fun _ => ((), ())) (fun _ => ((), (), ())) (fun _ _ => 1) (fun _ => 0) (fun x => x 0 ^ 2 / 2) (fun x => x 0 ^ 2 / 2)
  write := Grads.write
  prior x := x 0 ^ 2 / 2
  lik x := x 0 ^ 2 / 2
  config := Config.init (some [0, 1 / 2, 1]) 1 10000
  params := ⟨1, 0.9, 0.5, 0.00001, 1000⟩
  values _ _ := 0
  alpha0 := 1
  rest0 := initGrads (fun x => x) (fun x => x)
  extra0 := ⟨(), 0, 1⟩

omit [NeZero n] in
theorem rwKernelG_accept (split : K → K × K) (split3 : Mcmc.Split3 K) (normal : K → Fin d → ℝ) (prior lik : (Fin d → ℝ) → ℝ) (T : ℝ)
    (s : MState (Fin d → ℝ) (Grads d)) (e : Extra K ℝ) :
    ((rwKernelG split split3 normal (fun _ => 0) prior lik).update T s e).1.value = fun i => s.value i + Real.sqrt e.params * normal (split3 e.key).2.1 i := by
  set smp := Mcmc.randomWalk split3 normal fun x _ => Fl.fin (prior x + T * lik x) with hsmp
  set s' : Mcmc.State (Mcmc.RWPayload d) := ⟨⟨s.value, Fl.fin s.potential⟩, Fl.fin s.alpha, 0⟩ with hs'
  obtain ⟨a, ha, h1, -⟩ := C14_all_or_nothing split (fun _ => 0) smp s' { e with iter := e.iter + 1 }
    (smp.proposal s' { e with iter := e.iter + 1 }).1 (smp.proposal s' { e with iter := e.iter + 1 }).2
  have hacc : Fl.lt (Fl.fin 0) a := by
    rw [ha]
    have : smp.acceptance s' { e with iter := e.iter + 1 } (smp.proposal s' { e with iter := e.iter + 1 }).1 (smp.proposal s' { e with iter := e.iter + 1 }).2
        = Fl.fin (min 1 (Real.exp (-(prior (smp.proposal s' { e with iter := e.iter + 1 }).1.payload.value + T * lik (smp.proposal s' { e with iter := e.iter + 1 }).1.payload.value)
          + s.potential))) := by
      simp only [hsmp, hs', Mcmc.randomWalk, Fl.minimum, Fl.exp, Fl.add, Fl.neg]
      split_ifs with h
      · rw [min_eq_right (le_of_lt h)]
      · rw [min_eq_left (not_lt.1 h)]
    rw [this]
    simp only [Fl.isNan, Fl.lt, Bool.false_eq_true, if_false]
    exact lt_min one_pos (Real.exp_pos _)
  change (Mcmc.metropolis split (fun _ => 0) smp s' { e with iter := e.iter + 1 }
    (smp.proposal s' { e with iter := e.iter + 1 }).1 (smp.proposal s' { e with iter := e.iter + 1 }).2).1.payload.value = _
  rw [h1 hacc]
  rfl

/-- C96 fails for `RandomWalk`: in `staleExample` the particle has moved to 1 after one update, but the gradient of the prior potential it records is 0, that at its initial value (it should be 1). -/
theorem C96_randomWalk_fails :
    ((staleExample.state 1).1 0).mc.value = (fun _ => 1) ∧ ((staleExample.state 1).1 0).mc.rest.prior = fun _ => 0 := by
  constructor
  · rw [staleExample.state_succ]
    simp only [updateG, smcUpdate, adaptG, adapt]
    have : ∀ q e key, (forwardProposal staleExample.kernel staleExample.prior staleExample.params ((staleExample.state 0).1 0).temperature q e key).mc.value
        = fun i => q.mc.value i + Real.sqrt e.params * 1 := fun q e key => by
      simp only [forwardProposal, staleExample, List.replicate, scan, List.getLastD_cons, List.getLastD_nil]
      rw [rwKernelG_accept]
      rfl
    rw [this]
    funext i
    have hb : ((if resampleCriterion staleExample.params (staleExample.state 0).1 = true then
        resample staleExample.categorical (staleExample.state 0).1 (staleExample.splitN (staleExample.state 0).2.key (Fin.last 1).castSucc) else (staleExample.state 0).1) 0).mc.value
        = fun _ => 0 := by
      split_ifs <;> rfl
    rw [hb]
    change 0 + Real.sqrt 1 * 1 = 1
    simp
  · obtain ⟨j, hj, -⟩ := C96_randomWalk_stale staleExample _ _ _ _ (fun x => x) (fun x => x) rfl rfl rfl 1 0
    exact hj

/-- Two particles, schedule [0, 1/2, 1], `Underdamped` inside. -/
noncomputable def udGradExample : GradSetup Unit Mcmc.UDParams (Mcmc.LfState 1 × ℝ) 2 1 where
  splitN := fun _ _ => ()
  categorical := fun _ _ i => i
  kernel := udKernel (fun _ => ((), ())) (fun _ => ((), (), ())) (fun _ L => ((), List.replicate L ())) (fun _ _ => 1) (fun _ => 1 / 2) (fun x => (x 0 ^ 2 / 2, x))
    (fun x => (x 0 ^ 2, fun i => 2 * x i)) 3
  write := udWrite
  prior := fun x => x 0 ^ 2 / 2
  lik := fun x => x 0 ^ 2
  config := Config.init (some [0, 1 / 2, 1]) 1 10000
  params := ⟨2, 0.9, 0.5, 0.00001, 1000⟩
  values := fun i _ => i.val
  alpha0 := 1
  rest0 := fun x => (⟨x, fun _ => 0, x 0 ^ 2 / 2, x, x 0 ^ 2, fun i => 2 * x i, x 0 ^ 2 / 2, x⟩, 0)
  extra0 := ⟨(), 0, ⟨1 / 2, none⟩⟩

/-- Non-vacuity of `C96_underdamped_partial`. -/
example : ((udGradExample.state 1).1 0).mc.rest.1.gradLikelihoodPotential = fun i => 2 * ((udGradExample.state 1).1 0).mc.value i :=
  (C96_underdamped_partial udGradExample (fun _ => ((), ())) (fun _ => ((), (), ())) (fun _ L => ((), List.replicate L ())) (fun _ _ => 1) (fun _ => 1 / 2)
    (fun x => (x 0 ^ 2 / 2, x)) (fun x => (x 0 ^ 2, fun i => 2 * x i)) 3 rfl rfl 1 0).2.1

end Mocat.Props
