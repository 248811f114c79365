import Verif.Model.TemperedSessions
import Verif.Props.Smc
/-!
# C141: a scenario keeps the temperature it was given when tempered runs are made with it
-/
namespace Mocat.Props
open Mocat Mocat.Smc Mocat.TemperedSessions

variable {K π X ρ : Type*} {n : ℕ} [NeZero n]

/-- The temperatures of the rows of the chain of a tempered run. -/
noncomputable def SmcSetup.temperatures (S : SmcSetup K π X ρ n) (manyNan : (Fin n → X) → Bool) : List ℝ :=
  (S.chain manyNan).map fun ens => (ens 0).temperature

/-- The property asked for: what the MCMC runs of a program should return: each the chain at the temperature last assigned (`t` if none was). -/
def expectedResults {α : Type*} : ℝ → List (Instr α) → List (Option α)
  | _, [] => []
  | _, .assign u :: rest => expectedResults u rest
  | t, .mcmc g :: rest => some (g t) :: expectedResults t rest
  | t, .tempered _ _ :: rest => expectedResults t rest

/-- Every tempered run of the program either stopped before it touched the scenario or ran to its end and arrived at the temperature last assigned. -/
def TemperedRunsArrive {α : Type*} : ℝ → List (Instr α) → Prop
  | _, [] => True
  | _, .assign u :: rest => TemperedRunsArrive u rest
  | t, .mcmc _ :: rest => TemperedRunsArrive t rest
  | t, .tempered temps done :: rest => (done = 0 ∨ 4 ≤ done ∧ temps.getLast? = some t) ∧ TemperedRunsArrive t rest

/-- C141, what holds (missing: tempered runs that are interrupted, cut short by `max_iter`, or have another maximal temperature, see `C141_fails_...`): if every tempered
run made with the scenario ran to its end and arrived at the temperature last assigned, or stopped before it touched the scenario, then every MCMC run returns what it returns
at the temperature last assigned. -/
theorem C141_partial {α : Type*} (t : ℝ) (prog : List (Instr α)) (h : TemperedRunsArrive t prog) :
    results (some t) prog = expectedResults t prog := by
  induction prog generalizing t with
  | nil => rfl
  | cons i rest ih =>
    cases i with
    | assign u => exact ih u h
    | mcmc g => exact congrArg _ (ih t h)
    | tempered temps done =>
      obtain ⟨h1, h2⟩ := h
      have ha : (Instr.tempered temps done : Instr α).after (some t) = some t := by
        rcases h1 with rfl | ⟨h4, hl⟩
        · rfl
        · have : (smcWrites temps).take done = smcWrites temps := List.take_of_length_le (by simpa [smcWrites] using h4)
          have hd : temps.getLastD 0 = t := by rw [List.getLastD_eq_getLast?, hl]; rfl
          simp only [Instr.after, this]
          change some (temps.getLastD 0) = some t
          rw [hd]
      change results ((Instr.tempered temps done : Instr α).after (some t)) rest = expectedResults t rest
      rw [ha]
      exact ih t h2

/-- C141, scheduled runs: a run with an increasing schedule that is not stopped by NaNs arrives at the last temperature of the schedule. -/
theorem C141_schedule (S : SmcSetup K π X ρ n) (hk : Smc.Kernel.KeepsIter S.kernel) (h0 : S.extra0.iter = 0) (l : List ℝ)
    (hinc : l.Pairwise (· < ·)) (hpos : ∀ t ∈ l, 0 ≤ t) (t : ℝ) (hlast : l.getLast? = some t) (ht : t ≠ 0) (T0 : ℝ) (it0 : ℤ)
    (hc : S.config = Config.init (some l) T0 it0) (manyNan : (Fin n → X) → Bool) (hnan : ∀ v, manyNan v = false) :
    (S.temperatures manyNan).getLast? = some t := by
  obtain ⟨init, rfl⟩ : ∃ init, l = init ++ [t] := by
    obtain ⟨hne, hl⟩ := List.mem_getLast?_eq_getLast hlast
    exact ⟨l.dropLast, by rw [hl, List.dropLast_append_getLast]⟩
  have hf : (init ++ [t]).filter (fun u => decide (u ≠ 0)) = init.filter (fun u => decide (u ≠ 0)) ++ [t] := by
    rw [List.filter_append]; simp [ht]
  unfold SmcSetup.temperatures
  rw [C39_schedule S hk h0 _ hinc ⟨by rw [hf]; simp, hpos⟩ T0 it0 hc manyNan hnan, hf]
  simp

/-- C141, adaptive runs: a run that makes fewer than `max_iter` updates and is not stopped by NaNs arrives exactly at its maximal temperature. -/
theorem C141_adaptive (S : SmcSetup K π X ρ n) (hk : Smc.Kernel.KeepsIter S.kernel) (h0 : S.extra0.iter = 0) (hc : S.config.schedule = none)
    (hmax : 0 ≤ S.config.maxTemperature) (manyNan : (Fin n → X) → Bool) (hnan : ∀ v, manyNan v = false)
    (hlen : ((S.chain manyNan).length : ℤ) ≤ S.config.maxIter) :
    (S.temperatures manyNan).getLast? = some S.config.maxTemperature := by
  obtain ⟨m, h1, h2, -, h4⟩ := C12_run (Smc.update S.splitN S.categorical S.kernel S.prior S.config S.params)
    (Smc.terminated S.config manyNan) S.config.maxIter S.start
  have hch : S.chain manyNan = (List.range (m + 1)).map fun i => (S.state i).1 := h2
  rw [hch, List.length_map, List.length_range] at hlen
  have hend : Smc.terminated S.config manyNan (S.state m).1 (S.state m).2 = true := h4 (by omega)
  unfold terminated at hend
  rw [hnan, Bool.or_false, Bool.or_eq_true, decide_eq_true_eq, decide_eq_true_eq, state_iter S hk h0] at hend
  have harr : S.config.maxTemperature ≤ S.temp m := hend.resolve_right (by push_cast at hlen; omega)
  have heq : S.temp m = S.config.maxTemperature := le_antisymm (C39_adaptive S hc hmax m).2.1 harr
  unfold SmcSetup.temperatures
  rw [hch, List.map_map, List.range_succ, List.map_append, List.map_cons, List.map_nil, List.getLast?_concat, ← heq]
  rfl

/-- Two particles at 0 and 1 with likelihood potentials 0 and log(5/4), adaptive temperatures, default settings. -/
noncomputable def adaptiveRun : SmcSetup Unit ℝ (Fin 1 → ℝ) ℝ 2 where
  splitN := fun _ _ => ()
  categorical := fun _ _ i => i
  kernel := rwKernel (fun _ => ((), ())) (fun _ => ((), (), ())) (fun _ _ => 1) (fun _ => 1 / 2) (fun x => x 0 ^ 2 / 2) (fun x => x 0 * Real.log (5 / 4))
  prior := fun x => x 0 ^ 2 / 2
  lik := fun x => x 0 * Real.log (5 / 4)
  config := Config.init none 1 10000
  params := ⟨1, 0.9, 0.5, 0.00001, 1000⟩
  values := fun i _ => i.val
  alpha0 := 1
  rest0 := 0
  extra0 := ⟨(), 0, 1⟩

theorem adaptiveRun_first : adaptiveRun.temp 0 = 1 := by
  have hess : (2 : ℝ) = Real.exp (logEss fun _ : Fin 2 => 0) := by have := logEss_zero (n := 2); simpa using this.symm
  have h0 : logEss (fun _ : Fin 2 => (0 : ℝ)) = Real.log 2 := by rw [hess, Real.log_exp]
  have h1 : logEss (fun i : Fin 2 => (0 : ℝ) - (1 - 0) * (((i.val : ℕ) : ℝ) * Real.log (5 / 4))) = Real.log (81 / 41) := by
    have e1 : Real.exp (-Real.log (5 / 4)) = 4 / 5 := by rw [Real.exp_neg, Real.exp_log (by norm_num)]; norm_num
    have e2 : Real.exp (2 * -Real.log (5 / 4)) = 16 / 25 := by rw [two_mul, Real.exp_add, e1]; norm_num
    simp only [logEss, lse, Fin.sum_univ_two, Fin.val_zero, Fin.val_one, Nat.cast_zero, Nat.cast_one, zero_mul, sub_zero, one_mul, zero_sub, neg_zero, mul_zero,
      Real.exp_zero, e1, e2]
    rw [← Real.log_rpow (by norm_num), ← Real.log_div (by norm_num) (by norm_num)]
    norm_num
  have key : nextTemperatureAdaptive (n := 2) ⟨1, 0.9, 0.5, 0.00001, 1000⟩ 1 0 2 (fun _ => 0) (fun i => ((i.val : ℕ) : ℝ) * Real.log (5 / 4)) = 1 := by
    unfold nextTemperatureAdaptive
    dsimp only
    set f := fun x : ℝ => logEss (fun i : Fin 2 => (0 : ℝ) - (x - 0) * (((i.val : ℕ) : ℝ) * Real.log (5 / 4))) - Real.log (2 * 0.9) with hf
    have f0 : f 0 = Real.log (10 / 9) := by
      simp only [hf, sub_zero, zero_mul, sub_self]
      rw [h0, ← Real.log_div (by norm_num) (by norm_num)]; norm_num
    have f1 : f 1 = Real.log (45 / 41) := by
      simp only [hf]
      rw [h1, ← Real.log_div (by norm_num) (by norm_num)]; norm_num
    have p0 : 0 < f 0 := by rw [f0]; exact Real.log_pos (by norm_num)
    have p1 : 0 < f 1 := by rw [f1]; exact Real.log_pos (by norm_num)
    have lt : f 1 < f 0 := by rw [f0, f1]; exact Real.log_lt_log (by norm_num) (by norm_num)
    rw [C28_same_sign f 0 1 (mul_pos p0 p1)]
    simp only
    rw [if_neg (by rw [abs_of_pos p0, abs_of_pos p1]; linarith)]
  change 0 + nextTemperature adaptiveRun.config adaptiveRun.params _ adaptiveRun.extra0 = _
  rw [zero_add]
  exact key

/-- Non-vacuity of `C141_adaptive`: this run makes no update, since its first temperature is already 1. -/
example : (adaptiveRun.temperatures fun _ => false).getLast? = some 1 := by
  refine C141_adaptive adaptiveRun (fun _ _ _ => rfl) rfl rfl zero_le_one (fun _ => false) (fun _ => rfl) ?_
  obtain ⟨m, -, h2, h3, -⟩ := C12_run (Smc.update adaptiveRun.splitN adaptiveRun.categorical adaptiveRun.kernel adaptiveRun.prior adaptiveRun.config adaptiveRun.params)
    (Smc.terminated adaptiveRun.config fun _ => false) adaptiveRun.config.maxIter adaptiveRun.start
  have hch : adaptiveRun.chain (fun _ => false) = (List.range (m + 1)).map fun i => (adaptiveRun.state i).1 := h2
  have hm : m = 0 := by
    by_contra hne
    have h5 : Smc.terminated adaptiveRun.config (fun _ => false) (adaptiveRun.state 0).1 (adaptiveRun.state 0).2 = false := h3 0 (by omega)
    unfold terminated at h5
    rw [Bool.or_false, Bool.or_eq_false_iff, decide_eq_false_iff_not] at h5
    exact h5.1 (show (1 : ℝ) ≤ adaptiveRun.temp 0 from adaptiveRun_first.ge)
  rw [hch, hm]
  change ((1 : ℕ) : ℤ) ≤ 10000
  norm_num

/-- C141: the potential of the scenario after such a program: prior plus last assigned temperature times likelihood. -/
theorem C141_potential_partial {α : Type*} (prior lik : X → ℝ) (t : ℝ) (prog : List (Instr α)) (h : TemperedRunsArrive t prog) (x : X) :
    potential prior lik (temperatureAfter (some t) prog) x
      = some (prior x + (prog.foldl (fun t i => match i with | .assign u => u | _ => t) t) * lik x) := by
  have key : temperatureAfter (some t) prog = some (prog.foldl (fun t i => match i with | .assign u => u | _ => t) t) := by
    unfold temperatureAfter
    induction prog generalizing t with
    | nil => rfl
    | cons i rest ih =>
      cases i with
      | assign u => exact ih u h
      | mcmc g => exact ih t h
      | tempered temps done =>
        have ha : (Instr.tempered temps done : Instr α).after (some t) = some t := by
          have h2 := C141_partial (α := ℝ) t [.tempered temps done, .mcmc id] ⟨h.1, trivial⟩
          simpa [results, expectedResults, Instr.after] using h2
        simp only [List.foldl_cons, ha]
        exact ih t h.2
  rw [key]; rfl

/-- The scheduled runs used in the counterexamples: two particles, standard normal prior, Gaussian likelihood, `RandomWalk` inside. -/
noncomputable def quarterRun (l : List ℝ) : SmcSetup Unit ℝ (Fin 1 → ℝ) ℝ 2 where
  splitN := fun _ _ => ()
  categorical := fun _ _ i => i
  kernel := rwKernel (fun _ => ((), ())) (fun _ => ((), (), ())) (fun _ _ => 1) (fun _ => 1 / 2) (fun x => x 0 ^ 2 / 2) (fun x => (x 0 - 1) ^ 2 / 2)
  prior := fun x => x 0 ^ 2 / 2
  lik := fun x => (x 0 - 1) ^ 2 / 2
  config := Config.init (some l) 1 10000
  params := ⟨1, 0.9, 0.5, 0.00001, 1000⟩
  values := fun i _ => i.val
  alpha0 := 1
  rest0 := 0
  extra0 := ⟨(), 0, 1⟩

theorem quarterRun_temperatures : (quarterRun [1 / 4, 1]).temperatures (fun _ => false) = [1 / 4, 1] :=
  (C39_schedule (quarterRun [1 / 4, 1]) (fun _ _ _ => rfl) rfl [1 / 4, 1] (by norm_num) (by simp) 1 10000 rfl
    (fun _ => false) fun _ => rfl).trans (by simp)

theorem halfRun_temperatures : (quarterRun [1 / 4, 1 / 2]).temperatures (fun _ => false) = [1 / 4, 1 / 2] :=
  (C39_schedule (quarterRun [1 / 4, 1 / 2]) (fun _ _ _ => rfl) rfl [1 / 4, 1 / 2] (by norm_num) (by simp) 1 10000 rfl
    (fun _ => false) fun _ => rfl).trans (by simp)

/-- C141, what fails: a tempered run that is stopped leaves the scenario at temperature 0 (later runs sample the prior), at the first temperature, or with a value that makes
every later run fail, according to the moment at which it was stopped. Nothing is reported in the first two cases. -/
theorem C141_fails_interrupted {α : Type*} (S : SmcSetup K π X ρ n) (manyNan : (Fin n → X) → Bool) (t : Temp) (g : ℝ → α) :
    results t [.tempered (S.temperatures manyNan) 1, .mcmc g] = [some (g 0)] ∧
    results t [.tempered (S.temperatures manyNan) 2, .mcmc g] = [some (g (S.temp 0))] ∧
    results t [.tempered (S.temperatures manyNan) 3, .mcmc g] = [none] := by
  obtain ⟨m, -, h2, -, -⟩ := C12_run (Smc.update S.splitN S.categorical S.kernel S.prior S.config S.params)
    (Smc.terminated S.config manyNan) S.config.maxIter S.start
  have hch : S.chain manyNan = (List.range (m + 1)).map fun i => (S.state i).1 := h2
  have hh : (S.temperatures manyNan).headD 0 = S.temp 0 := by
    unfold SmcSetup.temperatures
    rw [hch, List.range_succ_eq_map]
    rfl
  refine ⟨rfl, ?_, rfl⟩
  change [(some ((S.temperatures manyNan).headD 0)).map g] = _
  rw [hh]; rfl

/-- C141, what fails: the random-walk run after a tempered run with schedule [1/4, 1/2] (which ran to its end) accepts and rejects by prior plus half the likelihood, although the
temperature of the scenario was never assigned; at the point 3 the potential is 11/2 instead of 13/2. -/
theorem C141_fails_schedule :
    potential (quarterRun [1 / 4, 1 / 2]).prior (quarterRun [1 / 4, 1 / 2]).lik
      (temperatureAfter (α := Unit) (some 1) [.tempered ((quarterRun [1 / 4, 1 / 2]).temperatures fun _ => false) 4]) (fun _ => 3) = some (11 / 2) ∧
    potential (quarterRun [1 / 4, 1 / 2]).prior (quarterRun [1 / 4, 1 / 2]).lik (some 1) (fun _ => 3) = some (13 / 2) := by
  rw [halfRun_temperatures]
  constructor <;>
  · simp [potential, temperatureAfter, Instr.after, smcWrites, quarterRun]
    norm_num

/-- The run with schedule [1/4, 1/2, 1] whose `max_iter` was then set to 1. -/
noncomputable def cutRun : SmcSetup Unit ℝ (Fin 1 → ℝ) ℝ 2 :=
  { quarterRun [1 / 4, 1 / 2, 1] with config := { Config.init (some [1 / 4, 1 / 2, 1]) 1 10000 with maxIter := 1 } }

theorem cutRun_config : cutRun.config = ⟨some [1 / 4, 1 / 2, 1], 1, 1⟩ := by
  simp [cutRun, Config.init, Config.setSchedule, stripZero]

theorem cutRun_temperatures : cutRun.temperatures (fun _ => false) = [1 / 4, 1 / 2] := by
  obtain ⟨m, h1, h2, -, h4⟩ := C12_run (Smc.update cutRun.splitN cutRun.categorical cutRun.kernel cutRun.prior cutRun.config cutRun.params)
    (Smc.terminated cutRun.config fun _ => false) cutRun.config.maxIter cutRun.start
  have hch : cutRun.chain (fun _ => false) = (List.range (m + 1)).map fun i => (cutRun.state i).1 := h2
  have hT : ∀ k, cutRun.temp k = scheduleAt [1 / 4, 1 / 2, 1] k :=
    temp_schedule cutRun (fun _ _ _ => rfl) rfl _ (by rw [cutRun_config])
  have hm : m = 1 := by
    rw [cutRun_config] at h1 h4
    have h1' : m ≤ 1 := h1
    rcases Nat.lt_or_ge m 1 with h | h
    · have h0 : m = 0 := by omega
      subst h0
      have h5 : Smc.terminated (⟨some [1 / 4, 1 / 2, 1], 1, 1⟩ : Config) (fun _ => false) (cutRun.state 0).1 (cutRun.state 0).2 = true := by
        have := h4 (by norm_num)
        rw [← cutRun_config] at this ⊢
        exact this
      unfold terminated at h5
      rw [Bool.or_false, Bool.or_eq_true, decide_eq_true_eq, decide_eq_true_eq, state_iter cutRun (fun _ _ _ => rfl) rfl] at h5
      have h6 : ((cutRun.state 0).1 0).temperature = 1 / 4 := (hT 0).trans (by simp [scheduleAt])
      rw [h6] at h5
      norm_num at h5
    · omega
  unfold SmcSetup.temperatures
  rw [hch, hm, List.map_map]
  change [cutRun.temp 0, cutRun.temp 1] = _
  rw [hT, hT]
  simp [scheduleAt]

/-- C141, what fails: after a run cut short by `max_iter`, MCMC runs use the temperature that was reached. -/
theorem C141_fails_cut {α : Type*} (g : ℝ → α) :
    results (some 1) [.tempered (cutRun.temperatures fun _ => false) 4, .mcmc g] = [some (g (1 / 2))] ∧
    expectedResults 1 [.tempered (cutRun.temperatures fun _ => false) 4, .mcmc g] = [some (g 1)] := by
  rw [cutRun_temperatures]
  exact ⟨rfl, rfl⟩

/-- C141, what fails: a tempered run to temperature 1 replaces a temperature 2 that the user had assigned. -/
theorem C141_fails_assigned {α : Type*} (g : ℝ → α) :
    results (some 1) [.assign 2, .mcmc g, .tempered ((quarterRun [1 / 4, 1]).temperatures fun _ => false) 4, .mcmc g] = [some (g 2), some (g 1)] ∧
    expectedResults 1 [.assign 2, .mcmc g, .tempered ((quarterRun [1 / 4, 1]).temperatures fun _ => false) 4, .mcmc g] = [some (g 2), some (g 2)] := by
  rw [quarterRun_temperatures]
  exact ⟨rfl, rfl⟩

/-- Non-vacuity of `C141_partial`: a tempered run that the scenario refused, one that ran to its end at 1, MCMC runs between them. -/
example (g : ℝ → ℝ) :
    TemperedRunsArrive 1 [.mcmc g, .tempered ((quarterRun [1 / 4, 1 / 2]).temperatures fun _ => false) 0, .mcmc g,
      .tempered ((quarterRun [1 / 4, 1]).temperatures fun _ => false) 4, .mcmc g] := by
  refine ⟨Or.inl rfl, Or.inr ⟨le_refl _, ?_⟩, trivial⟩
  rw [quarterRun_temperatures]; rfl

end Mocat.Props
