import Verif.Lemmas.SmcRmLink
import Verif.Props.SmcAdaptive
/-!
# C148: tempered SMC with adapted stepsizes converges as the ensemble grows

`RMMetropolisedSMCSampler` with `RandomWalk` as inner sampler. The draws come from an ideal generator (`Verif.Spec.Tape`); the initial values are independent draws from the prior. Stepsizes, and without a schedule
also the temperatures, are random: they are chosen from the current ensemble.
-/
namespace Mocat.Props
open Mocat Mocat.Smc Mocat.MatGauss Mocat.Ideal Mocat.Meas Mocat.Spec MeasureTheory ProbabilityTheory Filter Topology
open scoped ENNReal

variable {d : ℕ}

theorem tRun_temp {n : ℕ} {X : Type*} {cat : (Fin n → ℝ) → ℝ → Fin n} {thr : ℝ} {mv : ℝ × ℝ → Keys.Key → X → Tape → X} {al : ℝ × ℝ → Keys.Key → X → Tape → ℝ} {lik : X → ℝ}
    {nxt : ℕ → ℝ → (Fin n → ℝ) → (Fin n → ℝ) → ℝ} {target rm u0 : ℝ} {κ : Keys.Key} {x : Fin n → X} {ω : Tape} {M : ℝ} (hM : 0 ≤ M) (hnM : ∀ k T lw l, T ≤ M → nxt k T lw l ∈ Set.Icc T M) (k : ℕ) :
    (tRun cat thr mv al lik nxt target rm u0 κ x k ω).1.1 ∈ Set.Icc (tRun cat thr mv al lik nxt target rm u0 κ x 0 ω).1.1 M := by
  induction k with
  | zero => exact ⟨le_rfl, (hnM 0 0 _ _ hM).2⟩
  | succ k ih =>
    have h := hnM (k + 1) (tRun cat thr mv al lik nxt target rm u0 κ x k ω).1.1 (cStep cat thr mv (keyAt n κ k) (tRun cat thr mv al lik nxt target rm u0 κ x k ω) ω).2.2.1
      (fun i => lik ((cStep cat thr mv (keyAt n κ k) (tRun cat thr mv al lik nxt target rm u0 κ x k ω) ω).2.1 i)) ih.2
    exact ⟨ih.1.trans h.1, h.2⟩

section
variable {q : ℝ → ℝ} (hq : IsNormalDraw q) {prior lik : (Fin d → ℝ) → ℝ} (hprior : Measurable prior) (hlik : Measurable lik) {w : ℝ} (hw : ∀ x, w ≤ lik x)
  {μ0 : Measure (Fin d → ℝ)} [IsProbabilityMeasure μ0] {a : ℝ≥0∞} (hμ : μ0 = a • volume.withDensity fun x => ENNReal.ofReal (Real.exp (-prior x)))
  {cat : ∀ n, (Fin (n + 1) → ℝ) → ℝ → Fin (n + 1)} (hcat : ∀ n, IsCategoricalReal (cat n)) (c : Config) (p : Params) (target rm u0 alpha0 rest0 : ℝ) (key : Keys.Key)
include hq hprior hlik hw hμ hcat

/-- Weighted means and normalising constants, off an event outside of which the run is the reduced run. -/
theorem rm_limits {M : ℝ} (hM : 0 ≤ M) {nxt : ∀ n, ℕ → ℝ → (Fin (n + 1) → ℝ) → (Fin (n + 1) → ℝ) → ℝ}
    (hn : ∀ n k, Measurable fun z : ℝ × (Fin (n + 1) → ℝ) × (Fin (n + 1) → ℝ) => nxt n k z.1 z.2.1 z.2.2) (hnM : ∀ n k T lw l, T ≤ M → nxt n k T lw l ∈ Set.Icc T M)
    {E : ∀ n, Set ((Fin (n + 1) → Fin d → ℝ) × Tape)} (hE : Tendsto (fun n => ((Measure.pi fun _ : Fin (n + 1) => μ0).prod ideal) (E n)) atTop (𝓝 0)) (k : ℕ)
    (hlink : ∀ n, ∀ z ∉ E n, ((((rmTape (cat n) q prior lik c p target rm (Real.exp u0) alpha0 rest0 key z.1 z.2).rmState k).1.1 0).temperature,
        redOf ((rmTape (cat n) q prior lik c p target rm (Real.exp u0) alpha0 rest0 key z.1 z.2).rmState k).1.1)
      = ((rmRed (cat n) q prior lik p target rm u0 key z.1 z.2 (nxt n) k).1.1, (rmRed (cat n) q prior lik p target rm u0 key z.1 z.2 (nxt n) k).2))
    {f : (Fin d → ℝ) → ℝ} (hf : Measurable f) {B : ℝ} (hB : ∀ x, |f x| ≤ B) :
    InProb (fun n => (Measure.pi fun _ : Fin (n + 1) => μ0).prod ideal) (fun n z =>
      smcMean f ((rmTape (cat n) q prior lik c p target rm (Real.exp u0) alpha0 rest0 key z.1 z.2).rmState k).1.1
        - temperedMean μ0 lik (((rmTape (cat n) q prior lik c p target rm (Real.exp u0) alpha0 rest0 key z.1 z.2).rmState k).1.1 0).temperature f) 0 ∧
    InProb (fun n => (Measure.pi fun _ : Fin (n + 1) => μ0).prod ideal) (fun n z =>
      Real.exp (((rmTape (cat n) q prior lik c p target rm (Real.exp u0) alpha0 rest0 key z.1 z.2).rmState k).1.1 0).logNorm
        - ∫ x, Real.exp (-((((rmTape (cat n) q prior lik c p target rm (Real.exp u0) alpha0 rest0 key z.1 z.2).rmState k).1.1 0).temperature * lik x)) ∂μ0) 0 := by
  have hW : ∀ T ∈ Set.Icc 0 M, ∀ x, Real.exp (-(T * lik x)) ≤ Real.exp (M * |w|) := fun T hT x => (exp_bound hw hT.1 x).trans (Real.exp_le_exp.2 (by
    have h1 := neg_le_abs w
    nlinarith [mul_le_mul_of_nonneg_left h1 hT.1, mul_le_mul_of_nonneg_right hT.2 (abs_nonneg w)]))
  have hok := (tRun_ok (rw_tune hq hprior hlik p.mcmcSteps) hlik (Real.exp_pos _).le hW hcat p.essThresholdResample hM (fun L U f B hf _ hB => rw_net hprior hlik μ0 M L U p.mcmcSteps hf hB)
    (fun θ _ hh => rw_tempered_invariant hprior hlik p (Real.exp θ.2) hμ θ.1 hh) hn hnM target rm u0 (0 :: key) k).1
  refine ⟨inProb_off (mean_of_good hlik hw hok.good hok.temp hf hB) hE fun n z hz => ?_, inProb_off (norm_of_good hok.good) hE fun n z hz => ?_⟩
  · rw [← hlink n z hz]
    rfl
  · rw [← hlink n z hz]
    rfl

omit hq hprior hlik hw hμ hcat in
/-- With adaptive temperatures. -/
theorem rm_adaptive_link {n : ℕ} (cat : (Fin (n + 1) → ℝ) → ℝ → Fin (n + 1)) (hl : c.schedule = none) (hM : 0 ≤ c.maxTemperature) (z : (Fin (n + 1) → Fin d → ℝ) × Tape)
    (hz : (((rmTape cat q prior lik c p target rm (Real.exp u0) alpha0 rest0 key z.1 z.2).rmState 0).1.1 0).temperature ≠ 0) (k : ℕ) :
    ((((rmTape cat q prior lik c p target rm (Real.exp u0) alpha0 rest0 key z.1 z.2).rmState k).1.1 0).temperature, redOf ((rmTape cat q prior lik c p target rm (Real.exp u0) alpha0 rest0 key z.1 z.2).rmState k).1.1)
      = ((rmRed cat q prior lik p target rm u0 key z.1 z.2 (fun _ => nextOf p c.maxTemperature) k).1.1, (rmRed cat q prior lik p target rm u0 key z.1 z.2 (fun _ => nextOf p c.maxTemperature) k).2) ∧
    (((rmTape cat q prior lik c p target rm (Real.exp u0) alpha0 rest0 key z.1 z.2).rmState k).1.1 0).temperature ≤ c.maxTemperature := by
  have hnx : ∀ (M : Ensemble (n + 1) (Fin d → ℝ) ℝ) (e : Extra Keys.Key ℝ), (M 0).ess = Real.exp (logEss fun i => (M i).logWeight) →
      nextTemperature c p M e = nextOf p c.maxTemperature (M 0).temperature (fun i => (M i).logWeight) fun i => (M i).lik := fun M e h => by
    simp only [nextTemperature, hl, h]
    rfl
  have htemp : ∀ k, _ := fun k => tRun_temp (cat := cat) (thr := p.essThresholdResample) (mv := rwMv q prior lik p.mcmcSteps) (al := rwAl q prior lik p.mcmcSteps) (lik := lik)
    (nxt := fun _ => nextOf p c.maxTemperature) (target := target) (rm := rm) (u0 := u0) (κ := 0 :: key) (x := z.1) (ω := z.2) hM (fun _ T lw l hT => nextAdaptive_mem p c.maxTemperature T _ hT lw l) k
  have h0 : (((rmTape cat q prior lik c p target rm (Real.exp u0) alpha0 rest0 key z.1 z.2).rmState 0).1.1 0).temperature
      = (tRun cat p.essThresholdResample (rwMv q prior lik p.mcmcSteps) (rwAl q prior lik p.mcmcSteps) lik (fun _ => nextOf p c.maxTemperature) target rm u0 (0 :: key) z.1 0 z.2).1.1 :=
    congrArg Prod.fst (start_reduced p (C42_randomWalk_tracks Keys.split Keys.split3 (normalAt q d z.2) (fun k => z.2 (k, 0)) prior lik) alpha0 rest0 (⟨key, 0, Real.exp u0⟩ : Extra Keys.Key ℝ) z.1
      (c := c) (nxt := nextOf p c.maxTemperature) fun M h1 h2 => by rw [hnx M _ h2, h1])
  rw [h0] at hz
  have hpos : 0 < (tRun cat p.essThresholdResample (rwMv q prior lik p.mcmcSteps) (rwAl q prior lik p.mcmcSteps) lik (fun _ => nextOf p c.maxTemperature) target rm u0 (0 :: key) z.1 0 z.2).1.1 :=
    lt_of_le_of_ne (nextAdaptive_mem p c.maxTemperature 0 _ hM _ _).1 (Ne.symm hz)
  have h := (rm_reduced cat q prior lik c p target rm u0 alpha0 rest0 key z.1 z.2 (nxt := fun _ => nextOf p c.maxTemperature) (fun M h1 h2 => by rw [hnx M _ h2, h1])
    (fun k M κ s _ h2 => hnx M _ h2) (fun k => (hpos.trans_le (htemp k).1).ne') k).2.2
  exact ⟨h, (congrArg Prod.fst h).le.trans (htemp k).2⟩

theorem rm_adaptive (hl : c.schedule = none) (hM : 0 < c.maxTemperature) (hr0 : 0 < p.essThresholdRetain)
    (hr1 : p.essThresholdRetain < 1) (htol : p.bisectionTol ≤ -Real.log p.essThresholdRetain) (hc : ¬ ∃ b : ℝ, ∀ᵐ x ∂μ0, lik x = b)
    (hfine : p.essThresholdRetain ^ 2 * ∫ x, Real.exp (-(2 * (c.maxTemperature / 2 ^ p.maxBisectionIter) * lik x)) ∂μ0
      < (∫ x, Real.exp (-(c.maxTemperature / 2 ^ p.maxBisectionIter * lik x)) ∂μ0) ^ 2) (k : ℕ) {f : (Fin d → ℝ) → ℝ} (hf : Measurable f) {B : ℝ} (hB : ∀ x, |f x| ≤ B) :
    InProb (fun n => (Measure.pi fun _ : Fin (n + 1) => μ0).prod ideal) (fun n z =>
      smcMean f ((rmTape (cat n) q prior lik c p target rm (Real.exp u0) alpha0 rest0 key z.1 z.2).rmState k).1.1
        - temperedMean μ0 lik (((rmTape (cat n) q prior lik c p target rm (Real.exp u0) alpha0 rest0 key z.1 z.2).rmState k).1.1 0).temperature f) 0 ∧
    InProb (fun n => (Measure.pi fun _ : Fin (n + 1) => μ0).prod ideal) (fun n z =>
      Real.exp (((rmTape (cat n) q prior lik c p target rm (Real.exp u0) alpha0 rest0 key z.1 z.2).rmState k).1.1 0).logNorm
        - ∫ x, Real.exp (-((((rmTape (cat n) q prior lik c p target rm (Real.exp u0) alpha0 rest0 key z.1 z.2).rmState k).1.1 0).temperature * lik x)) ∂μ0) 0 ∧
    Tendsto (fun n => ((Measure.pi fun _ : Fin (n + 1) => μ0).prod ideal)
      {z | c.maxTemperature < (((rmTape (cat n) q prior lik c p target rm (Real.exp u0) alpha0 rest0 key z.1 z.2).rmState k).1.1 0).temperature}) atTop (𝓝 0) := by
  have hE := first_zero (cat := cat) hq hprior hlik hw hl hM hr0 hr1 htol hc hfine (Real.exp u0) alpha0 rest0 key
  have h := rm_limits hq hprior hlik hw hμ hcat c p target rm u0 alpha0 rest0 key hM.le (nxt := fun n _ => nextOf p c.maxTemperature) (fun n _ => measurable_nextOf p c.maxTemperature)
    (fun n _ T lw l hT => nextAdaptive_mem p c.maxTemperature T _ hT lw l) hE k
    (fun n z hz => (rm_adaptive_link c p target rm u0 alpha0 rest0 key (cat n) hl hM.le z hz k).1) hf hB
  refine ⟨h.1, h.2, tendsto_of_tendsto_of_tendsto_of_le_of_le tendsto_const_nhds hE (fun n => bot_le) fun n => measure_mono fun z hz => ?_⟩
  by_contra hc
  exact absurd (rm_adaptive_link c p target rm u0 alpha0 rest0 key (cat n) hl hM.le z hc k).2 (not_le.2 hz)

end

/-- C148: adaptive temperatures and stepsizes. For a prior that is a probability law, a likelihood potential that is bounded below and not constant, a positive maximal temperature, a fraction `0 < r < 1` of effective
sample size to retain, a tolerance of at most `-log r` and enough iterations of the search for the next temperature (as in C146): from every positive initial stepsize, with every target and every size of adaptation
steps, after every number of updates the weighted mean of every bounded measurable `f` is, with probability tending to 1 as the number of particles grows, close to its expectation under the tempered posterior at the
temperature the run has chosen, and `exp (log_norm_constant)` is close to the normalising constant of that law. -/
theorem C148_adaptive {q : ℝ → ℝ} (hq : IsNormalDraw q) {prior lik : (Fin d → ℝ) → ℝ} (hprior : Measurable prior) (hlik : Measurable lik) (w : ℝ) (hw : ∀ x, w ≤ lik x)
    (μ0 : Measure (Fin d → ℝ)) [IsProbabilityMeasure μ0] (a : ℝ≥0∞) (hμ : μ0 = a • volume.withDensity fun x => ENNReal.ofReal (Real.exp (-prior x)))
    (hc : ¬ ∃ b : ℝ, ∀ᵐ x ∂μ0, lik x = b) (M : ℝ) (hM : 0 < M) (r : ℝ) (hr0 : 0 < r) (hr1 : r < 1) :
    ∃ N : ℕ, ∀ cat : ∀ n, (Fin (n + 1) → ℝ) → ℝ → Fin (n + 1), (∀ n, IsCategoricalReal (cat n)) → ∀ c : Config, c.schedule = none → c.maxTemperature = M →
      ∀ p : Params, p.essThresholdRetain = r → p.bisectionTol ≤ -Real.log r → N ≤ p.maxBisectionIter → ∀ target rm step : ℝ, 0 < step → ∀ (alpha0 rest0 : ℝ) (key : Keys.Key) (k : ℕ),
        (∀ f : (Fin d → ℝ) → ℝ, Measurable f → ∀ B : ℝ, (∀ x, |f x| ≤ B) →
          InProb (fun n => (Measure.pi fun _ : Fin (n + 1) => μ0).prod ideal) (fun n z =>
            smcMean f ((rmTape (cat n) q prior lik c p target rm step alpha0 rest0 key z.1 z.2).rmState k).1.1
              - temperedMean μ0 lik (((rmTape (cat n) q prior lik c p target rm step alpha0 rest0 key z.1 z.2).rmState k).1.1 0).temperature f) 0) ∧
        InProb (fun n => (Measure.pi fun _ : Fin (n + 1) => μ0).prod ideal) (fun n z =>
          Real.exp (((rmTape (cat n) q prior lik c p target rm step alpha0 rest0 key z.1 z.2).rmState k).1.1 0).logNorm
            - ∫ x, Real.exp (-((((rmTape (cat n) q prior lik c p target rm step alpha0 rest0 key z.1 z.2).rmState k).1.1 0).temperature * lik x)) ∂μ0) 0 := by
  obtain ⟨N, hN⟩ := fine_enough (μ0 := μ0) hlik hw hr0 hr1 hM
  refine ⟨N, fun cat hcat c hl hMc p hp htol hit target rm step hstep alpha0 rest0 key k => ?_⟩
  subst hMc hp
  rw [← Real.exp_log hstep]
  have h := fun {f : (Fin d → ℝ) → ℝ} (hf : Measurable f) {B : ℝ} (hB : ∀ x, |f x| ≤ B) =>
    rm_adaptive hq hprior hlik hw hμ hcat c p target rm (Real.log step) alpha0 rest0 key hl hM hr0 hr1 htol hc (hN _ hit) k hf hB
  exact ⟨fun f hf B hB => (h hf hB).1, (h (measurable_const (a := (0 : ℝ))) (B := 0) fun _ => by simp).2.1⟩

theorem mem_rmChain_le {K π X ρ : Type*} {n : ℕ} [NeZero n] (S : RmSetup K π X ρ n) (manyNan : (Fin n → X) → Bool) (row : Ensemble n X ρ × ℝ) (h : row ∈ S.rmChain manyNan) :
    ∃ k ≤ S.config.maxIter.toNat, row = ((S.rmState k).1.1, (S.rmState k).1.2 0) := by
  obtain ⟨m, hm, h2, -, -⟩ := C12_run (rmUpdate S.tune S.target S.rm S.splitN S.categorical S.kernel S.prior S.config S.params) (fun s e => Smc.terminated S.config manyNan s.1 e) S.config.maxIter (rmStartup S.tune S.start)
  unfold RmSetup.rmChain rmRunFrom at h
  rw [h2] at h
  obtain ⟨s, hs, rfl⟩ := List.mem_map.1 h
  obtain ⟨i, hi, rfl⟩ := List.mem_map.1 hs
  exact ⟨i, (Nat.le_of_lt_succ (List.mem_range.1 hi)).trans hm, rfl⟩

/-- C148: in terms of the chain that a run returns (rows of ensembles and stepsizes): the probability that some row of it has a weighted mean of `f` that is `ε` or more away from the expectation under the tempered
posterior at the temperature of that row tends to 0. In particular a row at the maximal temperature approximates the posterior expectation. -/
theorem C148_chain {q : ℝ → ℝ} (hq : IsNormalDraw q) {prior lik : (Fin d → ℝ) → ℝ} (hprior : Measurable prior) (hlik : Measurable lik) (w : ℝ) (hw : ∀ x, w ≤ lik x)
    (μ0 : Measure (Fin d → ℝ)) [IsProbabilityMeasure μ0] (a : ℝ≥0∞) (hμ : μ0 = a • volume.withDensity fun x => ENNReal.ofReal (Real.exp (-prior x)))
    (hc : ¬ ∃ b : ℝ, ∀ᵐ x ∂μ0, lik x = b) (M : ℝ) (hM : 0 < M) (r : ℝ) (hr0 : 0 < r) (hr1 : r < 1) :
    ∃ N : ℕ, ∀ cat : ∀ n, (Fin (n + 1) → ℝ) → ℝ → Fin (n + 1), (∀ n, IsCategoricalReal (cat n)) → ∀ c : Config, c.schedule = none → c.maxTemperature = M →
      ∀ p : Params, p.essThresholdRetain = r → p.bisectionTol ≤ -Real.log r → N ≤ p.maxBisectionIter → ∀ target rm step : ℝ, 0 < step → ∀ (alpha0 rest0 : ℝ) (key : Keys.Key)
        (manyNan : ∀ n, (Fin (n + 1) → Fin d → ℝ) → Bool) (f : (Fin d → ℝ) → ℝ), Measurable f → ∀ B : ℝ, (∀ x, |f x| ≤ B) → ∀ ε > 0,
        Tendsto (fun n => ((Measure.pi fun _ : Fin (n + 1) => μ0).prod ideal)
          {z | ∃ row ∈ (rmTape (cat n) q prior lik c p target rm step alpha0 rest0 key z.1 z.2).rmChain (manyNan n),
            ε ≤ |smcMean f row.1 - temperedMean μ0 lik (row.1 0).temperature f|}) atTop (𝓝 0) ∧
        Tendsto (fun n => ((Measure.pi fun _ : Fin (n + 1) => μ0).prod ideal)
          {z | ∃ row ∈ (rmTape (cat n) q prior lik c p target rm step alpha0 rest0 key z.1 z.2).rmChain (manyNan n),
            M ≤ (row.1 0).temperature ∧ ε ≤ |smcMean f row.1 - temperedMean μ0 lik M f|}) atTop (𝓝 0) := by
  obtain ⟨N, hN⟩ := fine_enough (μ0 := μ0) hlik hw hr0 hr1 hM
  refine ⟨N, fun cat hcat c hl hMc p hp htol hit target rm step hstep alpha0 rest0 key manyNan f hf B hB ε hε => ?_⟩
  subst hMc hp
  rw [← Real.exp_log hstep]
  have h := fun k => rm_adaptive hq hprior hlik hw hμ hcat c p target rm (Real.log step) alpha0 rest0 key hl hM hr0 hr1 htol hc (hN _ hit) k hf hB
  have h1 : Tendsto (fun n => ((Measure.pi fun _ : Fin (n + 1) => μ0).prod ideal)
      {z | ∃ row ∈ (rmTape (cat n) q prior lik c p target rm (Real.exp (Real.log step)) alpha0 rest0 key z.1 z.2).rmChain (manyNan n),
            ε ≤ |smcMean f row.1 - temperedMean μ0 lik (row.1 0).temperature f|}) atTop (𝓝 0) := by
    have h2 := tendsto_finsetSum (Finset.range (c.maxIter.toNat + 1)) fun k _ => inProb_real.1 (h k).1 ε hε
    rw [Finset.sum_const_zero] at h2
    refine tendsto_of_tendsto_of_tendsto_of_le_of_le tendsto_const_nhds h2 (fun n => bot_le) fun n => (measure_mono fun z hz => ?_).trans (measure_biUnion_finset_le _ _)
    obtain ⟨row, hrow, hε'⟩ := hz
    obtain ⟨k, hk, rfl⟩ := mem_rmChain_le _ (manyNan n) row hrow
    refine Set.mem_biUnion (x := k) (Finset.mem_coe.2 (Finset.mem_range.2 (Nat.lt_succ_of_le hk))) ?_
    rw [Set.mem_ofPred_eq, sub_zero]
    exact hε'
  have h3 := tendsto_finsetSum (Finset.range (c.maxIter.toNat + 1)) fun k _ => (h k).2.2
  rw [Finset.sum_const_zero] at h3
  have h4 := h1.add h3
  rw [add_zero] at h4
  refine ⟨h1, tendsto_of_tendsto_of_tendsto_of_le_of_le tendsto_const_nhds h4 (fun n => bot_le) fun n =>
    (measure_mono fun z hz => ?_).trans ((measure_union_le _ _).trans (add_le_add le_rfl (measure_biUnion_finset_le _ _)))⟩
  obtain ⟨row, hrow, hT, hε'⟩ := hz
  rcases hT.eq_or_lt with h5 | h5
  · refine Or.inl ⟨row, hrow, ?_⟩
    rw [← h5]
    exact hε'
  · obtain ⟨k, hk, rfl⟩ := mem_rmChain_le _ (manyNan n) row hrow
    exact Or.inr (Set.mem_biUnion (x := k) (Finset.mem_coe.2 (Finset.mem_range.2 (Nat.lt_succ_of_le hk))) h5)

/-- C148: scheduled temperatures and adapted stepsizes. For a non-decreasing schedule of positive temperatures, under the same conditions on prior and likelihood (which may be constant), after every number of
updates the weighted mean of `f` converges in probability to its expectation under the tempered posterior at the scheduled temperature, and `exp (log_norm_constant)` to the normalising constant. -/
theorem C148_scheduled {q : ℝ → ℝ} (hq : IsNormalDraw q) {prior lik : (Fin d → ℝ) → ℝ} (hprior : Measurable prior) (hlik : Measurable lik) (w : ℝ) (hw : ∀ x, w ≤ lik x)
    (μ0 : Measure (Fin d → ℝ)) [IsProbabilityMeasure μ0] (a : ℝ≥0∞) (hμ : μ0 = a • volume.withDensity fun x => ENNReal.ofReal (Real.exp (-prior x)))
    (cat : ∀ n, (Fin (n + 1) → ℝ) → ℝ → Fin (n + 1)) (hcat : ∀ n, IsCategoricalReal (cat n)) (c : Config) (l : List ℝ) (hl : c.schedule = some l) (h0 : 0 < scheduleAt l 0) (hmono : ∀ j, scheduleAt l j ≤ scheduleAt l (j + 1))
    (p : Params) (target rm step : ℝ) (hstep : 0 < step) (alpha0 rest0 : ℝ) (key : Keys.Key) (k : ℕ) (f : (Fin d → ℝ) → ℝ) (hf : Measurable f) (B : ℝ) (hB : ∀ x, |f x| ≤ B) :
    InProb (fun n => (Measure.pi fun _ : Fin (n + 1) => μ0).prod ideal) (fun n z => smcMean f ((rmTape (cat n) q prior lik c p target rm step alpha0 rest0 key z.1 z.2).rmState k).1.1)
      (temperedMean μ0 lik (scheduleAt l k) f) ∧
    InProb (fun n => (Measure.pi fun _ : Fin (n + 1) => μ0).prod ideal) (fun n z => Real.exp (((rmTape (cat n) q prior lik c p target rm step alpha0 rest0 key z.1 z.2).rmState k).1.1 0).logNorm)
      (∫ x, Real.exp (-(scheduleAt l k * lik x)) ∂μ0) := by
  have hmon : Monotone (scheduleAt l) := monotone_nat_of_le_succ hmono
  obtain ⟨M, hM⟩ : ∃ M, M = scheduleAt l (l.length - 1) := ⟨_, rfl⟩
  have hle : ∀ j, scheduleAt l j ≤ M := fun j => by
    have e : scheduleAt l j = scheduleAt l (min j (l.length - 1)) := by simp [scheduleAt]
    rw [hM, e]
    exact hmon (min_le_right _ _)
  have hM0 : 0 ≤ M := h0.le.trans (hle 0)
  have hpos : ∀ j, 0 < scheduleAt l j := fun j => h0.trans_le (hmon (Nat.zero_le j))
  have htr : ∀ (n : ℕ) (z : (Fin (n + 1) → Fin d → ℝ) × Tape) k, (rmRed (cat n) q prior lik p target rm (Real.log step) key z.1 z.2 (fun k T _ _ => max T (min M (scheduleAt l k))) k).1.1 = scheduleAt l k := by
    intro n z k
    induction k with
    | zero =>
      change max 0 (min M (scheduleAt l 0)) = _
      rw [min_eq_right (hle 0), max_eq_right (hpos 0).le]
    | succ k ih =>
      change max (rmRed (cat n) q prior lik p target rm (Real.log step) key z.1 z.2 (fun k T _ _ => max T (min M (scheduleAt l k))) k).1.1 (min M (scheduleAt l (k + 1))) = _
      rw [ih, min_eq_right (hle _), max_eq_right (hmono k)]
  rw [← Real.exp_log hstep]
  have hlink : ∀ (n : ℕ) (z : (Fin (n + 1) → Fin d → ℝ) × Tape), _ := fun n z => (rm_reduced (cat n) q prior lik c p target rm (Real.log step) alpha0 rest0 key z.1 z.2
    (nxt := fun k T _ _ => max T (min M (scheduleAt l k)))
    (fun m _ _ => by
      simp only [nextTemperature, hl]
      rw [min_eq_right (hle 0), max_eq_right (hpos 0).le])
    (fun k m κ s h1 _ => by
      rw [htr] at h1
      simp only [nextTemperature, hl]
      rw [h1, min_eq_right (hle _), max_eq_right (hmono k)])
    (fun k => by rw [htr]; exact (hpos k).ne') k).2.2
  have h := rm_limits hq hprior hlik hw hμ hcat c p target rm (Real.log step) alpha0 rest0 key hM0 (nxt := fun n k T _ _ => max T (min M (scheduleAt l k)))
    (fun n k => measurable_fst.max measurable_const) (fun n k T lw l' hT => ⟨le_max_left _ _, max_le hT (min_le_left _ _)⟩) (E := fun _ => ∅) (by simp) k (fun n z _ => hlink n z) hf hB
  have ht : ∀ (n : ℕ) (z : (Fin (n + 1) → Fin d → ℝ) × Tape), (((rmTape (cat n) q prior lik c p target rm (Real.exp (Real.log step)) alpha0 rest0 key z.1 z.2).rmState k).1.1 0).temperature = scheduleAt l k := fun n z =>
    (congrArg Prod.fst (hlink n z)).trans (htr n z k)
  obtain ⟨h1, h2⟩ := h
  simp only [ht] at h1 h2
  have h3 := h1.add (inProb_const (temperedMean μ0 lik (scheduleAt l k) f))
  have h4 := h2.add (inProb_const (∫ x, Real.exp (-(scheduleAt l k * lik x)) ∂μ0))
  simp only [sub_add_cancel, zero_add] at h3 h4
  exact ⟨h3, h4⟩

/-- A normal prior, a normal observation, the default settings of the code (smc.py 377-390; the target acceptance rate of the random walk, 0.234) and enough iterations of the search. -/
example : ∃ (q : ℝ → ℝ) (N : ℕ), IsNormalDraw q ∧ ∀ it ≥ N, ∀ cat : ∀ n, (Fin (n + 1) → ℝ) → ℝ → Fin (n + 1), (∀ n, IsCategoricalReal (cat n)) → ∀ (key : Keys.Key) (k : ℕ),
    InProb (fun n => (Measure.pi fun _ : Fin (n + 1) => stdNormal 1).prod ideal) (fun n z =>
      smcMean (Set.indicator {x | 0 < x 0} 1) ((rmTape (d := 1) (cat n) q (fun x => x 0 ^ 2 / 2) (fun x => (x 0 - 1) ^ 2 / 2) ⟨none, 1, 10000⟩ ⟨1, 0.9, 0.5, 0.00001, it⟩ 0.234 1 1 1 0 key z.1 z.2).rmState k).1.1
        - temperedMean (stdNormal 1) (fun x => (x 0 - 1) ^ 2 / 2)
          (((rmTape (d := 1) (cat n) q (fun x => x 0 ^ 2 / 2) (fun x => (x 0 - 1) ^ 2 / 2) ⟨none, 1, 10000⟩ ⟨1, 0.9, 0.5, 0.00001, it⟩ 0.234 1 1 1 0 key z.1 z.2).rmState k).1.1 0).temperature
          (Set.indicator {x | 0 < x 0} 1)) 0 := by
  obtain ⟨q, hq⟩ := exists_isNormalDraw
  have hS : MeasurableSet {x : Fin 1 → ℝ | 0 < x 0} := measurableSet_lt measurable_const (measurable_pi_apply 0)
  have hlog : (0.00001 : ℝ) ≤ -Real.log 0.9 := by
    have := Real.log_le_sub_one_of_pos (show (0 : ℝ) < 0.9 by norm_num)
    linarith
  obtain ⟨N, hN⟩ := C148_adaptive (d := 1) hq (prior := fun x => x 0 ^ 2 / 2) (lik := fun x => (x 0 - 1) ^ 2 / 2) (by fun_prop) (by fun_prop) 0 (fun x => by positivity) (stdNormal 1)
    (ENNReal.ofReal (Real.sqrt (2 * Real.pi))⁻¹) obs_prior obs_not_const 1 one_pos 0.9 (by norm_num) (by norm_num)
  refine ⟨q, N, hq, fun it hit cat hcat key k => (hN cat hcat ⟨none, 1, 10000⟩ rfl rfl ⟨1, 0.9, 0.5, 0.00001, it⟩ rfl hlog hit 0.234 1 1 one_pos 1 0 key k).1 _ (measurable_one.indicator hS) 1 fun x => ?_⟩
  by_cases hx : x ∈ {x : Fin 1 → ℝ | 0 < x 0}
  · rw [Set.indicator_of_mem hx]; simp
  · rw [Set.indicator_of_notMem hx]; simp

/-- The same problem with temperatures 0.5 and 1. -/
example : ∃ q : ℝ → ℝ, IsNormalDraw q ∧ ∀ cat : ∀ n, (Fin (n + 1) → ℝ) → ℝ → Fin (n + 1), (∀ n, IsCategoricalReal (cat n)) → ∀ key : Keys.Key,
    InProb (fun n => (Measure.pi fun _ : Fin (n + 1) => stdNormal 1).prod ideal) (fun n z =>
      Real.exp (((rmTape (d := 1) (cat n) q (fun x => x 0 ^ 2 / 2) (fun x => (x 0 - 1) ^ 2 / 2) ⟨some [0.5, 1], 1, 10000⟩ ⟨1, 0.9, 0.5, 0.00001, 1000⟩ 0.234 1 1 1 0 key z.1 z.2).rmState 1).1.1 0).logNorm)
      (∫ x : Fin 1 → ℝ, Real.exp (-(1 * ((x 0 - 1) ^ 2 / 2))) ∂stdNormal 1) := by
  obtain ⟨q, hq⟩ := exists_isNormalDraw
  refine ⟨q, hq, fun cat hcat key => ?_⟩
  have h1 : ∀ j, 1 ≤ j → scheduleAt [0.5, 1] j = (1 : ℝ) := fun j hj => by simp [scheduleAt, min_eq_right hj]
  have h0 : scheduleAt [0.5, 1] 0 = (0.5 : ℝ) := by simp [scheduleAt]
  have h := (C148_scheduled (d := 1) hq (prior := fun x => x 0 ^ 2 / 2) (lik := fun x => (x 0 - 1) ^ 2 / 2) (by fun_prop) (by fun_prop) 0 (fun x => by positivity) (stdNormal 1)
    (ENNReal.ofReal (Real.sqrt (2 * Real.pi))⁻¹) obs_prior cat hcat ⟨some [0.5, 1], 1, 10000⟩ [0.5, 1] rfl (by rw [h0]; norm_num) (fun j => by
      rcases j with _ | j
      · rw [h0, h1 _ le_rfl]; norm_num
      · rw [h1 _ (by omega), h1 _ (by omega)]) ⟨1, 0.9, 0.5, 0.00001, 1000⟩ 0.234 1 1 one_pos 1 0 key 1 (fun _ => 0) measurable_const 0 fun _ => by simp).2
  rw [h1 1 le_rfl] at h
  exact h

end Mocat.Props
