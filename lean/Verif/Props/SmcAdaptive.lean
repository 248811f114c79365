import Verif.Lemmas.SmcAdaptivePositive
import Verif.Lemmas.GaussMoments
/-!
# C146: tempered SMC with adaptive temperatures converges as the ensemble grows

The draws come from an ideal generator (`Verif.Spec.Tape`); the initial values are independent draws from the prior. The temperatures are random: each is chosen from the current ensemble.
-/
namespace Mocat.Props
open Mocat Mocat.Smc Mocat.MatGauss Mocat.Ideal Mocat.Meas Mocat.Spec MeasureTheory ProbabilityTheory Filter Topology
open scoped ENNReal

variable {d : ℕ} {X ρ π : Type*}

theorem inProb_off {Ω : ℕ → Type*} [∀ n, MeasurableSpace (Ω n)] {μ : ∀ n, Measure (Ω n)} {g g' : ∀ n, Ω n → ℝ} {E : ∀ n, Set (Ω n)} (hg : InProb μ g 0) (hE : Tendsto (fun n => μ n (E n)) atTop (𝓝 0))
    (h : ∀ n, ∀ ω ∉ E n, g n ω = g' n ω) : InProb μ g' 0 := by
  intro U hU
  have h1 := hE.add (hg U hU)
  rw [add_zero] at h1
  refine tendsto_of_tendsto_of_tendsto_of_le_of_le tendsto_const_nhds h1 (fun n => bot_le) fun n => (measure_mono fun ω hω => ?_).trans (measure_union_le _ _)
  by_cases hc : ω ∈ E n
  · exact Or.inl hc
  · right
    rw [Set.mem_ofPred_eq, h n ω hc]
    exact hω

theorem mem_chain_le {K π X ρ : Type*} {n : ℕ} [NeZero n] (S : SmcSetup K π X ρ n) (manyNan : (Fin n → X) → Bool) (ens : Ensemble n X ρ) (h : ens ∈ S.chain manyNan) : ∃ k ≤ S.config.maxIter.toNat, ens = (S.state k).1 := by
  obtain ⟨m, hm, h2, -, -⟩ := C12_run (Smc.update S.splitN S.categorical S.kernel S.prior S.config S.params) (Smc.terminated S.config manyNan) S.config.maxIter S.start
  unfold SmcSetup.chain Smc.runFrom at h
  rw [h2] at h
  obtain ⟨i, hi, rfl⟩ := List.mem_map.1 h
  exact ⟨i, (Nat.le_of_lt_succ (List.mem_range.1 hi)).trans hm, rfl⟩

section
variable [MeasurableSpace X] {μ0 : Measure X} [IsProbabilityMeasure μ0] {lik : X → ℝ} (hlik : Measurable lik) {w : ℝ} (hw : ∀ x, w ≤ lik x) {M : ℝ}
include hlik hw

/-- The normalising constants of the tempered laws are bounded away from 0. -/
theorem mass_bounded : ∃ z0 : ℝ, 0 < z0 ∧ ∀ T ∈ Set.Icc 0 M, z0 ≤ gam μ0 lik T fun _ => 1 := by
  have hm : Measurable fun x => min 1 (Real.exp (-(M * lik x))) := measurable_const.min (Real.measurable_exp.comp (measurable_const.mul hlik).neg)
  have hpos : ∀ x, 0 < min 1 (Real.exp (-(M * lik x))) := fun x => lt_min one_pos (Real.exp_pos _)
  have hi : Integrable (fun x => min 1 (Real.exp (-(M * lik x)))) μ0 := Integrable.of_bound hm.aestronglyMeasurable 1 (Filter.Eventually.of_forall fun x => by
    rw [Real.norm_eq_abs, abs_of_pos (hpos x)]; exact min_le_left _ _)
  refine ⟨∫ x, min 1 (Real.exp (-(M * lik x))) ∂μ0, ?_, fun T hT => ?_⟩
  · rw [integral_pos_iff_support_of_nonneg (fun x => (hpos x).le) hi, show (Function.support fun x => min 1 (Real.exp (-(M * lik x)))) = Set.univ from Set.eq_univ_of_forall fun x => (hpos x).ne', measure_univ]
    exact one_pos
  · unfold gam
    simp only [mul_one]
    refine integral_mono hi (exp_integrable hlik hw hT.1) fun x => ?_
    rcases le_total 0 (lik x) with h | h
    · exact (min_le_right _ _).trans (Real.exp_le_exp.2 (neg_le_neg (mul_le_mul_of_nonneg_right hT.2 h)))
    · exact (min_le_left _ _).trans (Real.one_le_exp (neg_nonneg.2 (mul_nonpos_of_nonneg_of_nonpos hT.1 h)))

/-- Weighted means of runs that approximate the tempered laws. -/
theorem mean_of_good {Ω : ℕ → Type*} [∀ n, MeasurableSpace (Ω n)] {μ : ∀ n, Measure (Ω n)} {s : ∀ n, Ω n → ℝ × Red (n + 1) X} (hs : Good μ μ0 lik s)
    (hT : ∀ n z, (s n z).1 ∈ Set.Icc 0 M) {f : X → ℝ} (hf : Measurable f) {B : ℝ} (hB : ∀ x, |f x| ≤ B) :
    InProb μ (fun n z => (∑ i, Real.exp ((s n z).2.2.1 i) * f ((s n z).2.1 i)) / (∑ i, Real.exp ((s n z).2.2.1 i)) - temperedMean μ0 lik (s n z).1 f) 0 := by
  have hB0 : 0 ≤ B := by
    have : Nonempty X := by
      by_contra hc
      rw [not_nonempty_iff] at hc
      have h1 := measure_univ (μ := μ0)
      rw [Set.univ_eq_empty_iff.2 hc, measure_empty] at h1
      exact zero_ne_one h1
    obtain ⟨x⟩ := this
    exact (abs_nonneg _).trans (hB x)
  obtain ⟨z0, hz0, hz⟩ := mass_bounded (μ0 := μ0) (M := M) hlik hw
  have hlow : ∀ x, 0 ≤ f x + B := fun x => by have := (abs_le.mp (hB x)).1; linarith
  have hup : ∀ x, f x + B ≤ 2 * B := fun x => by have := (abs_le.mp (hB x)).2; linarith
  have hW : ∀ T ∈ Set.Icc 0 M, ∀ x, Real.exp (-(T * lik x)) ≤ Real.exp (M * |w|) := fun T hT x => (exp_bound hw hT.1 x).trans (Real.exp_le_exp.2 (by
    have h1 := neg_le_abs w
    nlinarith [mul_le_mul_of_nonneg_left h1 hT.1, mul_le_mul_of_nonneg_right hT.2 (abs_nonneg w)]))
  have hi : ∀ T ∈ Set.Icc 0 M, Integrable (fun x => Real.exp (-(T * lik x)) * f x) μ0 := fun T hT => gam_integrable hlik hW hT hf hB
  have hi1 : ∀ T ∈ Set.Icc 0 M, Integrable (fun x => Real.exp (-(T * lik x)) * 1) μ0 := fun T hT => gam_integrable hlik hW hT measurable_const (B := 1) (fun _ => by simp)
  have hsum : ∀ T ∈ Set.Icc 0 M, gam μ0 lik T (fun x => f x + B) = gam μ0 lik T f + B * gam μ0 lik T fun _ => 1 := fun T hT => by
    unfold gam
    rw [← integral_const_mul, ← integral_add (hi T hT) ((hi1 T hT).const_mul B)]
    exact integral_congr_ae (Filter.Eventually.of_forall fun x => by simp only; ring)
  have hle : ∀ T ∈ Set.Icc 0 M, |gam μ0 lik T (fun x => f x + B)| ≤ 2 * B * gam μ0 lik T fun _ => 1 := fun T hT => by
    have h1 : ∀ x, |f x + B| ≤ 2 * B := fun x => by rw [abs_of_nonneg (hlow x)]; exact hup x
    unfold gam
    rw [abs_of_nonneg (integral_nonneg fun x => mul_nonneg (Real.exp_pos _).le (hlow x)), ← integral_const_mul]
    refine integral_mono (gam_integrable hlik hW hT (hf.add_const B) h1) ((hi1 T hT).const_mul _) fun x => ?_
    simp only [mul_one]
    rw [mul_comm]
    exact mul_le_mul_of_nonneg_right (hup x) (Real.exp_pos _).le
  have h := inProb_ratio (μ := μ) hz0 (by positivity) (fun n z => hz _ (hT n z)) (fun n z => hle _ (hT n z)) (hs (fun x => f x + B) (2 * B) (hf.add_const B) hlow hup)
    (hs (fun _ => 1) 1 measurable_const (fun _ => zero_le_one) (fun _ => le_rfl))
  refine h.congr (Filter.Eventually.of_forall fun n z => ?_)
  have hZpos : (0 : ℝ) < gam μ0 lik (s n z).1 fun _ => 1 := hz0.trans_le (hz _ (hT n z))
  have h1 := mean_ratio hB (s n z).2
  rw [Qr_eq hlow, Qr_eq fun _ => zero_le_one] at h1
  rw [h1, hsum _ (hT n z), add_div, mul_div_cancel_right₀ _ hZpos.ne', add_sub_add_right_eq_sub]
  unfold temperedMean gam
  simp only [mul_one]

omit [IsProbabilityMeasure μ0] hlik hw in
theorem norm_of_good {Ω : ℕ → Type*} [∀ n, MeasurableSpace (Ω n)] {μ : ∀ n, Measure (Ω n)} {s : ∀ n, Ω n → ℝ × Red (n + 1) X} (hs : Good μ μ0 lik s) :
    InProb μ (fun n z => Real.exp (s n z).2.2.2 - ∫ x, Real.exp (-((s n z).1 * lik x)) ∂μ0) 0 := by
  refine (hs (fun _ => 1) 1 measurable_const (fun _ => zero_le_one) fun _ => le_rfl).congr (Filter.Eventually.of_forall fun n z => ?_)
  unfold Qr gam
  simp only [mul_one, share_sum]

end

section
variable {q : ℝ → ℝ} (hq : IsNormalDraw q) {prior lik : (Fin d → ℝ) → ℝ} (hprior : Measurable prior) (hlik : Measurable lik) {w : ℝ} (hw : ∀ x, w ≤ lik x)
  {μ0 : Measure (Fin d → ℝ)} [IsProbabilityMeasure μ0] {a : ℝ≥0∞} (hμ : μ0 = a • volume.withDensity fun x => ENNReal.ofReal (Real.exp (-prior x)))
  {cat : ∀ n, (Fin (n + 1) → ℝ) → ℝ → Fin (n + 1)} (hcat : ∀ n, IsCategoricalReal (cat n))
  {c : Config} (hl : c.schedule = none) (hM : 0 ≤ c.maxTemperature) (p : Params) (step alpha0 rest0 : ℝ) (key : Keys.Key)
include hq hprior hlik hw hμ hcat hM

theorem rw_run_ok (k : ℕ) : RunOK μ0 lik c.maxTemperature (fun n => keyAt (n + 1) (0 :: key) k) (Real.exp (c.maxTemperature * |w|) ^ (k + 1)) fun n z =>
    aRun (cat n) p.essThresholdResample (fun T k x ω => tapeIter (rwDraws q d) Keys.rwNext (rwMove Set.univ (fun x => prior x + T * lik x) step) p.mcmcSteps (0 :: k) x ω) lik (nextOf p c.maxTemperature)
      (0 :: key) z.1 k z.2 := by
  have hW : ∀ T ∈ Set.Icc 0 c.maxTemperature, ∀ x, Real.exp (-(T * lik x)) ≤ Real.exp (c.maxTemperature * |w|) := fun T hT x => (exp_bound hw hT.1 x).trans (Real.exp_le_exp.2 (by
    have h1 := neg_le_abs w
    nlinarith [mul_le_mul_of_nonneg_left h1 hT.1, mul_le_mul_of_nonneg_right hT.2 (abs_nonneg w)]))
  exact aRun_ok hlik (Real.exp_pos _).le hW hcat p.essThresholdResample (rw_moveLaw hq hprior hlik step p.mcmcSteps) hM
    (fun f B hf _ hB => rw_family hprior hlik step μ0 c.maxTemperature p.mcmcSteps hf hB) (fun T _ hh => rw_tempered_invariant hprior hlik p step hμ T hh)
    (fun n => measurable_nextOf p c.maxTemperature) (fun n T lw l hT => nextAdaptive_mem p c.maxTemperature T _ hT lw l) (0 :: key) k

include hl
/-- Weighted means, off the event that the first temperature is 0. -/
theorem adaptive_mean (hE : Tendsto (fun n => ((Measure.pi fun _ : Fin (n + 1) => μ0).prod ideal)
      {z | (tapeSmc (cat n) (rwTape q prior lik) prior lik c p step alpha0 rest0 key z.1 z.2).temp 0 = 0}) atTop (𝓝 0))
    (k : ℕ) {f : (Fin d → ℝ) → ℝ} (hf : Measurable f) {B : ℝ} (hB : ∀ x, |f x| ≤ B) :
    InProb (fun n => (Measure.pi fun _ : Fin (n + 1) => μ0).prod ideal) (fun n z =>
      smcMean f ((tapeSmc (cat n) (rwTape q prior lik) prior lik c p step alpha0 rest0 key z.1 z.2).state k).1
        - temperedMean μ0 lik ((tapeSmc (cat n) (rwTape q prior lik) prior lik c p step alpha0 rest0 key z.1 z.2).temp k) f) 0 ∧
    InProb (fun n => (Measure.pi fun _ : Fin (n + 1) => μ0).prod ideal) (fun n z =>
      Real.exp (((tapeSmc (cat n) (rwTape q prior lik) prior lik c p step alpha0 rest0 key z.1 z.2).state k).1 0).logNorm
        - ∫ x, Real.exp (-((tapeSmc (cat n) (rwTape q prior lik) prior lik c p step alpha0 rest0 key z.1 z.2).temp k * lik x)) ∂μ0) 0 := by
  have hok := rw_run_ok hq hprior hlik hw hμ hcat hM p step key k
  have hlink : ∀ n, ∀ z ∉ {z : (Fin (n + 1) → Fin d → ℝ) × Tape | (tapeSmc (cat n) (rwTape q prior lik) prior lik c p step alpha0 rest0 key z.1 z.2).temp 0 = 0}, _ := fun n z hz =>
    adaptive_run (rwTape_inner q prior lik p step hq hprior hlik) (cat n) c alpha0 rest0 key z.1 z.2 hl hM (lt_of_le_of_ne (C39_adaptive _ hl hM 0).1 (Ne.symm hz)) k
  refine ⟨inProb_off (mean_of_good hlik hw hok.good hok.temp hf hB) hE fun n z hz => ?_, inProb_off (norm_of_good hok.good) hE fun n z hz => ?_⟩
  · rw [← hlink n z hz]
    rfl
  · rw [← hlink n z hz]
    rfl

end

section
variable {q : ℝ → ℝ} (hq : IsNormalDraw q) {prior lik : (Fin d → ℝ) → ℝ} (hprior : Measurable prior) (hlik : Measurable lik) {w : ℝ} (hw : ∀ x, w ≤ lik x)
  {μ0 : Measure (Fin d → ℝ)} [IsProbabilityMeasure μ0]
include hq hprior hlik hw

theorem first_zero {cat : ∀ n, (Fin (n + 1) → ℝ) → ℝ → Fin (n + 1)} {c : Config} (hl : c.schedule = none) (hM : 0 < c.maxTemperature) {p : Params} (hr0 : 0 < p.essThresholdRetain)
    (hr1 : p.essThresholdRetain < 1) (htol : p.bisectionTol ≤ -Real.log p.essThresholdRetain) (hc : ¬ ∃ b : ℝ, ∀ᵐ x ∂μ0, lik x = b)
    (hfine : p.essThresholdRetain ^ 2 * ∫ x, Real.exp (-(2 * (c.maxTemperature / 2 ^ p.maxBisectionIter) * lik x)) ∂μ0
      < (∫ x, Real.exp (-(c.maxTemperature / 2 ^ p.maxBisectionIter * lik x)) ∂μ0) ^ 2) (step alpha0 rest0 : ℝ) (key : Keys.Key) :
    Tendsto (fun n => ((Measure.pi fun _ : Fin (n + 1) => μ0).prod ideal)
      {z | (tapeSmc (cat n) (rwTape q prior lik) prior lik c p step alpha0 rest0 key z.1 z.2).temp 0 = 0}) atTop (𝓝 0) := by
  refine (first_positive hlik hw hM hr0 hr1 htol hc hfine).congr fun n => ?_
  congr 1
  ext z
  have h := congrArg Prod.fst (adaptive_zero (rwTape_inner q prior lik p step hq hprior hlik) (cat n) c alpha0 rest0 key z.1 z.2 hl)
  simp only [bStep, startAt] at h
  simp only [Set.mem_ofPred_eq]
  rw [h]

end

/-- C146: with adaptive temperatures (no schedule), a prior that is a probability law, a likelihood potential that is bounded below and not constant, a positive maximal temperature, a fraction `0 < r < 1` of effective
sample size to retain and a tolerance of at most `-log r`: if the search for the next temperature may take enough iterations (a number that depends on prior, likelihood, maximal temperature and `r` only), the run
leaves temperature 0 at its start with probability tending to 1 as the number of particles grows. (At temperature 0 the first update of the code divides by zero.) -/
theorem C146_starts {q : ℝ → ℝ} (hq : IsNormalDraw q) {prior lik : (Fin d → ℝ) → ℝ} (hprior : Measurable prior) (hlik : Measurable lik) (w : ℝ) (hw : ∀ x, w ≤ lik x)
    (μ0 : Measure (Fin d → ℝ)) [IsProbabilityMeasure μ0] (hc : ¬ ∃ b : ℝ, ∀ᵐ x ∂μ0, lik x = b) (M : ℝ) (hM : 0 < M) (r : ℝ) (hr0 : 0 < r) (hr1 : r < 1) :
    ∃ N : ℕ, ∀ (cat : ∀ n, (Fin (n + 1) → ℝ) → ℝ → Fin (n + 1)) (c : Config), c.schedule = none → c.maxTemperature = M →
      ∀ p : Params, p.essThresholdRetain = r → p.bisectionTol ≤ -Real.log r → N ≤ p.maxBisectionIter → ∀ (step alpha0 rest0 : ℝ) (key : Keys.Key),
        Tendsto (fun n => ((Measure.pi fun _ : Fin (n + 1) => μ0).prod ideal) {z | (tapeSmc (cat n) (rwTape q prior lik) prior lik c p step alpha0 rest0 key z.1 z.2).temp 0 = 0}) atTop (𝓝 0) := by
  obtain ⟨N, hN⟩ := fine_enough (μ0 := μ0) hlik hw hr0 hr1 hM
  refine ⟨N, fun cat c hl hMc p hp htol hit step alpha0 rest0 key => ?_⟩
  subst hMc hp
  exact first_zero hq hprior hlik hw hl hM hr0 hr1 htol hc (hN _ hit) step alpha0 rest0 key

/-- C146: under the same conditions, after every number of updates the weighted mean of every bounded measurable `f` is, with probability tending to 1, close to the expectation of `f` under the tempered
posterior at the temperature the run has chosen. Inner sampler: `RandomWalk`. -/
theorem C146_mean {q : ℝ → ℝ} (hq : IsNormalDraw q) {prior lik : (Fin d → ℝ) → ℝ} (hprior : Measurable prior) (hlik : Measurable lik) (w : ℝ) (hw : ∀ x, w ≤ lik x)
    (μ0 : Measure (Fin d → ℝ)) [IsProbabilityMeasure μ0] (a : ℝ≥0∞) (hμ : μ0 = a • volume.withDensity fun x => ENNReal.ofReal (Real.exp (-prior x)))
    (hc : ¬ ∃ b : ℝ, ∀ᵐ x ∂μ0, lik x = b) (M : ℝ) (hM : 0 < M) (r : ℝ) (hr0 : 0 < r) (hr1 : r < 1) :
    ∃ N : ℕ, ∀ cat : ∀ n, (Fin (n + 1) → ℝ) → ℝ → Fin (n + 1), (∀ n, IsCategoricalReal (cat n)) → ∀ c : Config, c.schedule = none → c.maxTemperature = M →
      ∀ p : Params, p.essThresholdRetain = r → p.bisectionTol ≤ -Real.log r → N ≤ p.maxBisectionIter → ∀ (step alpha0 rest0 : ℝ) (key : Keys.Key) (k : ℕ)
        (f : (Fin d → ℝ) → ℝ), Measurable f → ∀ B : ℝ, (∀ x, |f x| ≤ B) →
        InProb (fun n => (Measure.pi fun _ : Fin (n + 1) => μ0).prod ideal) (fun n z =>
          smcMean f ((tapeSmc (cat n) (rwTape q prior lik) prior lik c p step alpha0 rest0 key z.1 z.2).state k).1
            - temperedMean μ0 lik ((tapeSmc (cat n) (rwTape q prior lik) prior lik c p step alpha0 rest0 key z.1 z.2).temp k) f) 0 := by
  obtain ⟨N, hN⟩ := fine_enough (μ0 := μ0) hlik hw hr0 hr1 hM
  refine ⟨N, fun cat hcat c hl hMc p hp htol hit step alpha0 rest0 key k f hf B hB => ?_⟩
  subst hMc hp
  exact (adaptive_mean hq hprior hlik hw hμ hcat hl hM.le p step alpha0 rest0 key (first_zero hq hprior hlik hw hl hM hr0 hr1 htol hc (hN _ hit) step alpha0 rest0 key) k hf hB).1

/-- C146: likewise `exp (log_norm_constant)`, of every particle, is close to the normalising constant of the tempered posterior at the temperature the run has chosen. -/
theorem C146_norm {q : ℝ → ℝ} (hq : IsNormalDraw q) {prior lik : (Fin d → ℝ) → ℝ} (hprior : Measurable prior) (hlik : Measurable lik) (w : ℝ) (hw : ∀ x, w ≤ lik x)
    (μ0 : Measure (Fin d → ℝ)) [IsProbabilityMeasure μ0] (a : ℝ≥0∞) (hμ : μ0 = a • volume.withDensity fun x => ENNReal.ofReal (Real.exp (-prior x)))
    (hc : ¬ ∃ b : ℝ, ∀ᵐ x ∂μ0, lik x = b) (M : ℝ) (hM : 0 < M) (r : ℝ) (hr0 : 0 < r) (hr1 : r < 1) :
    ∃ N : ℕ, ∀ cat : ∀ n, (Fin (n + 1) → ℝ) → ℝ → Fin (n + 1), (∀ n, IsCategoricalReal (cat n)) → ∀ c : Config, c.schedule = none → c.maxTemperature = M →
      ∀ p : Params, p.essThresholdRetain = r → p.bisectionTol ≤ -Real.log r → N ≤ p.maxBisectionIter → ∀ (step alpha0 rest0 : ℝ) (key : Keys.Key) (k : ℕ) (i : ∀ n, Fin (n + 1)),
        InProb (fun n => (Measure.pi fun _ : Fin (n + 1) => μ0).prod ideal) (fun n z =>
          Real.exp (((tapeSmc (cat n) (rwTape q prior lik) prior lik c p step alpha0 rest0 key z.1 z.2).state k).1 (i n)).logNorm
            - ∫ x, Real.exp (-((tapeSmc (cat n) (rwTape q prior lik) prior lik c p step alpha0 rest0 key z.1 z.2).temp k * lik x)) ∂μ0) 0 := by
  obtain ⟨N, hN⟩ := fine_enough (μ0 := μ0) hlik hw hr0 hr1 hM
  refine ⟨N, fun cat hcat c hl hMc p hp htol hit step alpha0 rest0 key k i => ?_⟩
  subst hMc hp
  refine (adaptive_mean hq hprior hlik hw hμ hcat hl hM.le p step alpha0 rest0 key (first_zero hq hprior hlik hw hl hM hr0 hr1 htol hc (hN _ hit) step alpha0 rest0 key) k
    (measurable_const (a := (0 : ℝ))) (B := 0) (fun _ => by simp)).2.congr (Filter.Eventually.of_forall fun n z => ?_)
  rw [(SmcSetup.shared _ k).logNorm (i n)]

/-- C146: in terms of the chain that a run returns: the probability that some row of it has a weighted mean of `f` that is `ε` or more away from the expectation under the tempered posterior at the temperature
of that row tends to 0. In particular a row at the maximal temperature approximates the posterior expectation. -/
theorem C146_chain {q : ℝ → ℝ} (hq : IsNormalDraw q) {prior lik : (Fin d → ℝ) → ℝ} (hprior : Measurable prior) (hlik : Measurable lik) (w : ℝ) (hw : ∀ x, w ≤ lik x)
    (μ0 : Measure (Fin d → ℝ)) [IsProbabilityMeasure μ0] (a : ℝ≥0∞) (hμ : μ0 = a • volume.withDensity fun x => ENNReal.ofReal (Real.exp (-prior x)))
    (hc : ¬ ∃ b : ℝ, ∀ᵐ x ∂μ0, lik x = b) (M : ℝ) (hM : 0 < M) (r : ℝ) (hr0 : 0 < r) (hr1 : r < 1) :
    ∃ N : ℕ, ∀ cat : ∀ n, (Fin (n + 1) → ℝ) → ℝ → Fin (n + 1), (∀ n, IsCategoricalReal (cat n)) → ∀ c : Config, c.schedule = none → c.maxTemperature = M →
      ∀ p : Params, p.essThresholdRetain = r → p.bisectionTol ≤ -Real.log r → N ≤ p.maxBisectionIter → ∀ (step alpha0 rest0 : ℝ) (key : Keys.Key) (manyNan : ∀ n, (Fin (n + 1) → Fin d → ℝ) → Bool)
        (f : (Fin d → ℝ) → ℝ), Measurable f → ∀ B : ℝ, (∀ x, |f x| ≤ B) → ∀ ε > 0,
        Tendsto (fun n => ((Measure.pi fun _ : Fin (n + 1) => μ0).prod ideal)
          {z | ∃ ens ∈ (tapeSmc (cat n) (rwTape q prior lik) prior lik c p step alpha0 rest0 key z.1 z.2).chain (manyNan n),
            ε ≤ |smcMean f ens - temperedMean μ0 lik (ens 0).temperature f|}) atTop (𝓝 0) ∧
        Tendsto (fun n => ((Measure.pi fun _ : Fin (n + 1) => μ0).prod ideal)
          {z | ∃ ens ∈ (tapeSmc (cat n) (rwTape q prior lik) prior lik c p step alpha0 rest0 key z.1 z.2).chain (manyNan n),
            M ≤ (ens 0).temperature ∧ ε ≤ |smcMean f ens - temperedMean μ0 lik M f|}) atTop (𝓝 0) := by
  obtain ⟨N, hN⟩ := C146_mean hq hprior hlik w hw μ0 a hμ hc M hM r hr0 hr1
  refine ⟨N, fun cat hcat c hl hMc p hp htol hit step alpha0 rest0 key manyNan f hf B hB ε hε => ?_⟩
  have h1 : Tendsto (fun n => ((Measure.pi fun _ : Fin (n + 1) => μ0).prod ideal)
      {z | ∃ ens ∈ (tapeSmc (cat n) (rwTape q prior lik) prior lik c p step alpha0 rest0 key z.1 z.2).chain (manyNan n),
            ε ≤ |smcMean f ens - temperedMean μ0 lik (ens 0).temperature f|}) atTop (𝓝 0) := by
    have h2 := tendsto_finsetSum (Finset.range (c.maxIter.toNat + 1)) fun k _ => inProb_real.1 (hN cat hcat c hl hMc p hp htol hit step alpha0 rest0 key k f hf B hB) ε hε
    rw [Finset.sum_const_zero] at h2
    refine tendsto_of_tendsto_of_tendsto_of_le_of_le tendsto_const_nhds h2 (fun n => bot_le) fun n => (measure_mono fun z hz => ?_).trans (measure_biUnion_finset_le _ _)
    obtain ⟨ens, hens, hε'⟩ := hz
    obtain ⟨k, hk, rfl⟩ := mem_chain_le _ (manyNan n) ens hens
    refine Set.mem_biUnion (x := k) (Finset.mem_coe.2 (Finset.mem_range.2 (Nat.lt_succ_of_le hk))) ?_
    rw [Set.mem_ofPred_eq, sub_zero]
    exact hε'
  refine ⟨h1, tendsto_of_tendsto_of_tendsto_of_le_of_le tendsto_const_nhds h1 (fun n => bot_le) fun n => measure_mono fun z hz => ?_⟩
  obtain ⟨ens, hens, hT, hε'⟩ := hz
  have h3 := ((C39_adaptive_chain (tapeSmc (cat n) (rwTape q prior lik) prior lik c p step alpha0 rest0 key z.1 z.2) hl (by change 0 ≤ c.maxTemperature; rw [hMc]; exact hM.le) (manyNan n)).2 ens hens).2
  have h4 : (ens 0).temperature = M := le_antisymm (h3.trans (le_of_eq hMc)) hT
  refine ⟨ens, hens, ?_⟩
  rw [h4]
  exact hε'

/-- A number of iterations that is enough, from the mean of the likelihood potential. -/
theorem fine_of_mean {X : Type*} [MeasurableSpace X] {μ0 : Measure X} [IsProbabilityMeasure μ0] {lik : X → ℝ} (hlik : Measurable lik) {w : ℝ} (hw : ∀ x, w ≤ lik x) (hi : Integrable lik μ0) {r t : ℝ} (hr0 : 0 < r)
    (ht : 0 ≤ t) (h : t * (∫ x, lik x ∂μ0 - w) < 1 - r) : r ^ 2 * ∫ x, Real.exp (-(2 * t * lik x)) ∂μ0 < (∫ x, Real.exp (-(t * lik x)) ∂μ0) ^ 2 := by
  have hp : ∀ s : ℝ, 0 ≤ s → ∫ x, Real.exp (-(s * lik x)) ∂μ0 ≤ Real.exp (-(s * w)) := fun s hs => by
    have h1 := integral_mono (exp_integrable (μ0 := μ0) hlik hw hs) (integrable_const (Real.exp (-(s * w)))) fun x => exp_bound hw hs x
    rwa [integral_const, probReal_univ, one_smul] at h1
  have hl : Real.exp (-(t * w)) * (1 - t * (∫ x, lik x ∂μ0 - w)) ≤ ∫ x, Real.exp (-(t * lik x)) ∂μ0 := by
    have h1 : ∫ x, Real.exp (-(t * w)) * (1 - t * (lik x - w)) ∂μ0 = Real.exp (-(t * w)) * (1 - t * (∫ x, lik x ∂μ0 - w)) := by
      have h2 : Integrable (fun x => t * (lik x - w)) μ0 := (hi.sub (integrable_const w)).const_mul t
      rw [integral_const_mul, integral_sub (integrable_const _) h2, integral_const_mul, integral_sub hi (integrable_const w)]
      simp
    rw [← h1]
    refine integral_mono (((integrable_const _).sub ((hi.sub (integrable_const w)).const_mul t)).const_mul _) (exp_integrable hlik hw ht) fun x => ?_
    have h2 := Real.add_one_le_exp (-(t * (lik x - w)))
    have h3 : Real.exp (-(t * lik x)) = Real.exp (-(t * w)) * Real.exp (-(t * (lik x - w))) := by
      rw [← Real.exp_add]
      congr 1
      ring
    simp only
    rw [h3]
    exact mul_le_mul_of_nonneg_left (by linarith) (Real.exp_pos _).le
  have he : Real.exp (-(2 * t * w)) = Real.exp (-(t * w)) ^ 2 := by
    rw [← Real.exp_nat_mul]
    congr 1
    push_cast
    ring
  have hE := Real.exp_pos (-(t * w))
  calc r ^ 2 * ∫ x, Real.exp (-(2 * t * lik x)) ∂μ0 ≤ r ^ 2 * Real.exp (-(t * w)) ^ 2 := by
        rw [← he]
        exact mul_le_mul_of_nonneg_left (hp _ (by positivity)) (by positivity)
    _ = (Real.exp (-(t * w)) * r) ^ 2 := by ring
    _ < (∫ x, Real.exp (-(t * lik x)) ∂μ0) ^ 2 := pow_lt_pow_left₀ ((mul_lt_mul_of_pos_left (by linarith) hE).trans_le hl) (by positivity) (by norm_num)

/-- C146: a number of iterations that is enough: when the likelihood potential has a finite mean `m` under the prior, `maximal temperature * (m - w) < (1 - r) * 2 ^ iterations` suffices. -/
theorem C146_iterations {q : ℝ → ℝ} (hq : IsNormalDraw q) {prior lik : (Fin d → ℝ) → ℝ} (hprior : Measurable prior) (hlik : Measurable lik) (w : ℝ) (hw : ∀ x, w ≤ lik x)
    (μ0 : Measure (Fin d → ℝ)) [IsProbabilityMeasure μ0] (a : ℝ≥0∞) (hμ : μ0 = a • volume.withDensity fun x => ENNReal.ofReal (Real.exp (-prior x)))
    (hc : ¬ ∃ b : ℝ, ∀ᵐ x ∂μ0, lik x = b) (hi : Integrable lik μ0) (cat : ∀ n, (Fin (n + 1) → ℝ) → ℝ → Fin (n + 1)) (hcat : ∀ n, IsCategoricalReal (cat n)) (c : Config) (hl : c.schedule = none)
    (hM : 0 < c.maxTemperature) (p : Params) (hr0 : 0 < p.essThresholdRetain) (hr1 : p.essThresholdRetain < 1) (htol : p.bisectionTol ≤ -Real.log p.essThresholdRetain)
    (hN : c.maxTemperature * (∫ x, lik x ∂μ0 - w) < (1 - p.essThresholdRetain) * 2 ^ p.maxBisectionIter) (step alpha0 rest0 : ℝ) (key : Keys.Key) :
    Tendsto (fun n => ((Measure.pi fun _ : Fin (n + 1) => μ0).prod ideal) {z | (tapeSmc (cat n) (rwTape q prior lik) prior lik c p step alpha0 rest0 key z.1 z.2).temp 0 = 0}) atTop (𝓝 0) ∧
    ∀ (k : ℕ) (f : (Fin d → ℝ) → ℝ), Measurable f → ∀ B : ℝ, (∀ x, |f x| ≤ B) →
      InProb (fun n => (Measure.pi fun _ : Fin (n + 1) => μ0).prod ideal) (fun n z =>
        smcMean f ((tapeSmc (cat n) (rwTape q prior lik) prior lik c p step alpha0 rest0 key z.1 z.2).state k).1
          - temperedMean μ0 lik ((tapeSmc (cat n) (rwTape q prior lik) prior lik c p step alpha0 rest0 key z.1 z.2).temp k) f) 0 := by
  have h2 : (0 : ℝ) < 2 ^ p.maxBisectionIter := by positivity
  have hz := first_zero (cat := cat) hq hprior hlik hw hl hM hr0 hr1 htol hc (fine_of_mean hlik hw hi hr0 (by positivity) (by
    rw [div_mul_eq_mul_div, div_lt_iff₀ h2]
    exact hN)) step alpha0 rest0 key
  exact ⟨hz, fun k f hf B hB => (adaptive_mean hq hprior hlik hw hμ hcat hl hM.le p step alpha0 rest0 key hz k hf hB).1⟩

/-- The potential of a normal observation, under a normal prior: its mean. -/
theorem obs_integrable : Integrable (fun x : Fin 1 → ℝ => (x 0 - 1) ^ 2 / 2) (stdNormal 1) ∧ ∫ x : Fin 1 → ℝ, (x 0 - 1) ^ 2 / 2 ∂(stdNormal 1) = 1 := by
  have h1 := stdNormal_integrable_mul (d := 1) 0 0
  have h2 := stdNormal_integrable (d := 1) 0
  have he : (fun x : Fin 1 → ℝ => (x 0 - 1) ^ 2 / 2) = fun x => (2⁻¹ * (x 0 * x 0) - x 0) + 2⁻¹ := by
    funext x
    ring
  rw [he]
  have h3 : Integrable (fun x : Fin 1 → ℝ => 2⁻¹ * (x 0 * x 0)) (stdNormal 1) := h1.const_mul _
  have h4 : Integrable (fun x : Fin 1 → ℝ => 2⁻¹ * (x 0 * x 0) - x 0) (stdNormal 1) := h3.sub h2
  refine ⟨h4.add (integrable_const _), ?_⟩
  rw [integral_add h4 (integrable_const _), integral_sub h3 h2, integral_const_mul, stdNormal_second, stdNormal_mean]
  norm_num

theorem obs_not_const : ¬ ∃ b : ℝ, ∀ᵐ x ∂(stdNormal 1), (x 0 - 1) ^ 2 / 2 = b := by
  rintro ⟨b, hb⟩
  have h1 : (fun x : Fin 1 → ℝ => (x 0 - 1) ^ 2 / 2) =ᵐ[stdNormal 1] fun _ => b := hb
  have hb1 : b = 1 := by
    have h2 := integral_congr_ae h1
    rw [obs_integrable.2, integral_const, probReal_univ, one_smul] at h2
    exact h2.symm
  have h2 : stdNormal 1 {x | x 0 < 1 / 2 ∧ 0 < x 0} = 0 := by
    refine measure_mono_null (fun x hx => ?_) (ae_iff.1 hb)
    rw [Set.mem_ofPred_eq, hb1]
    intro h3
    nlinarith [hx.1, hx.2]
  have h3 : (gaussianReal 0 1) (Set.Ioo 0 (1 / 2)) = 0 := by
    rw [← h2, ← (measurePreserving_eval (fun _ : Fin 1 => gaussianReal 0 1) 0).measure_preimage measurableSet_Ioo.nullMeasurableSet]
    congr 1
    ext x
    simp [and_comm]
  have h4 := (gaussianReal_absolutelyContinuous' 0 (v := 1) one_ne_zero) h3
  rw [Real.volume_Ioo] at h4
  norm_num at h4

theorem obs_prior : stdNormal 1 = ENNReal.ofReal (Real.sqrt (2 * Real.pi))⁻¹ • volume.withDensity fun x : Fin 1 → ℝ => ENNReal.ofReal (Real.exp (-(x 0 ^ 2 / 2))) := by
  rw [stdNormal_eq_withDensity, ← withDensity_smul _ (by fun_prop)]
  congr 1
  funext x
  simp only [Finset.univ_unique, Finset.prod_singleton, Pi.smul_apply, smul_eq_mul]
  rw [← ENNReal.ofReal_mul (by positivity), ProbabilityTheory.gaussianPDFReal]
  congr 1
  simp
  exact Or.inl (by ring)

/-- A normal prior, a normal observation and the default settings of the code (smc.py 232-242): one update of the inner sampler, adaptive temperatures up to 1, 90% of effective sample size retained, tolerance 0.00001 and at most 1000 iterations of
the search. -/
example : ∃ q : ℝ → ℝ, IsNormalDraw q ∧ ∀ cat : ∀ n, (Fin (n + 1) → ℝ) → ℝ → Fin (n + 1), (∀ n, IsCategoricalReal (cat n)) → ∀ (key : Keys.Key) (k : ℕ),
    InProb (fun n => (Measure.pi fun _ : Fin (n + 1) => stdNormal 1).prod ideal) (fun n z =>
      smcMean (Set.indicator {x | 0 < x 0} 1) ((tapeSmc (cat n) (rwTape (d := 1) q (fun x => x 0 ^ 2 / 2) (fun x => (x 0 - 1) ^ 2 / 2)) (fun x => x 0 ^ 2 / 2) (fun x => (x 0 - 1) ^ 2 / 2)
          ⟨none, 1, 10000⟩ ⟨1, 0.9, 0.5, 0.00001, 1000⟩ 1 1 0 key z.1 z.2).state k).1
        - temperedMean (stdNormal 1) (fun x => (x 0 - 1) ^ 2 / 2) ((tapeSmc (cat n) (rwTape (d := 1) q (fun x => x 0 ^ 2 / 2) (fun x => (x 0 - 1) ^ 2 / 2)) (fun x => x 0 ^ 2 / 2) (fun x => (x 0 - 1) ^ 2 / 2)
          ⟨none, 1, 10000⟩ ⟨1, 0.9, 0.5, 0.00001, 1000⟩ 1 1 0 key z.1 z.2).temp k) (Set.indicator {x | 0 < x 0} 1)) 0 := by
  obtain ⟨q, hq⟩ := exists_isNormalDraw
  have hS : MeasurableSet {x : Fin 1 → ℝ | 0 < x 0} := measurableSet_lt measurable_const (measurable_pi_apply 0)
  refine ⟨q, hq, fun cat hcat key k => ?_⟩
  have hlog : (0.00001 : ℝ) ≤ -Real.log 0.9 := by
    have := Real.log_le_sub_one_of_pos (show (0 : ℝ) < 0.9 by norm_num)
    linarith
  refine (C146_iterations (d := 1) hq (prior := fun x => x 0 ^ 2 / 2) (lik := fun x => (x 0 - 1) ^ 2 / 2) (by fun_prop) (by fun_prop) 0 (fun x => by positivity) (stdNormal 1)
    (ENNReal.ofReal (Real.sqrt (2 * Real.pi))⁻¹) obs_prior obs_not_const obs_integrable.1 cat hcat ⟨none, 1, 10000⟩ rfl one_pos ⟨1, 0.9, 0.5, 0.00001, 1000⟩ (by norm_num) (by norm_num) hlog (by
      simp only
      rw [obs_integrable.2]
      have h1 : (2 : ℝ) ^ 4 ≤ 2 ^ 1000 := pow_le_pow_right₀ (by norm_num) (by norm_num)
      generalize (2 : ℝ) ^ 1000 = y at h1 ⊢
      norm_num at h1 ⊢
      linarith) 1 1 0 key).2 k _ (measurable_one.indicator hS) 1 fun x => ?_
  by_cases hx : x ∈ {x : Fin 1 → ℝ | 0 < x 0}
  · rw [Set.indicator_of_mem hx]; simp
  · rw [Set.indicator_of_notMem hx]; simp

end Mocat.Props
