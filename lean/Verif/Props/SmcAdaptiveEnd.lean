import Verif.Lemmas.SmcAdaptiveEnd
/-!
# C147: adaptive tempered SMC reaches the maximal temperature in a bounded number of updates

Same setting as C146. The bound on the number of updates does not depend on the number of particles.
-/
namespace Mocat.Props
open Mocat Mocat.Smc Mocat.Ideal Mocat.Meas Mocat.Spec MeasureTheory Filter Topology
open scoped ENNReal

/-! ## Specification -/

/-- Effective sample size of log weights. -/
noncomputable def essOf {n : ℕ} (lw : Fin n → ℝ) : ℝ := (∑ i, Real.exp (lw i)) ^ 2 / ∑ i, Real.exp (lw i) ^ 2

/-- Reweighting an ensemble to temperature `M` would not lower its effective sample size. -/
def NoLoss {n : ℕ} [NeZero n] {X ρ : Type*} (lik : X → ℝ) (M : ℝ) (ens : Ensemble n X ρ) : Prop :=
  essOf (fun i => (ens i).logWeight) ≤ essOf fun i => (ens i).logWeight - (M - (ens 0).temperature) * lik (ens i).mc.value

/-! ## Proofs -/

theorem essOf_eq {n : ℕ} [NeZero n] (lw : Fin n → ℝ) : essOf lw = Real.exp (logEss lw) := by
  have e : ∀ i, Real.exp (lw i) ^ 2 = Real.exp (2 * lw i) := fun i => by rw [← Real.exp_nat_mul]; push_cast; rfl
  unfold essOf logEss lse
  simp only [e]
  rw [Real.exp_sub, Real.exp_log (sum_exp_pos _), two_mul, Real.exp_add, Real.exp_log (sum_exp_pos _), sq]

section
variable {d : ℕ} {q : ℝ → ℝ} (hq : IsNormalDraw q) {prior lik : (Fin d → ℝ) → ℝ} (hprior : Measurable prior) (hlik : Measurable lik) {w : ℝ} (hw : ∀ x, w ≤ lik x)
  {μ0 : Measure (Fin d → ℝ)} [IsProbabilityMeasure μ0] {a : ℝ≥0∞} (hμ : μ0 = a • volume.withDensity fun x => ENNReal.ofReal (Real.exp (-prior x)))
  {cat : ∀ n, (Fin (n + 1) → ℝ) → ℝ → Fin (n + 1)} (hcat : ∀ n, IsCategoricalReal (cat n))
  {c : Config} (hl : c.schedule = none) (hM : 0 ≤ c.maxTemperature) (p : Params) (step alpha0 rest0 : ℝ) (key : Keys.Key)

/-- The ensemble of the reduced run after resampling and moving. -/
noncomputable def movedAt (q : ℝ → ℝ) (prior lik : (Fin d → ℝ) → ℝ) (cat : ∀ n, (Fin (n + 1) → ℝ) → ℝ → Fin (n + 1)) (c : Config) (p : Params) (step : ℝ) (key : Keys.Key) (k n : ℕ)
    (z : (Fin (n + 1) → Fin d → ℝ) × Tape) : ℝ × Red (n + 1) (Fin d → ℝ) :=
  aStep (cat n) p.essThresholdResample (fun T k x ω => tapeIter (rwDraws q d) Keys.rwNext (rwMove Set.univ (fun x => prior x + T * lik x) step) p.mcmcSteps (0 :: k) x ω) (keyAt (n + 1) (0 :: key) k)
    (aRun (cat n) p.essThresholdResample (fun T k x ω => tapeIter (rwDraws q d) Keys.rwNext (rwMove Set.univ (fun x => prior x + T * lik x) step) p.mcmcSteps (0 :: k) x ω) lik (nextOf p c.maxTemperature)
      (0 :: key) z.1 k z.2) z.2

include hq hprior hlik hw hμ hcat hM

theorem moved_ok (k : ℕ) : RunOK μ0 lik c.maxTemperature (fun n => (n + 1 + 1) :: keyAt (n + 1) (0 :: key) k) (Real.exp (c.maxTemperature * |w|) ^ (k + 1))
    (movedAt q prior lik cat c p step key k) :=
  (rw_run_ok hq hprior hlik hw hμ hcat hM p step key k).move hlik (fun _ hT x => weight_le hw hT x) (by positivity) hcat p.essThresholdResample (rw_moveLaw hq hprior hlik step p.mcmcSteps)
    (fun f B hf _ hB => rw_family hprior hlik step μ0 c.maxTemperature p.mcmcSteps hf hB) (fun T _ hh => rw_tempered_invariant hprior hlik p step hμ T hh)

theorem moved_above (k : ℕ) {f : (Fin d → ℝ) → ℝ} (hf : Measurable f) {B : ℝ} (hB : ∀ x, |f x| ≤ B) {x y : ℝ} (hxy : x < y) (hy : ∀ T ∈ Set.Icc 0 c.maxTemperature, y ≤ temperedMean μ0 lik T f) :
    Tendsto (fun n => ((Measure.pi fun _ : Fin (n + 1) => μ0).prod ideal) {z | (∑ i, Real.exp ((movedAt q prior lik cat c p step key k n z).2.2.1 i) * f ((movedAt q prior lik cat c p step key k n z).2.1 i))
      / (∑ i, Real.exp ((movedAt q prior lik cat c p step key k n z).2.2.1 i)) ≤ x}) atTop (𝓝 0) := by
  have hok := moved_ok hq hprior hlik hw hμ hcat hM p step key k
  exact inProb_above (mean_of_good hlik hw hok.good hok.temp hf hB) hxy fun n z => hy _ (hok.temp n z)

/-- Off an event of small probability, an update raises the temperature by a fixed amount, reaches the maximum, or stalls. -/
theorem moved_progress {δ c1 τ : ℝ} (hδ : 0 < δ) (hc1 : 0 < c1) (hr0 : 0 < p.essThresholdRetain) (hr1 : p.essThresholdRetain < 1) (htol : p.bisectionTol ≤ -Real.log p.essThresholdRetain)
    (hsmall : ∀ T ∈ Set.Icc 0 c.maxTemperature, (1 + Real.sqrt p.essThresholdRetain) / 2 ≤ temperedMean μ0 lik T fun x => Real.exp (-(δ * (lik x - w))))
    (hlow : ∀ T ∈ Set.Icc 0 c.maxTemperature, c1 ≤ temperedMean μ0 lik T fun x => Real.exp (-(c.maxTemperature * (lik x - w))))
    (hτ : 0 < τ) (hτL : τ ≤ -Real.log p.essThresholdRetain) (k : ℕ) (hkeep : τ ≤ p.bisectionTol ∨ ∀ n z, (movedAt q prior lik cat c p step key k n z).2.2.1 = fun _ => 0)
    (hN : c.maxTemperature * (-Real.log p.essThresholdRetain / (-Real.log p.essThresholdRetain + τ)) ^ p.maxBisectionIter ≤ δ) :
    Tendsto (fun n => ((Measure.pi fun _ : Fin (n + 1) => μ0).prod ideal) {z |
      ¬ ((logEss (movedAt q prior lik cat c p step key k n z).2.2.1 ≤ logEss (fun i => (movedAt q prior lik cat c p step key k n z).2.2.1 i
              - (c.maxTemperature - (movedAt q prior lik cat c p step key k n z).1) * lik ((movedAt q prior lik cat c p step key k n z).2.1 i)) ∧
            (bStep lik (nextOf p c.maxTemperature) (movedAt q prior lik cat c p step key k n z)).1 = (movedAt q prior lik cat c p step key k n z).1) ∨
          c.maxTemperature ≤ (bStep lik (nextOf p c.maxTemperature) (movedAt q prior lik cat c p step key k n z)).1 ∨
          (movedAt q prior lik cat c p step key k n z).1 + -Real.log p.essThresholdRetain / (-Real.log p.essThresholdRetain + -(2 * Real.log (min 1 (c1 / 2)))) * δ
            ≤ (bStep lik (nextOf p c.maxTemperature) (movedAt q prior lik cat c p step key k n z)).1)}) atTop (𝓝 0) := by
  have hsq1 : Real.sqrt p.essThresholdRetain < 1 := by rw [Real.sqrt_lt' one_pos]; linarith
  have hm : ∀ s : ℝ, Measurable fun x => Real.exp (-(s * (lik x - w))) := fun s => Real.measurable_exp.comp (measurable_const.mul (hlik.sub_const w)).neg
  have hB : ∀ s : ℝ, 0 ≤ s → ∀ x, |Real.exp (-(s * (lik x - w)))| ≤ 1 := fun s hs x => by
    rw [abs_of_pos (Real.exp_pos _)]
    exact Real.exp_le_one_iff.2 (neg_nonpos.2 (mul_nonneg hs (sub_nonneg.2 (hw x))))
  have h1 := moved_above hq hprior hlik hw hμ hcat hM p step key k (hm δ) (hB δ hδ.le) (x := Real.sqrt p.essThresholdRetain) (y := (1 + Real.sqrt p.essThresholdRetain) / 2) (by linarith) hsmall
  have h2 := moved_above hq hprior hlik hw hμ hcat hM p step key k (hm c.maxTemperature) (hB _ hM) (x := c1 / 2) (y := c1) (by linarith) hlow
  have h3 := h1.add h2
  rw [add_zero] at h3
  refine tendsto_of_tendsto_of_tendsto_of_le_of_le tendsto_const_nhds h3 (fun n => bot_le) fun n => (measure_mono fun z hz => ?_).trans (measure_union_le _ _)
  by_contra hc
  rw [Set.mem_union, not_or, Set.mem_ofPred_eq, Set.mem_ofPred_eq, not_le, not_le] at hc
  have hT := (moved_ok hq hprior hlik hw hμ hcat hM p step key k).temp n z
  have hk : τ ≤ p.bisectionTol ∨ (movedAt q prior lik cat c p step key k n z).2.2.1 = fun _ => 0 := hkeep.imp_right fun h => h n z
  apply hz
  generalize movedAt q prior lik cat c p step key k n z = s at hc hT hk
  exact nextOf_progress (p := p) hT.2 hr0 hr1 htol s.2.2.1 (fun i => lik (s.2.1 i)) (w := w) (fun i => hw _) hδ (D := c.maxTemperature) (by linarith [hT.1]) (lt_min one_pos (by positivity)) (min_le_left _ _) hc.1
    ((min_le_right _ _).trans hc.2.le) hτ hτL hk ((mul_le_mul_of_nonneg_right (by linarith [hT.1]) (by
      have : 0 < -Real.log p.essThresholdRetain := by linarith
      positivity)).trans hN)

omit [IsProbabilityMeasure μ0] hlik hw hμ hcat in
include hl in
/-- The temperatures and log weights of the sampler, where the first temperature is not 0. -/
theorem moved_link {hlik : Measurable lik} (k n : ℕ) (z : (Fin (n + 1) → Fin d → ℝ) × Tape)
    (hz : (tapeSmc (cat n) (rwTape q prior lik) prior lik c p step alpha0 rest0 key z.1 z.2).temp 0 ≠ 0) :
    (tapeSmc (cat n) (rwTape q prior lik) prior lik c p step alpha0 rest0 key z.1 z.2).temp k = (movedAt q prior lik cat c p step key k n z).1 ∧
    ((tapeSmc (cat n) (rwTape q prior lik) prior lik c p step alpha0 rest0 key z.1 z.2).temp (k + 1), redOf ((tapeSmc (cat n) (rwTape q prior lik) prior lik c p step alpha0 rest0 key z.1 z.2).state (k + 1)).1)
      = bStep lik (nextOf p c.maxTemperature) (movedAt q prior lik cat c p step key k n z) := by
  have h : ∀ k, _ := fun k => adaptive_run (rwTape_inner q prior lik p step hq hprior hlik) (cat n) c alpha0 rest0 key z.1 z.2 hl hM
    (lt_of_le_of_ne (C39_adaptive (tapeSmc (cat n) (rwTape q prior lik) prior lik c p step alpha0 rest0 key z.1 z.2) hl hM 0).1 (Ne.symm hz)) k
  exact ⟨congrArg Prod.fst (h k), h (k + 1)⟩

omit [IsProbabilityMeasure μ0] hlik hw hμ hcat hq hprior hM in
/-- With a resampling threshold of at least 1 every update resamples. -/
theorem moved_uniform (hthr : 1 ≤ p.essThresholdResample) (k n : ℕ) (z : (Fin (n + 1) → Fin d → ℝ) × Tape) : (movedAt q prior lik cat c p step key k n z).2.2.1 = fun _ => 0 := by
  have hcrit : ∀ v : Fin (n + 1) → ℝ, v ∈ critLe (n + 1) p.essThresholdResample := fun v => by
    have h1 := logEss_le_log v
    have hn : (0 : ℝ) < (n + 1 : ℕ) := by positivity
    have h2 : Real.exp (logEss v) ≤ (n + 1 : ℕ) := by
      rw [← Real.exp_log hn]
      exact Real.exp_le_exp.2 h1
    exact h2.trans (le_mul_of_one_le_left hn.le hthr)
  funext i
  simp only [movedAt, aStep, redStep, redWeight, if_pos (hcrit _), add_zero]

end

section
variable {d : ℕ}

theorem fine_pow {M x δ : ℝ} (hx0 : 0 ≤ x) (hx1 : x < 1) (hδ : 0 < δ) : ∃ N : ℕ, ∀ m ≥ N, M * x ^ m ≤ δ := by
  have h := (tendsto_pow_atTop_nhds_zero_of_lt_one hx0 hx1).const_mul M
  rw [mul_zero] at h
  obtain ⟨N, hN⟩ := eventually_atTop.1 (h.eventually (gt_mem_nhds hδ))
  exact ⟨N, fun m hm => (hN m hm).le⟩

variable {q : ℝ → ℝ} (hq : IsNormalDraw q) {prior lik : (Fin d → ℝ) → ℝ} (hprior : Measurable prior) (hlik : Measurable lik) {w : ℝ} (hw : ∀ x, w ≤ lik x)
  {μ0 : Measure (Fin d → ℝ)} [IsProbabilityMeasure μ0] {a : ℝ≥0∞} (hμ : μ0 = a • volume.withDensity fun x => ENNReal.ofReal (Real.exp (-prior x)))

include hlik hw in
/-- The constants of the progress of a run. -/
theorem progress_consts (M : ℝ) (hM : 0 ≤ M) {r : ℝ} (hr1 : r < 1) : ∃ δ c1 : ℝ, 0 < δ ∧ 0 < c1 ∧
    (∀ T ∈ Set.Icc 0 M, (1 + Real.sqrt r) / 2 ≤ temperedMean μ0 lik T fun x => Real.exp (-(δ * (lik x - w)))) ∧
    ∀ T ∈ Set.Icc 0 M, c1 ≤ temperedMean μ0 lik T fun x => Real.exp (-(M * (lik x - w))) := by
  have hsq1 : Real.sqrt r < 1 := by rw [Real.sqrt_lt' one_pos]; linarith
  obtain ⟨δ, hδ, h1⟩ := small_step (μ0 := μ0) (M := M) hlik hw (ρ := (1 + Real.sqrt r) / 2) (by linarith)
  obtain ⟨c1, hc1, h2⟩ := tempered_lower (μ0 := μ0) (M := M) hlik hw (f := fun x => Real.exp (-(M * (lik x - w)))) (Real.measurable_exp.comp (measurable_const.mul (hlik.sub_const w)).neg) (fun x => (Real.exp_pos _).le)
    (B := 1) (fun x => Real.exp_le_one_iff.2 (neg_nonpos.2 (mul_nonneg hM (sub_nonneg.2 (hw x))))) (by
      rw [show {x : Fin d → ℝ | 0 < Real.exp (-(M * (lik x - w)))} = Set.univ from Set.eq_univ_of_forall fun x => Real.exp_pos _, measure_univ]
      exact one_ne_zero)
  exact ⟨δ, c1, hδ, hc1, h1, h2⟩

end

/-- C147: there is a step `δ > 0`, which depends on prior, likelihood, maximal temperature and the retained fraction `r` only, such that with probability tending to 1 as the number of particles grows, every
update raises the temperature by at least `δ`, or reaches the maximal temperature, or stalls: the temperature stays, and reweighting the new ensemble to the maximal temperature would not lower its effective
sample size. (Enough iterations of the search for a temperature: how many depends on its tolerance as well.) -/
theorem C147_progress {d : ℕ} {q : ℝ → ℝ} (hq : IsNormalDraw q) {prior lik : (Fin d → ℝ) → ℝ} (hprior : Measurable prior) (hlik : Measurable lik) (w : ℝ) (hw : ∀ x, w ≤ lik x)
    (μ0 : Measure (Fin d → ℝ)) [IsProbabilityMeasure μ0] (a : ℝ≥0∞) (hμ : μ0 = a • volume.withDensity fun x => ENNReal.ofReal (Real.exp (-prior x)))
    (hc : ¬ ∃ b : ℝ, ∀ᵐ x ∂μ0, lik x = b) (M : ℝ) (hM : 0 < M) (r : ℝ) (hr0 : 0 < r) (hr1 : r < 1) :
    ∃ δ > 0, ∀ tol > 0, tol ≤ -Real.log r → ∃ N : ℕ, ∀ cat : ∀ n, (Fin (n + 1) → ℝ) → ℝ → Fin (n + 1), (∀ n, IsCategoricalReal (cat n)) → ∀ c : Config, c.schedule = none → c.maxTemperature = M →
      ∀ p : Params, p.essThresholdRetain = r → p.bisectionTol = tol → N ≤ p.maxBisectionIter → ∀ (step alpha0 rest0 : ℝ) (key : Keys.Key) (k : ℕ),
        Tendsto (fun n => ((Measure.pi fun _ : Fin (n + 1) => μ0).prod ideal) {z |
          let S := tapeSmc (cat n) (rwTape q prior lik) prior lik c p step alpha0 rest0 key z.1 z.2
          ¬ (S.temp k + δ ≤ S.temp (k + 1) ∨ M ≤ S.temp (k + 1) ∨ (S.temp (k + 1) = S.temp k ∧ NoLoss lik M (S.state (k + 1)).1))}) atTop (𝓝 0) := by
  obtain ⟨δ, c1, hδ, hc1, h1, h2⟩ := progress_consts (μ0 := μ0) hlik hw M hM.le hr1
  have hL : Real.log r < 0 := Real.log_neg hr0 hr1
  have hlog : Real.log (min 1 (c1 / 2)) ≤ 0 := Real.log_nonpos (lt_min one_pos (by positivity)).le (min_le_left _ _)
  have hδ' : 0 < -Real.log r / (-Real.log r + -(2 * Real.log (min 1 (c1 / 2)))) * δ := mul_pos (div_pos (by linarith) (by linarith)) hδ
  refine ⟨_, hδ', fun tol ht0 htol => ?_⟩
  obtain ⟨N1, hN1⟩ := fine_enough (μ0 := μ0) hlik hw hr0 hr1 hM
  obtain ⟨N2, hN2⟩ := fine_pow (M := M) (x := -Real.log r / (-Real.log r + tol)) (δ := δ) (div_nonneg (by linarith) (by linarith)) ((div_lt_one (by linarith)).2 (by linarith)) hδ
  refine ⟨max N1 N2, fun cat hcat c hl hMc p hp hpt hit step alpha0 rest0 key k => ?_⟩
  subst hMc hp hpt
  have hz := first_zero (cat := cat) hq hprior hlik hw hl hM hr0 hr1 htol hc (hN1 _ ((le_max_left _ _).trans hit)) step alpha0 rest0 key
  have hm := moved_progress hq hprior hlik hw hμ hcat hM.le p step key hδ hc1 hr0 hr1 htol h1 h2 ht0 htol k (Or.inl le_rfl) (hN2 _ ((le_max_right _ _).trans hit))
  have h3 := hz.add hm
  rw [add_zero] at h3
  refine tendsto_of_tendsto_of_tendsto_of_le_of_le tendsto_const_nhds h3 (fun n => bot_le) fun n => (measure_mono fun z hbad => ?_).trans (measure_union_le _ _)
  by_contra hc
  rw [Set.mem_union, not_or, Set.mem_ofPred_eq, Set.mem_ofPred_eq, not_not] at hc
  obtain ⟨hk, hk1⟩ := moved_link hq hprior hl hM.le p step alpha0 rest0 key (hlik := hlik) k n z hc.1
  refine hbad ?_
  have hT' := congrArg Prod.fst hk1
  simp only at hT'
  rw [hk, hT']
  rcases hc.2 with ⟨h4, h5⟩ | h4 | h4
  · refine Or.inr (Or.inr ⟨h5, ?_⟩)
    have hv := congrArg (fun s => s.2.1) hk1
    have hlw := congrArg (fun s => s.2.2.1) hk1
    simp only [bStep] at hv hlw h5
    rw [h5] at hlw
    have hv' : ∀ i, (((tapeSmc (cat n) (rwTape q prior lik) prior lik c p step alpha0 rest0 key z.1 z.2).state (k + 1)).1 i).mc.value = _ := fun i => congrFun hv i
    have hlw' : ∀ i, (((tapeSmc (cat n) (rwTape q prior lik) prior lik c p step alpha0 rest0 key z.1 z.2).state (k + 1)).1 i).logWeight = _ := fun i => congrFun hlw i
    have hT2 : (((tapeSmc (cat n) (rwTape q prior lik) prior lik c p step alpha0 rest0 key z.1 z.2).state (k + 1)).1 0).temperature = (movedAt q prior lik cat c p step key k n z).1 := hT'.trans h5
    unfold NoLoss
    rw [essOf_eq, essOf_eq]
    refine Real.exp_le_exp.2 ?_
    simp only [hT2, hv', hlw', sub_self, neg_zero, zero_mul, add_zero]
    exact h4
  · exact Or.inr (Or.inl h4)
  · exact Or.inl h4

/-- A run whose state after `K` updates is at the maximal temperature ends there or before. -/
theorem ends_of_temp {K π X ρ : Type*} {n : ℕ} [NeZero n] (S : SmcSetup K π X ρ n) (hk : Smc.Kernel.KeepsIter S.kernel) (h0 : S.extra0.iter = 0) (m : ℕ) (hm : S.config.maxTemperature ≤ S.temp m)
    (hmax : (m : ℤ) ≤ S.config.maxIter) : (S.chain fun _ => false).length ≤ m + 1 ∧ ∃ ens, (S.chain fun _ => false).getLast? = some ens ∧ S.config.maxTemperature ≤ (ens 0).temperature := by
  obtain ⟨j, hj, h2, h3, h4⟩ := C12_run (Smc.update S.splitN S.categorical S.kernel S.prior S.config S.params) (Smc.terminated S.config fun _ => false) S.config.maxIter S.start
  have hit : ∀ k, (bodyIter (Smc.update S.splitN S.categorical S.kernel S.prior S.config S.params) k S.start).2.iter = k := state_iter S hk h0
  have hjm : j ≤ m := by
    by_contra hc
    have h5 := h3 m (by omega)
    simp only [Smc.terminated, Bool.or_eq_false_iff, decide_eq_false_iff_not] at h5
    exact h5.1.1 hm
  have hchain : (S.chain fun _ => false) = (List.range (j + 1)).map fun i => (bodyIter (Smc.update S.splitN S.categorical S.kernel S.prior S.config S.params) i S.start).1 := h2
  refine ⟨by rw [hchain, List.length_map, List.length_range]; omega, (S.state j).1, by rw [hchain, List.range_succ, List.map_append, List.map_singleton, List.getLast?_concat]; rfl, ?_⟩
  by_cases hlt : j < S.config.maxIter.toNat
  · have h5 := h4 hlt
    simp only [Smc.terminated, Bool.or_false, Bool.or_eq_true, decide_eq_true_eq, hit] at h5
    rcases h5 with h5 | h5
    · exact h5
    · omega
  · have h6 : j = m := by omega
    rw [h6]
    exact hm

/-- With resampling at every update there are no stalls. -/
theorem step_ends {d : ℕ} {q : ℝ → ℝ} (hq : IsNormalDraw q) {prior lik : (Fin d → ℝ) → ℝ} (hprior : Measurable prior) (hlik : Measurable lik) (w : ℝ) (hw : ∀ x, w ≤ lik x)
    (μ0 : Measure (Fin d → ℝ)) [IsProbabilityMeasure μ0] (a : ℝ≥0∞) (hμ : μ0 = a • volume.withDensity fun x => ENNReal.ofReal (Real.exp (-prior x)))
    (hc : ¬ ∃ b : ℝ, ∀ᵐ x ∂μ0, lik x = b) (M : ℝ) (hM : 0 < M) (r : ℝ) (hr0 : 0 < r) (hr1 : r < 1) :
    ∃ δ > 0, ∃ N : ℕ, ∀ cat : ∀ n, (Fin (n + 1) → ℝ) → ℝ → Fin (n + 1), (∀ n, IsCategoricalReal (cat n)) → ∀ c : Config, c.schedule = none → c.maxTemperature = M →
      ∀ p : Params, p.essThresholdRetain = r → p.bisectionTol ≤ -Real.log r → 1 ≤ p.essThresholdResample → N ≤ p.maxBisectionIter → ∀ (step alpha0 rest0 : ℝ) (key : Keys.Key) (k : ℕ),
        Tendsto (fun n => ((Measure.pi fun _ : Fin (n + 1) => μ0).prod ideal) {z |
          ¬ ((tapeSmc (cat n) (rwTape q prior lik) prior lik c p step alpha0 rest0 key z.1 z.2).temp k + δ ≤ (tapeSmc (cat n) (rwTape q prior lik) prior lik c p step alpha0 rest0 key z.1 z.2).temp (k + 1) ∨
            M ≤ (tapeSmc (cat n) (rwTape q prior lik) prior lik c p step alpha0 rest0 key z.1 z.2).temp (k + 1))}) atTop (𝓝 0) := by
  obtain ⟨δ, c1, hδ, hc1, h1, h2⟩ := progress_consts (μ0 := μ0) hlik hw M hM.le hr1
  have hL : Real.log r < 0 := Real.log_neg hr0 hr1
  have hlog : Real.log (min 1 (c1 / 2)) ≤ 0 := Real.log_nonpos (lt_min one_pos (by positivity)).le (min_le_left _ _)
  have hδ' : 0 < -Real.log r / (-Real.log r + -(2 * Real.log (min 1 (c1 / 2)))) * δ := mul_pos (div_pos (by linarith) (by linarith)) hδ
  obtain ⟨U, hU, hU1, hU2⟩ := not_const_set hc
  have hind : ∀ V : Set ℝ, MeasurableSet V → μ0 {x | lik x ∈ V} ≠ 0 → Measurable ((lik ⁻¹' V).indicator fun _ => (1 : ℝ)) ∧ (∀ x, |(lik ⁻¹' V).indicator (fun _ => (1 : ℝ)) x| ≤ 1) ∧
      ∃ y : ℝ, 0 < y ∧ ∀ T ∈ Set.Icc 0 M, y ≤ temperedMean μ0 lik T ((lik ⁻¹' V).indicator fun _ => (1 : ℝ)) := fun V hV hV0 => by
    have hm : Measurable ((lik ⁻¹' V).indicator fun _ => (1 : ℝ)) := measurable_const.indicator (hlik hV)
    have h0 : ∀ x, 0 ≤ (lik ⁻¹' V).indicator (fun _ => (1 : ℝ)) x := fun x => Set.indicator_nonneg (fun _ _ => zero_le_one) x
    have h1 : ∀ x, (lik ⁻¹' V).indicator (fun _ => (1 : ℝ)) x ≤ 1 := fun x => Set.indicator_le_self' (fun _ _ => zero_le_one) x
    refine ⟨hm, fun x => by rw [abs_of_nonneg (h0 x)]; exact h1 x, tempered_lower hlik hw hm h0 h1 ?_⟩
    refine fun h => hV0 (measure_mono_null (fun x hx => ?_) h)
    rw [Set.mem_ofPred_eq, Set.indicator_of_mem (show x ∈ lik ⁻¹' V from hx)]
    exact one_pos
  obtain ⟨hm1, hb1, y1, hy1, hT1⟩ := hind U hU hU1
  obtain ⟨hm2, hb2, y2, hy2, hT2⟩ := hind Uᶜ hU.compl hU2
  obtain ⟨N1, hN1⟩ := fine_enough (μ0 := μ0) hlik hw hr0 hr1 hM
  obtain ⟨N2, hN2⟩ := fine_pow (M := M) (x := -Real.log r / (-Real.log r + -Real.log r)) (δ := δ) (div_nonneg (by linarith) (by linarith)) ((div_lt_one (by linarith)).2 (by linarith)) hδ
  refine ⟨_, hδ', max N1 N2, fun cat hcat c hl hMc p hp htol hthr hit step alpha0 rest0 key k => ?_⟩
  subst hMc hp
  have hz := first_zero (cat := cat) hq hprior hlik hw hl hM hr0 hr1 htol hc (hN1 _ ((le_max_left _ _).trans hit)) step alpha0 rest0 key
  have hm := moved_progress hq hprior hlik hw hμ hcat hM.le p step key hδ hc1 hr0 hr1 htol h1 h2 (τ := -Real.log p.essThresholdRetain) (by linarith) le_rfl k
    (Or.inr fun n z => moved_uniform p step key hthr k n z) (hN2 _ ((le_max_right _ _).trans hit))
  have hu1 := moved_above hq hprior hlik hw hμ hcat hM.le p step key k hm1 hb1 hy1 hT1
  have hu2 := moved_above hq hprior hlik hw hμ hcat hM.le p step key k hm2 hb2 hy2 hT2
  have h3 := (hz.add hm).add (hu1.add hu2)
  simp only [add_zero] at h3
  refine tendsto_of_tendsto_of_tendsto_of_le_of_le tendsto_const_nhds h3 (fun n => bot_le) fun n => (measure_mono fun z hbad => ?_).trans
    ((measure_union_le _ _).trans (add_le_add (measure_union_le _ _) (measure_union_le _ _)))
  by_contra hcon
  rw [Set.mem_union, not_or, Set.mem_union, not_or, Set.mem_union, not_or] at hcon
  obtain ⟨⟨hc0, hcm⟩, hi1, hi2⟩ := hcon
  rw [Set.mem_ofPred_eq, not_not] at hcm
  rw [Set.mem_ofPred_eq, not_le] at hi1 hi2
  obtain ⟨hk, hk1⟩ := moved_link hq hprior hl hM.le p step alpha0 rest0 key (hlik := hlik) k n z hc0
  refine hbad ?_
  have hT' := congrArg Prod.fst hk1
  simp only at hT'
  rw [hk, hT']
  rcases hcm with ⟨h4, h5⟩ | h4 | h4
  · right
    by_contra hlt
    rw [not_le, h5] at hlt
    have hz0 := moved_uniform (q := q) (prior := prior) (lik := lik) (cat := cat) (c := c) p step key hthr k n z
    generalize movedAt q prior lik cat c p step key k n z = s at h4 hlt hz0 hi1 hi2
    have h6 : Real.log (n + 1 : ℕ) ≤ logEss fun i => s.2.2.1 i - (c.maxTemperature - s.1) * lik (s.2.1 i) := by
      rw [hz0] at h4 ⊢
      refine le_trans (le_of_eq ?_) h4
      rw [← logEss_zero (n := n + 1), Real.log_exp]
    have h7 : ∀ i, lik (s.2.1 i) = lik (s.2.1 0) := fun i => by
      have h8 := equal_of_logEss h6 i 0
      rw [hz0] at h8
      simp only [zero_sub, neg_inj] at h8
      exact mul_left_cancel₀ (by linarith : c.maxTemperature - s.1 ≠ 0) h8
    by_cases hin : lik (s.2.1 0) ∈ U
    · refine absurd hi2 (not_lt.2 (le_of_eq ?_))
      rw [Finset.sum_eq_zero, zero_div]
      intro i _
      rw [Set.indicator_of_notMem (by rw [Set.mem_preimage, h7 i]; exact fun h => h hin), mul_zero]
    · refine absurd hi1 (not_lt.2 (le_of_eq ?_))
      rw [Finset.sum_eq_zero, zero_div]
      intro i _
      rw [Set.indicator_of_notMem (by rw [Set.mem_preimage, h7 i]; exact hin), mul_zero]
  · exact Or.inr h4
  · exact Or.inl h4

/-- C147: with resampling at every update (a resampling threshold of at least 1): there is a number `m` of updates, which depends on prior, likelihood, maximal temperature and the retained fraction only, such that with
probability tending to 1 as the number of particles grows the run ends after at most `m` updates with its last row at the maximal temperature (if `max_iter` allows for `m` updates). -/
theorem C147_ends {d : ℕ} {q : ℝ → ℝ} (hq : IsNormalDraw q) {prior lik : (Fin d → ℝ) → ℝ} (hprior : Measurable prior) (hlik : Measurable lik) (w : ℝ) (hw : ∀ x, w ≤ lik x)
    (μ0 : Measure (Fin d → ℝ)) [IsProbabilityMeasure μ0] (a : ℝ≥0∞) (hμ : μ0 = a • volume.withDensity fun x => ENNReal.ofReal (Real.exp (-prior x)))
    (hc : ¬ ∃ b : ℝ, ∀ᵐ x ∂μ0, lik x = b) (M : ℝ) (hM : 0 < M) (r : ℝ) (hr0 : 0 < r) (hr1 : r < 1) :
    ∃ m N : ℕ, ∀ cat : ∀ n, (Fin (n + 1) → ℝ) → ℝ → Fin (n + 1), (∀ n, IsCategoricalReal (cat n)) → ∀ c : Config, c.schedule = none → c.maxTemperature = M → m ≤ c.maxIter →
      ∀ p : Params, p.essThresholdRetain = r → p.bisectionTol ≤ -Real.log r → 1 ≤ p.essThresholdResample → N ≤ p.maxBisectionIter → ∀ (step alpha0 rest0 : ℝ) (key : Keys.Key),
        Tendsto (fun n => ((Measure.pi fun _ : Fin (n + 1) => μ0).prod ideal) {z |
          let chain := (tapeSmc (cat n) (rwTape q prior lik) prior lik c p step alpha0 rest0 key z.1 z.2).chain fun _ => false
          ¬ (chain.length ≤ m + 1 ∧ ∃ ens, chain.getLast? = some ens ∧ (ens 0).temperature = M)}) atTop (𝓝 0) := by
  obtain ⟨δ, hδ, N, hN⟩ := step_ends hq hprior hlik w hw μ0 a hμ hc M hM r hr0 hr1
  refine ⟨⌈M / δ⌉₊, N, fun cat hcat c hl hMc hmax p hp htol hthr hit step alpha0 rest0 key => ?_⟩
  have h2 := tendsto_finsetSum (Finset.range ⌈M / δ⌉₊) fun k _ => hN cat hcat c hl hMc p hp htol hthr hit step alpha0 rest0 key k
  rw [Finset.sum_const_zero] at h2
  refine tendsto_of_tendsto_of_tendsto_of_le_of_le tendsto_const_nhds h2 (fun n => bot_le) fun n => (measure_mono fun z hz => ?_).trans (measure_biUnion_finset_le _ _)
  by_contra hcon
  simp only [Set.mem_iUnion, Finset.mem_range, exists_prop, not_exists, not_and, Set.mem_ofPred_eq, not_not] at hcon
  refine hz ?_
  have hki : Smc.Kernel.KeepsIter (tapeSmc (cat n) (rwTape q prior lik) prior lik c p step alpha0 rest0 key z.1 z.2).kernel := fun T s e => by
    change ((rwTape q prior lik z.2).startup T s e).2.iter = _
    rw [(rwTape_inner q prior lik p step hq hprior hlik).startup]
  have hS0 : (tapeSmc (cat n) (rwTape q prior lik) prior lik c p step alpha0 rest0 key z.1 z.2).extra0.iter = 0 := rfl
  have hSl : (tapeSmc (cat n) (rwTape q prior lik) prior lik c p step alpha0 rest0 key z.1 z.2).config.schedule = none := hl
  have hSM : (tapeSmc (cat n) (rwTape q prior lik) prior lik c p step alpha0 rest0 key z.1 z.2).config.maxTemperature = M := hMc
  have hSmax : (⌈M / δ⌉₊ : ℤ) ≤ (tapeSmc (cat n) (rwTape q prior lik) prior lik c p step alpha0 rest0 key z.1 z.2).config.maxIter := hmax
  generalize tapeSmc (cat n) (rwTape q prior lik) prior lik c p step alpha0 rest0 key z.1 z.2 = S at hcon hki hS0 hSl hSM hSmax
  have hC := C39_adaptive S hSl (by rw [hSM]; exact hM.le)
  have hind : ∀ k, k ≤ ⌈M / δ⌉₊ → M ≤ S.temp k ∨ k * δ ≤ S.temp k := fun k => by
    induction k with
    | zero => exact fun _ => Or.inr (by rw [Nat.cast_zero, zero_mul]; exact (hC 0).1)
    | succ k ih =>
      intro hk
      rcases ih (by omega) with h | h
      · exact Or.inl (h.trans (hC k).2.2)
      · rcases hcon k (by omega) with h1 | h1
        · right
          push_cast
          linarith
        · exact Or.inl h1
  have hfin : M ≤ S.temp ⌈M / δ⌉₊ := by
    rcases hind _ le_rfl with h | h
    · exact h
    · refine le_trans ?_ h
      have := Nat.le_ceil (M / δ)
      rwa [div_le_iff₀ hδ] at this
  obtain ⟨h3, ens, h4, h5⟩ := ends_of_temp S hki hS0 ⌈M / δ⌉₊ (by rw [hSM]; exact hfin) hSmax
  refine ⟨h3, ens, h4, le_antisymm ?_ (by rw [← hSM]; exact h5)⟩
  rw [← hSM]
  exact ((C39_adaptive_chain S hSl (by rw [hSM]; exact hM.le) _).2 ens (List.mem_of_getLast? h4)).2

/-- C147: hence the weighted means over the last row of the run converge to posterior expectations (at the maximal temperature). -/
theorem C147_posterior {d : ℕ} {q : ℝ → ℝ} (hq : IsNormalDraw q) {prior lik : (Fin d → ℝ) → ℝ} (hprior : Measurable prior) (hlik : Measurable lik) (w : ℝ) (hw : ∀ x, w ≤ lik x)
    (μ0 : Measure (Fin d → ℝ)) [IsProbabilityMeasure μ0] (a : ℝ≥0∞) (hμ : μ0 = a • volume.withDensity fun x => ENNReal.ofReal (Real.exp (-prior x)))
    (hc : ¬ ∃ b : ℝ, ∀ᵐ x ∂μ0, lik x = b) (M : ℝ) (hM : 0 < M) (r : ℝ) (hr0 : 0 < r) (hr1 : r < 1) :
    ∃ m N : ℕ, ∀ cat : ∀ n, (Fin (n + 1) → ℝ) → ℝ → Fin (n + 1), (∀ n, IsCategoricalReal (cat n)) → ∀ c : Config, c.schedule = none → c.maxTemperature = M → m ≤ c.maxIter →
      ∀ p : Params, p.essThresholdRetain = r → p.bisectionTol ≤ -Real.log r → 1 ≤ p.essThresholdResample → N ≤ p.maxBisectionIter → ∀ (step alpha0 rest0 : ℝ) (key : Keys.Key)
        (f : (Fin d → ℝ) → ℝ), Measurable f → ∀ B : ℝ, (∀ x, |f x| ≤ B) → ∀ ε > 0,
        Tendsto (fun n => ((Measure.pi fun _ : Fin (n + 1) => μ0).prod ideal) {z | ¬ ∃ ens,
          ((tapeSmc (cat n) (rwTape q prior lik) prior lik c p step alpha0 rest0 key z.1 z.2).chain fun _ => false).getLast? = some ens ∧
            |smcMean f ens - temperedMean μ0 lik M f| < ε}) atTop (𝓝 0) := by
  obtain ⟨m, N1, h1⟩ := C147_ends hq hprior hlik w hw μ0 a hμ hc M hM r hr0 hr1
  obtain ⟨N2, h2⟩ := C146_chain hq hprior hlik w hw μ0 a hμ hc M hM r hr0 hr1
  refine ⟨m, max N1 N2, fun cat hcat c hl hMc hmax p hp htol hthr hit step alpha0 rest0 key f hf B hB ε hε => ?_⟩
  have h3 := (h1 cat hcat c hl hMc hmax p hp htol hthr ((le_max_left _ _).trans hit) step alpha0 rest0 key).add
    (h2 cat hcat c hl hMc p hp htol ((le_max_right _ _).trans hit) step alpha0 rest0 key (fun _ _ => false) f hf B hB ε hε).2
  rw [add_zero] at h3
  refine tendsto_of_tendsto_of_tendsto_of_le_of_le tendsto_const_nhds h3 (fun n => bot_le) fun n => (measure_mono fun z hz => ?_).trans (measure_union_le _ _)
  by_contra hcon
  simp only [Set.mem_union, not_or, Set.mem_ofPred_eq, not_not] at hcon
  obtain ⟨⟨-, ens, h4, h5⟩, h6⟩ := hcon
  refine hz ⟨ens, h4, ?_⟩
  by_contra h7
  exact h6 ⟨ens, List.mem_of_getLast? h4, h5.ge, not_lt.1 h7⟩

/-- A normal prior and a normal observation, 90% of effective sample size retained, tolerance 0.00001, resampling at every update: the fraction of the last row on the positive half-line converges to its posterior
probability. -/
example : ∃ q : ℝ → ℝ, IsNormalDraw q ∧ ∃ m N : ℕ, ∀ cat : ∀ n, (Fin (n + 1) → ℝ) → ℝ → Fin (n + 1), (∀ n, IsCategoricalReal (cat n)) → ∀ (key : Keys.Key), ∀ ε > 0,
    Tendsto (fun n => ((Measure.pi fun _ : Fin (n + 1) => stdNormal 1).prod ideal) {z | ¬ ∃ ens,
      ((tapeSmc (cat n) (rwTape (d := 1) q (fun x => x 0 ^ 2 / 2) (fun x => (x 0 - 1) ^ 2 / 2)) (fun x => x 0 ^ 2 / 2) (fun x => (x 0 - 1) ^ 2 / 2)
          ⟨none, 1, m⟩ ⟨1, 0.9, 1, 0.00001, N⟩ 1 1 0 key z.1 z.2).chain fun _ => false).getLast? = some ens ∧
        |smcMean (Set.indicator {x | 0 < x 0} 1) ens - temperedMean (stdNormal 1) (fun x => (x 0 - 1) ^ 2 / 2) 1 (Set.indicator {x | 0 < x 0} 1)| < ε}) atTop (𝓝 0) := by
  obtain ⟨q, hq⟩ := exists_isNormalDraw
  have hS : MeasurableSet {x : Fin 1 → ℝ | 0 < x 0} := measurableSet_lt measurable_const (measurable_pi_apply 0)
  obtain ⟨m, N, h⟩ := C147_posterior (d := 1) hq (prior := fun x => x 0 ^ 2 / 2) (lik := fun x => (x 0 - 1) ^ 2 / 2) (by fun_prop) (by fun_prop) 0 (fun x => by positivity) (stdNormal 1)
    (ENNReal.ofReal (Real.sqrt (2 * Real.pi))⁻¹) obs_prior obs_not_const 1 one_pos 0.9 (by norm_num) (by norm_num)
  refine ⟨q, hq, m, N, fun cat hcat key ε hε => ?_⟩
  have hlog : (0.00001 : ℝ) ≤ -Real.log 0.9 := by
    have := Real.log_le_sub_one_of_pos (show (0 : ℝ) < 0.9 by norm_num)
    linarith
  refine h cat hcat ⟨none, 1, m⟩ rfl rfl le_rfl ⟨1, 0.9, 1, 0.00001, N⟩ rfl hlog le_rfl le_rfl 1 1 0 key _ (measurable_one.indicator hS) 1 (fun x => ?_) ε hε
  by_cases hx : x ∈ {x : Fin 1 → ℝ | 0 < x 0}
  · rw [Set.indicator_of_mem hx]; simp
  · rw [Set.indicator_of_notMem hx]; simp

/-- `C147_progress` applies to the same model with the default resampling threshold. -/
example {q : ℝ → ℝ} (hq : IsNormalDraw q) : ∃ δ > 0, ∃ N : ℕ, ∀ cat : ∀ n, (Fin (n + 1) → ℝ) → ℝ → Fin (n + 1), (∀ n, IsCategoricalReal (cat n)) → ∀ (key : Keys.Key) (k : ℕ),
    Tendsto (fun n => ((Measure.pi fun _ : Fin (n + 1) => stdNormal 1).prod ideal) {z |
      let S := tapeSmc (cat n) (rwTape (d := 1) q (fun x => x 0 ^ 2 / 2) (fun x => (x 0 - 1) ^ 2 / 2)) (fun x => x 0 ^ 2 / 2) (fun x => (x 0 - 1) ^ 2 / 2) ⟨none, 1, 10000⟩ ⟨1, 0.9, 0.5, 0.00001, N⟩ 1 1 0 key z.1 z.2
      ¬ (S.temp k + δ ≤ S.temp (k + 1) ∨ 1 ≤ S.temp (k + 1) ∨ (S.temp (k + 1) = S.temp k ∧ NoLoss (fun x => (x 0 - 1) ^ 2 / 2) 1 (S.state (k + 1)).1))}) atTop (𝓝 0) := by
  obtain ⟨δ, hδ, h⟩ := C147_progress (d := 1) hq (prior := fun x => x 0 ^ 2 / 2) (lik := fun x => (x 0 - 1) ^ 2 / 2) (by fun_prop) (by fun_prop) 0 (fun x => by positivity) (stdNormal 1)
    (ENNReal.ofReal (Real.sqrt (2 * Real.pi))⁻¹) obs_prior obs_not_const 1 one_pos 0.9 (by norm_num) (by norm_num)
  have hlog : (0.00001 : ℝ) ≤ -Real.log 0.9 := by
    have := Real.log_le_sub_one_of_pos (show (0 : ℝ) < 0.9 by norm_num)
    linarith
  obtain ⟨N, hN⟩ := h 0.00001 (by norm_num) hlog
  exact ⟨δ, hδ, N, fun cat hcat key k => hN cat hcat ⟨none, 1, 10000⟩ rfl rfl ⟨1, 0.9, 0.5, 0.00001, N⟩ rfl rfl le_rfl 1 1 0 key k⟩

end Mocat.Props
