import Verif.Lemmas.Smc
import Verif.Model.Metrics
import Verif.Props.Mcmc
import Verif.Props.Utils
import Mathlib.MeasureTheory.Integral.Bochner.SumMeasure
import Mathlib.Data.List.GetD
import Mathlib.Tactic.FieldSimp
import Mathlib.Algebra.BigOperators.Field
/-!
# C38-C42: tempered SMC samplers
-/
namespace Mocat.Props
open Mocat Mocat.Smc

variable {K π X ρ : Type*} {n : ℕ} [NeZero n]

/-- Everything that determines a run of a Metropolised SMC sampler (except the NaN test): random-number routines, inner MCMC sampler, scenario,
settings, initial values, initial extra. -/
structure SmcSetup (K π X ρ : Type*) (n : ℕ) where
  splitN : K → Fin (n + 2) → K
  categorical : K → (Fin n → ℝ) → Fin n → Fin n
  kernel : Kernel K π X ρ
  prior : X → ℝ
  lik : X → ℝ
  config : Config
  params : Params
  values : Fin n → X
  alpha0 : ℝ
  rest0 : ρ
  extra0 : Extra K π

namespace SmcSetup

/-- The started ensemble. -/
noncomputable def start (S : SmcSetup K π X ρ n) : Ensemble n X ρ × Extra K π :=
  Smc.startup S.kernel S.prior S.lik S.config S.params S.values S.alpha0 S.rest0 S.extra0

/-- The ensemble after `k` updates. -/
noncomputable def state (S : SmcSetup K π X ρ n) (k : ℕ) : Ensemble n X ρ × Extra K π :=
  bodyIter (Smc.update S.splitN S.categorical S.kernel S.prior S.config S.params) k S.start

/-- The chain returned by `run`. -/
noncomputable def chain (S : SmcSetup K π X ρ n) (manyNan : (Fin n → X) → Bool) : List (Ensemble n X ρ) :=
  Smc.runFrom S.splitN S.categorical S.kernel S.prior S.config S.params manyNan S.start

/-- Temperature after `k` updates (that of particle 0; `C42_shared`: all are equal). -/
noncomputable def temp (S : SmcSetup K π X ρ n) (k : ℕ) : ℝ := ((S.state k).1 0).temperature

/-- The update after state `k` starts with a resampling step. -/
def Resamples (S : SmcSetup K π X ρ n) (k : ℕ) : Prop := ((S.state k).1 0).ess ≤ S.params.essThresholdResample * n

theorem state_succ (S : SmcSetup K π X ρ n) (k : ℕ) :
    S.state (k + 1) = Smc.update S.splitN S.categorical S.kernel S.prior S.config S.params (S.state k).1 (S.state k).2 :=
  Mcmc.bodyIter_succ _ _ _

theorem shared (S : SmcSetup K π X ρ n) (k : ℕ) : Shared (S.state k).1 := by
  induction k with
  | zero => exact startup_shared
  | succ k ih => rw [state_succ]; exact update_shared ih

/-- Every state of the chain is the state after some number of updates. -/
theorem mem_chain (S : SmcSetup K π X ρ n) (manyNan : (Fin n → X) → Bool) (ens : Ensemble n X ρ) (h : ens ∈ S.chain manyNan) :
    ∃ k, ens = (S.state k).1 := by
  obtain ⟨m, -, h2, -, -⟩ := C12_run (Smc.update S.splitN S.categorical S.kernel S.prior S.config S.params)
    (Smc.terminated S.config manyNan) S.config.maxIter S.start
  unfold chain Smc.runFrom at h
  rw [h2] at h
  obtain ⟨i, -, rfl⟩ := List.mem_map.1 h
  exact ⟨i, rfl⟩

end SmcSetup

/-! ## C38 -/

omit [NeZero n] in
/-- C38: every resampled particle is one input particle in all its attributes, except that all log weights are 0 and ess is `n`. -/
theorem C38_resample (categorical : K → (Fin n → ℝ) → Fin n → Fin n) (ens : Ensemble n X ρ) (key : K) :
    ∃ parent : Fin n → Fin n, ∀ i,
      (resample categorical ens key i).mc = (ens (parent i)).mc ∧ (resample categorical ens key i).prior = (ens (parent i)).prior ∧
      (resample categorical ens key i).lik = (ens (parent i)).lik ∧
      (resample categorical ens key i).temperature = (ens (parent i)).temperature ∧
      (resample categorical ens key i).logNorm = (ens (parent i)).logNorm ∧
      (resample categorical ens key i).logWeight = 0 ∧ (resample categorical ens key i).ess = n :=
  ⟨categorical key fun i => (ens i).logWeight, fun _ => ⟨rfl, rfl, rfl, rfl, rfl, rfl, rfl⟩⟩

open Classical in
/-- C38: an update moves the particles of the resampled ensemble if ess is at or below the threshold, else those of the ensemble itself: particle `i` of the
result has the position reached by the inner sampler from particle `parent i`, where `parent` is the identity without resampling. -/
theorem C38_criterion (S : SmcSetup K π X ρ n) (k : ℕ) :
    ∃ parent : Fin n → Fin n, (¬ S.Resamples k → parent = id) ∧
      ∀ i, ∃ key e,
        ((S.state (k + 1)).1 i).mc.value
          = (forwardProposal S.kernel S.prior S.params (S.temp k)
              (if S.Resamples k then { (S.state k).1 (parent i) with logWeight := 0, ess := n } else (S.state k).1 (parent i)) e key).mc.value ∧
        ((S.state (k + 1)).1 i).logWeight
          = (if S.Resamples k then 0 else ((S.state k).1 i).logWeight) - (S.temp (k + 1) - S.temp k) * ((S.state (k + 1)).1 i).lik := by
  rw [S.state_succ k]
  have hT : (((S.state (k + 1)).1 0).temperature) = S.temp (k + 1) := rfl
  rw [S.state_succ k] at hT
  rcases basis_cases S.splitN S.categorical S.params (S.state k).1 (S.state k).2 with ⟨h, hb⟩ | ⟨h, hb⟩
  · refine ⟨S.categorical (S.splitN (S.state k).2.key (Fin.last n).castSucc) fun i => ((S.state k).1 i).logWeight,
      fun h' => absurd h h', fun i => ⟨S.splitN (S.state k).2.key i.castSucc.castSucc, nextExtra S.splitN (S.state k).2, ?_, ?_⟩⟩
    · rw [if_pos (show S.Resamples k from h), update_eq]
      simp only [adapt, moved, hb]
      rfl
    · rw [if_pos (show S.Resamples k from h), ← hT, update_eq]
      have hs := (basis_shared (splitN := S.splitN) (categorical := S.categorical) (p := S.params) (e := (S.state k).2) (S.shared k)).2.1
      simp only [adapt, hs]
      rw [hb]
      simp only [resample, SmcSetup.temp]
      ring
  · refine ⟨id, fun _ => rfl, fun i => ⟨S.splitN (S.state k).2.key i.castSucc.castSucc, nextExtra S.splitN (S.state k).2, ?_, ?_⟩⟩
    · rw [if_neg (show ¬ S.Resamples k from h), update_eq]
      simp only [adapt, moved, hb]
      rfl
    · rw [if_neg (show ¬ S.Resamples k from h), ← hT, update_eq]
      have hs := (basis_shared (splitN := S.splitN) (categorical := S.categorical) (p := S.params) (e := (S.state k).2) (S.shared k)).2.1
      simp only [adapt, hs]
      rw [hb]
      simp only [SmcSetup.temp]
      ring

open MeasureTheory in
omit [NeZero n] in
/-- C38: resampling is unbiased. If each index drawn by `categorical` has probability proportional to the weights, then the expectation of the
unweighted average after resampling is the weighted average before it, for every function of a particle's sampler state. -/
theorem C38_unbiased [MeasurableSpace K] (μ : Measure K) [IsProbabilityMeasure μ]
    (categorical : K → (Fin n → ℝ) → Fin n → Fin n) (ens : Ensemble n X ρ) (hn : 0 < n)
    (hmeas : ∀ i, Measurable fun k => categorical k (fun j => (ens j).logWeight) i)
    (hlaw : ∀ i j, μ.real {k | categorical k (fun j => (ens j).logWeight) i = j}
      = Real.exp (ens j).logWeight / ∑ l, Real.exp (ens l).logWeight)
    (φ : MState X ρ → ℝ) :
    ∫ k, (∑ i, φ (resample categorical ens k i).mc) / n ∂μ
      = (∑ j, Real.exp (ens j).logWeight * φ (ens j).mc) / ∑ j, Real.exp (ens j).logWeight := by
  have h1 : ∀ i, ∫ k, φ (resample categorical ens k i).mc ∂μ
      = (∑ j, Real.exp (ens j).logWeight * φ (ens j).mc) / ∑ j, Real.exp (ens j).logWeight := by
    intro i
    have e : (fun k => φ (resample categorical ens k i).mc)
        = fun k => (fun j => φ (ens j).mc) (categorical k (fun j => (ens j).logWeight) i) := rfl
    rw [e, ← integral_map (f := fun j => φ (ens j).mc) (hmeas i).aemeasurable (measurable_of_countable _).aestronglyMeasurable]
    have : IsProbabilityMeasure (μ.map fun k => categorical k (fun j => (ens j).logWeight) i) :=
      Measure.isProbabilityMeasure_map (hmeas i).aemeasurable
    rw [integral_fintype (Integrable.of_finite), Finset.sum_div]
    refine Finset.sum_congr rfl fun j _ => ?_
    rw [map_measureReal_apply (hmeas i) (MeasurableSet.singleton j), smul_eq_mul]
    have : (fun k => categorical k (fun j => (ens j).logWeight) i) ⁻¹' {j}
        = {k | categorical k (fun j => (ens j).logWeight) i = j} := rfl
    rw [this, hlaw]
    ring
  have hint : ∀ i ∈ Finset.univ, Integrable (fun k => φ (resample categorical ens k i).mc) μ := by
    intro i _
    have e : (fun k => φ (resample categorical ens k i).mc)
        = (fun j => φ (ens j).mc) ∘ fun k => categorical k (fun j => (ens j).logWeight) i := rfl
    rw [e]
    have : IsProbabilityMeasure (μ.map fun k => categorical k (fun j => (ens j).logWeight) i) :=
      Measure.isProbabilityMeasure_map (hmeas i).aemeasurable
    exact (integrable_map_measure (measurable_of_countable _).aestronglyMeasurable (hmeas i).aemeasurable).1 Integrable.of_finite
  rw [integral_div, integral_finsetSum _ hint]
  simp only [h1, Finset.sum_const, Finset.card_univ, Fintype.card_fin, nsmul_eq_mul]
  have : (n : ℝ) ≠ 0 := by exact_mod_cast hn.ne'
  field_simp

open MeasureTheory in
/-- Non-vacuity of `C38_unbiased`: two particles with weights 1 and 3, keys uniform on four values, three of which draw the second particle. -/
example : ∃ (μ : Measure (Fin 4)) (_ : IsProbabilityMeasure μ) (categorical : Fin 4 → (Fin 2 → ℝ) → Fin 2 → Fin 2) (ens : Ensemble 2 Unit Unit),
    (∀ i, Measurable fun k => categorical k (fun j => (ens j).logWeight) i) ∧
    ∀ i j, μ.real {k | categorical k (fun j => (ens j).logWeight) i = j}
      = Real.exp (ens j).logWeight / ∑ l, Real.exp (ens l).logWeight := by
  let μ : Measure (Fin 4) := (4⁻¹ : ENNReal) • Measure.count
  have hμ : ∀ A : Set (Fin 4), μ A = 4⁻¹ * A.ncard := by
    intro A
    simp only [μ, Measure.smul_apply, smul_eq_mul]
    rw [Measure.count_apply A.toFinite.measurableSet, ← A.toFinite.cast_ncard_eq]
    rfl
  refine ⟨μ, ⟨?_⟩, fun k _ _ => if k = 0 then 0 else 1, fun i => ⟨⟨(), 0, 0, ()⟩, 0, 0, 0, if i = 0 then 0 else Real.log 3, 0, 0⟩, fun i => measurable_of_countable _, ?_⟩
  · rw [hμ]; simp [Set.ncard_univ]; exact ENNReal.inv_mul_cancel (by norm_num) (by norm_num)
  · intro i j
    rw [measureReal_def, hμ]
    have h3 : Real.exp (Real.log 3) = 3 := Real.exp_log (by norm_num)
    fin_cases j
    · have : {k : Fin 4 | (if k = 0 then (0 : Fin 2) else 1) = 0} = ↑({0} : Finset (Fin 4)) := by ext k; fin_cases k <;> simp
      simp only [Fin.zero_eta]
      rw [this, Set.ncard_coe_finset]
      simp [Fin.sum_univ_two, h3]; norm_num
    · have : {k : Fin 4 | (if k = 0 then (0 : Fin 2) else 1) = 1} = ↑({1, 2, 3} : Finset (Fin 4)) := by ext k; fin_cases k <;> simp
      simp only [Fin.mk_one]
      rw [this, Set.ncard_coe_finset]
      simp [Fin.sum_univ_two, h3]; norm_num

/-! ## C39 -/

/-- The inner sampler's start-up leaves `extra.iter` alone. -/
def Smc.Kernel.KeepsIter (kernel : Smc.Kernel K π X ρ) : Prop := ∀ T s e, (kernel.startup T s e).2.iter = e.iter

theorem rwKernel_keepsIter {d : ℕ} (split : K → K × K) (split3 : Mcmc.Split3 K) (normal : K → Fin d → ℝ) (uniform : K → ℝ)
    (prior lik : (Fin d → ℝ) → ℝ) : Smc.Kernel.KeepsIter (rwKernel split split3 normal uniform prior lik) := fun _ _ _ => rfl

theorem state_iter (S : SmcSetup K π X ρ n) (hk : Smc.Kernel.KeepsIter S.kernel) (h0 : S.extra0.iter = 0) (k : ℕ) :
    (S.state k).2.iter = k := by
  induction k with
  | zero => change (S.kernel.startup _ _ _).2.iter = 0; rw [hk, h0]
  | succ k ih => rw [S.state_succ, Smc.update_iter, ih]

theorem temp_schedule (S : SmcSetup K π X ρ n) (hk : Smc.Kernel.KeepsIter S.kernel) (h0 : S.extra0.iter = 0) (l : List ℝ)
    (hl : S.config.schedule = some l) (k : ℕ) : S.temp k = scheduleAt l k := by
  cases k with
  | zero =>
    change 0 + nextTemperature S.config S.params _ S.extra0 = _
    simp only [nextTemperature, hl, h0, zero_add]
  | succ k =>
    simp only [SmcSetup.temp]
    rw [S.state_succ, update_eq]
    simp only [adapt, one_mul, nextTemperature, hl]
    change scheduleAt l ((S.state k).2.iter + 1) = _
    rw [state_iter S hk h0]

/-- C39: with a strictly increasing schedule (whose leading zero, if any, is dropped) the temperatures of the chain are exactly the schedule,
as long as the NaN test does not stop the run. -/
theorem C39_schedule (S : SmcSetup K π X ρ n) (hk : Smc.Kernel.KeepsIter S.kernel) (h0 : S.extra0.iter = 0) (l : List ℝ)
    (hinc : l.Pairwise (· < ·)) (hne : l.filter (fun t => decide (t ≠ 0)) ≠ [] ∧ ∀ t ∈ l, 0 ≤ t) (T0 : ℝ) (it0 : ℤ)
    (hc : S.config = Config.init (some l) T0 it0) (manyNan : (Fin n → X) → Bool) (hnan : ∀ v, manyNan v = false) :
    (S.chain manyNan).map (fun ens => (ens 0).temperature) = l.filter fun t => decide (t ≠ 0) := by
  -- the stored schedule is the schedule without its zero
  have htail : ∀ (a : ℝ) (l : List ℝ), (a :: l).Pairwise (· < ·) → 0 ≤ a → l.filter (fun t => decide (t ≠ 0)) = l := by
    intro a l hp ha
    refine List.filter_eq_self.2 fun t ht => ?_
    have := (List.pairwise_cons.1 hp).1 t ht
    simpa using (lt_of_le_of_lt ha this).ne'
  have hstrip : ∀ l : List ℝ, l.Pairwise (· < ·) → (∀ t ∈ l, 0 ≤ t) → stripZero l = l.filter fun t => decide (t ≠ 0) := by
    intro l hp hpos
    cases l with
    | nil => simp [stripZero]
    | cons a l =>
      have hf := htail a l hp (hpos a List.mem_cons_self)
      by_cases ha : a = 0
      · subst ha; rw [List.filter_cons_of_neg (by simp), hf]; simp [stripZero]
      · rw [List.filter_cons_of_pos (by simpa using ha), hf]; simp [stripZero, ha]
  have hl' : stripZero (stripZero l) = l.filter fun t => decide (t ≠ 0) := by
    rw [hstrip l hinc hne.2, hstrip _ (hinc.filter _) fun t ht => hne.2 t (List.mem_of_mem_filter ht), List.filter_filter]
    simp
  set l' := l.filter fun t => decide (t ≠ 0) with hl'def
  have hinc' : l'.Pairwise (· < ·) := hinc.filter _
  have hsched : S.config = { schedule := some l', maxTemperature := l'.getLastD 0, maxIter := l'.length } := by
    rw [hc]
    simp only [Config.init, Config.setSchedule, Option.map_some]
    rw [hl']
  have hpos : 0 < l'.length := List.length_pos_of_ne_nil hne.1
  have hT : ∀ k, S.temp k = scheduleAt l' k := temp_schedule S hk h0 l' (by rw [hsched])
  have hTk : ∀ k (h : k < l'.length), scheduleAt l' k = l'[k] := by
    intro k h
    unfold scheduleAt
    rw [min_eq_left (by omega), List.getD_eq_getElem _ _ h]
  have hlast : l'.getLastD 0 = l'[l'.length - 1] := by
    rw [List.getLastD_eq_getLast?, List.getLast?_eq_getElem?, List.getElem?_eq_getElem (by omega)]; rfl
  obtain ⟨m, h1, h2, h3, h4⟩ := C12_run (Smc.update S.splitN S.categorical S.kernel S.prior S.config S.params)
    (Smc.terminated S.config manyNan) S.config.maxIter S.start
  have hterm : ∀ k, Smc.terminated S.config manyNan (S.state k).1 (S.state k).2 = true ↔
      l'.getLastD 0 ≤ S.temp k ∨ l'.length ≤ k := by
    intro k
    unfold terminated
    rw [hnan, Bool.or_false, Bool.or_eq_true, decide_eq_true_eq, decide_eq_true_eq, hsched, state_iter S hk h0]
    simp only [Nat.cast_le]
    rfl
  have hmax : S.config.maxIter.toNat = l'.length := by rw [hsched]; simp
  have hm : m = l'.length - 1 := by
    rcases lt_trichotomy m (l'.length - 1) with hlt | heq | hgt
    · have := (hterm m).1 (h4 (by omega))
      rcases this with h | h
      · rw [hT, hTk m (by omega), hlast] at h
        have := List.pairwise_iff_getElem.1 hinc' m (l'.length - 1) (by omega) (by omega) hlt
        linarith
      · omega
    · exact heq
    · have hf := h3 (l'.length - 1) hgt
      have ht := (hterm (l'.length - 1)).2 (Or.inl (by rw [hT, hTk _ (by omega), hlast]))
      change Smc.terminated S.config manyNan (S.state _).1 (S.state _).2 = false at hf
      rw [ht] at hf; cases hf
  change ((Smc.runFrom _ _ _ _ _ _ _ _).map _) = _
  unfold Smc.runFrom
  rw [h2, List.map_map, hm]
  apply List.ext_getElem
  · simp; omega
  · intro i hi1 hi2
    simp only [List.getElem_map, List.getElem_range, Function.comp]
    exact (hT i).trans (hTk i hi2)

omit [NeZero n] in
theorem nextAdaptive_mem (p : Params) (Tmax T ess : ℝ) (hT : T ≤ Tmax) (lw lik : Fin n → ℝ) :
    nextTemperatureAdaptive p Tmax T ess lw lik ∈ Set.Icc T Tmax := by
  unfold nextTemperatureAdaptive
  dsimp only
  set f := fun x => logEss (fun i => lw i - (x - T) * lik i) - Real.log (ess * p.essThresholdRetain)
  have key : (Utils.bisect f T Tmax p.maxBisectionIter p.bisectionTol).lo ∈ Set.Icc T Tmax ∧
      (Utils.bisect f T Tmax p.maxBisectionIter p.bisectionTol).hi ∈ Set.Icc T Tmax := by
    rcases le_or_gt (f T * f Tmax) 0 with hs | hs
    · have := (C28_iterates f T Tmax hs _ p.bisectionTol _ (C28_result f T Tmax hs p.maxBisectionIter p.bisectionTol).1).2.2.2.1
      rw [Set.uIcc_of_le hT] at this
      exact ⟨this Set.left_mem_uIcc, this Set.right_mem_uIcc⟩
    · rw [C28_same_sign f T Tmax hs]
      exact ⟨⟨le_refl _, hT⟩, ⟨hT, le_refl _⟩⟩
  split_ifs
  · exact key.1
  · exact key.2

/-- C39: with adaptive temperatures and a non-negative maximum, the temperatures never decrease and never exceed the maximum, in every run. -/
theorem C39_adaptive (S : SmcSetup K π X ρ n) (hc : S.config.schedule = none) (hmax : 0 ≤ S.config.maxTemperature) (k : ℕ) :
    0 ≤ S.temp k ∧ S.temp k ≤ S.config.maxTemperature ∧ S.temp k ≤ S.temp (k + 1) := by
  have step : ∀ k, S.temp k ≤ S.config.maxTemperature → S.temp (k + 1) ∈ Set.Icc (S.temp k) S.config.maxTemperature := by
    intro k hk
    have hb := (basis_shared (splitN := S.splitN) (categorical := S.categorical) (p := S.params) (e := (S.state k).2) (S.shared k)).2.1
    set M := moved S.splitN S.categorical S.kernel S.prior S.params (S.state k).1 (S.state k).2 with hM
    have this : S.temp (k + 1) = nextTemperatureAdaptive S.params S.config.maxTemperature (S.temp k) (M 0).ess
        (fun i => (M i).logWeight) (fun i => (M i).lik) := by
      simp only [SmcSetup.temp]
      rw [S.state_succ, update_eq]
      simp only [adapt, one_mul, nextTemperature, hc]
      rw [← hM, show (M 0).temperature = ((S.state k).1 0).temperature from hb]
    rw [this]
    exact nextAdaptive_mem _ _ _ _ hk _ _
  have first : S.temp 0 ∈ Set.Icc 0 S.config.maxTemperature := by
    change 0 + nextTemperature S.config S.params _ S.extra0 ∈ _
    rw [zero_add]
    simp only [nextTemperature, hc]
    exact nextAdaptive_mem _ _ _ _ hmax _ _
  have all : ∀ k, 0 ≤ S.temp k ∧ S.temp k ≤ S.config.maxTemperature := by
    intro k
    induction k with
    | zero => exact first
    | succ k ih => exact ⟨ih.1.trans (step k ih.2).1, (step k ih.2).2⟩
  exact ⟨(all k).1, (all k).2, (step k (all k).2).1⟩

/-- C39: the same for the returned chain: temperatures lie in `[0, max]` and are sorted. -/
theorem C39_adaptive_chain (S : SmcSetup K π X ρ n) (hc : S.config.schedule = none) (hmax : 0 ≤ S.config.maxTemperature)
    (manyNan : (Fin n → X) → Bool) :
    ((S.chain manyNan).map fun ens => (ens 0).temperature).Pairwise (· ≤ ·) ∧
    ∀ ens ∈ S.chain manyNan, 0 ≤ (ens 0).temperature ∧ (ens 0).temperature ≤ S.config.maxTemperature := by
  have mono : Monotone S.temp := monotone_nat_of_le_succ fun k => (C39_adaptive S hc hmax k).2.2
  constructor
  · obtain ⟨m, -, h2, -, -⟩ := C12_run (Smc.update S.splitN S.categorical S.kernel S.prior S.config S.params)
      (Smc.terminated S.config manyNan) S.config.maxIter S.start
    change ((Smc.runFrom _ _ _ _ _ _ _ _).map _).Pairwise _
    unfold Smc.runFrom
    rw [h2, List.map_map, List.pairwise_map]
    refine List.pairwise_lt_range.imp fun {a b} hab => mono hab.le
  · intro ens hens
    obtain ⟨k, rfl⟩ := S.mem_chain manyNan ens hens
    exact ⟨(C39_adaptive S hc hmax k).1, (C39_adaptive S hc hmax k).2.1⟩

/-! ## C40 -/

omit [NeZero n] in
/-- C40, what holds: if the ESS at the maximum temperature is smaller than the current one, the retention ratio is below 1, the tolerance is at most
`-log` of that ratio and the root search ends before its iteration limit, then the next temperature is strictly higher. -/
theorem C40_progress_partial (p : Params) (Tmax T ess : ℝ) (hT : T < Tmax) (lw lik : Fin n → ℝ)
    (hess : ess = Real.exp (logEss lw)) (hr0 : 0 < p.essThresholdRetain) (hr1 : p.essThresholdRetain < 1)
    (htol : p.bisectionTol ≤ -Real.log p.essThresholdRetain)
    (hsmaller : logEss (fun i => lw i - (Tmax - T) * lik i) < logEss lw)
    (hiter : (Utils.bisect (fun x => logEss (fun i => lw i - (x - T) * lik i) - Real.log (ess * p.essThresholdRetain)) T Tmax
      p.maxBisectionIter p.bisectionTol).iter < p.maxBisectionIter) :
    T < nextTemperatureAdaptive p Tmax T ess lw lik := by
  have hmem := nextAdaptive_mem p Tmax T ess hT.le lw lik
  refine lt_of_le_of_ne hmem.1 fun heq => ?_
  unfold nextTemperatureAdaptive at heq
  dsimp only at heq
  set f := fun x => logEss (fun i => lw i - (x - T) * lik i) - Real.log (ess * p.essThresholdRetain) with hf
  have hfT : f T = -Real.log p.essThresholdRetain := by
    simp only [hf, sub_self, zero_mul, sub_zero]
    rw [hess, Real.log_mul (Real.exp_pos _).ne' hr0.ne', Real.log_exp]; ring
  have hc : 0 < f T := by rw [hfT]; have := Real.log_neg hr0 hr1; linarith
  have hlt : f Tmax < f T := by simp only [hf, sub_self, zero_mul, sub_zero]; linarith
  rcases le_or_gt (f T * f Tmax) 0 with hs | hs
  · obtain ⟨hre, hstop⟩ := C28_result f T Tmax hs p.maxBisectionIter p.bisectionTol
    obtain ⟨e1, e2, e3, e4, -, -⟩ := C28_iterates f T Tmax hs _ p.bisectionTol _ hre
    set b := Utils.bisect f T Tmax p.maxBisectionIter p.bisectionTol
    have hmin : min |f b.lo| |f b.hi| < p.bisectionTol := hstop.resolve_right (by omega)
    split_ifs at heq with hle
    · rw [e1, e2] at hle
      rw [min_eq_left hle, ← heq, abs_of_pos hc, hfT] at hmin
      linarith
    · rw [e1, e2, not_le, ← heq, abs_of_pos hc, hfT] at hle
      -- the upper bound is T itself
      rw [e1, e2, ← heq] at e3
      have hlo : f b.lo ≤ 0 := by nlinarith
      have hle' := hle
      rw [min_eq_right (by rw [← heq, abs_of_pos hc, hfT]; exact hle'.le), ← heq, abs_of_pos hc, hfT] at hmin
      linarith
  · rw [C28_same_sign f T Tmax hs] at heq
    have hpos : 0 < f Tmax := by by_contra h; nlinarith
    simp only at heq
    rw [if_neg (by rw [abs_of_pos hc, abs_of_pos hpos]; linarith)] at heq
    linarith

/-- C40, what fails: with equal likelihoods (in particular with one particle) the adaptive temperature never moves, whatever the settings. -/
theorem C40_stalls (p : Params) (Tmax T ess : ℝ) (lw lik : Fin n → ℝ) (hess : ess = Real.exp (logEss lw))
    (hr0 : 0 < p.essThresholdRetain) (hr1 : p.essThresholdRetain < 1) (hconst : ∀ i, lik i = lik 0) :
    nextTemperatureAdaptive p Tmax T ess lw lik = T := by
  unfold nextTemperatureAdaptive
  dsimp only
  set f := fun x => logEss (fun i => lw i - (x - T) * lik i) - Real.log (ess * p.essThresholdRetain) with hf
  have hconst' : ∀ x, f x = -Real.log p.essThresholdRetain := by
    intro x
    have : logEss (fun i => lw i - (x - T) * lik i) = logEss lw := by
      have hsum : ∀ c : ℝ, ∀ v : Fin n → ℝ, lse (fun i => v i - c) = lse v - c := by
        intro c v
        have hpos : 0 < ∑ i, Real.exp (v i) := Finset.sum_pos (fun i _ => Real.exp_pos _) ⟨0, Finset.mem_univ _⟩
        simp only [lse, Real.exp_sub]
        rw [← Finset.sum_div, Real.log_div hpos.ne' (Real.exp_pos _).ne', Real.log_exp]
      have h2 : (fun i => 2 * (lw i - (x - T) * lik i)) = fun i => 2 * lw i - 2 * ((x - T) * lik 0) := by
        funext i; rw [hconst i]; ring
      have h1 : (fun i => lw i - (x - T) * lik i) = fun i => lw i - (x - T) * lik 0 := by funext i; rw [hconst i]
      simp only [logEss]
      rw [h2, h1, hsum, hsum]; ring
    simp only [hf, this]
    rw [hess, Real.log_mul (Real.exp_pos _).ne' hr0.ne', Real.log_exp]; ring
  have hc : 0 < -Real.log p.essThresholdRetain := by have := Real.log_neg hr0 hr1; linarith
  rw [C28_same_sign f T Tmax (by rw [hconst', hconst']; positivity)]
  simp only [hconst', le_refl, if_true]

/-- Non-vacuity of `C40_stalls`: one particle, default settings; the first temperature of such a run is 0. -/
example : nextTemperatureAdaptive (n := 1) ⟨1, 0.9, 0.5, 0.00001, 1000⟩ 1 0 1 (fun _ => 0) (fun _ => 7) = 0 :=
  C40_stalls _ _ _ _ _ _ (by have := logEss_zero (n := 1); simpa using this.symm) (by norm_num) (by norm_num) fun _ => rfl

/-- Non-vacuity of `C40_progress_partial`: two particles with likelihoods 1 and 4/5. -/
example : 0 < nextTemperatureAdaptive (n := 2) ⟨1, 0.9, 0.5, 0.00001, 1000⟩ 1 0 2 (fun _ => 0) (fun i => if i = 0 then 0 else Real.log (5 / 4)) := by
  have hess : (2 : ℝ) = Real.exp (logEss fun _ : Fin 2 => 0) := by have := logEss_zero (n := 2); simpa using this.symm
  have h1 : logEss (fun i : Fin 2 => 0 - ((1 : ℝ) - 0) * (if i = 0 then 0 else Real.log (5 / 4))) = Real.log (81 / 41) := by
    have e1 : Real.exp (-Real.log (5 / 4)) = 4 / 5 := by rw [Real.exp_neg, Real.exp_log (by norm_num)]; norm_num
    have e2 : Real.exp (2 * -Real.log (5 / 4)) = 16 / 25 := by rw [two_mul, Real.exp_add, e1]; norm_num
    simp only [logEss, lse, Fin.sum_univ_two, if_true, Fin.one_eq_zero_iff, OfNat.ofNat_ne_one, if_false, sub_zero, one_mul, zero_sub, neg_zero, mul_zero,
      Real.exp_zero, e1, e2]
    rw [← Real.log_rpow (by norm_num), ← Real.log_div (by norm_num) (by norm_num)]
    norm_num
  have h0 : logEss (fun _ : Fin 2 => (0 : ℝ)) = Real.log 2 := by rw [hess, Real.log_exp]
  refine C40_progress_partial _ _ _ _ one_pos _ _ hess (by norm_num) (by norm_num) ?_ ?_ ?_
  · have := Real.log_le_sub_one_of_pos (show (0 : ℝ) < 0.9 by norm_num)
    norm_num at this ⊢; linarith
  · rw [h0, h1]; exact Real.log_lt_log (by norm_num) (by norm_num)
  · rw [C28_same_sign]
    · norm_num
    · simp only [sub_self, zero_mul, sub_zero]
      simp only [sub_zero] at h1
      rw [h0, h1]
      have a1 : Real.log (2 * 0.9) < Real.log 2 := Real.log_lt_log (by norm_num) (by norm_num)
      have a2 : Real.log (2 * 0.9) < Real.log (81 / 41) := Real.log_lt_log (by norm_num) (by norm_num)
      exact mul_pos (by linarith) (by linarith)

/-! ## C41 -/

/-- The real-valued ESS of this file is the one of `metrics.py` (C33) on finite log weights. -/
theorem logEss_metrics (v : Fin n → ℝ) : Metrics.logEssLogWeight (fun i => Fl.fin (v i)) = Fl.fin (logEss v) := by
  have h : ∀ v : Fin n → ℝ, Metrics.logsumexp (fun i => Fl.fin (v i)) = Fl.fin (lse v) := by
    intro v
    have hpos : 0 < ∑ i, Real.exp (v i) := Finset.sum_pos (fun i _ => Real.exp_pos _) ⟨0, Finset.mem_univ _⟩
    unfold Metrics.logsumexp Metrics.flLog
    rw [if_neg (by simp), if_neg (by simp)]
    exact if_neg hpos.ne'
  unfold Metrics.logEssLogWeight
  simp only [Fl.mul, h]
  rfl

/-- log of the average weight of an ensemble -/
noncomputable def logMeanWeight (ens : Ensemble n X ρ) : ℝ := Real.log ((∑ i, Real.exp (ens i).logWeight) / n)

theorem lse_eq_logMeanWeight (ens : Ensemble n X ρ) : lse (fun i => (ens i).logWeight) = logMeanWeight ens + Real.log n := by
  have hn : (0 : ℝ) < n := by exact_mod_cast Nat.pos_of_ne_zero (NeZero.ne n)
  have hpos : 0 < ∑ i, Real.exp (ens i).logWeight := Finset.sum_pos (fun i _ => Real.exp_pos _) ⟨0, Finset.mem_univ _⟩
  unfold logMeanWeight lse
  rw [Real.log_div hpos.ne' hn.ne']; ring

open Classical in
/-- C41: after every number of updates and for every particle, `log_norm_constant` is the sum, over the states at which resampling took place so far, of the
log average weight there, plus the log average weight now: the usual SMC estimator. -/
theorem C41_estimator (S : SmcSetup K π X ρ n) (k : ℕ) (i : Fin n) :
    ((S.state k).1 i).logNorm
      = (∑ j ∈ Finset.range k, if S.Resamples j then logMeanWeight (S.state j).1 else 0) + logMeanWeight (S.state k).1 := by
  have hn : (0 : ℝ) < n := by exact_mod_cast Nat.pos_of_ne_zero (NeZero.ne n)
  induction k generalizing i with
  | zero =>
    rw [Finset.sum_range_zero, zero_add]
    change lseMean _ = Real.log _
    unfold lseMean
    congr 1
    rw [Finset.sum_div]
    refine Finset.sum_congr rfl fun j _ => ?_
    rw [one_div, inv_mul_eq_div]
    rfl
  | succ k ih =>
    have hnew : ((S.state (k + 1)).1 i).logNorm
        = (basis S.splitN S.categorical S.params (S.state k).1 (S.state k).2 i).logNorm
          + lse (fun j => ((S.state (k + 1)).1 j).logWeight)
          - lse (fun j => (basis S.splitN S.categorical S.params (S.state k).1 (S.state k).2 j).logWeight) := by
      rw [S.state_succ, update_eq]; rfl
    rw [hnew, lse_eq_logMeanWeight, lse_eq_logMeanWeight, Finset.sum_range_succ]
    rcases basis_cases S.splitN S.categorical S.params (S.state k).1 (S.state k).2 with ⟨h, hb⟩ | ⟨h, hb⟩
    · rw [if_pos (show S.Resamples k from h), hb]
      have h0 : logMeanWeight (resample S.categorical (S.state k).1 (S.splitN (S.state k).2.key (Fin.last n).castSucc)) = 0 := by
        unfold logMeanWeight resample
        simp [hn.ne']
      rw [h0]
      have : (resample S.categorical (S.state k).1 (S.splitN (S.state k).2.key (Fin.last n).castSucc) i).logNorm
          = ((S.state k).1 (S.categorical (S.splitN (S.state k).2.key (Fin.last n).castSucc)
            (fun i => ((S.state k).1 i).logWeight) i)).logNorm := rfl
      rw [this, ih]
      ring
    · rw [if_neg (show ¬ S.Resamples k from h), hb, ih]
      ring

/-- C41: without resampling so far it is the log average weight. -/
theorem C41_no_resampling (S : SmcSetup K π X ρ n) (k : ℕ) (h : ∀ j < k, ¬ S.Resamples j) (i : Fin n) :
    ((S.state k).1 i).logNorm = logMeanWeight (S.state k).1 := by
  rw [C41_estimator, Finset.sum_eq_zero, zero_add]
  intro j hj
  rw [if_neg (h j (Finset.mem_range.1 hj))]

/-- C41: initial log weights are minus the first temperature times the likelihood potential. -/
theorem C41_initial_weight (S : SmcSetup K π X ρ n) (i : Fin n) :
    ((S.state 0).1 i).logWeight = -S.temp 0 * S.lik (S.values i) ∧ ((S.state 0).1 i).lik = S.lik (S.values i) := by
  refine ⟨?_, rfl⟩
  change -_ * _ = -(0 + _) * _
  rw [zero_add]

/-- C41: a log weight is minus the sum, over the updates since the last resampling (at state `j`), of temperature increments times the likelihood
potential the particle had then. -/
theorem C41_weight (S : SmcSetup K π X ρ n) (j k : ℕ) (hj : S.Resamples j) (hk : ∀ l, j < l → l < j + k + 1 → ¬ S.Resamples l) (i : Fin n) :
    ((S.state (j + k + 1)).1 i).logWeight
      = -∑ l ∈ Finset.Ico j (j + k + 1), (S.temp (l + 1) - S.temp l) * ((S.state (l + 1)).1 i).lik := by
  classical
  have step := fun l => (C38_criterion S l).choose_spec.2 i
  induction k with
  | zero =>
    obtain ⟨_, _, -, h⟩ := step j
    rw [if_pos hj] at h
    rw [add_zero, h, Nat.Ico_succ_singleton, Finset.sum_singleton]; ring
  | succ k ih =>
    obtain ⟨_, _, -, h⟩ := step (j + k + 1)
    rw [if_neg (hk (j + k + 1) (by omega) (by omega)), ih fun l h1 h2 => hk l h1 (by omega)] at h
    rw [show j + (k + 1) + 1 = j + k + 1 + 1 by ring, h, Finset.sum_Ico_succ_top (by omega : j ≤ j + k + 1), neg_add, sub_eq_add_neg]

/-- C41: the same before any resampling, from the initial weights. -/
theorem C41_weight_start (S : SmcSetup K π X ρ n) (k : ℕ) (hk : ∀ l < k, ¬ S.Resamples l) (i : Fin n) :
    ((S.state k).1 i).logWeight
      = -(S.temp 0 * S.lik (S.values i) + ∑ l ∈ Finset.range k, (S.temp (l + 1) - S.temp l) * ((S.state (l + 1)).1 i).lik) := by
  classical
  induction k with
  | zero => rw [(C41_initial_weight S i).1]; simp
  | succ k ih =>
    obtain ⟨_, _, -, h⟩ := (C38_criterion S k).choose_spec.2 i
    rw [if_neg (hk k (by omega)), ih fun l h => hk l (by omega)] at h
    rw [h, Finset.sum_range_succ]; ring

/-! ## C42 -/

/-- C42: in every state of the chain all particles share temperature, ess and log normalising constant, and ess is the effective sample size of the log weights. -/
theorem C42_shared (S : SmcSetup K π X ρ n) (manyNan : (Fin n → X) → Bool) (ens : Ensemble n X ρ) (h : ens ∈ S.chain manyNan) :
    ∀ i j, (ens i).temperature = (ens j).temperature ∧ (ens i).logNorm = (ens j).logNorm ∧
      (ens i).ess = (∑ l, Real.exp (ens l).logWeight) ^ 2 / ∑ l, Real.exp (ens l).logWeight ^ 2 := by
  obtain ⟨k, rfl⟩ := S.mem_chain manyNan ens h
  intro i j
  have hs := S.shared k
  refine ⟨by rw [hs.temperature i, hs.temperature j], by rw [hs.logNorm i, hs.logNorm j], ?_⟩
  rw [hs.ess i]
  have hp1 : 0 < ∑ l, Real.exp ((S.state k).1 l).logWeight := Finset.sum_pos (fun i _ => Real.exp_pos _) ⟨0, Finset.mem_univ _⟩
  have hp2 : 0 < ∑ l, Real.exp (2 * ((S.state k).1 l).logWeight) := Finset.sum_pos (fun i _ => Real.exp_pos _) ⟨0, Finset.mem_univ _⟩
  unfold logEss lse
  rw [Real.exp_sub, Real.exp_log hp2, two_mul, Real.exp_add, Real.exp_log hp1, ← sq]
  congr 1
  exact Finset.sum_congr rfl fun l _ => by rw [two_mul, Real.exp_add, sq]

/-- Contract of the inner sampler: `potential` is the tempered potential at `value`, established at start-up and kept by updates. -/
structure Smc.Kernel.Tracks (kernel : Smc.Kernel K π X ρ) (prior lik : X → ℝ) : Prop where
  startup : ∀ T s e, (kernel.startup T s e).1.potential
    = prior (kernel.startup T s e).1.value + T * lik (kernel.startup T s e).1.value
  value : ∀ T s e, (kernel.startup T s e).1.value = s.value
  update : ∀ T s e, s.potential = prior s.value + T * lik s.value →
    (kernel.update T s e).1.potential = prior (kernel.update T s e).1.value + T * lik (kernel.update T s e).1.value

/-- RandomWalk with Metropolis meets the contract. -/
theorem C42_randomWalk_tracks {d : ℕ} (split : K → K × K) (split3 : Mcmc.Split3 K) (normal : K → Fin d → ℝ) (uniform : K → ℝ)
    (prior lik : (Fin d → ℝ) → ℝ) : Smc.Kernel.Tracks (rwKernel split split3 normal uniform prior lik) prior lik := by
  refine ⟨fun _ _ _ => rfl, fun _ _ _ => rfl, fun T s e hs => ?_⟩
  set pot : (Fin d → ℝ) → K → Fl := fun x _ => Fl.fin (prior x + T * lik x)
  set s' : Mcmc.State (Mcmc.RWPayload d) := ⟨⟨s.value, Fl.fin s.potential⟩, Fl.fin s.alpha, s.rest⟩
  set smp := Mcmc.randomWalk split3 normal pot
  obtain ⟨a, -, h1, h2⟩ := C14_all_or_nothing split uniform smp s' { e with iter := e.iter + 1 }
    (smp.proposal s' { e with iter := e.iter + 1 }).1 (smp.proposal s' { e with iter := e.iter + 1 }).2
  have hupd : Mcmc.update smp (Mcmc.metropolis split uniform) s' e
    = Mcmc.metropolis split uniform smp s' { e with iter := e.iter + 1 }
      (smp.proposal s' { e with iter := e.iter + 1 }).1 (smp.proposal s' { e with iter := e.iter + 1 }).2 := rfl
  change Mcmc.flToReal (Mcmc.update smp (Mcmc.metropolis split uniform) s' e).1.payload.potential
    = prior (Mcmc.update smp (Mcmc.metropolis split uniform) s' e).1.payload.value
      + T * lik (Mcmc.update smp (Mcmc.metropolis split uniform) s' e).1.payload.value
  rw [hupd]
  by_cases hacc : Fl.lt (Fl.fin (uniform (split (smp.proposal s' { e with iter := e.iter + 1 }).2.key).2)) a
  · rw [h1 hacc]; rfl
  · rw [h2 hacc]; exact hs

theorem smc_scan_inv {c x y : Type*} (f : c → x → c × y) (P : c → Prop) (Q : y → Prop) (hf : ∀ s a, P s → P (f s a).1 ∧ Q (f s a).2) :
    ∀ (l : List x) (s : c), P s → P (scan f s l).1 ∧ ∀ o ∈ (scan f s l).2, Q o := by
  intro l
  induction l with
  | nil => intro s hs; exact ⟨hs, by simp [scan]⟩
  | cons a l ih =>
    intro s hs
    obtain ⟨h1, h2⟩ := hf s a hs
    obtain ⟨h3, h4⟩ := ih _ h1
    refine ⟨h3, fun o ho => ?_⟩
    simp only [scan, List.mem_cons] at ho
    rcases ho with rfl | ho
    · exact h2
    · exact h4 o ho

omit [NeZero n] in
theorem forward_tracks (kernel : Smc.Kernel K π X ρ) (prior lik : X → ℝ) (hk : Smc.Kernel.Tracks kernel prior lik) (p : Params)
    (T : ℝ) (hT : T ≠ 0) (q : Particle X ρ) (e : Extra K π) (key : K) :
    (forwardProposal kernel prior p T q e key).prior = prior (forwardProposal kernel prior p T q e key).mc.value ∧
    (forwardProposal kernel prior p T q e key).lik = lik (forwardProposal kernel prior p T q e key).mc.value := by
  refine ⟨rfl, ?_⟩
  unfold forwardProposal
  dsimp only
  set start := kernel.startup T q.mc { e with key := key }
  set f := fun (c : MState X ρ × Extra K π) (_ : Unit) => (kernel.update T c.1 c.2, (kernel.update T c.1 c.2).1)
  have hlast : ((scan f start (List.replicate p.mcmcSteps ())).2.getLastD start.1).potential
      = prior ((scan f start (List.replicate p.mcmcSteps ())).2.getLastD start.1).value
        + T * lik ((scan f start (List.replicate p.mcmcSteps ())).2.getLastD start.1).value := by
    have hinv := (smc_scan_inv f (fun c => c.1.potential = prior c.1.value + T * lik c.1.value)
      (fun s => s.potential = prior s.value + T * lik s.value)
      (fun s a hs => ⟨hk.update T s.1 s.2 hs, hk.update T s.1 s.2 hs⟩) (List.replicate p.mcmcSteps ()) start (hk.startup T q.mc _)).2
    rcases List.eq_nil_or_concat (scan f start (List.replicate p.mcmcSteps ())).2 with h | ⟨l, a, h⟩
    · rw [h]; exact hk.startup T q.mc _
    · rw [h] at hinv ⊢
      rw [List.concat_eq_append, List.getLastD_concat]
      exact hinv a (by simp)
  rw [hlast]
  field_simp
  ring

/-- C42: while temperatures are non-zero, every particle of every state carries the prior and likelihood potential of its own position, and
`potential = prior + temperature * likelihood`. -/
theorem C42_consistent (S : SmcSetup K π X ρ n) (hk : Smc.Kernel.Tracks S.kernel S.prior S.lik) (k : ℕ) (hT : ∀ j < k, S.temp j ≠ 0) (i : Fin n) :
    ((S.state k).1 i).prior = S.prior ((S.state k).1 i).mc.value ∧ ((S.state k).1 i).lik = S.lik ((S.state k).1 i).mc.value ∧
    ((S.state k).1 i).mc.potential
      = S.prior ((S.state k).1 i).mc.value + S.temp k * S.lik ((S.state k).1 i).mc.value := by
  cases k with
  | zero =>
    have hv : ((S.state 0).1 i).mc.value = S.values i := hk.value _ _ _
    refine ⟨by rw [hv]; rfl, by rw [hv]; rfl, ?_⟩
    change (S.kernel.startup _ _ _).1.potential = S.prior (S.kernel.startup _ _ _).1.value
      + (0 + _) * S.lik (S.kernel.startup _ _ _).1.value
    rw [zero_add]
    exact hk.startup _ _ _
  | succ k =>
    have hf := forward_tracks S.kernel S.prior S.lik hk S.params (S.temp k) (hT k (by omega))
      (basis S.splitN S.categorical S.params (S.state k).1 (S.state k).2 i) (nextExtra S.splitN (S.state k).2)
      (S.splitN (S.state k).2.key i.castSucc.castSucc)
    simp only [SmcSetup.temp]
    rw [S.state_succ, update_eq]
    have hm : moved S.splitN S.categorical S.kernel S.prior S.params (S.state k).1 (S.state k).2 i
      = forwardProposal S.kernel S.prior S.params (S.temp k) (basis S.splitN S.categorical S.params (S.state k).1 (S.state k).2 i)
        (nextExtra S.splitN (S.state k).2) (S.splitN (S.state k).2.key i.castSucc.castSucc) := rfl
    simp only [adapt, one_mul]
    rw [hm]
    refine ⟨hf.1, hf.2, ?_⟩
    rw [← hf.1, ← hf.2]

/-- Non-vacuity: a run of two particles with schedule [0, 0.5, 1], `RandomWalk` inside, on a standard normal prior and a Gaussian likelihood: temperatures
0.5 and 1, all hypotheses of `C39_schedule` and `C42_consistent` hold. -/
example : ∃ S : SmcSetup Unit ℝ (Fin 1 → ℝ) ℝ 2,
    (S.chain fun _ => false).map (fun ens => (ens 0).temperature) = [1 / 2, 1] ∧
    ∀ i, ((S.state 1).1 i).lik = S.lik ((S.state 1).1 i).mc.value := by
  let prior : (Fin 1 → ℝ) → ℝ := fun x => x 0 ^ 2 / 2
  let lik : (Fin 1 → ℝ) → ℝ := fun x => (x 0 - 1) ^ 2 / 2
  let S : SmcSetup Unit ℝ (Fin 1 → ℝ) ℝ 2 :=
    { splitN := fun _ _ => (), categorical := fun _ _ i => i
      kernel := rwKernel (fun _ => ((), ())) (fun _ => ((), (), ())) (fun _ _ => 1) (fun _ => 1 / 2) prior lik
      prior := prior, lik := lik, config := Config.init (some [0, 1 / 2, 1]) 1 10000, params := ⟨2, 0.9, 0.5, 0.00001, 1000⟩
      values := fun i _ => i.val, alpha0 := 1, rest0 := 0, extra0 := ⟨(), 0, 1⟩ }
  have hs := C39_schedule S (rwKernel_keepsIter _ _ _ _ _ _) rfl [0, 1 / 2, 1] (by norm_num) (by simp) 1 10000 rfl
    (fun _ => false) fun _ => rfl
  refine ⟨S, hs.trans (by simp), fun i => ?_⟩
  refine (C42_consistent S (C42_randomWalk_tracks _ _ _ _ _ _) 1 (fun j hj => ?_) i).2.1
  have : j = 0 := by omega
  subst this
  rw [temp_schedule S (rwKernel_keepsIter _ _ _ _ _ _) rfl [1 / 2, 1] (by simp [S, Config.init, Config.setSchedule, stripZero])]
  simp [scheduleAt]

end Mocat.Props
