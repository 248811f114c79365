import Verif.Props.RunErrorBars
import Verif.Lemmas.RunTails
/-!
# C166: large errors of averages over runs of ABC-SMC are exponentially rare
-/
namespace Mocat.Props
open Mocat Mocat.Mcmc Mocat.Abc Mocat.AbcSmc Mocat.Ideal Mocat.Meas MeasureTheory ProbabilityTheory
open scoped ENNReal

variable {d : ℕ} {D : Type*}

section
variable [MeasurableSpace D] {q : ℝ → ℝ} (hq : IsNormalDraw q) {S : Set (Fin d → ℝ)} (hS : MeasurableSet S)
    {V : (Fin d → ℝ) → ℝ} (hV : Measurable V) {pri : Tape → Fin d → ℝ} {sim : (Fin d → ℝ) → Tape → D} (hsim : Measurable fun z : (Fin d → ℝ) × Tape => sim z.1 z.2) {dist : D → ℝ} (hdist : Measurable dist)
    (l : List ℝ) (hpri : Measurable pri) (a : ℝ≥0∞) (hprior : ideal.map pri = a • target S V) (hmono : ∀ j, AbcSmc.scheduleAt l (j + 1) ≤ AbcSmc.scheduleAt l j)
    (k : ℕ) (hatom : ∀ j < k, simulated (ideal.map pri) sim {z | dist z.2 = AbcSmc.scheduleAt l j} = 0)
    {n : ℕ} [NeZero n] {cat : (Fin n → Fl) → ℝ → Fin n} (hcat : IsCategorical cat) (c : Config) (hl : c.schedule = some (some l)) (p : Settings) (hR : 0 < p.mcmcSteps) (stp : Fin d → ℝ)
    (keys : ℕ → Keys.Key) (hk : ∀ a b, a ≠ b → Disjoint (below (keys a)) (below (keys b)))
include hq hS hV hsim hdist hpri hprior hmono hatom hcat hl hR hk

/-- C166, the probability of data within the threshold: for every number `R` of runs, the average of the estimates of `R` runs is off by `ε` or more with probability at most `2 exp (-2 R ε²)`, whatever the prior, simulator, schedule and
number of particles. -/
theorem C166_abc_evidence :
    RareErrors ideal ((simulated (ideal.map pri) sim).real {z | dist z.2 ≤ AbcSmc.scheduleAt l k}) (fun ε => 2 * ε ^ 2) (fun _ _ => 1)
      fun r ω => abcEvidence p.essThresholdResample (abcSmcRun cat S V pri sim dist q c p stp (keys r) ω) k := by
  have hLm := abcEvidence_measurable hcat hq hS hV hsim hdist c l hl p hR stp [] hpri k
  have hE := abcEvidence_mean hcat hq hS hV hsim hdist c l hl p hR stp [] hpri a hprior hmono k hatom
  have h := rareErrors_one (M := 1) (fun r => measurable_subtape (keys r)) (keys_independent keys hk) (fun r => map_subtape (keys r)) hLm (fun ω => abcEvidence_nonneg _ _ _) (fun ω => abcEvidence_le_one _ _ _)
    (fun r ω => abcEvidence_subtape cat q S V pri sim dist c l hl p hR stp (keys r) k ω) hE
  simpa using h

/-- C166, ABC posterior expectations of a function with values in `[-B, B]`: with `c` the probability of data within the threshold, the pooled mean of `R` runs is off by `ε` or more with probability at most
`2 exp (-R (c ε)² / (2 (2 B + ε)²))`. -/
theorem C166_abc_mean (hpos : 0 < simulated (ideal.map pri) sim {z | dist z.2 ≤ AbcSmc.scheduleAt l k}) (f : (Fin d → ℝ) × D → ℝ) (hf : Measurable f) (B : ℝ) (hB : ∀ z, |f z| ≤ B) :
    RareErrors ideal (abcPosteriorMean (simulated (ideal.map pri) sim) dist (AbcSmc.scheduleAt l k) f)
      (fun ε => ((simulated (ideal.map pri) sim).real {z | dist z.2 ≤ AbcSmc.scheduleAt l k} * ε) ^ 2 / (2 * (2 * B + ε) ^ 2))
      (fun r ω => abcEvidence p.essThresholdResample (abcSmcRun cat S V pri sim dist q c p stp (keys r) ω) k) fun r ω => abcMean f (abcSmcRun cat S V pri sim dist q c p stp (keys r) ω k) := by
  have hpair : Measurable fun z : (Fin d → ℝ) × Tape => (z.1, sim z.1 z.2) := measurable_fst.prodMk hsim
  have hprob : IsProbabilityMeasure (ideal.map pri) := Measure.isProbabilityMeasure_map hpri.aemeasurable
  have hprob2 : IsProbabilityMeasure (simulated (ideal.map pri) sim) := Measure.isProbabilityMeasure_map hpair.aemeasurable
  have hB0 : 0 ≤ B := (abs_nonneg _).trans (hB ((fun _ => 0 : Fin d → ℝ), sim (fun _ => 0) (fun _ => 0)))
  have hm0 : 0 < (simulated (ideal.map pri) sim).real {z | dist z.2 ≤ AbcSmc.scheduleAt l k} := ENNReal.toReal_pos hpos.ne' (measure_ne_top _ _)
  have hLm := abcEvidence_measurable hcat hq hS hV hsim hdist c l hl p hR stp [] hpri k
  have hNm := abcNumerator_measurable hcat hq hS hV hsim hdist c l hl p hR stp [] hpri k hf hB
  have hE := abcEvidence_mean hcat hq hS hV hsim hdist c l hl p hR stp [] hpri a hprior hmono k hatom
  have hN := abcNumerator_mean hcat hq hS hV hsim hdist c l hl p hR stp [] hpri a hprior hmono k hatom hf hB
  have hnB : ∀ ω, |abcEvidence p.essThresholdResample (abcSmcRun cat S V pri sim dist q c p stp [] ω) k * abcMean f (abcSmcRun cat S V pri sim dist q c p stp [] ω k)|
      ≤ B * abcEvidence p.essThresholdResample (abcSmcRun cat S V pri sim dist q c p stp [] ω) k := fun ω => by
    rw [abs_mul, abs_of_nonneg (abcEvidence_nonneg _ _ _), mul_comm]
    exact mul_le_mul_of_nonneg_right (abcMean_abs_le hB0 hB _) (abcEvidence_nonneg _ _ _)
  have hθ := hN
  have hθB : |abcPosteriorMean (simulated (ideal.map pri) sim) dist (AbcSmc.scheduleAt l k) f| ≤ B := by
    rw [abcPosteriorMean, abs_div, abs_of_pos hm0, div_le_iff₀ hm0, ← hN, ← hE, ← integral_const_mul]
    refine (abs_integral_le_integral_abs).trans (integral_mono_of_nonneg (ae_of_all _ fun ω => abs_nonneg _) ?_ (ae_of_all _ hnB))
    exact (Integrable.of_bound hLm.aestronglyMeasurable 1 (ae_of_all _ fun ω => by rw [Real.norm_eq_abs, abs_of_nonneg (abcEvidence_nonneg _ _ _)]; exact abcEvidence_le_one _ _ _)).const_mul B
  have h := rareErrors_of_copies (M := 1) (fun r => measurable_subtape (keys r)) (keys_independent keys hk) (fun r => map_subtape (keys r)) hLm hNm (fun ω => abcEvidence_nonneg _ _ _) (fun ω => abcEvidence_le_one _ _ _) hnB
    (fun r ω => abcEvidence_subtape cat q S V pri sim dist c l hl p hR stp (keys r) k ω) (fun r ω => abcNumerator_subtape cat q S V pri sim dist c l hl p hR stp (keys r) k hB ω) hB0 hθB hE
    (by rw [hN, abcPosteriorMean, div_mul_cancel₀ _ hm0.ne'])
  simpa only [one_mul] using h

end

/-! ## A case -/

/-- Prior uniform on `[0, 1)`, data with one normal error, distance to the observation 1, thresholds 2 and 1, ten particles, after any number of updates, keys from one split: the average of the estimates of 200 runs is off by 0.1 or more with
probability at most `2 exp (-4)`, and the posterior probabilities of data above the observation have exponentially rare errors. -/
example (key : Keys.Key) (cat : (Fin 10 → Fl) → ℝ → Fin 10) (hcat : IsCategorical cat) (k : ℕ) : ∃ q : ℝ → ℝ, IsNormalDraw q ∧
    let run := fun r ω => abcSmcRun cat (seg 1) (fun _ => Real.log 1) (unifDraw 1) (fun x τ => x 0 + q (τ ([], 0))) (fun y => |y - 1|) q ⟨some (some [2, 1]), 2⟩ ⟨3, 9 / 10, 1 / 2, 1 / 100⟩ (fun _ => 2) (r :: key) ω
    let J := simulated (ideal.map (unifDraw 1)) fun x τ => x 0 + q (τ ([], 0))
    ideal.real {ω | 1 / 10 ≤ |runsMean (fun _ => 1) (fun r => abcEvidence (1 / 2) (run r ω) k) 200 - J.real {z | |z.2 - 1| ≤ AbcSmc.scheduleAt [2, 1] k}|} ≤ 2 * Real.exp (-4) ∧
      RareErrors ideal (abcPosteriorMean J (fun y => |y - 1|) (AbcSmc.scheduleAt [2, 1] k) (Set.indicator {z | 1 < z.2} 1)) (fun ε => (J.real {z | |z.2 - 1| ≤ AbcSmc.scheduleAt [2, 1] k} * ε) ^ 2 / (2 * (2 * 1 + ε) ^ 2))
        (fun r ω => abcEvidence (1 / 2) (run r ω) k) fun r ω => abcMean (Set.indicator {z | 1 < z.2} 1) (run r ω k) := by
  obtain ⟨q, hq⟩ := exists_isNormalDraw
  have hp : IsProbabilityMeasure (ideal.map (unifDraw 1)) := Measure.isProbabilityMeasure_map (measurable_unifDraw 1).aemeasurable
  have hsim := measurable_noisySim hq
  have hmono : ∀ j, AbcSmc.scheduleAt [2, 1] (j + 1) ≤ AbcSmc.scheduleAt [2, 1] j := fun j => by rcases j with - | - | j <;> norm_num [AbcSmc.scheduleAt]
  have hdist : Measurable fun y : ℝ => |y - 1| := by fun_prop
  have hprior : ideal.map (unifDraw 1) = (1 : ℝ≥0∞) • target (seg 1) (fun _ => Real.log 1) := by rw [one_smul]; exact unifDraw_law one_pos
  have hB : MeasurableSet {z : (Fin 1 → ℝ) × ℝ | 1 < z.2} := measurableSet_lt measurable_const measurable_snd
  have hs0 : 0 < AbcSmc.scheduleAt [2, 1] k := by rcases k with - | - | k <;> norm_num [AbcSmc.scheduleAt]
  have h1 := C166_abc_evidence (d := 1) hq (measurableSet_seg 1) (V := fun _ => Real.log 1) measurable_const hsim hdist [2, 1] (measurable_unifDraw 1) 1 hprior hmono k (fun j _ => noisySim_no_atom hq _ _) hcat
    ⟨some (some [2, 1]), 2⟩ rfl ⟨3, 9 / 10, 1 / 2, 1 / 100⟩ (by norm_num) (fun _ => 2) (fun r => r :: key) (fun a b h => below_disjoint h) 200 (1 / 10) (by norm_num)
  refine ⟨q, hq, h1.trans_eq (by norm_num), C166_abc_mean (d := 1) hq (measurableSet_seg 1) (V := fun _ => Real.log 1) measurable_const hsim hdist [2, 1] (measurable_unifDraw 1) 1 hprior hmono k (fun j _ => noisySim_no_atom hq _ _) hcat
    ⟨some (some [2, 1]), 2⟩ rfl ⟨3, 9 / 10, 1 / 2, 1 / 100⟩ (by norm_num) (fun _ => 2) (fun r => r :: key) (fun a b h => below_disjoint h) (noisySim_pos hq hs0 _) _ (measurable_one.indicator hB) 1 fun z => ?_⟩
  by_cases hz : z ∈ {z : (Fin 1 → ℝ) × ℝ | 1 < z.2}
  · rw [Set.indicator_of_mem hz]; simp
  · rw [Set.indicator_of_notMem hz]; simp

end Mocat.Props
