import Verif.Props.PooledAbcSmc
import Verif.Lemmas.SubtapeRuns
/-!
# C165: error bars across pooled runs of ABC-SMC are honest
-/
namespace Mocat.Props
open Mocat Mocat.Mcmc Mocat.Abc Mocat.AbcSmc Mocat.Ideal Mocat.Meas MeasureTheory ProbabilityTheory
open scoped ENNReal

variable {d : ℕ} {D : Type*}

/-! ## An ABC-SMC run is a function of the part of the tape of its key -/

theorem abcDraws_subtape (q : ℝ → ℝ) (k κ : Keys.Key) (ω : Tape) : abcDraws q d (k ++ κ) ω = abcDraws q d k (subtape κ ω) := by
  unfold abcDraws
  rw [subtape_subtape]
  rfl

theorem abcMoves_subtape {S : Set (Fin d → ℝ)} {V : (Fin d → ℝ) → ℝ} {sim : (Fin d → ℝ) → Tape → D} {dist : D → ℝ} {q : ℝ → ℝ} (R : ℕ) (t : ℝ) (stp : Fin d → ℝ) (k κ : Keys.Key) (z : (Fin d → ℝ) × D) (ω : Tape) :
    abcMoves S V sim dist q R t stp (k ++ κ) z ω = abcMoves S V sim dist q R t stp k z (subtape κ ω) :=
  tapeIter_subtape (fun k => abcDraws_subtape q k κ ω) (fun _ => rfl) _ _ _ _

theorem iter_subtape {n : ℕ} {Z : Type*} {A : ℕ → Set Z} {cat : Finset (Fin n) → ℝ → Fin n} {C : Set (Finset (Fin n))} {mv : ℕ → Keys.Key → Z → Tape → Z} {κ : Keys.Key} {ω : Tape}
    (hm : ∀ t k z, mv t (k ++ κ) z ω = mv t k z (subtape κ ω)) (a : Keys.Key) (R : Alive.St n Z) (k : ℕ) : Alive.iter A cat C mv (a ++ κ) R k ω = Alive.iter A cat C mv a R k (subtape κ ω) := by
  induction k with
  | zero => rfl
  | succ k ih =>
    rw [Alive.iter, Alive.iter, ih]
    unfold Alive.step Alive.value
    have e : ∀ (i : Fin n) z, mv k ((i : ℕ) :: Smc.keyAt n (a ++ κ) k) z ω = mv k ((i : ℕ) :: Smc.keyAt n a k) z (subtape κ ω) := fun i z => by rw [keyAt_append]; exact hm k ((i : ℕ) :: Smc.keyAt n a k) z
    have e' : ∀ i : ℕ, ω (n :: Smc.keyAt n (a ++ κ) k, i) = subtape κ ω (n :: Smc.keyAt n a k, i) := fun i => by rw [keyAt_append]; rfl
    simp only [e, e']

section
variable {n : ℕ} [NeZero n] (cat : (Fin n → Fl) → ℝ → Fin n) (q : ℝ → ℝ) (S : Set (Fin d → ℝ)) (V : (Fin d → ℝ) → ℝ) (pri : Tape → Fin d → ℝ) (sim : (Fin d → ℝ) → Tape → D) (dist : D → ℝ)
    (c : Config) (l : List ℝ) (hl : c.schedule = some (some l)) (p : Settings) (hR : 0 < p.mcmcSteps) (stp : Fin d → ℝ) (key : Keys.Key)
include hl hR

theorem abcRunEst_subtape (k : ℕ) (f : (Fin d → ℝ) × D → ℝ≥0∞) (ω : Tape) :
    abcEstimate p.essThresholdResample f (abcSmcRun cat S V pri sim dist q c p stp key ω) k = abcEstimate p.essThresholdResample f (abcSmcRun cat S V pri sim dist q c p stp [] (subtape key ω)) k := by
  have e0 : abcStart (n := n) pri sim key ω = abcStart pri sim [] (subtape key ω) := by
    funext i
    unfold abcStart
    rw [subtape_subtape, subtape_subtape]
    rfl
  have e1 := abcEstimate_eq (S := S) (V := V) (pri := pri) (sim := sim) (dist := dist) (q := q) cat c p stp (n :: n :: 0 :: key) (abcStart pri sim key ω) ω hR l hl f k
  have e2 := abcEstimate_eq (S := S) (V := V) (pri := pri) (sim := sim) (dist := dist) (q := q) cat c p stp [n, n, 0] (abcStart pri sim [] (subtape key ω)) (subtape key ω) hR l hl f k
  have e3 := iter_subtape (A := fun k => within (d := d) dist (AbcSmc.scheduleAt l k)) (cat := aliveCat cat) (C := aliveCrit n p.essThresholdResample)
    (mv := fun k => abcMoves S V sim dist q p.mcmcSteps (AbcSmc.scheduleAt l k) stp) (κ := key) (ω := ω) (fun t k z => abcMoves_subtape _ _ _ _ _ _ _) [n, n, 0] (abcStart pri sim key ω, 1) k
  rw [← e0] at e2
  refine e1.trans (Eq.trans ?_ (e2.symm.trans ?_))
  · exact congrArg _ e3
  · rw [e0]
    rfl

theorem abcEvidence_subtape (k : ℕ) (ω : Tape) :
    abcEvidence p.essThresholdResample (abcSmcRun cat S V pri sim dist q c p stp key ω) k = abcEvidence p.essThresholdResample (abcSmcRun cat S V pri sim dist q c p stp [] (subtape key ω)) k := by
  rw [← abcEvidence_eq, ← abcEvidence_eq, abcRunEst_subtape cat q S V pri sim dist c l hl p hR stp key]

theorem abcNumerator_subtape (k : ℕ) {f : (Fin d → ℝ) × D → ℝ} {B : ℝ} (hB : ∀ z, |f z| ≤ B) (ω : Tape) :
    abcEvidence p.essThresholdResample (abcSmcRun cat S V pri sim dist q c p stp key ω) k * abcMean f (abcSmcRun cat S V pri sim dist q c p stp key ω k)
      = abcEvidence p.essThresholdResample (abcSmcRun cat S V pri sim dist q c p stp [] (subtape key ω)) k * abcMean f (abcSmcRun cat S V pri sim dist q c p stp [] (subtape key ω) k) := by
  rw [abcEvidence_mul _ _ _ hB, abcEvidence_mul _ _ _ hB, abcRunEst_subtape cat q S V pri sim dist c l hl p hR stp key, abcEvidence_subtape cat q S V pri sim dist c l hl p hR stp key]

end

/-! ## C165 -/

section
variable [MeasurableSpace D] {q : ℝ → ℝ} (hq : IsNormalDraw q) {S : Set (Fin d → ℝ)} (hS : MeasurableSet S)
    {V : (Fin d → ℝ) → ℝ} (hV : Measurable V) {pri : Tape → Fin d → ℝ} {sim : (Fin d → ℝ) → Tape → D} (hsim : Measurable fun z : (Fin d → ℝ) × Tape => sim z.1 z.2) {dist : D → ℝ} (hdist : Measurable dist)
    (l : List ℝ) (hpri : Measurable pri) (a : ℝ≥0∞) (hprior : ideal.map pri = a • target S V) (hmono : ∀ j, AbcSmc.scheduleAt l (j + 1) ≤ AbcSmc.scheduleAt l j)
    (k : ℕ) (hatom : ∀ j < k, simulated (ideal.map pri) sim {z | dist z.2 = AbcSmc.scheduleAt l j} = 0)
    {n : ℕ} [NeZero n] {cat : (Fin n → Fl) → ℝ → Fin n} (hcat : IsCategorical cat) (c : Config) (hl : c.schedule = some (some l)) (p : Settings) (hR : 0 < p.mcmcSteps) (stp : Fin d → ℝ)
    (keys : ℕ → Keys.Key) (hk : ∀ a b, a ≠ b → Disjoint (below (keys a)) (below (keys b)))
include hq hS hV hsim hdist hpri hprior hmono hatom hcat hl hR hk

/-- C165, ABC posterior expectations: runs weighted by their estimates of the probability of data within the threshold. The only exception is a run whose mean is exact whenever its weight is not zero. -/
theorem C165_abc_mean (hpos : 0 < simulated (ideal.map pri) sim {z | dist z.2 ≤ AbcSmc.scheduleAt l k}) (f : (Fin d → ℝ) × D → ℝ) (hf : Measurable f) (B : ℝ) (hB : ∀ z, |f z| ≤ B)
    (key : Keys.Key) (hne : ¬∀ᵐ ω ∂ideal, abcEvidence p.essThresholdResample (abcSmcRun cat S V pri sim dist q c p stp key ω) k = 0
      ∨ abcMean f (abcSmcRun cat S V pri sim dist q c p stp key ω k) = abcPosteriorMean (simulated (ideal.map pri) sim) dist (AbcSmc.scheduleAt l k) f) :
    HonestRuns ideal (abcPosteriorMean (simulated (ideal.map pri) sim) dist (AbcSmc.scheduleAt l k) f) (fun r ω => abcEvidence p.essThresholdResample (abcSmcRun cat S V pri sim dist q c p stp (keys r) ω) k)
      fun r ω => abcMean f (abcSmcRun cat S V pri sim dist q c p stp (keys r) ω k) := by
  have hpair : Measurable fun z : (Fin d → ℝ) × Tape => (z.1, sim z.1 z.2) := measurable_fst.prodMk hsim
  have hprob : IsProbabilityMeasure (ideal.map pri) := Measure.isProbabilityMeasure_map hpri.aemeasurable
  have hprob2 : IsProbabilityMeasure (simulated (ideal.map pri) sim) := Measure.isProbabilityMeasure_map hpair.aemeasurable
  have hB0 : 0 ≤ B := (abs_nonneg _).trans (hB ((fun _ => 0 : Fin d → ℝ), sim (fun _ => 0) (fun _ => 0)))
  have hm0 : 0 < (simulated (ideal.map pri) sim).real {z | dist z.2 ≤ AbcSmc.scheduleAt l k} := ENNReal.toReal_pos hpos.ne' (measure_ne_top _ _)
  have hLm := abcEvidence_measurable hcat hq hS hV hsim hdist c l hl p hR stp [] hpri k
  have hNm := abcNumerator_measurable hcat hq hS hV hsim hdist c l hl p hR stp [] hpri k hf hB
  have hE := abcEvidence_mean hcat hq hS hV hsim hdist c l hl p hR stp [] hpri a hprior hmono k hatom
  have hN := abcNumerator_mean hcat hq hS hV hsim hdist c l hl p hR stp [] hpri a hprior hmono k hatom hf hB
  refine honestRuns hLm hNm (MemLp.of_bound hLm.aestronglyMeasurable 1 (ae_of_all _ fun ω => by rw [Real.norm_eq_abs, abs_of_nonneg (abcEvidence_nonneg _ _ _)]; exact abcEvidence_le_one _ _ _))
    (MemLp.of_bound hNm.aestronglyMeasurable B (ae_of_all _ fun ω => by
      rw [Real.norm_eq_abs, abs_mul, abs_of_nonneg (abcEvidence_nonneg _ _ _)]
      exact (mul_le_mul (abcEvidence_le_one _ _ _) (abcMean_abs_le hB0 hB _) (abs_nonneg _) zero_le_one).trans_eq (one_mul B))) keys hk
    (fun r ω => abcEvidence_subtape cat q S V pri sim dist c l hl p hR stp (keys r) k ω) (fun r ω => abcNumerator_subtape cat q S V pri sim dist c l hl p hR stp (keys r) k hB ω) (fun ω h => by rw [h, zero_mul])
    (by rw [hE]; exact hm0) (by rw [hE, hN, abcPosteriorMean, div_mul_cancel₀ _ hm0.ne']) fun h => hne ?_
  filter_upwards [ae_subtape key h] with ω hω
  rw [← abcNumerator_subtape cat q S V pri sim dist c l hl p hR stp key k hB ω, ← abcEvidence_subtape cat q S V pri sim dist c l hl p hR stp key k ω, mul_comm _ (abcEvidence _ _ _), ← mul_sub] at hω
  rcases mul_eq_zero.1 hω with h1 | h1
  · exact Or.inl h1
  · exact Or.inr (sub_eq_zero.1 h1)

/-- C165, the probability of data within the threshold: plain averages of the estimates. The only exception is an estimate that is almost surely constant. -/
theorem C165_abc_evidence (key : Keys.Key) (hne : ¬∃ v : ℝ, ∀ᵐ ω ∂ideal, abcEvidence p.essThresholdResample (abcSmcRun cat S V pri sim dist q c p stp key ω) k = v) :
    HonestRuns ideal ((simulated (ideal.map pri) sim).real {z | dist z.2 ≤ AbcSmc.scheduleAt l k}) (fun _ _ => 1) fun r ω => abcEvidence p.essThresholdResample (abcSmcRun cat S V pri sim dist q c p stp (keys r) ω) k := by
  have hLm := abcEvidence_measurable hcat hq hS hV hsim hdist c l hl p hR stp [] hpri k
  have hE := abcEvidence_mean hcat hq hS hV hsim hdist c l hl p hR stp [] hpri a hprior hmono k hatom
  rw [← hE]
  refine honestRuns_one hLm (MemLp.of_bound hLm.aestronglyMeasurable 1 (ae_of_all _ fun ω => by rw [Real.norm_eq_abs, abs_of_nonneg (abcEvidence_nonneg _ _ _)]; exact abcEvidence_le_one _ _ _)) keys hk
    (fun r ω => abcEvidence_subtape cat q S V pri sim dist c l hl p hR stp (keys r) k ω) fun h => hne ⟨∫ ω, abcEvidence p.essThresholdResample (abcSmcRun cat S V pri sim dist q c p stp [] ω) k ∂ideal, ?_⟩
  filter_upwards [ae_subtape key h] with ω hω
  rw [abcEvidence_subtape cat q S V pri sim dist c l hl p hR stp key k ω]
  exact hω

end

/-! ## A case -/

/-- Data with a normal error fall into any interval with positive probability. -/
theorem noisySim_Icc {q : ℝ → ℝ} (hq : IsNormalDraw q) {u v : ℝ} (h : u < v) (μ : Measure (Fin 1 → ℝ)) [IsProbabilityMeasure μ] : 0 < simulated μ (fun x τ => x 0 + q (τ ([], 0))) {z | u ≤ z.2 ∧ z.2 ≤ v} := by
  have hms : MeasurableSet {z : (Fin 1 → ℝ) × ℝ | u ≤ z.2 ∧ z.2 ≤ v} := (measurableSet_le measurable_const measurable_snd).inter (measurableSet_le measurable_snd measurable_const)
  have hpair : Measurable fun z : (Fin 1 → ℝ) × Tape => (z.1, z.1 0 + q (z.2 ([], 0))) := measurable_fst.prodMk (measurable_noisySim hq)
  rw [pos_iff_ne_zero]
  intro h'
  unfold simulated at h'
  rw [Measure.map_apply hpair hms, Measure.measure_prod_null (hpair hms)] at h'
  have hx : ∀ x : Fin 1 → ℝ, ideal (Prod.mk x ⁻¹' ((fun z : (Fin 1 → ℝ) × Tape => (z.1, z.1 0 + q (z.2 ([], 0)))) ⁻¹' {z | u ≤ z.2 ∧ z.2 ≤ v})) ≠ 0 := by
    intro x h0
    have e : Prod.mk x ⁻¹' ((fun z : (Fin 1 → ℝ) × Tape => (z.1, z.1 0 + q (z.2 ([], 0)))) ⁻¹' {z | u ≤ z.2 ∧ z.2 ≤ v}) = {τ : Tape | τ ([], 0) ∈ q ⁻¹' Set.Icc (u - x 0) (v - x 0)} := by
      ext τ
      simp only [Set.mem_preimage, Set.mem_ofPred_eq, Set.mem_Icc]
      constructor
      · rintro ⟨h1, h2⟩; exact ⟨by linarith, by linarith⟩
      · rintro ⟨h1, h2⟩; exact ⟨by linarith, by linarith⟩
    rw [e, site (([], 0) : Site) (hq.measurable measurableSet_Icc), ← Measure.map_apply hq.measurable measurableSet_Icc, hq.law] at h0
    have h1 := (gaussianReal_absolutelyContinuous' 0 (one_ne_zero : (1 : NNReal) ≠ 0)) h0
    rw [Real.volume_Icc, ENNReal.ofReal_eq_zero] at h1
    linarith
  have hf : ∀ᵐ _x ∂μ, False := h'.mono fun x hx' => hx x hx'
  rw [Filter.eventually_false_iff_eq_bot, ae_eq_bot] at hf
  exact IsProbabilityMeasure.ne_zero μ hf

theorem abcEvidence_single (thr : ℝ) (ens : ℕ → Ensemble 1 (Fin d → ℝ) D) : abcEvidence thr ens 0 = 0 ∨ abcEvidence thr ens 0 = 1 := by
  unfold abcEvidence
  have h1 : (liveSet (ens 0)).card ≤ 1 := (Finset.card_le_univ _).trans_eq (Fintype.card_fin 1)
  interval_cases (liveSet (ens 0)).card <;> simp

/-- The hypotheses are met: prior uniform on `[0, 1)`, data with one normal error, distance to the observation 1, thresholds 2 and 1, runs of one particle before the first update, whose keys are the splits of one key. -/
example (key : Keys.Key) (cat : (Fin 1 → Fl) → ℝ → Fin 1) (hcat : IsCategorical cat) : ∃ q : ℝ → ℝ, IsNormalDraw q ∧
    HonestRuns ideal ((simulated (ideal.map (unifDraw 1)) fun x τ => x 0 + q (τ ([], 0))).real {z | |z.2 - 1| ≤ AbcSmc.scheduleAt [2, 1] 0}) (fun _ _ => 1) fun r ω => abcEvidence (1 / 2)
      (abcSmcRun cat (seg 1) (fun _ => Real.log 1) (unifDraw 1) (fun x τ => x 0 + q (τ ([], 0))) (fun y => |y - 1|) q ⟨some (some [2, 1]), 2⟩ ⟨3, 9 / 10, 1 / 2, 1 / 100⟩ (fun _ => 2) (r :: key) ω) 0 := by
  obtain ⟨q, hq⟩ := exists_isNormalDraw
  have hp : IsProbabilityMeasure (ideal.map (unifDraw 1)) := Measure.isProbabilityMeasure_map (measurable_unifDraw 1).aemeasurable
  have hsim := measurable_noisySim hq
  have hp2 : IsProbabilityMeasure (simulated (ideal.map (unifDraw 1)) fun x τ => x 0 + q (τ ([], 0))) := Measure.isProbabilityMeasure_map (measurable_fst.prodMk hsim).aemeasurable
  have hmono : ∀ j, AbcSmc.scheduleAt [2, 1] (j + 1) ≤ AbcSmc.scheduleAt [2, 1] j := fun j => by rcases j with - | - | j <;> norm_num [AbcSmc.scheduleAt]
  have hdist : Measurable fun y : ℝ => |y - 1| := by fun_prop
  have hprior : ideal.map (unifDraw 1) = (1 : ℝ≥0∞) • target (seg 1) (fun _ => Real.log 1) := by rw [one_smul]; exact unifDraw_law one_pos
  refine ⟨q, hq, C165_abc_evidence (d := 1) hq (measurableSet_seg 1) (V := fun _ => Real.log 1) measurable_const hsim hdist [2, 1] (measurable_unifDraw 1) 1 hprior hmono 0 (fun j _ => noisySim_no_atom hq _ _) hcat
    ⟨some (some [2, 1]), 2⟩ rfl ⟨3, 9 / 10, 1 / 2, 1 / 100⟩ (by norm_num) (fun _ => 2) (fun r => r :: key) (fun a b h => below_disjoint h) [] ?_⟩
  rintro ⟨v, hv⟩
  have hE := abcEvidence_mean (d := 1) hcat hq (measurableSet_seg 1) (V := fun _ => Real.log 1) measurable_const hsim hdist ⟨some (some [2, 1]), 2⟩ [2, 1] rfl ⟨3, 9 / 10, 1 / 2, 1 / 100⟩ (by norm_num) (fun _ => 2) []
    (measurable_unifDraw 1) 1 hprior hmono 0 (fun j _ => noisySim_no_atom hq _ _)
  have h01 : v = 0 ∨ v = 1 := by
    obtain ⟨ω, hω⟩ := hv.exists
    rw [← hω]
    exact abcEvidence_single _ _
  rw [integral_congr_ae hv, integral_const, probReal_univ, one_smul] at hE
  have hs0 : AbcSmc.scheduleAt [2, 1] 0 = 2 := by norm_num [AbcSmc.scheduleAt]
  rw [hs0] at hE
  have hms : MeasurableSet {z : (Fin 1 → ℝ) × ℝ | |z.2 - 1| ≤ 2} := measurableSet_le (hdist.comp measurable_snd) measurable_const
  rcases h01 with h | h
  · rw [h] at hE
    have h2 := noisySim_pos hq (zero_lt_two) (ideal.map (unifDraw 1))
    exact h2.ne' ((measureReal_eq_zero_iff (measure_ne_top _ _)).1 hE.symm)
  · rw [h] at hE
    have h2 := noisySim_Icc hq (by norm_num : (4 : ℝ) < 5) (ideal.map (unifDraw 1))
    have h3 : (simulated (ideal.map (unifDraw 1)) fun x τ => x 0 + q (τ ([], 0))) {z | |z.2 - 1| ≤ 2}ᶜ = 0 := by
      rw [← measureReal_eq_zero_iff (measure_ne_top _ _), probReal_compl_eq_one_sub hms, ← hE, sub_self]
    refine h2.ne' (measure_mono_null (fun z hz => ?_) h3)
    intro hz'
    have := (abs_le.1 (show |z.2 - 1| ≤ 2 from hz')).2
    have := hz.1
    linarith

theorem abcMean_single (A : Set ((Fin d → ℝ) × D)) (ens : Ensemble 1 (Fin d → ℝ) D) : abcMean (A.indicator 1) ens = 0 ∨ abcMean (A.indicator 1) ens = 1 := by
  unfold abcMean
  have h1 : (liveSet ens).card ≤ 1 := (Finset.card_le_univ _).trans_eq (Fintype.card_fin 1)
  rcases Nat.le_one_iff_eq_zero_or_eq_one.1 h1 with h | h
  · rw [Finset.card_eq_zero.1 h]
    simp
  · obtain ⟨i, hi⟩ := Finset.card_eq_one.1 h
    rw [hi, Finset.sum_singleton, Finset.card_singleton, Nat.cast_one, div_one]
    by_cases hz : ((ens i).mc.value, (ens i).mc.data) ∈ A
    · right; rw [Set.indicator_of_mem hz]; rfl
    · left; exact Set.indicator_of_notMem hz _

/-- In the same case, the posterior probability of data above the observation. -/
example (key : Keys.Key) (cat : (Fin 1 → Fl) → ℝ → Fin 1) (hcat : IsCategorical cat) : ∃ q : ℝ → ℝ, IsNormalDraw q ∧
    HonestRuns ideal (abcPosteriorMean (simulated (ideal.map (unifDraw 1)) fun x τ => x 0 + q (τ ([], 0))) (fun y => |y - 1|) (AbcSmc.scheduleAt [2, 1] 0) (Set.indicator {z | 1 < z.2} 1))
      (fun r ω => abcEvidence (1 / 2) (abcSmcRun cat (seg 1) (fun _ => Real.log 1) (unifDraw 1) (fun x τ => x 0 + q (τ ([], 0))) (fun y => |y - 1|) q ⟨some (some [2, 1]), 2⟩ ⟨3, 9 / 10, 1 / 2, 1 / 100⟩ (fun _ => 2) (r :: key) ω) 0)
      fun r ω => abcMean (Set.indicator {z | 1 < z.2} 1)
        (abcSmcRun cat (seg 1) (fun _ => Real.log 1) (unifDraw 1) (fun x τ => x 0 + q (τ ([], 0))) (fun y => |y - 1|) q ⟨some (some [2, 1]), 2⟩ ⟨3, 9 / 10, 1 / 2, 1 / 100⟩ (fun _ => 2) (r :: key) ω 0) := by
  obtain ⟨q, hq⟩ := exists_isNormalDraw
  have hp : IsProbabilityMeasure (ideal.map (unifDraw 1)) := Measure.isProbabilityMeasure_map (measurable_unifDraw 1).aemeasurable
  have hsim := measurable_noisySim hq
  have hp2 : IsProbabilityMeasure (simulated (ideal.map (unifDraw 1)) fun x τ => x 0 + q (τ ([], 0))) := Measure.isProbabilityMeasure_map (measurable_fst.prodMk hsim).aemeasurable
  have hmono : ∀ j, AbcSmc.scheduleAt [2, 1] (j + 1) ≤ AbcSmc.scheduleAt [2, 1] j := fun j => by rcases j with - | - | j <;> norm_num [AbcSmc.scheduleAt]
  have hdist : Measurable fun y : ℝ => |y - 1| := by fun_prop
  have hprior : ideal.map (unifDraw 1) = (1 : ℝ≥0∞) • target (seg 1) (fun _ => Real.log 1) := by rw [one_smul]; exact unifDraw_law one_pos
  have hB : MeasurableSet {z : (Fin 1 → ℝ) × ℝ | 1 < z.2} := measurableSet_lt measurable_const measurable_snd
  have hs0 : AbcSmc.scheduleAt [2, 1] 0 = 2 := by norm_num [AbcSmc.scheduleAt]
  have hms : MeasurableSet {z : (Fin 1 → ℝ) × ℝ | |z.2 - 1| ≤ 2} := measurableSet_le (hdist.comp measurable_snd) measurable_const
  have hApos : 0 < simulated (ideal.map (unifDraw 1)) (fun x τ => x 0 + q (τ ([], 0))) {z | |z.2 - 1| ≤ AbcSmc.scheduleAt [2, 1] 0} := by
    rw [hs0]
    exact noisySim_pos hq zero_lt_two _
  have hm0 : 0 < (simulated (ideal.map (unifDraw 1)) fun x τ => x 0 + q (τ ([], 0))).real {z | |z.2 - 1| ≤ AbcSmc.scheduleAt [2, 1] 0} := ENNReal.toReal_pos hApos.ne' (measure_ne_top _ _)
  have hE := abcEvidence_mean (d := 1) hcat hq (measurableSet_seg 1) (V := fun _ => Real.log 1) measurable_const hsim hdist ⟨some (some [2, 1]), 2⟩ [2, 1] rfl ⟨3, 9 / 10, 1 / 2, 1 / 100⟩ (by norm_num) (fun _ => 2) []
    (measurable_unifDraw 1) 1 hprior hmono 0 (fun j _ => noisySim_no_atom hq _ _)
  refine ⟨q, hq, C165_abc_mean (d := 1) hq (measurableSet_seg 1) (V := fun _ => Real.log 1) measurable_const hsim hdist [2, 1] (measurable_unifDraw 1) 1 hprior hmono 0 (fun j _ => noisySim_no_atom hq _ _) hcat
    ⟨some (some [2, 1]), 2⟩ rfl ⟨3, 9 / 10, 1 / 2, 1 / 100⟩ (by norm_num) (fun _ => 2) (fun r => r :: key) (fun a b h => below_disjoint h) hApos _ (measurable_one.indicator hB) 1 (fun z => by
      by_cases hz : z ∈ {z : (Fin 1 → ℝ) × ℝ | 1 < z.2}
      · rw [Set.indicator_of_mem hz]; simp
      · rw [Set.indicator_of_notMem hz]; simp) [] fun h => ?_⟩
  have hint : ∫ z in {z : (Fin 1 → ℝ) × ℝ | |z.2 - 1| ≤ 2}, Set.indicator {z | 1 < z.2} 1 z ∂(simulated (ideal.map (unifDraw 1)) fun x τ => x 0 + q (τ ([], 0)))
      = (simulated (ideal.map (unifDraw 1)) fun x τ => x 0 + q (τ ([], 0))).real ({z | 1 < z.2} ∩ {z | |z.2 - 1| ≤ 2}) := by
    rw [integral_indicator_one hB, measureReal_restrict_apply hB]
  have h0 : abcPosteriorMean (simulated (ideal.map (unifDraw 1)) fun x τ => x 0 + q (τ ([], 0))) (fun y => |y - 1|) (AbcSmc.scheduleAt [2, 1] 0) (Set.indicator {z | 1 < z.2} 1) ≠ 0 := by
    rw [hs0] at hm0 ⊢
    rw [abcPosteriorMean, hint]
    refine div_ne_zero (fun h1 => ?_) hm0.ne'
    refine (noisySim_Icc hq (by norm_num : (2 : ℝ) < 3) (ideal.map (unifDraw 1))).ne' (measure_mono_null (fun z hz => ?_) ((measureReal_eq_zero_iff (measure_ne_top _ _)).1 h1))
    have h5 : (2 : ℝ) ≤ z.2 ∧ z.2 ≤ 3 := hz
    exact ⟨lt_of_lt_of_le one_lt_two h5.1, show |z.2 - 1| ≤ 2 from abs_le.2 ⟨by linarith, by linarith⟩⟩
  have h1 : abcPosteriorMean (simulated (ideal.map (unifDraw 1)) fun x τ => x 0 + q (τ ([], 0))) (fun y => |y - 1|) (AbcSmc.scheduleAt [2, 1] 0) (Set.indicator {z | 1 < z.2} 1) ≠ 1 := by
    rw [hs0] at hm0 ⊢
    rw [abcPosteriorMean, hint]
    intro h1
    rw [div_eq_one_iff_eq hm0.ne'] at h1
    have h2 := measureReal_inter_add_sdiff (μ := simulated (ideal.map (unifDraw 1)) fun x τ => x 0 + q (τ ([], 0))) (s := {z : (Fin 1 → ℝ) × ℝ | |z.2 - 1| ≤ 2}) hB
    rw [Set.inter_comm, h1] at h2
    have h3 : (simulated (ideal.map (unifDraw 1)) fun x τ => x 0 + q (τ ([], 0))).real ({z | |z.2 - 1| ≤ 2} \ {z | 1 < z.2}) = 0 := by linarith
    refine (noisySim_Icc hq (by norm_num : (0 : ℝ) < 1) (ideal.map (unifDraw 1))).ne' (measure_mono_null (fun z hz => ?_) ((measureReal_eq_zero_iff (measure_ne_top _ _)).1 h3))
    have h5 : (0 : ℝ) ≤ z.2 ∧ z.2 ≤ 1 := hz
    exact ⟨show |z.2 - 1| ≤ 2 from abs_le.2 ⟨by linarith, by linarith⟩, fun h4 => absurd h5.2 (not_le.2 h4)⟩
  have hz : (fun ω => abcEvidence (1 / 2) (abcSmcRun cat (seg 1) (fun _ => Real.log 1) (unifDraw 1) (fun x τ => x 0 + q (τ ([], 0))) (fun y => |y - 1|) q ⟨some (some [2, 1]), 2⟩ ⟨3, 9 / 10, 1 / 2, 1 / 100⟩ (fun _ => 2) [] ω) 0)
      =ᵐ[ideal] fun _ => 0 := by
    filter_upwards [h] with ω hω
    rcases hω with hω | hω
    · exact hω
    · rcases abcMean_single {z | 1 < z.2} (abcSmcRun cat (seg 1) (fun _ => Real.log 1) (unifDraw 1) (fun x τ => x 0 + q (τ ([], 0))) (fun y => |y - 1|) q ⟨some (some [2, 1]), 2⟩ ⟨3, 9 / 10, 1 / 2, 1 / 100⟩ (fun _ => 2) [] ω 0) with h' | h'
      · exact absurd (hω.symm.trans h') h0
      · exact absurd (hω.symm.trans h') h1
  rw [integral_congr_ae hz, integral_zero] at hE
  exact hm0.ne hE

end Mocat.Props
