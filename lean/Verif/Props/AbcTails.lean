import Verif.Props.AbcAccepted
import Verif.Lemmas.RunTails
/-!
# C167: large errors of VanillaABC are exponentially rare
-/
namespace Mocat.Props
open Mocat Mocat.Mcmc Mocat.Abc Mocat.Ideal Mocat.Meas MeasureTheory ProbabilityTheory
open scoped ENNReal

variable {d : ℕ} {D : Type*}

/-! ## Proofs -/

section
variable [MeasurableSpace D] {S : Set (Fin d → ℝ)} {V : (Fin d → ℝ) → ℝ} {pri : Tape → Fin d → ℝ} {sim : (Fin d → ℝ) → Tape → D} {dist : D → Fl} {key : Keys.Key} {thr : Fl}

theorem kept_length {Ω Z : Type*} (X : ℕ → Ω → Z) (B : Set Z) (n : ℕ) (ω : Ω) : ((Accepted.kept X B n ω).length : ℝ) = ∑ i ∈ Finset.range n, B.indicator 1 (X i ω) := by
  induction n with
  | zero => simp [Accepted.kept]
  | succ n ih =>
    rw [Finset.sum_range_succ, ← ih]
    simp only [Accepted.kept, List.range_succ, List.map_append, List.filter_append, List.length_append, Nat.cast_add]
    congr 1
    by_cases h : X n ω ∈ B <;> simp [h]

omit [MeasurableSpace D] in
theorem vanilla_weight (i : ℕ) (ω : Tape) :
    Metrics.wexp (abcRow S V pri pri sim dist vanillaLogWeight key thr i ω).logWeight = {z : (Fin d → ℝ) × D | z.2 ∈ ball dist thr}.indicator 1 (rowPair S V pri pri sim dist vanillaLogWeight key thr i ω) := by
  have h := rowWeight_vanilla (S := S) (V := V) (pri := pri) (sim := sim) (dist := dist) (key := key) (thr := thr) i ω
  have h0 : 0 ≤ Metrics.wexp (abcRow S V pri pri sim dist vanillaLogWeight key thr i ω).logWeight := by
    generalize (abcRow S V pri pri sim dist vanillaLogWeight key thr i ω).logWeight = l
    cases l <;> simp only [Metrics.wexp, le_refl, Real.exp_nonneg]
  have h1 := congrArg ENNReal.toReal h
  rw [rowWeight, ENNReal.toReal_ofReal h0] at h1
  rw [h1, rowPair]
  by_cases hb : (abcRow S V pri pri sim dist vanillaLogWeight key thr i ω).data ∈ ball dist thr
  · rw [Set.indicator_of_mem (by exact hb), Set.indicator_of_mem (by exact hb)]; simp
  · rw [Set.indicator_of_notMem (by exact hb), Set.indicator_of_notMem (by exact hb)]; simp

/-! ## Properties -/

variable (hpri : Measurable pri) (hlaw : ideal.map pri = target S V) (hsim : Measurable fun z : (Fin d → ℝ) × Tape => sim z.1 z.2) (hB : MeasurableSet (ball dist thr))
include hpri hlaw hsim hB

/-- C167, acceptance: in a `VanillaABC` run of `n` rows with a threshold, the fraction accepted differs by `ε` or more from the probability that one simulation from the prior is accepted with probability at most `2 exp (-2 n ε²)`. -/
theorem C167_fraction (n : ℕ) (hn : 1 ≤ n) (ε : ℝ) (hε : 0 < ε) :
    ideal.real {ω | ε ≤ |((acceptedPairs (importanceRun Keys.split Keys.split4 (tapeScenario S V pri sim dist ω) (tapeScenario S V pri sim dist ω).priorSample vanillaLogWeight n none key thr)).length : ℝ) / n
      - (abcTarget S V sim (ball dist thr)).real Set.univ|} ≤ 2 * Real.exp (-(2 * n * ε ^ 2)) := by
  obtain ⟨hZ, hind, _⟩ := rowPair_iid (S := S) (V := V) (dist := dist) (key := key) (thr := thr) hpri hpri hsim vanillaLogWeight
  have hms : MeasurableSet {z : (Fin d → ℝ) × D | z.2 ∈ ball dist thr} := measurable_snd hB
  have hp : IsProbabilityMeasure (ideal.map pri) := Measure.isProbabilityMeasure_map hpri.aemeasurable
  have hps : IsProbabilityMeasure (simulated (ideal.map pri) sim) := Measure.isProbabilityMeasure_map (measurable_fst.prodMk hsim).aemeasurable
  have e : abcTarget S V sim (ball dist thr) = (simulated (ideal.map pri) sim).restrict {z | z.2 ∈ ball dist thr} := by rw [hlaw]; rfl
  have hmean : ∫ z, {z : (Fin d → ℝ) × D | z.2 ∈ ball dist thr}.indicator (1 : (Fin d → ℝ) × D → ℝ) z ∂(simulated (ideal.map pri) sim) = (abcTarget S V sim (ball dist thr)).real Set.univ := by
    rw [integral_indicator_one hms, e, measureReal_restrict_apply MeasurableSet.univ, Set.univ_inter]
  have h := rareErrors_one (M := 1) hZ hind (fun i => vanilla_row_law hpri hsim vanillaLogWeight i) (n := {z : (Fin d → ℝ) × D | z.2 ∈ ball dist thr}.indicator 1) (measurable_one.indicator hms)
    (fun z => Set.indicator_nonneg (fun _ _ => zero_le_one) z) (fun z => Set.indicator_le_self' (fun _ _ => zero_le_one) z) (fun r ω => rfl) hmean n ε hε
  refine le_trans (le_of_eq ?_) (h.trans_eq (by congr 2; ring))
  congr 1
  ext ω
  rw [Set.mem_ofPred_eq, Set.mem_ofPred_eq, accepted_kept n hn ω, kept_length]
  simp [runsMean]

/-- C167, posterior means: the mean of an `f` with values in `[-B, B]` over the accepted simulations of a run of `n` rows differs by `ε` or more from its mean under the ABC posterior with probability at most
`2 exp (-n (c ε)² / (2 (2 B + ε)²))`, where `c` is the probability that one simulation from the prior is accepted. -/
theorem C167_mean (hpos : abcTarget S V sim (ball dist thr) Set.univ ≠ 0) (f : (Fin d → ℝ) × D → ℝ) (hf : Measurable f) (B : ℝ) (hfB : ∀ z, |f z| ≤ B) (n : ℕ) (hn : 1 ≤ n) (ε : ℝ) (hε : 0 < ε) :
    ideal.real {ω | ε ≤ |weightedAverage f (importanceRun Keys.split Keys.split4 (tapeScenario S V pri sim dist ω) (tapeScenario S V pri sim dist ω).priorSample vanillaLogWeight n none key thr)
      - meanUnder (abcTarget S V sim (ball dist thr)) f|} ≤ 2 * Real.exp (-(n * (((abcTarget S V sim (ball dist thr)).real Set.univ * ε) ^ 2 / (2 * (2 * B + ε) ^ 2)))) := by
  obtain ⟨hZ, hind, _⟩ := rowPair_iid (S := S) (V := V) (dist := dist) (key := key) (thr := thr) hpri hpri hsim vanillaLogWeight
  have hms : MeasurableSet {z : (Fin d → ℝ) × D | z.2 ∈ ball dist thr} := measurable_snd hB
  have hp : IsProbabilityMeasure (ideal.map pri) := Measure.isProbabilityMeasure_map hpri.aemeasurable
  have hps : IsProbabilityMeasure (simulated (ideal.map pri) sim) := Measure.isProbabilityMeasure_map (measurable_fst.prodMk hsim).aemeasurable
  have e : abcTarget S V sim (ball dist thr) = (simulated (ideal.map pri) sim).restrict {z | z.2 ∈ ball dist thr} := by rw [hlaw]; rfl
  have hfin : IsFiniteMeasure (abcTarget S V sim (ball dist thr)) := by rw [e]; infer_instance
  obtain ⟨w, hw⟩ : ∃ w : (Fin d → ℝ) × D → ℝ, w = {z | z.2 ∈ ball dist thr}.indicator 1 := ⟨_, rfl⟩
  have hw0 : ∀ z, 0 ≤ w z := fun z => by rw [hw]; exact Set.indicator_nonneg (fun _ _ => zero_le_one) z
  have hw1 : ∀ z, w z ≤ 1 := fun z => by rw [hw]; exact Set.indicator_le_self' (fun _ _ => zero_le_one) z
  have hwm : Measurable w := by rw [hw]; exact measurable_one.indicator hms
  have hmean : ∫ z, w z ∂(simulated (ideal.map pri) sim) = (abcTarget S V sim (ball dist thr)).real Set.univ := by
    rw [hw, integral_indicator_one hms, e, measureReal_restrict_apply MeasurableSet.univ, Set.univ_inter]
  have hc : 0 < (abcTarget S V sim (ball dist thr)).real Set.univ := ENNReal.toReal_pos hpos (measure_ne_top _ _)
  have hnum : ∫ z, w z * f z ∂(simulated (ideal.map pri) sim) = meanUnder (abcTarget S V sim (ball dist thr)) f * (abcTarget S V sim (ball dist thr)).real Set.univ := by
    rw [meanUnder, ← measureReal_def, div_mul_cancel₀ _ hc.ne', e, ← integral_indicator hms]
    refine integral_congr_ae (ae_of_all _ fun z => ?_)
    by_cases hz : z ∈ {z : (Fin d → ℝ) × D | z.2 ∈ ball dist thr}
    · simp only [hw, Set.indicator_of_mem hz, Pi.one_apply, one_mul]
    · simp only [hw, Set.indicator_of_notMem hz, zero_mul]
  have hB0 : 0 ≤ B := (abs_nonneg _).trans (hfB ((fun _ => 0 : Fin d → ℝ), sim (fun _ => 0) (fun _ => 0)))
  have hθ : |meanUnder (abcTarget S V sim (ball dist thr)) f| ≤ B := by
    rw [meanUnder, ← measureReal_def, abs_div, abs_of_pos hc, div_le_iff₀ hc]
    have h : ∀ᵐ x ∂(abcTarget S V sim (ball dist thr)), ‖f x‖ ≤ B := ae_of_all _ hfB
    exact norm_integral_le_of_norm_le_const h
  have h := rareErrors_of_copies (M := 1) (B := B) hZ hind (fun i => vanilla_row_law hpri hsim vanillaLogWeight i) (L := fun i ω => w (rowPair S V pri pri sim dist vanillaLogWeight key thr i ω))
    (m := fun i ω => f (rowPair S V pri pri sim dist vanillaLogWeight key thr i ω)) (n := fun z => w z * f z) hwm (hwm.mul hf) hw0 hw1
    (fun z => by rw [abs_mul, abs_of_nonneg (hw0 z), mul_comm]; exact mul_le_mul_of_nonneg_right (hfB z) (hw0 z)) (fun _ _ => rfl) (fun _ _ => rfl) hB0 hθ hmean hnum n ε hε
  beta_reduce at h
  rw [one_mul] at h
  refine le_trans (le_of_eq ?_) h
  congr 1
  ext ω
  have hs : weightedAverage f (importanceRun Keys.split Keys.split4 (tapeScenario S V pri sim dist ω) (fun k => pri (subtape k ω)) vanillaLogWeight n none key thr)
      = runsMean (fun i => w (rowPair S V pri pri sim dist vanillaLogWeight key thr i ω)) (fun i => f (rowPair S V pri pri sim dist vanillaLogWeight key thr i ω)) n := by
    rw [weightedAverage, run_sum _ n hn ω, run_sum _ n hn ω, runsMean, hw]
    simp only [vanilla_weight]
    rfl
  change ε ≤ |weightedAverage f (importanceRun Keys.split Keys.split4 (tapeScenario S V pri sim dist ω) (fun k => pri (subtape k ω)) vanillaLogWeight n none key thr) - _| ↔ _
  rw [hs]
  rfl

end

/-! ## A case: prior uniform on `[0, 1)`, the data is the parameter, accepted when less than 1/2 from 0 -/

/-- In runs of 1000 rows the fraction accepted is off 1/2 by 0.1 or more with probability at most `2 exp (-20)`. -/
example (key : Keys.Key) : ideal.real {ω | 1 / 10 ≤ |((acceptedPairs (importanceRun Keys.split Keys.split4 (tapeScenario (seg 1) (fun _ => 0) (unifDraw 1) copySim (fun y => Fl.fin |y|) ω)
      (tapeScenario (seg 1) (fun _ => 0) (unifDraw 1) copySim (fun y => Fl.fin |y|) ω).priorSample vanillaLogWeight 1000 none key (Fl.fin (1 / 2)))).length : ℝ) / (1000 : ℕ) - 1 / 2|} ≤ 2 * Real.exp (-20) := by
  have h := C167_fraction (S := seg 1) (V := fun _ => 0) (sim := copySim) (dist := fun y : ℝ => Fl.fin |y|) (key := key) (thr := Fl.fin (1 / 2)) (measurable_unifDraw 1) (by simpa using unifDraw_law one_pos)
    ((measurable_pi_apply 0).comp measurable_fst) (by rw [half_ball]; exact measurableSet_Ioo) 1000 (by norm_num) (1 / 10) (by norm_num)
  have e : (abcTarget (seg 1) (fun _ => 0) copySim (ball (fun y : ℝ => Fl.fin |y|) (Fl.fin (1 / 2)))).real Set.univ = 1 / 2 := by
    rw [show abcTarget _ _ _ _ = halfTarget from rfl, measureReal_def, halfTarget_univ, ENNReal.toReal_ofReal (by norm_num)]
  rw [e] at h
  exact h.trans_eq (by norm_num)

/-- The mean of an indicator over the accepted simulations. -/
example (key : Keys.Key) (n : ℕ) (hn : 1 ≤ n) (ε : ℝ) (hε : 0 < ε) :
    ideal.real {ω | ε ≤ |weightedAverage (Set.indicator {z | 1 / 4 < z.2} 1) (importanceRun Keys.split Keys.split4 (tapeScenario (seg 1) (fun _ => 0) (unifDraw 1) copySim (fun y => Fl.fin |y|) ω)
      (tapeScenario (seg 1) (fun _ => 0) (unifDraw 1) copySim (fun y => Fl.fin |y|) ω).priorSample vanillaLogWeight n none key (Fl.fin (1 / 2))) - meanUnder halfTarget (Set.indicator {z | 1 / 4 < z.2} 1)|}
      ≤ 2 * Real.exp (-(n * ((halfTarget.real Set.univ * ε) ^ 2 / (2 * (2 * 1 + ε) ^ 2)))) :=
  C167_mean (S := seg 1) (V := fun _ => 0) (sim := copySim) (dist := fun y : ℝ => Fl.fin |y|) (key := key) (thr := Fl.fin (1 / 2)) (measurable_unifDraw 1) (by simpa using unifDraw_law one_pos)
    ((measurable_pi_apply 0).comp measurable_fst) (by rw [half_ball]; exact measurableSet_Ioo) (by rw [show abcTarget _ _ _ _ = halfTarget from rfl, halfTarget_univ]; simp) _
    (measurable_one.indicator (measurableSet_lt measurable_const measurable_snd)) 1
    (fun z => by by_cases hz : z ∈ {z : (Fin 1 → ℝ) × ℝ | 1 / 4 < z.2} <;> simp only [Set.indicator_of_mem, Set.indicator_of_notMem, hz, not_false_eq_true] <;> simp) n hn ε hε

end Mocat.Props
