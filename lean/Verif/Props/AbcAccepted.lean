import Verif.Props.AbcErrorBars
import Verif.Lemmas.Accepted
/-!
# C156: the simulations VanillaABC accepts are independent draws from the ABC posterior, and their number is binomial
-/
namespace Mocat.Props
open Mocat Mocat.Mcmc Mocat.Abc Mocat.Ideal Mocat.Meas MeasureTheory ProbabilityTheory
open scoped ENNReal

variable {d : ℕ} {D : Type*}

/-! ## Specification -/

open Classical in
/-- Parameter and data of the rows with positive weight, in order. -/
noncomputable def acceptedPairs (rows : List (Row (Fin d → ℝ) D)) : List ((Fin d → ℝ) × D) :=
  (rows.filter fun r => 0 < Metrics.wexp r.logWeight).map fun r => (r.value, r.data)

/-- The list has `k` entries and its entry `i` (counted from 0) is in `A i`, for each `i`. -/
def EntriesIn (A : ℕ → Set ((Fin d → ℝ) × D)) (k : ℕ) (l : List ((Fin d → ℝ) × D)) : Prop := l.length = k ∧ ∀ i z, l[i]? = some z → z ∈ A i

/-! ## Proofs -/

section
variable [MeasurableSpace D] {S : Set (Fin d → ℝ)} {V : (Fin d → ℝ) → ℝ} {pri : Tape → Fin d → ℝ} {sim : (Fin d → ℝ) → Tape → D} {dist : D → Fl} {key : Keys.Key} {thr : Fl}

theorem vanilla_row_law (hpri : Measurable pri) (hsim : Measurable fun z : (Fin d → ℝ) × Tape => sim z.1 z.2) (lw : Fl → Row (Fin d → ℝ) D → Fl) (i : ℕ) :
    ideal.map (rowPair S V pri pri sim dist lw key thr i) = simulated (ideal.map pri) sim := by
  have hZe : ∀ ω, rowPair S V pri pri sim dist lw key thr i ω = (pri (subtape (rowKeys key i).1 ω), sim (pri (subtape (rowKeys key i).1 ω)) (subtape (rowKeys key i).2 ω)) := fun ω => by
    have h := abcRow_eq S V pri pri sim dist lw key thr i ω
    rw [ite_self] at h
    exact h
  rw [funext hZe]
  exact map_simulated hpri hsim (rowKeys_disjoint key i)

omit [MeasurableSpace D] in
theorem accepted_kept (n : ℕ) (hn : 1 ≤ n) (ω : Tape) :
    acceptedPairs (importanceRun Keys.split Keys.split4 (tapeScenario S V pri sim dist ω) (tapeScenario S V pri sim dist ω).priorSample vanillaLogWeight n none key thr)
      = Accepted.kept (rowPair S V pri pri sim dist vanillaLogWeight key thr) {z | z.2 ∈ ball dist thr} n ω := by
  have h := abc_run_eq (S := S) (V := V) (pri := pri) (prop := pri) (sim := sim) (dist := dist) (key := key) (thr := thr) vanillaLogWeight n hn ω
  change acceptedPairs (importanceRun Keys.split Keys.split4 (tapeScenario S V pri sim dist ω) (fun k => pri (subtape k ω)) vanillaLogWeight n none key thr) = _
  rw [h, acceptedPairs, Accepted.kept, List.filter_map, List.filter_map, List.map_map]
  congr 1
  refine List.filter_congr fun i _ => ?_
  have hw := rowWeight_vanilla (S := S) (V := V) (pri := pri) (sim := sim) (dist := dist) (key := key) (thr := thr) i ω
  simp only [Function.comp_apply, rowPair]
  rw [decide_eq_decide]
  by_cases hb : (abcRow S V pri pri sim dist vanillaLogWeight key thr i ω).data ∈ ball dist thr
  · rw [Set.indicator_of_mem (by exact hb)] at hw
    refine iff_of_true ?_ hb
    by_contra hle
    rw [rowWeight, ENNReal.ofReal_of_nonpos (not_lt.1 hle)] at hw
    simp at hw
  · rw [Set.indicator_of_notMem (by exact hb)] at hw
    refine iff_of_false ?_ hb
    intro hlt
    rw [rowWeight, ENNReal.ofReal_eq_zero] at hw
    linarith

theorem accepted_prob (hpri : Measurable pri) (hlaw : ideal.map pri = target S V) (hsim : Measurable fun z : (Fin d → ℝ) × Tape => sim z.1 z.2) (hB : MeasurableSet (ball dist thr))
    (n : ℕ) (hn : 1 ≤ n) (k : ℕ) {A : ℕ → Set ((Fin d → ℝ) × D)} (hA : ∀ i, MeasurableSet (A i)) :
    ideal {ω | EntriesIn A k (acceptedPairs (importanceRun Keys.split Keys.split4 (tapeScenario S V pri sim dist ω) (tapeScenario S V pri sim dist ω).priorSample vanillaLogWeight n none key thr))}
      = (n.choose k : ℝ≥0∞) * (∏ i ∈ Finset.range k, abcTarget S V sim (ball dist thr) (A i)) * (1 - abcTarget S V sim (ball dist thr) Set.univ) ^ (n - k) := by
  obtain ⟨hZ, hind, _⟩ := rowPair_iid (S := S) (V := V) (dist := dist) (key := key) (thr := thr) hpri hpri hsim vanillaLogWeight
  have hms : MeasurableSet {z : (Fin d → ℝ) × D | z.2 ∈ ball dist thr} := measurable_snd hB
  have hp : IsProbabilityMeasure (ideal.map pri) := Measure.isProbabilityMeasure_map hpri.aemeasurable
  have hps : IsProbabilityMeasure (simulated (ideal.map pri) sim) := Measure.isProbabilityMeasure_map (measurable_fst.prodMk hsim).aemeasurable
  have e : abcTarget S V sim (ball dist thr) = (simulated (ideal.map pri) sim).restrict {z | z.2 ∈ ball dist thr} := by rw [hlaw]; rfl
  have h := Accepted.prob hZ hind (fun i => vanilla_row_law hpri hsim vanillaLogWeight i) hms hA n k
  have e1 : {ω | EntriesIn A k (acceptedPairs (importanceRun Keys.split Keys.split4 (tapeScenario S V pri sim dist ω) (tapeScenario S V pri sim dist ω).priorSample vanillaLogWeight n none key thr))}
      = Accepted.Ev (rowPair S V pri pri sim dist vanillaLogWeight key thr) {z | z.2 ∈ ball dist thr} A n k := by
    ext ω
    rw [Set.mem_ofPred_eq, accepted_kept n hn ω]
    rfl
  rw [e1, h, prob_compl_eq_one_sub hms, e, Measure.restrict_apply_univ]
  congr 2
  exact Finset.prod_congr rfl fun i _ => (Measure.restrict_apply (hA i)).symm

/-! ## Properties -/

/-- C156: the number of simulations that a `VanillaABC` run of `n` rows accepts has the binomial distribution with the acceptance probability of one simulation. -/
theorem C156_number (hpri : Measurable pri) (hlaw : ideal.map pri = target S V) (hsim : Measurable fun z : (Fin d → ℝ) × Tape => sim z.1 z.2) (hB : MeasurableSet (ball dist thr)) (n : ℕ) (hn : 1 ≤ n) (k : ℕ) :
    ideal {ω | (acceptedPairs (importanceRun Keys.split Keys.split4 (tapeScenario S V pri sim dist ω) (tapeScenario S V pri sim dist ω).priorSample vanillaLogWeight n none key thr)).length = k}
      = (n.choose k : ℝ≥0∞) * abcTarget S V sim (ball dist thr) Set.univ ^ k * (1 - abcTarget S V sim (ball dist thr) Set.univ) ^ (n - k) := by
  have h := accepted_prob (key := key) hpri hlaw hsim hB n hn k (A := fun _ => Set.univ) fun _ => MeasurableSet.univ
  rw [Finset.prod_const, Finset.card_range] at h
  rw [← h]
  congr 1
  ext ω
  simp [EntriesIn]

/-- C156: given that a `VanillaABC` run of `n` rows accepts `k` simulations, these are `k` independent draws from the ABC posterior, whatever the run length. -/
theorem C156_draws (hpri : Measurable pri) (hlaw : ideal.map pri = target S V) (hsim : Measurable fun z : (Fin d → ℝ) × Tape => sim z.1 z.2) (hB : MeasurableSet (ball dist thr))
    (hpos : abcTarget S V sim (ball dist thr) Set.univ ≠ 0) (n : ℕ) (hn : 1 ≤ n) (k : ℕ) {A : ℕ → Set ((Fin d → ℝ) × D)} (hA : ∀ i, MeasurableSet (A i)) :
    ideal {ω | EntriesIn A k (acceptedPairs (importanceRun Keys.split Keys.split4 (tapeScenario S V pri sim dist ω) (tapeScenario S V pri sim dist ω).priorSample vanillaLogWeight n none key thr))}
      = (∏ i ∈ Finset.range k, normalised (abcTarget S V sim (ball dist thr)) (A i))
        * ideal {ω | (acceptedPairs (importanceRun Keys.split Keys.split4 (tapeScenario S V pri sim dist ω) (tapeScenario S V pri sim dist ω).priorSample vanillaLogWeight n none key thr)).length = k} := by
  have hp : IsProbabilityMeasure (ideal.map pri) := Measure.isProbabilityMeasure_map hpri.aemeasurable
  have hps : IsProbabilityMeasure (simulated (ideal.map pri) sim) := Measure.isProbabilityMeasure_map (measurable_fst.prodMk hsim).aemeasurable
  have e : abcTarget S V sim (ball dist thr) = (simulated (ideal.map pri) sim).restrict {z | z.2 ∈ ball dist thr} := by rw [hlaw]; rfl
  have hfin : abcTarget S V sim (ball dist thr) Set.univ ≠ ∞ := by
    rw [e, Measure.restrict_apply_univ]
    exact measure_ne_top _ _
  rw [accepted_prob hpri hlaw hsim hB n hn k hA, C156_number hpri hlaw hsim hB n hn k]
  have h1 : ∀ i, abcTarget S V sim (ball dist thr) (A i) = normalised (abcTarget S V sim (ball dist thr)) (A i) * abcTarget S V sim (ball dist thr) Set.univ := fun i => by
    rw [normalised, Measure.smul_apply, smul_eq_mul, mul_comm, ← mul_assoc, ENNReal.mul_inv_cancel hpos hfin, one_mul]
  rw [Finset.prod_congr rfl fun i _ => h1 i, Finset.prod_mul_distrib, Finset.prod_const, Finset.card_range]
  ring

end

/-- Prior uniform on `[0, 1)`, the data is the parameter, accepted when below 1/2: the probability that both accepted values of a run of ten are below 1/4, given that there are two. -/
example (key : Keys.Key) :
    ideal {ω | EntriesIn (fun _ => {z | z.2 ∈ Set.Iio (1 / 4 : ℝ)}) 2 (acceptedPairs (importanceRun Keys.split Keys.split4 (tapeScenario (seg 1) (fun _ => 0) (unifDraw 1) copySim (fun y => Fl.fin |y|) ω)
      (tapeScenario (seg 1) (fun _ => 0) (unifDraw 1) copySim (fun y => Fl.fin |y|) ω).priorSample vanillaLogWeight ((10 : ℕ) : ℤ) none key (Fl.fin (1 / 2))))}
      = (∏ _i ∈ Finset.range 2, normalised halfTarget {z | z.2 ∈ Set.Iio (1 / 4 : ℝ)}) * ideal {ω | (acceptedPairs (importanceRun Keys.split Keys.split4
        (tapeScenario (seg 1) (fun _ => 0) (unifDraw 1) copySim (fun y => Fl.fin |y|) ω) (tapeScenario (seg 1) (fun _ => 0) (unifDraw 1) copySim (fun y => Fl.fin |y|) ω).priorSample vanillaLogWeight ((10 : ℕ) : ℤ)
          none key (Fl.fin (1 / 2)))).length = 2} :=
  C156_draws (A := fun _ => {z | z.2 ∈ Set.Iio (1 / 4 : ℝ)}) (measurable_unifDraw 1) (by simpa using unifDraw_law one_pos)
    ((measurable_pi_apply 0).comp measurable_fst : Measurable fun z : (Fin 1 → ℝ) × Tape => copySim z.1 z.2) (by rw [half_ball]; exact measurableSet_Ioo)
    (by rw [show abcTarget _ _ _ _ = halfTarget from rfl, halfTarget_univ]; simp) 10 (by norm_num) 2 fun _ => measurable_snd measurableSet_Iio

end Mocat.Props
