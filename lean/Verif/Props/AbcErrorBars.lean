import Verif.Props.AbcImportanceLimit
import Verif.Props.ChainErgodic
import Verif.Lemmas.ErrorBars
/-!
# C155: the usual error bars of importance ABC cover with the nominal probability
-/
namespace Mocat.Props
open Mocat Mocat.Mcmc Mocat.Abc Mocat.Ideal Mocat.Meas MeasureTheory ProbabilityTheory Filter Topology
open scoped ENNReal

variable {d : ℕ} {D : Type*}

/-! ## Specification -/

/-- The standard error of `weightedAverage f rows` as a user computes it from the chain: the root of the sum of squared weighted deviations, divided by the sum of the weights. With weights 0 and 1 this is the standard deviation
of the accepted values divided by the root of their number. -/
noncomputable def standardError (f : (Fin d → ℝ) × D → ℝ) (rows : List (Row (Fin d → ℝ) D)) : ℝ :=
  Real.sqrt (rows.map fun r => (Metrics.wexp r.logWeight * (f (r.value, r.data) - weightedAverage f rows)) ^ 2).sum / (rows.map fun r => Metrics.wexp r.logWeight).sum

/-- Estimates `rows n` of `truth` with error bars of nominal coverage: the probability that the estimate minus the truth is at most `t` standard errors tends to the probability that a standard normal variable is at most `t`,
and the probability that the truth lies within `z` standard errors of the estimate tends to the probability that a standard normal variable lies between `-z` and `z`. -/
structure Covers (f : (Fin d → ℝ) × D → ℝ) (truth : ℝ) (rows : ℕ → Tape → List (Row (Fin d → ℝ) D)) : Prop where
  oneSided : ∀ t : ℝ, Tendsto (fun n => ideal {ω | weightedAverage f (rows n ω) - truth ≤ t * standardError f (rows n ω)}) atTop (𝓝 (gaussianReal 0 1 (Set.Iic t)))
  twoSided : ∀ z : ℝ, 0 ≤ z → Tendsto (fun n => ideal {ω | |weightedAverage f (rows n ω) - truth| ≤ z * standardError f (rows n ω)}) atTop (𝓝 (gaussianReal 0 1 (Set.Icc (-z) z)))

/-! ## Proofs -/

section
variable [MeasurableSpace D] {S : Set (Fin d → ℝ)} {V : (Fin d → ℝ) → ℝ} {pri prop : Tape → Fin d → ℝ} {sim : (Fin d → ℝ) → Tape → D} {dist : D → Fl}
  {key : Keys.Key} {thr : Fl}

/-- Parameter and data of row `i`. -/
noncomputable def rowPair (S : Set (Fin d → ℝ)) (V : (Fin d → ℝ) → ℝ) (pri prop : Tape → Fin d → ℝ) (sim : (Fin d → ℝ) → Tape → D) (dist : D → Fl) (lw : Fl → Row (Fin d → ℝ) D → Fl) (key : Keys.Key) (thr : Fl) (i : ℕ) (ω : Tape) :
    (Fin d → ℝ) × D :=
  ((abcRow S V pri prop sim dist lw key thr i ω).value, (abcRow S V pri prop sim dist lw key thr i ω).data)

theorem rowPair_iid (hpri : Measurable pri) (hprop : Measurable prop) (hsim : Measurable fun z : (Fin d → ℝ) × Tape => sim z.1 z.2) (lw : Fl → Row (Fin d → ℝ) D → Fl) :
    (∀ i, Measurable (rowPair S V pri prop sim dist lw key thr i)) ∧ iIndepFun (rowPair S V pri prop sim dist lw key thr) ideal ∧
      ∀ i, ideal.map (rowPair S V pri prop sim dist lw key thr (i + 1)) = simulated (ideal.map prop) sim := by
  have hg : ∀ i : ℕ, Measurable (if i = 0 then pri else prop) := fun i => by split_ifs; exacts [hpri, hprop]
  have hm : Measurable fun z : (Fin d → ℝ) × Tape => (z.1, sim z.1 z.2) := measurable_fst.prodMk hsim
  have hZe : ∀ i ω, rowPair S V pri prop sim dist lw key thr i ω
      = ((if i = 0 then pri else prop) (subtape (rowKeys key i).1 ω), sim ((if i = 0 then pri else prop) (subtape (rowKeys key i).1 ω)) (subtape (rowKeys key i).2 ω)) :=
    fun i ω => abcRow_eq S V pri prop sim dist lw key thr i ω
  have hmeas : ∀ i : ℕ, Measurable (rowPair S V pri prop sim dist lw key thr i) := fun i => by
    rw [funext (hZe i)]
    exact hm.comp (((hg i).comp (measurable_subtape _)).prodMk (measurable_subtape _))
  refine ⟨hmeas, ?_, fun i => ?_⟩
  · refine iIndepFun_of_dependsOn (S := fun i : ℕ => rowSites key i) (fun a b h => rowSites_disjoint key a b h) (fun i => hmeas i) fun i ω ω' h => ?_
    have h1 := subtape_dependsOn (rowKeys key i).1 fun s hs => h s (Or.inl hs)
    have h2 := subtape_dependsOn (rowKeys key i).2 fun s hs => h s (Or.inr hs)
    rw [hZe, hZe, h1, h2]
  · rw [funext (hZe (i + 1))]
    exact map_simulated (hg (i + 1)) hsim (rowKeys_disjoint key (i + 1))

/-- Coverage for weights that are a function `W` of the row and turn the proposals into the finite measure `ν`. -/
theorem covers_of_weights (hpri : Measurable pri) (hprop : Measurable prop) (hsim : Measurable fun z : (Fin d → ℝ) × Tape => sim z.1 z.2) (lw : Fl → Row (Fin d → ℝ) D → Fl)
    {W : (Fin d → ℝ) × D → ℝ≥0∞} (hW : Measurable W) (hWt : ∀ z, W z ≠ ∞)
    (hrow : ∀ i ω, rowWeight (abcRow S V pri prop sim dist lw key thr i ω) = W ((abcRow S V pri prop sim dist lw key thr i ω).value, (abcRow S V pri prop sim dist lw key thr i ω).data))
    (ν : Measure ((Fin d → ℝ) × D)) (hν : (simulated (ideal.map prop) sim).withDensity W = ν) (hν0 : ν Set.univ ≠ 0) {f : (Fin d → ℝ) × D → ℝ} (hf : Measurable f)
    (hW2 : ∫⁻ z, W z ∂ν ≠ ∞) (hWf2 : ∫⁻ z, W z * ENNReal.ofReal (f z ^ 2) ∂ν ≠ ∞) (hne : ¬∃ c, ∀ᵐ z ∂ν, f z = c) :
    Covers f ((∫ z, f z ∂ν) / (ν Set.univ).toReal) fun n ω =>
      importanceRun Keys.split Keys.split4 (tapeScenario S V pri sim dist ω) (fun k => prop (subtape k ω)) lw n none key thr := by
  obtain ⟨hZ, hind, hlaw⟩ := rowPair_iid (S := S) (V := V) (dist := dist) (key := key) (thr := thr) hpri hprop hsim lw
  set w : (Fin d → ℝ) × D → ℝ := fun z => (W z).toReal with hwd
  have hwm : Measurable w := hW.ennreal_toReal
  have hps : IsProbabilityMeasure (simulated (ideal.map prop) sim) := by rw [← hlaw 0]; exact Measure.isProbabilityMeasure_map (hZ 1).aemeasurable
  set μ := simulated (ideal.map prop) sim with hμ
  have hlt : ∀ᵐ z ∂μ, W z < ∞ := ae_of_all _ fun z => lt_top_iff_ne_top.2 (hWt z)
  have hw2 : MemLp w 2 μ := by
    rw [memLp_two_iff_integrable_sq hwm.aestronglyMeasurable]
    refine ⟨(hwm.pow_const 2).aestronglyMeasurable, ?_⟩
    rw [hasFiniteIntegral_iff_ofReal (ae_of_all _ fun z => sq_nonneg _)]
    refine lt_of_le_of_lt (le_of_eq ?_) (lt_top_iff_ne_top.2 hW2)
    rw [← hν, lintegral_withDensity_eq_lintegral_mul _ hW hW]
    refine lintegral_congr fun z => ?_
    rw [hwd, sq, ENNReal.ofReal_mul ENNReal.toReal_nonneg, ENNReal.ofReal_toReal (hWt z)]
    rfl
  have hwf2 : MemLp (fun z => w z * f z) 2 μ := by
    have hwfm : Measurable fun z => w z * f z := hwm.mul hf
    rw [memLp_two_iff_integrable_sq hwfm.aestronglyMeasurable]
    refine ⟨(hwfm.pow_const 2).aestronglyMeasurable, ?_⟩
    rw [hasFiniteIntegral_iff_ofReal (ae_of_all _ fun z => sq_nonneg _)]
    refine lt_of_le_of_lt (le_of_eq ?_) (lt_top_iff_ne_top.2 hWf2)
    have mf : Measurable fun z => W z * ENNReal.ofReal (f z ^ 2) := hW.mul (hf.pow_const 2).ennreal_ofReal
    rw [← hν, lintegral_withDensity_eq_lintegral_mul _ hW mf]
    refine lintegral_congr fun z => ?_
    rw [hwd, mul_pow, ENNReal.ofReal_mul (sq_nonneg _), sq (W z).toReal, ENNReal.ofReal_mul ENNReal.toReal_nonneg, ENNReal.ofReal_toReal (hWt z), mul_assoc]
    rfl
  have hmass : ∫ z, w z ∂μ = (ν Set.univ).toReal := by
    rw [integral_toReal hW.aemeasurable hlt, ← hν, withDensity_apply _ MeasurableSet.univ, Measure.restrict_univ]
  have hfin : ν Set.univ ≠ ∞ := by
    rw [← hν, withDensity_apply _ MeasurableSet.univ, Measure.restrict_univ]
    exact ((integrable_toReal_iff hW.aemeasurable (ae_of_all _ hWt)).1 (hw2.integrable one_le_two))
  have hpos : 0 < ∫ z, w z ∂μ := by rw [hmass]; exact ENNReal.toReal_pos hν0 hfin
  have hint : ∫ z, w z * f z ∂μ = ∫ z, f z ∂ν := by
    rw [← hν, integral_withDensity_eq_integral_toReal_smul hW hlt]
    rfl
  obtain ⟨θ, hθd⟩ : ∃ θ, θ = (∫ z, f z ∂ν) / (ν Set.univ).toReal := ⟨_, rfl⟩
  rw [← hθd]
  have hθ : ∫ z, w z * f z ∂μ = θ * ∫ z, w z ∂μ := by
    rw [hint, hmass, hθd, div_mul_cancel₀]
    rw [← hmass]
    exact hpos.ne'
  have hG2 : MemLp (fun z => w z * (f z - θ)) 2 μ := by
    have e : (fun z => w z * (f z - θ)) = fun z => w z * f z - θ * w z := by funext z; ring
    rw [e]
    exact hwf2.sub (hw2.const_mul θ)
  have hv : 0 < ∫ z, (w z * (f z - θ)) ^ 2 ∂μ := by
    refine lt_of_le_of_ne (integral_nonneg fun z => sq_nonneg _) fun h0 => hne ⟨θ, ?_⟩
    have h1 := (integral_eq_zero_iff_of_nonneg (fun z => sq_nonneg _) hG2.integrable_sq).1 h0.symm
    rw [← hν, ae_withDensity_iff hW]
    filter_upwards [h1] with z hz hWz
    have h2 : w z * (f z - θ) = 0 := by simpa using hz
    rcases mul_eq_zero.1 h2 with h3 | h3
    · exact absurd h3 (ENNReal.toReal_ne_zero.2 ⟨hWz, hWt z⟩)
    · linarith
  have hw : ∀ i ω, Metrics.wexp (abcRow S V pri prop sim dist lw key thr i ω).logWeight = w (rowPair S V pri prop sim dist lw key thr i ω) := fun i ω => by
    rw [hwd, rowPair]
    beta_reduce
    rw [← hrow, rowWeight, ENNReal.toReal_ofReal]
    generalize (abcRow S V pri prop sim dist lw key thr i ω).logWeight = l
    cases l <;> simp only [Metrics.wexp, le_refl, Real.exp_nonneg]
  have havg : ∀ n : ℕ, 1 ≤ n → ∀ ω, weightedAverage f (importanceRun Keys.split Keys.split4 (tapeScenario S V pri sim dist ω) (fun k => prop (subtape k ω)) lw n none key thr)
      = ErrorBars.avg w f (rowPair S V pri prop sim dist lw key thr) n ω := fun n hn ω => by
    rw [weightedAverage, run_sum lw n hn ω, run_sum lw n hn ω]
    simp only [hw]
    rfl
  have hse : ∀ n : ℕ, 1 ≤ n → ∀ ω, standardError f (importanceRun Keys.split Keys.split4 (tapeScenario S V pri sim dist ω) (fun k => prop (subtape k ω)) lw n none key thr)
      = ErrorBars.se w f (rowPair S V pri prop sim dist lw key thr) n ω := fun n hn ω => by
    rw [standardError, run_sum lw n hn ω, run_sum lw n hn ω, havg n hn ω]
    simp only [hw]
    rfl
  have hn1 : ∀ (n : ℕ) ω, 0 < ∑ i ∈ Finset.range n, w (rowPair S V pri prop sim dist lw key thr i ω) → 1 ≤ n := fun n ω h => by
    rcases Nat.eq_zero_or_pos n with rfl | hn
    · simp at h
    · exact hn
  refine ⟨fun t => ?_, fun z hz => ?_⟩
  · refine ErrorBars.standardised hZ hind hlaw hwm hf hw2 hwf2 hpos hθ hv measurableSet_Iic (by rw [frontier_Iic]; simp) fun n ω h1 h2 => ?_
    rw [Set.mem_ofPred_eq, havg n (hn1 n ω h1), hse n (hn1 n ω h1), Set.mem_Iic, div_le_iff₀ h2]
  · refine ErrorBars.standardised hZ hind hlaw hwm hf hw2 hwf2 hpos hθ hv measurableSet_Icc ?_ fun n ω h1 h2 => ?_
    · rw [frontier_Icc (by linarith)]
      exact (Set.toFinite {-z, z}).measure_zero _
    · rw [Set.mem_ofPred_eq, havg n (hn1 n ω h1), hse n (hn1 n ω h1), Set.mem_Icc, ← abs_le, abs_div, abs_of_pos h2, div_le_iff₀ h2]

/-! ## Properties -/

/-- C155, `ImportanceABC`: if weights and weighted values have finite variance and `f` is not constant under the ABC posterior, the weighted mean with its standard error covers the mean under the ABC posterior with the
nominal probability in the limit. -/
theorem C155_importance (hV : Measurable V) (hS : MeasurableSet S) (hpri : Measurable pri) (hprop : Measurable prop) {S' : Set (Fin d → ℝ)} {V' : (Fin d → ℝ) → ℝ} (hS' : MeasurableSet S')
    (hV' : Measurable V') (hSS : S ⊆ S') (hlaw : ideal.map prop = target S' V') (hsim : Measurable fun z : (Fin d → ℝ) × Tape => sim z.1 z.2)
    (hB : MeasurableSet (ball dist thr)) (hpos : abcTarget S V sim (ball dist thr) Set.univ ≠ 0) {f : (Fin d → ℝ) × D → ℝ} (hf : Measurable f)
    (hvar : ∫⁻ z, ENNReal.ofReal (Real.exp (V' z.1 - V z.1) * (1 + f z ^ 2)) ∂(abcTarget S V sim (ball dist thr)) ≠ ∞) (hne : ¬∃ c, ∀ᵐ z ∂(abcTarget S V sim (ball dist thr)), f z = c) :
    Covers f (meanUnder (abcTarget S V sim (ball dist thr)) f) fun n ω =>
      importanceRun Keys.split Keys.split4 (tapeScenario S V pri sim dist ω) (fun k => prop (subtape k ω)) (importanceLogWeight (potOn S' V')) n none key thr := by
  have hW := measurable_impWeight (V := V) hV hS hS' hV' hB
  have hWt : ∀ z, impWeight S S' V V' (ball dist thr) z ≠ ∞ := fun z => by
    unfold impWeight
    split_ifs <;> simp
  have hν : (simulated (ideal.map prop) sim).withDensity (impWeight S S' V V' (ball dist thr)) = abcTarget S V sim (ball dist thr) := by
    refine Measure.ext_of_lintegral _ fun h hh => ?_
    rw [lintegral_withDensity_eq_lintegral_mul _ hW hh, hlaw, ← lintegral_impWeight hV hS hS' hV' hSS hsim hB hh]
    rfl
  have hle : ∀ z, impWeight S S' V V' (ball dist thr) z ≤ ENNReal.ofReal (Real.exp (V' z.1 - V z.1)) := fun z => by
    unfold impWeight
    split_ifs
    · exact le_of_eq (by congr 2; ring)
    · exact bot_le
    · exact bot_le
  refine covers_of_weights hpri hprop hsim (importanceLogWeight (potOn S' V')) hW hWt (fun i ω => rowWeight_importance S' V' i ω) _ hν hpos hf
    (ne_top_of_le_ne_top hvar (lintegral_mono fun z => (hle z).trans (ENNReal.ofReal_le_ofReal ?_))) (ne_top_of_le_ne_top hvar (lintegral_mono fun z => ?_)) hne
  · nlinarith [Real.exp_pos (V' z.1 - V z.1), sq_nonneg (f z)]
  · refine (mul_le_mul_left (hle z) _).trans ?_
    rw [← ENNReal.ofReal_mul (Real.exp_pos _).le]
    refine ENNReal.ofReal_le_ofReal ?_
    nlinarith [Real.exp_pos (V' z.1 - V z.1), sq_nonneg (f z)]

/-- C155, `VanillaABC` with a threshold: for every `f` with finite, positive variance under the ABC posterior, the mean over the accepted simulations with the usual standard error covers the mean under the ABC posterior with
the nominal probability in the limit. -/
theorem C155_vanilla (hpri : Measurable pri) (hlaw : ideal.map pri = target S V) (hsim : Measurable fun z : (Fin d → ℝ) × Tape => sim z.1 z.2)
    (hB : MeasurableSet (ball dist thr)) (hpos : abcTarget S V sim (ball dist thr) Set.univ ≠ 0) {f : (Fin d → ℝ) × D → ℝ} (hf : Measurable f)
    (hvar : MemLp f 2 (abcTarget S V sim (ball dist thr))) (hne : ¬∃ c, ∀ᵐ z ∂(abcTarget S V sim (ball dist thr)), f z = c) :
    Covers f (meanUnder (abcTarget S V sim (ball dist thr)) f) fun n ω =>
      importanceRun Keys.split Keys.split4 (tapeScenario S V pri sim dist ω) (tapeScenario S V pri sim dist ω).priorSample vanillaLogWeight n none key thr := by
  have hms : MeasurableSet {z : (Fin d → ℝ) × D | z.2 ∈ ball dist thr} := measurable_snd hB
  have e : abcTarget S V sim (ball dist thr) = (simulated (target S V) sim).restrict {z | z.2 ∈ ball dist thr} := rfl
  have hp : IsProbabilityMeasure (ideal.map pri) := Measure.isProbabilityMeasure_map hpri.aemeasurable
  have hps : IsProbabilityMeasure (simulated (ideal.map pri) sim) := Measure.isProbabilityMeasure_map (measurable_fst.prodMk hsim).aemeasurable
  have : IsFiniteMeasure (abcTarget S V sim (ball dist thr)) := by rw [e, ← hlaw]; infer_instance
  set W : (Fin d → ℝ) × D → ℝ≥0∞ := {z | z.2 ∈ ball dist thr}.indicator 1 with hWd
  have hW : Measurable W := measurable_one.indicator hms
  have hW1 : ∀ z, W z ≤ 1 := fun z => Set.indicator_le_self' (fun _ _ => bot_le) z
  have hWt : ∀ z, W z ≠ ∞ := fun z => ne_top_of_le_ne_top ENNReal.one_ne_top (hW1 z)
  have hν : (simulated (ideal.map pri) sim).withDensity W = abcTarget S V sim (ball dist thr) := by
    rw [hWd, withDensity_indicator_one hms, e, hlaw]
  have hrow : ∀ i ω, rowWeight (abcRow S V pri pri sim dist vanillaLogWeight key thr i ω)
      = W ((abcRow S V pri pri sim dist vanillaLogWeight key thr i ω).value, (abcRow S V pri pri sim dist vanillaLogWeight key thr i ω).data) := rowWeight_vanilla
  refine covers_of_weights hpri hpri hsim vanillaLogWeight hW hWt hrow _ hν hpos hf ?_ ?_ hne
  · refine ne_top_of_le_ne_top ?_ (lintegral_mono hW1)
    rw [lintegral_one]
    exact measure_ne_top _ _
  · have hi := (memLp_two_iff_integrable_sq hf.aestronglyMeasurable).1 hvar
    refine ne_top_of_le_ne_top ((hasFiniteIntegral_iff_ofReal (ae_of_all _ fun z => sq_nonneg (f z))).1 hi.2).ne (lintegral_mono fun z => ?_)
    calc W z * ENNReal.ofReal (f z ^ 2) ≤ 1 * ENNReal.ofReal (f z ^ 2) := mul_le_mul_left (hW1 z) _
      _ = _ := one_mul _

end

/-! ## A case -/

/-- Prior uniform on `[0, 1)`, the data is the parameter, a simulation is accepted when it is less than 1/2 from 0. -/
noncomputable def halfTarget : Measure ((Fin 1 → ℝ) × ℝ) := abcTarget (seg 1) (fun _ => 0) copySim (ball (fun y : ℝ => Fl.fin |y|) (Fl.fin (1 / 2)))

theorem half_ball : ball (fun y : ℝ => Fl.fin |y|) (Fl.fin (1 / 2)) = Set.Ioo (-(1 / 2)) (1 / 2) := by
  ext y
  simp [ball, Fl.lt, abs_lt]

theorem halfTarget_apply (A : Set ℝ) (hA : MeasurableSet A) : halfTarget {z | z.2 ∈ A} = volume (A ∩ Set.Ico 0 (1 / 2)) := by
  have hl : ideal.map (unifDraw 1) = target (seg 1) (fun _ => 0) := by simpa using unifDraw_law one_pos
  have e : halfTarget = (simulated (ideal.map (unifDraw 1)) copySim).restrict {z | z.2 ∈ Set.Ioo (-(1 / 2)) (1 / 2 : ℝ)} := by
    rw [hl, ← half_ball]; rfl
  have hm : MeasurableSet {z : (Fin 1 → ℝ) × ℝ | z.2 ∈ A} := measurable_snd hA
  rw [e, Measure.restrict_apply hm]
  have e2 : {z : (Fin 1 → ℝ) × ℝ | z.2 ∈ A} ∩ {z | z.2 ∈ Set.Ioo (-(1 / 2)) (1 / 2 : ℝ)} = {z | z.2 ∈ A ∩ Set.Ioo (-(1 / 2)) (1 / 2 : ℝ)} := rfl
  rw [e2, copy_law _ (hA.inter measurableSet_Ioo)]
  congr 1
  ext y
  simp only [Set.mem_inter_iff, Set.mem_Ioo, Set.mem_Ico]
  constructor
  · rintro ⟨⟨h1, h2, h3⟩, h4, h5⟩; exact ⟨h1, h4, h3⟩
  · rintro ⟨h1, h2, h3⟩; exact ⟨⟨h1, by linarith, h3⟩, h2, by linarith⟩

theorem halfTarget_univ : halfTarget Set.univ = ENNReal.ofReal (1 / 2) := by
  have h := halfTarget_apply Set.univ MeasurableSet.univ
  simpa using h

theorem halfTarget_bounded : ∀ᵐ z ∂halfTarget, z.2 ^ 2 ≤ 1 := by
  have h := halfTarget_apply (Set.Icc (-1) 1)ᶜ measurableSet_Icc.compl
  have e : (Set.Icc (-1 : ℝ) 1)ᶜ ∩ Set.Ico 0 (1 / 2) = ∅ := by
    ext y
    simp only [Set.mem_inter_iff, Set.mem_compl_iff, Set.mem_Icc, Set.mem_Ico, Set.mem_empty_iff_false, iff_false]
    rintro ⟨h1, h2, h3⟩
    exact h1 ⟨by linarith, by linarith⟩
  rw [e, measure_empty] at h
  refine measure_mono_null (fun z hz => ?_) h
  simp only [Set.mem_compl_iff, Set.mem_ofPred_eq, Set.mem_Icc] at hz ⊢
  intro hc
  exact hz (by nlinarith [hc.1, hc.2])

theorem halfTarget_not_constant : ¬∃ c, ∀ᵐ z ∂halfTarget, z.2 = c := by
  rintro ⟨c, hc⟩
  have h := halfTarget_apply {c}ᶜ (measurableSet_singleton c).compl
  have h0 : halfTarget {z | z.2 ∈ ({c}ᶜ : Set ℝ)} = 0 := hc
  rw [h0] at h
  have h1 : volume (Set.Ico (0 : ℝ) (1 / 2)) ≤ volume ({c}ᶜ ∩ Set.Ico (0 : ℝ) (1 / 2)) + volume ({c} : Set ℝ) := by
    refine (measure_mono fun y hy => ?_).trans (measure_union_le _ _)
    by_cases hyc : y = c
    · exact Or.inr hyc
    · exact Or.inl ⟨hyc, hy⟩
  rw [← h, Real.volume_singleton, Real.volume_Ico, add_zero] at h1
  norm_num at h1

/-- `VanillaABC`: the mean of the accepted values. -/
example (key : Keys.Key) : Covers (fun z => z.2) (meanUnder halfTarget fun z => z.2) fun n ω =>
    importanceRun Keys.split Keys.split4 (tapeScenario (seg 1) (fun _ => 0) (unifDraw 1) copySim (fun y => Fl.fin |y|) ω)
      (tapeScenario (seg 1) (fun _ => 0) (unifDraw 1) copySim (fun y => Fl.fin |y|) ω).priorSample vanillaLogWeight n none key (Fl.fin (1 / 2)) := by
  have hfin : IsFiniteMeasure halfTarget := ⟨by rw [halfTarget_univ]; exact ENNReal.ofReal_lt_top⟩
  refine C155_vanilla (measurable_unifDraw 1) (by simpa using unifDraw_law one_pos) ((measurable_pi_apply 0).comp measurable_fst) (by rw [half_ball]; exact measurableSet_Ioo)
    (by rw [show abcTarget _ _ _ _ = halfTarget from rfl, halfTarget_univ]; simp) measurable_snd ?_ halfTarget_not_constant
  change MemLp (fun z => z.2) 2 halfTarget
  refine MemLp.of_bound measurable_snd.aestronglyMeasurable 1 ?_
  filter_upwards [halfTarget_bounded] with z hz
  rw [Real.norm_eq_abs]
  exact abs_le_one_iff_mul_self_le_one.2 (by nlinarith)

/-- `ImportanceABC` with proposals uniform on `[0, 2)`. -/
example (key : Keys.Key) : Covers (fun z => z.2) (meanUnder halfTarget fun z => z.2) fun n ω =>
    importanceRun Keys.split Keys.split4 (tapeScenario (seg 1) (fun _ => 0) (unifDraw 1) copySim (fun y => Fl.fin |y|) ω) (fun k => unifDraw 2 (subtape k ω))
      (importanceLogWeight (potOn (seg 2) fun _ => Real.log 2)) n none key (Fl.fin (1 / 2)) := by
  obtain ⟨_, h2, h3, _⟩ := C88_importance_fails key 1 le_rfl
  refine C155_importance measurable_const (measurableSet_seg 1) (measurable_unifDraw 1) (measurable_unifDraw 2) (measurableSet_seg 2) (measurable_const (a := Real.log 2)) h3 h2
    ((measurable_pi_apply 0).comp measurable_fst) (by rw [half_ball]; exact measurableSet_Ioo) (by rw [show abcTarget _ _ _ _ = halfTarget from rfl, halfTarget_univ]; simp) measurable_snd ?_
    halfTarget_not_constant
  refine ne_top_of_le_ne_top (b := ∫⁻ _, ENNReal.ofReal 4 ∂halfTarget) ?_ (lintegral_mono_ae ?_)
  · rw [lintegral_const, halfTarget_univ]
    exact ENNReal.mul_ne_top ENNReal.ofReal_ne_top ENNReal.ofReal_ne_top
  · filter_upwards [halfTarget_bounded] with z hz
    refine ENNReal.ofReal_le_ofReal ?_
    rw [sub_zero, Real.exp_log two_pos]
    linarith

end Mocat.Props
