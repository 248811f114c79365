import Verif.Props.AbcImportanceLaw
import Verif.Lemmas.QuantileLimit
import Mathlib.Probability.StrongLaw
/-!
# C135: importance ABC finds the ABC posterior as the number of simulations grows

All runs with one key share their rows: a longer run continues a shorter one. So the limit is taken along one sequence of draws, and holds for almost every one of them.
-/
namespace Mocat.Props
open Mocat Mocat.Mcmc Mocat.Abc Mocat.Ideal Mocat.Meas MeasureTheory ProbabilityTheory Filter Topology
open scoped ENNReal

variable {d : ℕ} {D : Type*}

/-! ## Specification -/

/-- The mean of `f` over rows with weights `exp(log_weight)`, as a user computes it from a chain. -/
noncomputable def weightedAverage (f : (Fin d → ℝ) × D → ℝ) (rows : List (Row (Fin d → ℝ) D)) : ℝ :=
  (rows.map fun r => Metrics.wexp r.logWeight * f (r.value, r.data)).sum / (rows.map fun r => Metrics.wexp r.logWeight).sum

/-! ## Proofs -/

section
variable [MeasurableSpace D] {S : Set (Fin d → ℝ)} {V : (Fin d → ℝ) → ℝ} {pri prop : Tape → Fin d → ℝ} {sim : (Fin d → ℝ) → Tape → D} {dist : D → Fl}
  {key : Keys.Key} {thr : Fl}

/-- Sums over the rows of longer and longer runs. -/
theorem rows_strong_law (hpri : Measurable pri) (hprop : Measurable prop) (hsim : Measurable fun z : (Fin d → ℝ) × Tape => sim z.1 z.2) (lw : Fl → Row (Fin d → ℝ) D → Fl)
    {G : (Fin d → ℝ) × D → ℝ} (hG : Measurable G) (hint : Integrable G (simulated (ideal.map prop) sim)) :
    ∀ᵐ ω ∂ideal, Tendsto (fun n : ℕ => (∑ i ∈ Finset.range n, G ((abcRow S V pri prop sim dist lw key thr i ω).value, (abcRow S V pri prop sim dist lw key thr i ω).data)) / n) atTop
      (𝓝 (∫ z, G z ∂(simulated (ideal.map prop) sim))) := by
  have hg : ∀ i : ℕ, Measurable (if i = 0 then pri else prop) := fun i => by split_ifs; exacts [hpri, hprop]
  have hm : Measurable fun z : (Fin d → ℝ) × Tape => (z.1, sim z.1 z.2) := measurable_fst.prodMk hsim
  set Z : ℕ → Tape → (Fin d → ℝ) × D := fun i ω => ((abcRow S V pri prop sim dist lw key thr i ω).value, (abcRow S V pri prop sim dist lw key thr i ω).data) with hZ
  have hZe : ∀ i ω, Z i ω = ((if i = 0 then pri else prop) (subtape (rowKeys key i).1 ω), sim ((if i = 0 then pri else prop) (subtape (rowKeys key i).1 ω)) (subtape (rowKeys key i).2 ω)) :=
    fun i ω => abcRow_eq S V pri prop sim dist lw key thr i ω
  have hmeas : ∀ i : ℕ, Measurable (Z i) := fun i => by
    rw [show Z i = _ from funext (hZe i)]
    exact hm.comp (((hg i).comp (measurable_subtape _)).prodMk (measurable_subtape _))
  have hind : iIndepFun Z ideal := by
    refine iIndepFun_of_dependsOn (S := fun i : ℕ => rowSites key i) (fun a b h => rowSites_disjoint key a b h) (fun i => hmeas i) fun i ω ω' h => ?_
    have h1 := subtape_dependsOn (rowKeys key i).1 fun s hs => h s (Or.inl hs)
    have h2 := subtape_dependsOn (rowKeys key i).2 fun s hs => h s (Or.inr hs)
    rw [hZe, hZe, h1, h2]
  have hlaw : ∀ i : ℕ, ideal.map (Z (i + 1)) = simulated (ideal.map prop) sim := fun i => by
    rw [show Z (i + 1) = _ from funext (hZe (i + 1))]
    exact map_simulated (hg (i + 1)) hsim (rowKeys_disjoint key (i + 1))
  have hsl := strong_law_ae_real (μ := ideal) (fun i ω => G (Z (i + 1) ω)) ((integrable_map_measure (by rw [hlaw 0]; exact hint.1) (hmeas 1).aemeasurable).1 (by rw [hlaw 0]; exact hint))
    (fun i j hij => (hind.indepFun (by simpa using hij : i + 1 ≠ j + 1)).comp hG hG)
    (fun i => (IdentDistrib.mk (hmeas _).aemeasurable (hmeas _).aemeasurable (by rw [hlaw, hlaw])).comp hG)
  have he : ∫ ω, G (Z (0 + 1) ω) ∂ideal = ∫ z, G z ∂(simulated (ideal.map prop) sim) := by
    rw [← hlaw 0, integral_map (hmeas 1).aemeasurable hG.aestronglyMeasurable]
  rw [he] at hsl
  filter_upwards [hsl] with ω hω
  rw [← tendsto_add_atTop_iff_nat 1]
  have h1 : Tendsto (fun n : ℕ => (n : ℝ) / (n + 1 : ℕ)) atTop (𝓝 1) := by
    have := tendsto_natCast_div_add_atTop (1 : ℝ)
    simpa using this
  have h2 : Tendsto (fun n : ℕ => G (Z 0 ω) / ((n + 1 : ℕ) : ℝ)) atTop (𝓝 0) :=
    (tendsto_const_nhds.div_atTop tendsto_natCast_atTop_atTop).comp (tendsto_add_atTop_nat 1)
  have h3 := (hω.mul h1).add h2
  rw [mul_one, add_zero] at h3
  refine h3.congr fun n => ?_
  rw [Finset.sum_range_succ', add_div]
  congr 1
  rcases Nat.eq_zero_or_pos n with rfl | hn
  · simp
  · have : (n : ℝ) ≠ 0 := by positivity
    field_simp
    rfl

omit [MeasurableSpace D] in
/-- A sum over the rows of a run. -/
theorem run_sum (lw : Fl → Row (Fin d → ℝ) D → Fl) (n : ℕ) (hn : 1 ≤ n) (ω : Tape) (F : Row (Fin d → ℝ) D → ℝ) :
    ((importanceRun Keys.split Keys.split4 (tapeScenario S V pri sim dist ω) (fun k => prop (subtape k ω)) lw n none key thr).map F).sum
      = ∑ i ∈ Finset.range n, F (abcRow S V pri prop sim dist lw key thr i ω) := by
  rw [abc_run_eq lw n hn ω, List.map_map, ← List.sum_toFinset _ List.nodup_range]
  simp [List.toFinset_range]

/-- Weighted means over longer and longer runs, when the weight is a function `W` of the row and turns the proposals into a finite measure `ν`. -/
theorem weightedMean_tendsto (hpri : Measurable pri) (hprop : Measurable prop) (hsim : Measurable fun z : (Fin d → ℝ) × Tape => sim z.1 z.2) (lw : Fl → Row (Fin d → ℝ) D → Fl)
    {W : (Fin d → ℝ) × D → ℝ≥0∞} (hW : Measurable W) (hWt : ∀ z, W z ≠ ∞)
    (hrow : ∀ i ω, rowWeight (abcRow S V pri prop sim dist lw key thr i ω) = W ((abcRow S V pri prop sim dist lw key thr i ω).value, (abcRow S V pri prop sim dist lw key thr i ω).data))
    (ν : Measure ((Fin d → ℝ) × D)) [IsFiniteMeasure ν] (hν : (simulated (ideal.map prop) sim).withDensity W = ν) {f : (Fin d → ℝ) × D → ℝ} (hf : Measurable f) (hfi : Integrable f ν) :
    ∀ᵐ ω ∂ideal,
      Tendsto (fun n : ℕ => ((importanceRun Keys.split Keys.split4 (tapeScenario S V pri sim dist ω) (fun k => prop (subtape k ω)) lw n none key thr).map fun r => Metrics.wexp r.logWeight * f (r.value, r.data)).sum / n)
        atTop (𝓝 (∫ z, f z ∂ν)) := by
  have hWf : Measurable fun z => (W z).toReal * f z := hW.ennreal_toReal.mul hf
  have hlt : ∀ᵐ z ∂(simulated (ideal.map prop) sim), W z < ∞ := ae_of_all _ fun z => lt_top_iff_ne_top.2 (hWt z)
  have hi : Integrable (fun z => (W z).toReal * f z) (simulated (ideal.map prop) sim) := by
    rw [← hν] at hfi
    simpa only [smul_eq_mul] using (integrable_withDensity_iff_integrable_smul' hW hlt).1 hfi
  have he : ∫ z, (W z).toReal * f z ∂(simulated (ideal.map prop) sim) = ∫ z, f z ∂ν := by
    rw [← hν, integral_withDensity_eq_integral_toReal_smul hW hlt]
    rfl
  have hw : ∀ i ω, Metrics.wexp (abcRow S V pri prop sim dist lw key thr i ω).logWeight = (W ((abcRow S V pri prop sim dist lw key thr i ω).value, (abcRow S V pri prop sim dist lw key thr i ω).data)).toReal := fun i ω => by
    rw [← hrow, rowWeight, ENNReal.toReal_ofReal]
    generalize (abcRow S V pri prop sim dist lw key thr i ω).logWeight = l
    cases l <;> simp only [Metrics.wexp, le_refl, Real.exp_nonneg]
  filter_upwards [rows_strong_law (S := S) (V := V) (dist := dist) (key := key) (thr := thr) hpri hprop hsim lw hWf hi] with ω hω
  rw [he] at hω
  refine hω.congr' ?_
  filter_upwards [eventually_ge_atTop 1] with n hn
  rw [run_sum lw n hn ω]
  simp only [hw]

/-- From a limit for every integrable function to weighted means. -/
theorem mean_of_sums {ν : Measure ((Fin d → ℝ) × D)} [IsFiniteMeasure ν] (hpos : ν Set.univ ≠ 0) {rows : ℕ → List (Row (Fin d → ℝ) D)} {f : (Fin d → ℝ) × D → ℝ}
    (h1 : Tendsto (fun n : ℕ => ((rows n).map fun r => Metrics.wexp r.logWeight * f (r.value, r.data)).sum / n) atTop (𝓝 (∫ z, f z ∂ν)))
    (h2 : Tendsto (fun n : ℕ => ((rows n).map fun r => Metrics.wexp r.logWeight * 1).sum / n) atTop (𝓝 (∫ _, 1 ∂ν))) :
    Tendsto (fun n : ℕ => ((rows n).map fun r => Metrics.wexp r.logWeight).sum / n) atTop (𝓝 (ν Set.univ).toReal) ∧
    Tendsto (fun n => weightedAverage f (rows n)) atTop (𝓝 ((∫ z, f z ∂ν) / (ν Set.univ).toReal)) := by
  simp only [mul_one, integral_const, smul_eq_mul] at h2
  have hne : (ν Set.univ).toReal ≠ 0 := ENNReal.toReal_ne_zero.2 ⟨hpos, measure_ne_top _ _⟩
  refine ⟨h2, (h1.div h2 hne).congr' ?_⟩
  filter_upwards [eventually_ge_atTop 1] with n hn
  have : (n : ℝ) ≠ 0 := by positivity
  rw [Pi.div_apply, weightedAverage, div_div_div_cancel_right₀ this]

/-- C135, `ImportanceABC`: with a proposal that draws from the density `exp (-importance potential)` and covers the prior, almost surely the average weight tends to the mass of the (unnormalised) ABC posterior and the
weighted mean of every integrable function tends to its mean under the ABC posterior. The first row, drawn from the prior but weighted as a proposal (C88), does not matter in the limit. -/
theorem C135_importance (hV : Measurable V) (hS : MeasurableSet S) (hpri : Measurable pri) (hprop : Measurable prop) {S' : Set (Fin d → ℝ)} {V' : (Fin d → ℝ) → ℝ} (hS' : MeasurableSet S')
    (hV' : Measurable V') (hSS : S ⊆ S') (hlaw : ideal.map prop = target S' V') (hsim : Measurable fun z : (Fin d → ℝ) × Tape => sim z.1 z.2)
    (hB : MeasurableSet (ball dist thr)) (hpos : abcTarget S V sim (ball dist thr) Set.univ ≠ 0) (hfin : abcTarget S V sim (ball dist thr) Set.univ ≠ ∞)
    (f : (Fin d → ℝ) × D → ℝ) (hf : Measurable f) (hfi : Integrable f (abcTarget S V sim (ball dist thr))) :
    ∀ᵐ ω ∂ideal,
      Tendsto (fun n : ℕ => ((importanceRun Keys.split Keys.split4 (tapeScenario S V pri sim dist ω) (fun k => prop (subtape k ω)) (importanceLogWeight (potOn S' V')) n none key thr).map
        fun r => Metrics.wexp r.logWeight).sum / n) atTop (𝓝 (abcTarget S V sim (ball dist thr) Set.univ).toReal) ∧
      Tendsto (fun n : ℕ => weightedAverage f (importanceRun Keys.split Keys.split4 (tapeScenario S V pri sim dist ω) (fun k => prop (subtape k ω)) (importanceLogWeight (potOn S' V')) n none key thr)) atTop
        (𝓝 ((∫ z, f z ∂(abcTarget S V sim (ball dist thr))) / (abcTarget S V sim (ball dist thr) Set.univ).toReal)) := by
  have : IsFiniteMeasure (abcTarget S V sim (ball dist thr)) := ⟨lt_top_iff_ne_top.2 hfin⟩
  have hW := measurable_impWeight (V := V) hV hS hS' hV' hB
  have hWt : ∀ z, impWeight S S' V V' (ball dist thr) z ≠ ∞ := fun z => by
    unfold impWeight
    split_ifs <;> simp
  have hν : (simulated (ideal.map prop) sim).withDensity (impWeight S S' V V' (ball dist thr)) = abcTarget S V sim (ball dist thr) := by
    refine Measure.ext_of_lintegral _ fun h hh => ?_
    rw [lintegral_withDensity_eq_lintegral_mul _ hW hh, hlaw, ← lintegral_impWeight hV hS hS' hV' hSS hsim hB hh]
    rfl
  have hk := fun {g : (Fin d → ℝ) × D → ℝ} (hg : Measurable g) (hgi : Integrable g (abcTarget S V sim (ball dist thr))) =>
    weightedMean_tendsto (S := S) (V := V) (dist := dist) (key := key) (thr := thr) hpri hprop hsim (importanceLogWeight (potOn S' V')) hW hWt (fun i ω => rowWeight_importance S' V' i ω) _ hν hg hgi
  filter_upwards [hk hf hfi, hk (measurable_const (a := (1 : ℝ))) (integrable_const _)] with ω h1 h2
  exact mean_of_sums hpos h1 h2

/-- C135, `VanillaABC` with a threshold: almost surely the fraction of accepted simulations tends to the probability that prior predictive data fall within the threshold, and the mean of every integrable function over the
accepted simulations tends to its mean under the ABC posterior. -/
theorem C135_vanilla (hpri : Measurable pri) (hlaw : ideal.map pri = target S V) (hsim : Measurable fun z : (Fin d → ℝ) × Tape => sim z.1 z.2)
    (hB : MeasurableSet (ball dist thr)) (hpos : abcTarget S V sim (ball dist thr) Set.univ ≠ 0)
    (f : (Fin d → ℝ) × D → ℝ) (hf : Measurable f) (hfi : Integrable f (abcTarget S V sim (ball dist thr))) :
    ∀ᵐ ω ∂ideal,
      Tendsto (fun n : ℕ => ((importanceRun Keys.split Keys.split4 (tapeScenario S V pri sim dist ω) (tapeScenario S V pri sim dist ω).priorSample vanillaLogWeight n none key thr).map
        fun r => Metrics.wexp r.logWeight).sum / n) atTop (𝓝 (abcTarget S V sim (ball dist thr) Set.univ).toReal) ∧
      Tendsto (fun n : ℕ => weightedAverage f (importanceRun Keys.split Keys.split4 (tapeScenario S V pri sim dist ω) (tapeScenario S V pri sim dist ω).priorSample vanillaLogWeight n none key thr)) atTop
        (𝓝 ((∫ z, f z ∂(abcTarget S V sim (ball dist thr))) / (abcTarget S V sim (ball dist thr) Set.univ).toReal)) := by
  have hms : MeasurableSet {z : (Fin d → ℝ) × D | z.2 ∈ ball dist thr} := measurable_snd hB
  have e : abcTarget S V sim (ball dist thr) = (simulated (target S V) sim).restrict {z | z.2 ∈ ball dist thr} := rfl
  have hp : IsProbabilityMeasure (ideal.map pri) := Measure.isProbabilityMeasure_map hpri.aemeasurable
  have hps : IsProbabilityMeasure (simulated (ideal.map pri) sim) := Measure.isProbabilityMeasure_map (measurable_fst.prodMk hsim).aemeasurable
  have : IsFiniteMeasure (abcTarget S V sim (ball dist thr)) := by rw [e, ← hlaw]; infer_instance
  set W : (Fin d → ℝ) × D → ℝ≥0∞ := {z | z.2 ∈ ball dist thr}.indicator 1 with hWd
  have hW : Measurable W := measurable_one.indicator hms
  have hWt : ∀ z, W z ≠ ∞ := fun z => by
    by_cases hz : z ∈ {z : (Fin d → ℝ) × D | z.2 ∈ ball dist thr} <;> simp only [hWd, Set.indicator, hz, if_true, if_false] <;> simp
  have hν : (simulated (ideal.map pri) sim).withDensity W = abcTarget S V sim (ball dist thr) := by
    rw [hWd, withDensity_indicator_one hms, e, hlaw]
  have hrow : ∀ i ω, rowWeight (abcRow S V pri pri sim dist vanillaLogWeight key thr i ω)
      = W ((abcRow S V pri pri sim dist vanillaLogWeight key thr i ω).value, (abcRow S V pri pri sim dist vanillaLogWeight key thr i ω).data) := rowWeight_vanilla
  have hk := fun {g : (Fin d → ℝ) × D → ℝ} (hg : Measurable g) (hgi : Integrable g (abcTarget S V sim (ball dist thr))) =>
    weightedMean_tendsto (S := S) (V := V) (dist := dist) (key := key) (thr := thr) hpri hpri hsim vanillaLogWeight hW hWt hrow _ hν hg hgi
  filter_upwards [hk hf hfi, hk (measurable_const (a := (1 : ℝ))) (integrable_const _)] with ω h1 h2
  exact mean_of_sums hpos h1 h2

end

/-! ## `acceptance_rate` -/

section
variable [MeasurableSpace D] {S : Set (Fin d → ℝ)} {V : (Fin d → ℝ) → ℝ} {pri : Tape → Fin d → ℝ} {sim : (Fin d → ℝ) → Tape → D} {g : D → ℝ} {key : Keys.Key} {thr : Fl}

omit [MeasurableSpace D] in
theorem ball_fin (g : D → ℝ) (t : ℝ) : ball (fun y => Fl.fin (g y)) (Fl.fin t) = {y | g y < t} := rfl

/-- `t` is the quantile of order `q` of the distance `g` of prior predictive data, uniquely and without an atom. (Specification.) -/
structure IsQuantile (μ : Measure ((Fin d → ℝ) × D)) (g : D → ℝ) (q t : ℝ) : Prop where
  below : ∀ s < t, (μ {z | g z.2 ≤ s}).toReal < q
  above : ∀ s > t, q < (μ {z | g z.2 < s}).toReal
  atom : μ {z | g z.2 = t} = 0

theorem isQuantile_mass {μ : Measure ((Fin d → ℝ) × D)} [IsProbabilityMeasure μ] (hg : Measurable g) {q t : ℝ} (h : IsQuantile μ g q t) : 0 < q ∧ q < 1 ∧ (μ {z | g z.2 < t}).toReal = q := by
  have hgz : Measurable fun z : (Fin d → ℝ) × D => g z.2 := hg.comp measurable_snd
  have hq0 : 0 < q := lt_of_le_of_lt ENNReal.toReal_nonneg (h.below (t - 1) (by linarith))
  have hq1 : q < 1 := (h.above (t + 1) (by linarith)).trans_le (by simpa using ENNReal.toReal_mono ENNReal.one_ne_top (prob_le_one (μ := μ)))
  have hmass : (μ {z | g z.2 ≤ t}).toReal = (μ {z | g z.2 < t}).toReal := by
    congr 1
    refine le_antisymm ?_ (measure_mono fun z (hz : g z.2 < t) => hz.le)
    calc μ {z | g z.2 ≤ t} ≤ μ ({z | g z.2 < t} ∪ {z | g z.2 = t}) := measure_mono fun z (hz : g z.2 ≤ t) => hz.lt_or_eq
      _ ≤ _ := measure_union_le _ _
      _ = _ := by rw [h.atom, add_zero]
  have hd := tendsto_one_div_add_atTop_nhds_zero_nat (𝕜 := ℝ)
  have h1 : (μ {z | g z.2 < t}).toReal ≤ q := by
    have hU : {z : (Fin d → ℝ) × D | g z.2 < t} = ⋃ k : ℕ, {z | g z.2 ≤ t - 1 / ((k : ℝ) + 1)} := by
      ext z
      simp only [Set.mem_iUnion, Set.mem_ofPred_eq]
      constructor
      · intro hz
        obtain ⟨k, hk⟩ := exists_nat_one_div_lt (sub_pos.2 hz)
        exact ⟨k, by linarith⟩
      · rintro ⟨k, hk⟩
        have : (0 : ℝ) < 1 / ((k : ℝ) + 1) := by positivity
        linarith
    have hmono : Monotone fun k : ℕ => {z : (Fin d → ℝ) × D | g z.2 ≤ t - 1 / ((k : ℝ) + 1)} := fun a b hab z (hz : g z.2 ≤ _) => by
      have := one_div_le_one_div_of_le (by positivity : (0 : ℝ) < (a : ℝ) + 1) (by gcongr : (a : ℝ) + 1 ≤ (b : ℝ) + 1)
      exact hz.trans (by linarith)
    have ht := (ENNReal.tendsto_toReal (measure_ne_top μ _)).comp (tendsto_measure_iUnion_atTop (μ := μ) hmono)
    rw [← hU] at ht
    exact le_of_tendsto ht (Eventually.of_forall fun k => (h.below _ (by have : (0 : ℝ) < 1 / ((k : ℝ) + 1) := by positivity
                                                                         linarith)).le)
  have h2 : q ≤ (μ {z | g z.2 ≤ t}).toReal := by
    have hI : {z : (Fin d → ℝ) × D | g z.2 ≤ t} = ⋂ k : ℕ, {z | g z.2 < t + 1 / ((k : ℝ) + 1)} := by
      ext z
      simp only [Set.mem_iInter, Set.mem_ofPred_eq]
      constructor
      · intro hz k
        have : (0 : ℝ) < 1 / ((k : ℝ) + 1) := by positivity
        linarith
      · intro hz
        by_contra hn
        push Not at hn
        obtain ⟨k, hk⟩ := exists_nat_one_div_lt (sub_pos.2 hn)
        have := hz k
        linarith
    have hanti : Antitone fun k : ℕ => {z : (Fin d → ℝ) × D | g z.2 < t + 1 / ((k : ℝ) + 1)} := fun a b hab z (hz : g z.2 < _) => by
      have := one_div_le_one_div_of_le (by positivity : (0 : ℝ) < (a : ℝ) + 1) (by gcongr : (a : ℝ) + 1 ≤ (b : ℝ) + 1)
      exact hz.trans_le (by linarith)
    have ht := (ENNReal.tendsto_toReal (measure_ne_top μ _)).comp (tendsto_measure_iInter_atTop (μ := μ) (fun k => (measurableSet_lt hgz measurable_const).nullMeasurableSet) hanti ⟨0, measure_ne_top _ _⟩)
    rw [← hI] at ht
    exact ge_of_tendsto ht (Eventually.of_forall fun k => (h.above _ (by have : (0 : ℝ) < 1 / ((k : ℝ) + 1) := by positivity
                                                                         linarith)).le)
  exact ⟨hq0, hq1, le_antisymm h1 (hmass ▸ h2)⟩

/-- The masses near a point without atom. -/
theorem near_tendsto {μ : Measure ((Fin d → ℝ) × D)} [IsProbabilityMeasure μ] (hg : Measurable g) {t : ℝ} (h : μ {z | g z.2 = t} = 0) :
    Tendsto (fun k : ℕ => (μ {z | t - 1 / ((k : ℝ) + 1) ≤ g z.2 ∧ g z.2 ≤ t + 1 / ((k : ℝ) + 1)}).toReal) atTop (𝓝 0) := by
  have hgz : Measurable fun z : (Fin d → ℝ) × D => g z.2 := hg.comp measurable_snd
  have hI : {z : (Fin d → ℝ) × D | g z.2 = t} = ⋂ k : ℕ, {z | t - 1 / ((k : ℝ) + 1) ≤ g z.2 ∧ g z.2 ≤ t + 1 / ((k : ℝ) + 1)} := by
    ext z
    simp only [Set.mem_iInter, Set.mem_ofPred_eq]
    constructor
    · intro hz k
      have : (0 : ℝ) < 1 / ((k : ℝ) + 1) := by positivity
      exact ⟨by linarith, by linarith⟩
    · intro hz
      by_contra hn
      rcases lt_or_gt_of_ne hn with hn | hn
      · obtain ⟨k, hk⟩ := exists_nat_one_div_lt (sub_pos.2 hn)
        have := (hz k).1
        linarith
      · obtain ⟨k, hk⟩ := exists_nat_one_div_lt (sub_pos.2 hn)
        have := (hz k).2
        linarith
  have hanti : Antitone fun k : ℕ => {z : (Fin d → ℝ) × D | t - 1 / ((k : ℝ) + 1) ≤ g z.2 ∧ g z.2 ≤ t + 1 / ((k : ℝ) + 1)} := fun a b hab z hz => by
    have := one_div_le_one_div_of_le (by positivity : (0 : ℝ) < (a : ℝ) + 1) (by gcongr : (a : ℝ) + 1 ≤ (b : ℝ) + 1)
    obtain ⟨h1, h2⟩ := hz
    exact ⟨by linarith, by linarith⟩
  have ht := (ENNReal.tendsto_toReal (measure_ne_top μ _)).comp (tendsto_measure_iInter_atTop (μ := μ) (s := fun k : ℕ => {z : (Fin d → ℝ) × D | t - 1 / ((k : ℝ) + 1) ≤ g z.2 ∧ g z.2 ≤ t + 1 / ((k : ℝ) + 1)})
    (fun k => ((measurableSet_le measurable_const hgz).inter (measurableSet_le hgz measurable_const)).nullMeasurableSet) hanti ⟨0, measure_ne_top _ _⟩)
  rw [← hI, h] at ht
  exact ht

/-- C135, `VanillaABC` with `acceptance_rate = q`: the run is cleaned with the empirical quantile of its distances. Almost surely the recorded threshold tends to the quantile `t` of the distances of prior predictive data,
the fraction of simulations with weight tends to `q`, and the weighted mean of every bounded function tends to its mean under the ABC posterior with threshold `t`. -/
theorem C135_rate (hpri : Measurable pri) (hlaw : ideal.map pri = target S V) (hsim : Measurable fun z : (Fin d → ℝ) × Tape => sim z.1 z.2) (hg : Measurable g) (q t : ℝ)
    (hq : IsQuantile (simulated (ideal.map pri) sim) g q t) (f : (Fin d → ℝ) × D → ℝ) (hf : Measurable f) (B : ℝ) (hfB : ∀ z, |f z| ≤ B) :
    ∃ x : Tape → ℕ → (Fin d → ℝ) × D,
      (∀ ω (n : ℕ), (importanceRun Keys.split Keys.split4 (tapeScenario S V pri sim (fun y => Fl.fin (g y)) ω) (tapeScenario S V pri sim (fun y => Fl.fin (g y)) ω).priorSample vanillaLogWeight
        ((n + 1 : ℕ) : ℤ) none key thr).map (fun r => ((r.value, r.data), r.distance)) = List.ofFn fun i : Fin (n + 1) => (x ω i, Fl.fin (g (x ω i).2))) ∧
      ∀ᵐ ω ∂ideal,
        Tendsto (fun n : ℕ => (cleanChainAr q fun i : Fin (n + 1) => g (x ω i).2).1) atTop (𝓝 t) ∧
        Tendsto (fun n : ℕ => (∑ i, Metrics.wexp ((cleanChainAr q fun i : Fin (n + 1) => g (x ω i).2).2 i)) / ((n : ℝ) + 1)) atTop (𝓝 q) ∧
        Tendsto (fun n : ℕ => (∑ i, Metrics.wexp ((cleanChainAr q fun i : Fin (n + 1) => g (x ω i).2).2 i) * f (x ω i)) / ∑ i, Metrics.wexp ((cleanChainAr q fun i : Fin (n + 1) => g (x ω i).2).2 i)) atTop
          (𝓝 ((∫ z, f z ∂(abcTarget S V sim (ball (fun y => Fl.fin (g y)) (Fl.fin t)))) / (abcTarget S V sim (ball (fun y => Fl.fin (g y)) (Fl.fin t)) Set.univ).toReal)) := by
  classical
  set dist : D → Fl := fun y => Fl.fin (g y) with hdist
  set x : Tape → ℕ → (Fin d → ℝ) × D := fun ω i => ((abcRow S V pri pri sim dist vanillaLogWeight key thr i ω).value, (abcRow S V pri pri sim dist vanillaLogWeight key thr i ω).data) with hx
  refine ⟨x, fun ω n => ?_, ?_⟩
  · have hr := abc_run_eq (S := S) (V := V) (pri := pri) (prop := pri) (sim := sim) (dist := dist) (key := key) (thr := thr) vanillaLogWeight (n + 1) (by omega) ω
    have hr' : importanceRun Keys.split Keys.split4 (tapeScenario S V pri sim dist ω) (tapeScenario S V pri sim dist ω).priorSample vanillaLogWeight ((n + 1 : ℕ) : ℤ) none key thr
      = (List.range (n + 1)).map fun i => abcRow S V pri pri sim dist vanillaLogWeight key thr i ω := hr
    rw [hr', List.map_map]
    refine List.ext_getElem (by simp) fun i h1 h2 => ?_
    simp only [List.getElem_map, List.getElem_range, Function.comp_apply, List.getElem_ofFn]
    have hd := (C60_vanilla Keys.split Keys.split4 (tapeScenario S V pri sim dist ω) _ none key thr _ (abcRow_mem (prop := pri) vanillaLogWeight i ω)).1.distance
    rw [hd]
    rfl
  have hp : IsProbabilityMeasure (ideal.map pri) := Measure.isProbabilityMeasure_map hpri.aemeasurable
  have hps : IsProbabilityMeasure (simulated (ideal.map pri) sim) := Measure.isProbabilityMeasure_map (measurable_fst.prodMk hsim).aemeasurable
  set μ := simulated (ideal.map pri) sim with hμ
  have hgz : Measurable fun z : (Fin d → ℝ) × D => g z.2 := hg.comp measurable_snd
  obtain ⟨hq0, hq1, hqm⟩ := isQuantile_mass hg hq
  -- the strong law for sets
  have hset : ∀ (P : ℝ → Prop), MeasurableSet {z : (Fin d → ℝ) × D | P (g z.2)} → ∀ᵐ ω ∂ideal, Tendsto (fractionOf (fun i => g (x ω i).2) P) atTop (𝓝 (μ {z | P (g z.2)}).toReal) := by
    intro P hP
    have hG : Measurable fun z : (Fin d → ℝ) × D => if P (g z.2) then (1 : ℝ) else 0 := Measurable.ite hP measurable_const measurable_const
    have hGi : Integrable (fun z : (Fin d → ℝ) × D => if P (g z.2) then (1 : ℝ) else 0) μ := by
      refine Integrable.of_bound hG.aestronglyMeasurable 1 (ae_of_all _ fun z => ?_)
      split_ifs <;> simp
    have he : ∫ z, (if P (g z.2) then (1 : ℝ) else 0) ∂μ = (μ {z | P (g z.2)}).toReal := by
      have : (fun z : (Fin d → ℝ) × D => if P (g z.2) then (1 : ℝ) else 0) = {z | P (g z.2)}.indicator fun _ => 1 := by
        funext z
        by_cases hz : P (g z.2) <;> simp [hz]
      rw [this, integral_indicator hP]
      simp [Measure.real]
    have h := rows_strong_law (S := S) (V := V) (dist := dist) (key := key) (thr := thr) hpri hpri hsim vanillaLogWeight hG hGi
    rw [← hμ, he] at h
    filter_upwards [h] with ω hω
    refine hω.congr fun n => ?_
    rw [fractionOf]
  have hF : ∀ {F : (Fin d → ℝ) × D → ℝ}, Measurable F → (∀ z, |F z| ≤ B) → ∀ᵐ ω ∂ideal,
      Tendsto (fun n : ℕ => (∑ i ∈ Finset.range n, if g (x ω i).2 < t then F (x ω i) else 0) / (n : ℝ)) atTop (𝓝 (∫ z, F z ∂(abcTarget S V sim (ball dist (Fl.fin t))))) := by
    intro F hFm hFB
    have hms : MeasurableSet {z : (Fin d → ℝ) × D | g z.2 < t} := measurableSet_lt hgz measurable_const
    have hG : Measurable fun z : (Fin d → ℝ) × D => if g z.2 < t then F z else 0 := Measurable.ite hms hFm measurable_const
    have hGi : Integrable (fun z : (Fin d → ℝ) × D => if g z.2 < t then F z else 0) μ := by
      refine Integrable.of_bound hG.aestronglyMeasurable B (ae_of_all _ fun z => ?_)
      split_ifs
      · exact hFB z
      · simpa using (abs_nonneg _).trans (hFB z)
    have he : ∫ z, (if g z.2 < t then F z else 0) ∂μ = ∫ z, F z ∂(abcTarget S V sim (ball dist (Fl.fin t))) := by
      have e1 : (fun z : (Fin d → ℝ) × D => if g z.2 < t then F z else 0) = {z | g z.2 < t}.indicator F := by
        funext z
        by_cases hz : g z.2 < t <;> simp [hz]
      have e2 : abcTarget S V sim (ball dist (Fl.fin t)) = (simulated (target S V) sim).restrict {z | g z.2 < t} := rfl
      rw [e1, integral_indicator hms, e2, hμ, hlaw]
    have h := rows_strong_law (S := S) (V := V) (dist := dist) (key := key) (thr := thr) hpri hpri hsim vanillaLogWeight hG hGi
    rw [← hμ, he] at h
    exact h
  have hB0 : 0 ≤ B := by
    obtain ⟨z⟩ : Nonempty ((Fin d → ℝ) × D) := by
      by_contra hn
      rw [not_nonempty_iff] at hn
      have := measure_univ (μ := μ)
      rw [Set.univ_eq_empty_iff.2 hn, measure_empty] at this
      exact zero_ne_one this
    exact (abs_nonneg _).trans (hfB z)
  have hlo : ∀ᵐ ω ∂ideal, ∀ k : ℕ, Tendsto (fractionOf (fun i => g (x ω i).2) fun y => y ≤ t - 1 / ((k : ℝ) + 1)) atTop (𝓝 (μ {z | g z.2 ≤ t - 1 / ((k : ℝ) + 1)}).toReal) :=
    ae_all_iff.2 fun k => hset (fun y => y ≤ t - 1 / ((k : ℝ) + 1)) (measurableSet_le hgz measurable_const)
  have hhi : ∀ᵐ ω ∂ideal, ∀ k : ℕ, Tendsto (fractionOf (fun i => g (x ω i).2) fun y => y < t + 1 / ((k : ℝ) + 1)) atTop (𝓝 (μ {z | g z.2 < t + 1 / ((k : ℝ) + 1)}).toReal) :=
    ae_all_iff.2 fun k => hset (fun y => y < t + 1 / ((k : ℝ) + 1)) (measurableSet_lt hgz measurable_const)
  have hne : ∀ᵐ ω ∂ideal, ∀ k : ℕ, Tendsto (fractionOf (fun i => g (x ω i).2) fun y => t - 1 / ((k : ℝ) + 1) ≤ y ∧ y ≤ t + 1 / ((k : ℝ) + 1)) atTop
      (𝓝 (μ {z | t - 1 / ((k : ℝ) + 1) ≤ g z.2 ∧ g z.2 ≤ t + 1 / ((k : ℝ) + 1)}).toReal) :=
    ae_all_iff.2 fun k => hset (fun y => t - 1 / ((k : ℝ) + 1) ≤ y ∧ y ≤ t + 1 / ((k : ℝ) + 1)) ((measurableSet_le measurable_const hgz).inter (measurableSet_le hgz measurable_const))
  have hmass : (abcTarget S V sim (ball dist (Fl.fin t)) Set.univ).toReal = q := by
    have e2 : abcTarget S V sim (ball dist (Fl.fin t)) = (simulated (target S V) sim).restrict {z | g z.2 < t} := rfl
    rw [e2, Measure.restrict_apply_univ, ← hlaw, ← hqm]
  have hone := hset (fun y => y < t) (measurableSet_lt hgz measurable_const)
  rw [hqm] at hone
  filter_upwards [hlo, hhi, hne, hF hf hfB, hone] with ω h1 h2 h3 h4 h5
  have hk0 : ∀ k : ℕ, (0 : ℝ) < 1 / ((k : ℝ) + 1) := fun k => by positivity
  have hθ := quantile_tendsto (fun i => g (x ω i).2) hq0.le hq1.le _ _ (fun k => hq.below _ (by linarith [hk0 k])) (fun k => hq.above _ (by linarith [hk0 k])) h1 h2
  have hw : ∀ (n : ℕ) (i : Fin (n + 1)), Metrics.wexp ((cleanChainAr q fun i : Fin (n + 1) => g (x ω i).2).2 i)
      = if g (x ω i).2 < quantile (fun i : Fin (n + 1) => g (x ω i).2) q then 1 else 0 := fun n i => by
    simp only [cleanChainAr]
    split_ifs <;> simp [Metrics.wexp]
  have hsum : ∀ (n : ℕ) (F : ℕ → ℝ), ∑ i : Fin (n + 1), Metrics.wexp ((cleanChainAr q fun i : Fin (n + 1) => g (x ω i).2).2 i) * F i
      = ∑ i ∈ Finset.range (n + 1), if g (x ω i).2 < quantile (fun i : Fin (n + 1) => g (x ω i).2) q then F i else 0 := fun n F => by
    rw [Finset.sum_range]
    refine Finset.sum_congr rfl fun i _ => ?_
    rw [hw]
    split_ifs <;> simp
  have hA : Tendsto (fun n : ℕ => (∑ i, Metrics.wexp ((cleanChainAr q fun i : Fin (n + 1) => g (x ω i).2).2 i)) / ((n : ℝ) + 1)) atTop (𝓝 q) := by
    have := below_tendsto (fun i => g (x ω i).2) (fun _ => 1) zero_le_one (fun _ => by simp) _ hθ _ (near_tendsto hg hq.atom) h3 (h5.congr fun n => by rw [fractionOf])
    refine this.congr fun n => ?_
    rw [← hsum n fun _ => 1]
    simp only [mul_one]
  have hBf := below_tendsto (fun i => g (x ω i).2) (fun i => f (x ω i)) hB0 (fun _ => hfB _) _ hθ _ (near_tendsto hg hq.atom) h3 h4
  refine ⟨hθ, hA, ?_⟩
  rw [hmass]
  refine (hBf.div hA hq0.ne').congr fun n => ?_
  have hn : ((n : ℝ) + 1) ≠ 0 := by positivity
  rw [Pi.div_apply, ← hsum n fun i => f (x ω i), div_div_div_cancel_right₀ hn]

end

/-! ## Cases that meet the hypotheses -/

/-- Prior uniform on `[0, 1)`, data equal to the parameter. -/
def copySim (x : Fin 1 → ℝ) (_ : Tape) : ℝ := x 0

theorem copy_law (A : Set ℝ) (hA : MeasurableSet A) : simulated (ideal.map (unifDraw 1)) copySim {z | z.2 ∈ A} = volume (A ∩ Set.Ico 0 1) := by
  have hm : Measurable fun z : (Fin 1 → ℝ) × Tape => (z.1, copySim z.1 z.2) := measurable_fst.prodMk ((measurable_pi_apply 0).comp measurable_fst)
  have hAm : MeasurableSet {z : (Fin 1 → ℝ) × ℝ | z.2 ∈ A} := measurable_snd hA
  have h0 : MeasurableSet {x : Fin 1 → ℝ | x 0 ∈ A} := (measurable_pi_apply 0) hA
  have hp : IsProbabilityMeasure (ideal.map (unifDraw 1)) := Measure.isProbabilityMeasure_map (measurable_unifDraw 1).aemeasurable
  rw [simulated, Measure.map_apply hm hAm]
  have e1 : (fun z : (Fin 1 → ℝ) × Tape => (z.1, copySim z.1 z.2)) ⁻¹' {z | z.2 ∈ A} = {x : Fin 1 → ℝ | x 0 ∈ A} ×ˢ Set.univ := by
    ext z
    simp [copySim]
  rw [e1, Measure.prod_prod, measure_univ, mul_one, Measure.map_apply (measurable_unifDraw 1) h0]
  have e2 : unifDraw 1 ⁻¹' {x | x 0 ∈ A} = (fun τ : Tape => τ ([], 0)) ⁻¹' A := by
    ext τ
    simp [unifDraw]
  rw [e2, ← Measure.map_apply (measurable_pi_apply (([], 0) : Site)) hA, map_site, unif, Measure.restrict_apply hA]

/-- The quantile of order `q` of the distance `|data|` is `q`. -/
theorem copy_quantile {q : ℝ} (h0 : 0 < q) (h1 : q < 1) : IsQuantile (simulated (ideal.map (unifDraw 1)) copySim) id q q where
  below s hs := by
    have : {z : (Fin 1 → ℝ) × ℝ | id z.2 ≤ s} = {z | z.2 ∈ Set.Iic s} := rfl
    rw [this, copy_law _ measurableSet_Iic]
    have h2 : Set.Iic s ∩ Set.Ico 0 1 ⊆ Set.Icc 0 s := fun x hx => ⟨hx.2.1, hx.1⟩
    have h3 := ENNReal.toReal_mono (by simp) (measure_mono (μ := volume) h2)
    rw [Real.volume_Icc, sub_zero, ENNReal.toReal_ofReal'] at h3
    exact h3.trans_lt (max_lt hs h0)
  above s hs := by
    have : {z : (Fin 1 → ℝ) × ℝ | id z.2 < s} = {z | z.2 ∈ Set.Iio s} := rfl
    rw [this, copy_law _ measurableSet_Iio]
    have h2 : Set.Ico 0 (min s 1) ⊆ Set.Iio s ∩ Set.Ico 0 1 := fun x hx => ⟨hx.2.trans_le (min_le_left _ _), hx.1, hx.2.trans_le (min_le_right _ _)⟩
    have h3 := ENNReal.toReal_mono (ne_top_of_le_ne_top (by simp) (measure_mono (μ := volume) (Set.inter_subset_right (s := Set.Iio s) (t := Set.Ico (0 : ℝ) 1)))) (measure_mono (μ := volume) h2)
    rw [Real.volume_Ico, sub_zero, ENNReal.toReal_ofReal ((lt_min (h0.trans hs) one_pos).le)] at h3
    exact (lt_min hs h1).trans_le h3
  atom := by
    have : {z : (Fin 1 → ℝ) × ℝ | id z.2 = q} = {z | z.2 ∈ ({q} : Set ℝ)} := rfl
    rw [this, copy_law _ (measurableSet_singleton q)]
    exact measure_mono_null Set.inter_subset_left (by simp)

/-- `acceptance_rate = 1/4`: the means of all bounded functions over the accepted simulations tend to those under the uniform distribution on `[0, 1/4)`, here for `f = indicator of values below 1/8`. -/
example (key : Keys.Key) := C135_rate (S := seg 1) (V := fun _ => 0) (key := key) (thr := Fl.pinf) (measurable_unifDraw 1) (by simpa using unifDraw_law one_pos)
  ((measurable_pi_apply 0).comp measurable_fst : Measurable fun z : (Fin 1 → ℝ) × Tape => copySim z.1 z.2) measurable_id (1 / 4) (1 / 4) (copy_quantile (by norm_num) (by norm_num))
  (fun z => Set.indicator (Set.Iio (1 / 8 : ℝ)) (fun _ => 1) (z.1 0)) ((measurable_const.indicator measurableSet_Iio).comp ((measurable_pi_apply 0).comp measurable_fst)) 1
  fun z => by simp only [Set.indicator]; split_ifs <;> simp

/-- `ImportanceABC` with prior uniform on `[0, 1)`, proposals uniform on `[0, 2)`: the probability that the parameter is below 1/2. -/
example (key : Keys.Key) : ∃ m : ℝ, ∀ᵐ ω ∂ideal, Tendsto (fun n : ℕ => weightedAverage (fun z => Set.indicator (Set.Iio (1 / 2 : ℝ)) (fun _ => (1 : ℝ)) (z.1 0)) (importanceRun Keys.split Keys.split4
    (tapeScenario (seg 1) (fun _ => 0) (unifDraw 1) (fun _ _ => ()) (fun _ => Fl.fin 0) ω) (fun k => unifDraw 2 (subtape k ω)) (importanceLogWeight (potOn (seg 2) fun _ => Real.log 2)) n none key (Fl.fin 1))) atTop (𝓝 m) := by
  obtain ⟨_, h2, h3, h4, _⟩ := C88_importance_fails key 1 le_rfl
  have hb : ball (fun _ : Unit => Fl.fin 0) (Fl.fin 1) = Set.univ := by
    ext y; simp [ball, Fl.lt]
  have hfi : Integrable (fun z : (Fin 1 → ℝ) × Unit => Set.indicator (Set.Iio (1 / 2 : ℝ)) (fun _ => (1 : ℝ)) (z.1 0)) (abcTarget (seg 1) (fun _ => 0) (fun _ _ => ()) (ball (fun _ => Fl.fin 0) (Fl.fin 1))) := by
    have hfin : IsFiniteMeasure (abcTarget (seg 1) (fun _ => 0) (fun (_ : Fin 1 → ℝ) _ => ()) (ball (fun _ => Fl.fin 0) (Fl.fin 1))) := ⟨by rw [h4]; exact ENNReal.one_lt_top⟩
    have hm0 : Measurable fun z : (Fin 1 → ℝ) × Unit => z.1 0 := (measurable_pi_apply 0).comp measurable_fst
    have hm : Measurable fun z : (Fin 1 → ℝ) × Unit => Set.indicator (Set.Iio (1 / 2 : ℝ)) (fun _ => (1 : ℝ)) (z.1 0) := (measurable_const.indicator measurableSet_Iio).comp hm0
    refine Integrable.of_bound hm.aestronglyMeasurable 1 (ae_of_all _ fun z => ?_)
    simp only [Set.indicator]
    split_ifs <;> simp
  refine ⟨_, (C135_importance (key := key) measurable_const (measurableSet_seg 1) (measurable_unifDraw 1) (measurable_unifDraw 2) (measurableSet_seg 2) (measurable_const (a := Real.log 2)) h3 h2 measurable_const
    (by rw [hb]; exact MeasurableSet.univ) (by rw [h4]; exact one_ne_zero) (by rw [h4]; exact ENNReal.one_ne_top) (fun z => Set.indicator (Set.Iio (1 / 2 : ℝ)) (fun _ => (1 : ℝ)) (z.1 0)) ((measurable_const.indicator measurableSet_Iio).comp ((measurable_pi_apply 0).comp measurable_fst)) hfi).mono fun ω h => h.2⟩

end Mocat.Props
