import Verif.Props.AbcPriors
import Mathlib.Analysis.SpecialFunctions.Trigonometric.DerivHyp
/-!
# C122: simulated g-and-k data have the g-and-k distribution
-/
namespace Mocat.Props
open Mocat Mocat.AbcScenarios Mocat.Ideal Mocat.Meas MeasureTheory ProbabilityTheory
open scoped ENNReal

/-! ## Specification -/

/-- The g-and-k distribution with location `a`, scale `b`, skewness `g` and kurtosis `k` is the distribution of this function of a standard normal `z`. -/
noncomputable def gAndK (c a b g k z : ℝ) : ℝ := a + b * (1 + c * Real.tanh (g * z / 2)) * (1 + z ^ 2) ^ k * z

/-! ## The distribution function at a normal draw is uniform -/

theorem measurable_normCdf : Measurable normCdf := normCdf_strictMono.monotone.measurable

theorem map_normCdf : (gaussianReal 0 1).map normCdf = unif := by
  refine Measure.ext_of_Iic _ _ fun a => ?_
  rw [Measure.map_apply measurable_normCdf measurableSet_Iic]
  unfold unif
  rw [Measure.restrict_apply measurableSet_Iic]
  have hr : ∀ z, normCdf z ∈ Set.Ioo (0 : ℝ) 1 := fun z => range_normCdf ▸ Set.mem_range_self z
  rcases le_or_gt a 0 with h0 | h0
  · have e1 : normCdf ⁻¹' Set.Iic a = ∅ := by
      ext z
      simp only [Set.mem_preimage, Set.mem_Iic, Set.mem_empty_iff_false, iff_false, not_le]
      exact h0.trans_lt (hr z).1
    rw [e1, measure_empty]
    refine (le_antisymm ((measure_mono (t := {0}) ?_).trans (by simp)) bot_le).symm
    rintro u ⟨h1, h2, h3⟩
    exact le_antisymm (le_trans h1 h0) h2
  rcases lt_or_ge a 1 with h1 | h1
  · obtain ⟨z, hz⟩ : a ∈ Set.range normCdf := range_normCdf ▸ ⟨h0, h1⟩
    have e1 : normCdf ⁻¹' Set.Iic a = Set.Iic z := by
      ext y
      simp only [Set.mem_preimage, Set.mem_Iic, ← hz, normCdf_strictMono.le_iff_le]
    have e2 : Set.Iic a ∩ Set.Ico 0 1 = Set.Icc 0 a := by
      ext u
      simp only [Set.mem_inter_iff, Set.mem_Iic, Set.mem_Ico, Set.mem_Icc]
      constructor
      · rintro ⟨h, h', h''⟩; exact ⟨h', h⟩
      · rintro ⟨h, h'⟩; exact ⟨h', h, h'.trans_lt h1⟩
    rw [e1, e2, Real.volume_Icc, sub_zero, ← hz, normCdf, cdf_eq_real, ofReal_measureReal]
  · have e1 : normCdf ⁻¹' Set.Iic a = Set.univ := by
      refine Set.eq_univ_of_forall fun z => ?_
      exact (hr z).2.le.trans h1
    have e2 : Set.Iic a ∩ Set.Ico 0 1 = Set.Ico 0 1 := Set.inter_eq_right.2 fun u hu => hu.2.le.trans h1
    rw [e1, e2, measure_univ, Real.volume_Ico]
    simp

/-- A measurable inverse of the distribution function exists. -/
theorem exists_measurable_ppf : ∃ ppf, Measurable ppf ∧ ValidPpf ppf := by
  have he : MeasurableEmbedding normCdf := measurable_normCdf.measurableEmbedding normCdf_strictMono.injective
  obtain ⟨g, hg, h⟩ := he.exists_measurable_extend (measurable_id (α := ℝ)) fun _ => ⟨0⟩
  exact ⟨g, hg, fun x => congrFun h x⟩

variable {n : ℕ}

theorem pi_unif_normCdf {S : Set (Fin n → ℝ)} (hS : MeasurableSet S) :
    (Measure.pi fun _ : Fin n => unif) S = stdNormal n {z | (fun i => normCdf (z i)) ∈ S} := by
  have hm : Measurable fun (z : Fin n → ℝ) i => normCdf (z i) := measurable_pi_lambda _ fun i => measurable_normCdf.comp (measurable_pi_apply i)
  have : (Measure.pi fun _ : Fin n => unif) = (stdNormal n).map fun z i => normCdf (z i) := by
    unfold stdNormal
    rw [Measure.pi_map_pi (μ := fun _ : Fin n => gaussianReal 0 1) (f := fun _ => normCdf) fun _ => measurable_normCdf.aemeasurable]
    simp only [map_normCdf]
  rw [this, Measure.map_apply hm hS]
  rfl

/-! ## Uniform draws away from 0 and 1 -/

theorem shrunk_le {b : ℝ} (h0 : 0 ≤ b) (h1 : b < 1 / 2) {S : Set (Fin n → ℝ)} (hS : MeasurableSet S) :
    ENNReal.ofReal ((1 - 2 * b) ^ n) * (Measure.pi fun _ : Fin n => unif) {v | (fun i => uniformBetween b (1 - b) (v i)) ∈ S} ≤ (Measure.pi fun _ : Fin n => unif) S := by
  have hbox : ∀ _ : Fin n, b < 1 - b := fun _ => by linarith
  have hw : 0 < 1 - 2 * b := by linarith
  obtain ⟨C, hC, h⟩ := C67_gk_sample (fun _ : Fin n => b) (fun _ => 1 - b) hbox
  have hunit : {u : Fin n → ℝ | (∀ i, 0 < u i) ∧ ∀ i, u i < 1} = Set.pi Set.univ fun _ => Set.Ioo (0 : ℝ) 1 := by
    ext u; simp [Set.mem_pi, forall_and]
  have hbox' : {u : Fin n → ℝ | (∀ i, b < u i) ∧ ∀ i, u i < 1 - b} = Set.pi Set.univ fun _ => Set.Ioo b (1 - b) := by
    ext u; simp [Set.mem_pi, forall_and]
  have hvol : volume {u : Fin n → ℝ | (∀ i, b < u i) ∧ ∀ i, u i < 1 - b} = ENNReal.ofReal ((1 - 2 * b) ^ n) := by
    rw [hbox', Real.volume_pi_Ioo, Finset.prod_const, Finset.card_univ, Fintype.card_fin, ENNReal.ofReal_pow hw.le]
    congr 2; ring
  have hkey : ∀ g : (Fin n → ℝ) → ℝ≥0∞, ENNReal.ofReal ((1 - 2 * b) ^ n) * ∫⁻ u, g (gkUniformSample (fun _ => b) (fun _ => 1 - b) u) ∂(Measure.pi fun _ : Fin n => unif) =
      ∫⁻ y in {u : Fin n → ℝ | (∀ i, b < u i) ∧ ∀ i, u i < 1 - b}, g y := by
    have h' : ∀ g : (Fin n → ℝ) → ℝ≥0∞, ∫⁻ u, g (gkUniformSample (fun _ => b) (fun _ => 1 - b) u) ∂(Measure.pi fun _ : Fin n => unif) =
        ENNReal.ofReal (C * Real.exp (-1)) * ∫⁻ y in {u : Fin n → ℝ | (∀ i, b < u i) ∧ ∀ i, u i < 1 - b}, g y := by
      intro g
      rw [pi_unif_eq, ← hunit, h g, ENNReal.ofReal_mul hC.le, mul_assoc]
      congr 1
      exact lintegral_gkUniform _ _ g
    have hone := h' fun _ => 1
    simp only [lintegral_one, measure_univ, Measure.restrict_apply_univ] at hone
    rw [hvol] at hone
    intro g
    rw [h' g, ← mul_assoc, mul_comm (ENNReal.ofReal ((1 - 2 * b) ^ n)), ← hone, one_mul]
  have hm : Measurable (gkUniformSample (fun _ : Fin n => b) (fun _ => 1 - b)) := measurable_pi_lambda _ fun i => by unfold gkUniformSample; fun_prop
  have hT : MeasurableSet {u | gkUniformSample (fun _ : Fin n => b) (fun _ => 1 - b) u ∈ S} := hm hS
  have e : {v : Fin n → ℝ | (fun i => uniformBetween b (1 - b) (v i)) ∈ S} = {u | gkUniformSample (fun _ : Fin n => b) (fun _ => 1 - b) u ∈ S} := by
    ext v
    rw [Set.mem_ofPred_eq, Set.mem_ofPred_eq]
    have : (fun i => uniformBetween b (1 - b) (v i)) = gkUniformSample (fun _ : Fin n => b) (fun _ => 1 - b) v := funext fun i => by
      simp only [uniformBetween, gkUniformSample]; ring
    rw [this]
  have hk := hkey (S.indicator 1)
  rw [lintegral_indicator_one hS, Measure.restrict_apply hS] at hk
  rw [e, ← lintegral_indicator_one hT]
  refine le_trans (le_of_eq ?_) ((le_of_eq hk).trans ?_)
  · congr 1
  · rw [pi_unif_eq, Measure.restrict_apply hS]
    refine measure_mono (Set.inter_subset_inter_right _ ?_)
    rw [← hunit]
    exact fun u hu => ⟨fun i => h0.trans_lt (hu.1 i), fun i => (hu.2 i).trans_le (by linarith)⟩

theorem shrunk_close {b : ℝ} (h0 : 0 ≤ b) (h1 : b < 1 / 2) {S : Set (Fin n → ℝ)} (hS : MeasurableSet S) :
    |((Measure.pi fun _ : Fin n => unif) {v | (fun i => uniformBetween b (1 - b) (v i)) ∈ S}).toReal - ((Measure.pi fun _ : Fin n => unif) S).toReal| ≤ n * (2 * b) := by
  have hw : 0 < 1 - 2 * b := by linarith
  have hpow : 1 - n * (2 * b) ≤ (1 - 2 * b) ^ n := by
    have := one_add_mul_le_pow (a := -(2 * b)) (by linarith) n
    calc 1 - n * (2 * b) = 1 + n * -(2 * b) := by ring
      _ ≤ (1 + -(2 * b)) ^ n := this
      _ = _ := by ring
  have hm : Measurable fun (v : Fin n → ℝ) i => uniformBetween b (1 - b) (v i) := measurable_pi_lambda _ fun i => by unfold uniformBetween; fun_prop
  have main : ∀ {S : Set (Fin n → ℝ)}, MeasurableSet S →
      ((Measure.pi fun _ : Fin n => unif) {v | (fun i => uniformBetween b (1 - b) (v i)) ∈ S}).toReal ≤ ((Measure.pi fun _ : Fin n => unif) S).toReal + n * (2 * b) := by
    intro S hS
    have h := ENNReal.toReal_mono (by finiteness) (shrunk_le h0 h1 hS)
    rw [ENNReal.toReal_mul, ENNReal.toReal_ofReal (by positivity)] at h
    set p := ((Measure.pi fun _ : Fin n => unif) {v | (fun i => uniformBetween b (1 - b) (v i)) ∈ S}).toReal with hp
    have hp0 : 0 ≤ p := ENNReal.toReal_nonneg
    have hp1 : p ≤ 1 := measureReal_le_one
    have hnb : 0 ≤ n * (2 * b) := by positivity
    nlinarith
  rw [abs_sub_le_iff]
  refine ⟨by linarith [main hS], ?_⟩
  have hc := main hS.compl
  have hT : MeasurableSet {v : Fin n → ℝ | (fun i => uniformBetween b (1 - b) (v i)) ∈ S} := hm hS
  have e : {v : Fin n → ℝ | (fun i => uniformBetween b (1 - b) (v i)) ∈ Sᶜ} = {v | (fun i => uniformBetween b (1 - b) (v i)) ∈ S}ᶜ := rfl
  have c1 : ((Measure.pi fun _ : Fin n => unif) {v | (fun i => uniformBetween b (1 - b) (v i)) ∈ S}ᶜ).toReal = 1 - ((Measure.pi fun _ : Fin n => unif) {v | (fun i => uniformBetween b (1 - b) (v i)) ∈ S}).toReal :=
    probReal_compl_eq_one_sub hT
  have c2 : ((Measure.pi fun _ : Fin n => unif) Sᶜ).toReal = 1 - ((Measure.pi fun _ : Fin n => unif) S).toReal := probReal_compl_eq_one_sub hS
  rw [e, c1, c2] at hc
  linarith

/-! ## C122 -/

theorem gkData_eq (c : ℝ) (x : Fin 4 → ℝ) (z : ℝ) : gkData c x z = gAndK c (x 0) (x 1) (x 2) (x 3) z := by
  have : Real.tanh (x 2 * z / 2) = (1 - Real.exp (-x 2 * z)) / (1 + Real.exp (-x 2 * z)) := by
    rw [Real.tanh_eq_sinh_div_cosh, Real.sinh_eq, Real.cosh_eq]
    have h1 : Real.exp (-x 2 * z) = Real.exp (-(x 2 * z / 2)) / Real.exp (x 2 * z / 2) := by
      rw [← Real.exp_sub]; congr 1; ring
    rw [h1]
    have := (Real.exp_pos (x 2 * z / 2)).ne'
    have h2 := Real.exp_pos (x 2 * z / 2)
    have h3 := Real.exp_pos (-(x 2 * z / 2))
    field_simp
  unfold gkData gAndK
  simp only
  rw [this]
  ring

theorem measurable_gkData (c : ℝ) (x : Fin 4 → ℝ) : Measurable (gkData c x) := by unfold gkData; fun_prop

/-- C122: `n` data simulated by `GKUniformPrior.full_data_sample` at parameters `x` are, for every event and up to `2 * buffer` per datum, independent draws from the g-and-k distribution with these parameters. -/
theorem C122_full_data {ppf : ℝ → ℝ} (hppf : ValidPpf ppf) (hm : Measurable ppf) (c : ℝ) {buffer : ℝ} (h0 : 0 ≤ buffer) (h1 : buffer < 1 / 2) (x : Fin 4 → ℝ) (key : Keys.Key) (n : ℕ) {A : Set (Fin n → ℝ)} (hA : MeasurableSet A) :
    |(ideal {ω | gkFullData ppf c buffer x (uniformAt n ω key) ∈ A}).toReal - (stdNormal n {z | (fun i => gAndK c (x 0) (x 1) (x 2) (x 3) (z i)) ∈ A}).toReal| ≤ n * (2 * buffer) := by
  have hmS : Measurable fun (u : Fin n → ℝ) i => gkData c x (ppf (u i)) := measurable_pi_lambda _ fun i => (measurable_gkData c x).comp (hm.comp (measurable_pi_apply i))
  have hmb : Measurable fun (v : Fin n → ℝ) i => uniformBetween buffer (1 - buffer) (v i) := measurable_pi_lambda _ fun i => by unfold uniformBetween; fun_prop
  set S : Set (Fin n → ℝ) := {u | (fun i => gkData c x (ppf (u i))) ∈ A} with hSdef
  have hS : MeasurableSet S := hmS hA
  have hP : MeasurableSet {v : Fin n → ℝ | (fun i => uniformBetween buffer (1 - buffer) (v i)) ∈ S} := hmb hS
  have e : {ω : Tape | gkFullData ppf c buffer x (uniformAt n ω key) ∈ A} = {ω | uniformAt n ω key ∈ {v : Fin n → ℝ | (fun i => uniformBetween buffer (1 - buffer) (v i)) ∈ S}} := rfl
  have e2 : {z : Fin n → ℝ | (fun i => gAndK c (x 0) (x 1) (x 2) (x 3) (z i)) ∈ A} = {z | (fun i => normCdf (z i)) ∈ S} := by
    ext z
    rw [Set.mem_ofPred_eq, Set.mem_ofPred_eq, hSdef, Set.mem_ofPred_eq]
    simp only [hppf _, gkData_eq]
  rw [e, ideal_uniformAt key hP, e2, ← pi_unif_normCdf hS]
  exact shrunk_close h0 h1 hS

/-- C122 for `GKTransformedUniformPrior`: the distribution is that of the constrained parameters. -/
theorem C122_full_data_transformed {ppf : ℝ → ℝ} (hppf : ValidPpf ppf) (hm : Measurable ppf) (c : ℝ) {buffer : ℝ} (h0 : 0 ≤ buffer) (h1 : buffer < 1 / 2) (mins maxs x : Fin 4 → ℝ) (key : Keys.Key) (n : ℕ)
    {A : Set (Fin n → ℝ)} (hA : MeasurableSet A) :
    let y : Fin 4 → ℝ := fun i => mins i + cdf (gaussianReal 0 1) (x i) * (maxs i - mins i)
    |(ideal {ω | gkTransformedFullData ppf c buffer mins maxs x (uniformAt n ω key) ∈ A}).toReal - (stdNormal n {z | (fun i => gAndK c (y 0) (y 1) (y 2) (y 3) (z i)) ∈ A}).toReal| ≤ n * (2 * buffer) :=
  C122_full_data hppf hm c h0 h1 (gkConstrain mins maxs x) key n hA

/-- C122 for `likelihood_sample`, with any measurable summary of the data. -/
theorem C122_likelihood_sample {ppf : ℝ → ℝ} (hppf : ValidPpf ppf) (hm : Measurable ppf) (c : ℝ) {buffer : ℝ} (h0 : 0 ≤ buffer) (h1 : buffer < 1 / 2) (x : Fin 4 → ℝ) (key : Keys.Key) (n : ℕ)
    {γ : Type*} [MeasurableSpace γ] {summarise : (Fin n → ℝ) → γ} (hs : Measurable summarise) {A : Set γ} (hA : MeasurableSet A) :
    |(ideal {ω | gkLikelihoodSample summarise (fun x => gkFullData ppf c buffer x (uniformAt n ω key)) x ∈ A}).toReal -
      (stdNormal n {z | summarise (fun i => gAndK c (x 0) (x 1) (x 2) (x 3) (z i)) ∈ A}).toReal| ≤ n * (2 * buffer) :=
  C122_full_data hppf hm c h0 h1 x key n (hs hA)

/-- The hypotheses can be met, with the default buffer. -/
example : (∃ ppf, Measurable ppf ∧ ValidPpf ppf) ∧ (0 : ℝ) ≤ 1e-5 ∧ (1e-5 : ℝ) < 1 / 2 := ⟨exists_measurable_ppf, by norm_num, by norm_num⟩

end Mocat.Props
