import Verif.Lemmas.Measure
import Mathlib.MeasureTheory.Measure.Lebesgue.EqHaar
import Mathlib.Analysis.SpecialFunctions.Pow.Real
/-!
# Normal draws at two scales
-/
namespace Mocat.Meas
open MeasureTheory ProbabilityTheory
open scoped ENNReal

variable {d : ℕ}

/-- The density of `d` standard normals. -/
noncomputable def normDens (x : Fin d → ℝ) : ℝ := ∏ i, gaussianPDFReal 0 1 (x i)

theorem normDens_nonneg (x : Fin d → ℝ) : 0 ≤ normDens x := Finset.prod_nonneg fun _ _ => gaussianPDFReal_nonneg 0 1 _

theorem measurable_normDens : Measurable (normDens (d := d)) :=
  Finset.measurable_fun_prod _ fun i _ => (measurable_gaussianPDFReal 0 1).comp (measurable_pi_apply i)

theorem lintegral_smul {F : (Fin d → ℝ) → ℝ≥0∞} (hF : Measurable F) {c : ℝ} (hc : 0 < c) : ∫⁻ z : Fin d → ℝ, F (fun i => c * z i) = ENNReal.ofReal ((c ^ d)⁻¹) * ∫⁻ v, F v := by
  have hm := Measure.map_addHaar_smul (volume : Measure (Fin d → ℝ)) hc.ne'
  have e : ∫⁻ z : Fin d → ℝ, F (fun i => c * z i) = ∫⁻ v, F v ∂(Measure.map (fun z : Fin d → ℝ => c • z) volume) := by
    rw [lintegral_map hF (measurable_const_smul c)]
    rfl
  rw [e, hm, lintegral_smul_measure, Module.finrank_fin_fun, abs_of_pos (by positivity), smul_eq_mul]

/-- Normal draws scaled by `c`, as an integral over the line. -/
theorem lintegral_scaled {H : (Fin d → ℝ) → ℝ≥0∞} (hH : Measurable H) {c : ℝ} (hc : 0 < c) :
    ∫⁻ z, H (fun i => c * z i) ∂(stdNormal d) = ENNReal.ofReal ((c ^ d)⁻¹) * ∫⁻ v, ENNReal.ofReal (normDens fun i => v i / c) * H v := by
  have mN : Measurable fun v : Fin d → ℝ => ENNReal.ofReal (normDens fun i => v i / c) := (measurable_normDens.comp (by fun_prop)).ennreal_ofReal
  have mH : Measurable fun z : Fin d → ℝ => H fun i => c * z i := hH.comp (by fun_prop)
  have hsd : stdNormal d = volume.withDensity fun x => ENNReal.ofReal (normDens x) := stdNormal_eq_withDensity d
  have e := lintegral_withDensity_eq_lintegral_mul (volume : Measure (Fin d → ℝ)) measurable_normDens.ennreal_ofReal mH
  rw [hsd, e]
  have mP : Measurable fun v : Fin d → ℝ => ENNReal.ofReal (normDens fun i => v i / c) * H v := mN.mul hH
  rw [← lintegral_smul mP hc]
  refine lintegral_congr fun z => ?_
  simp only [Pi.mul_apply]
  congr 2
  simp only [normDens]
  refine Finset.prod_congr rfl fun i _ => ?_
  rw [mul_div_cancel_left₀ _ hc.ne']

theorem pdf_mono {v a b : ℝ} (ha : 0 < a) (hab : a ≤ b) : gaussianPDFReal 0 1 (v / a) ≤ gaussianPDFReal 0 1 (v / b) := by
  simp only [gaussianPDFReal]
  refine mul_le_mul_of_nonneg_left (Real.exp_le_exp.mpr ?_) (by positivity)
  have h : (v / b) ^ 2 ≤ (v / a) ^ 2 := by
    rw [div_pow, div_pow]
    exact div_le_div_of_nonneg_left (sq_nonneg v) (by positivity) (pow_le_pow_left₀ ha.le hab 2)
  simp only [sub_zero, NNReal.coe_one, mul_one]
  linarith

/-- A wider normal is at least a multiple of a narrower one. -/
theorem scaled_le {H : (Fin d → ℝ) → ℝ≥0∞} (hH : Measurable H) {a b : ℝ} (ha : 0 < a) (hab : a ≤ b) :
    ENNReal.ofReal ((a / b) ^ d) * ∫⁻ z, H (fun i => a * z i) ∂(stdNormal d) ≤ ∫⁻ z, H (fun i => b * z i) ∂(stdNormal d) := by
  have hb : 0 < b := ha.trans_le hab
  rw [lintegral_scaled hH ha, lintegral_scaled hH hb, ← mul_assoc, ← ENNReal.ofReal_mul (by positivity)]
  have e : (a / b) ^ d * (a ^ d)⁻¹ = (b ^ d)⁻¹ := by rw [div_pow]; field_simp
  rw [e]
  gcongr
  exact Finset.prod_le_prod (fun i _ => gaussianPDFReal_nonneg 0 1 _) fun i _ => pdf_mono ha hab

/-- Bounded functions of normal draws at two scales. -/
theorem abs_scaled_sub_le {H : (Fin d → ℝ) → ℝ} (hH : Measurable H) {B : ℝ} (hB : ∀ v, |H v| ≤ B) {a b : ℝ} (ha : 0 < a) (hab : a ≤ b) :
    |∫ z, H (fun i => b * z i) ∂(stdNormal d) - ∫ z, H (fun i => a * z i) ∂(stdNormal d)| ≤ 2 * B * (1 - (a / b) ^ d) := by
  have hb : 0 < b := ha.trans_le hab
  have hB0 : 0 ≤ B := (abs_nonneg _).trans (hB 0)
  have hr0 : 0 ≤ (a / b) ^ d := by positivity
  -- for nonnegative functions
  have key : ∀ G : (Fin d → ℝ) → ℝ, Measurable G → (∀ v, 0 ≤ G v) → (∀ v, G v ≤ 2 * B) → (a / b) ^ d * ∫ z, G (fun i => a * z i) ∂(stdNormal d) ≤ ∫ z, G (fun i => b * z i) ∂(stdNormal d) := by
    intro G hG h0 h1
    have hm : ∀ c : ℝ, Measurable fun z : Fin d → ℝ => G fun i => c * z i := fun c => hG.comp (by fun_prop)
    have hi : ∀ c : ℝ, Integrable (fun z : Fin d → ℝ => G fun i => c * z i) (stdNormal d) := fun c =>
      Integrable.of_bound (hm c).aestronglyMeasurable (2 * B) (.of_forall fun z => by rw [Real.norm_of_nonneg (h0 _)]; exact h1 _)
    have h := scaled_le hG.ennreal_ofReal ha hab
    have hl : ∀ c : ℝ, ∫⁻ z, ENNReal.ofReal (G fun i => c * z i) ∂(stdNormal d) = ENNReal.ofReal (∫ z, G (fun i => c * z i) ∂(stdNormal d)) := fun c =>
      (ofReal_integral_eq_lintegral_ofReal (hi c) (.of_forall fun z => h0 _)).symm
    rw [hl, hl, ← ENNReal.ofReal_mul hr0] at h
    exact (ENNReal.ofReal_le_ofReal_iff (integral_nonneg fun z => h0 _)).mp h
  have hm : ∀ c : ℝ, Measurable fun z : Fin d → ℝ => H fun i => c * z i := fun c => hH.comp (by fun_prop)
  have hi : ∀ c : ℝ, Integrable (fun z : Fin d → ℝ => H fun i => c * z i) (stdNormal d) := fun c =>
    Integrable.of_bound (hm c).aestronglyMeasurable B (.of_forall fun z => hB _)
  have h1 := key (fun v => H v + B) (hH.add_const B) (fun v => by linarith [(abs_le.mp (hB v)).1]) (fun v => by linarith [(abs_le.mp (hB v)).2])
  have h2 := key (fun v => B - H v) (measurable_const.sub hH) (fun v => by linarith [(abs_le.mp (hB v)).2]) (fun v => by linarith [(abs_le.mp (hB v)).1])
  have e1 : ∀ c : ℝ, ∫ z, (H (fun i => c * z i) + B) ∂(stdNormal d) = ∫ z, H (fun i => c * z i) ∂(stdNormal d) + B := fun c => by
    rw [integral_add (hi c) (integrable_const _)]; simp
  have e2 : ∀ c : ℝ, ∫ z, (B - H (fun i => c * z i)) ∂(stdNormal d) = B - ∫ z, H (fun i => c * z i) ∂(stdNormal d) := fun c => by
    rw [integral_sub (integrable_const _) (hi c)]; simp
  simp only [e1, e2] at h1 h2
  have hA : |∫ z, H (fun i => a * z i) ∂(stdNormal d)| ≤ B := by
    have := norm_integral_le_of_norm_le_const (μ := stdNormal d) (f := fun z => H fun i => a * z i) (.of_forall fun z => hB _)
    simpa using this
  obtain ⟨hA1, hA2⟩ := abs_le.mp hA
  have hr1 : (a / b) ^ d ≤ 1 := pow_le_one₀ (by positivity) ((div_le_one hb).mpr hab)
  rw [abs_le]
  constructor
  · have := mul_le_mul_of_nonneg_left hA2 (sub_nonneg.mpr hr1)
    nlinarith
  · have := mul_le_mul_of_nonneg_left hA1 (sub_nonneg.mpr hr1)
    nlinarith

theorem one_sub_pow_le {r : ℝ} (hr : 0 < r) (n : ℕ) : 1 - r ^ n ≤ n * -Real.log r := by
  have h := Real.add_one_le_exp ((n : ℝ) * Real.log r)
  rw [mul_comm (n : ℝ), Real.exp_mul, Real.exp_log hr, Real.rpow_natCast] at h
  linarith

/-- In terms of squared scales, as stepsizes are. -/
theorem abs_sqrt_scaled_sub_le {H : (Fin d → ℝ) → ℝ} (hH : Measurable H) {B : ℝ} (hB : ∀ v, |H v| ≤ B) {s t : ℝ} (hs : 0 < s) (ht : 0 < t) :
    |∫ z, H (fun i => Real.sqrt s * z i) ∂(stdNormal d) - ∫ z, H (fun i => Real.sqrt t * z i) ∂(stdNormal d)| ≤ B * d * |Real.log s - Real.log t| := by
  have hB0 : 0 ≤ B := (abs_nonneg _).trans (hB 0)
  have main : ∀ s t : ℝ, 0 < t → t ≤ s → |∫ z, H (fun i => Real.sqrt s * z i) ∂(stdNormal d) - ∫ z, H (fun i => Real.sqrt t * z i) ∂(stdNormal d)| ≤ B * d * |Real.log s - Real.log t| := by
    intro s t ht hts
    have hs : 0 < s := ht.trans_le hts
    refine (abs_scaled_sub_le hH hB (Real.sqrt_pos.mpr ht) (Real.sqrt_le_sqrt hts)).trans ?_
    have h1 := one_sub_pow_le (r := Real.sqrt t / Real.sqrt s) (div_pos (Real.sqrt_pos.mpr ht) (Real.sqrt_pos.mpr hs)) d
    rw [Real.log_div (Real.sqrt_pos.mpr ht).ne' (Real.sqrt_pos.mpr hs).ne', Real.log_sqrt ht.le, Real.log_sqrt hs.le] at h1
    rw [abs_of_nonneg (sub_nonneg.mpr (Real.log_le_log ht hts))]
    calc _ ≤ 2 * B * (d * -(Real.log t / 2 - Real.log s / 2)) := mul_le_mul_of_nonneg_left h1 (by positivity)
      _ = _ := by ring
  rcases le_total t s with h | h
  · exact main s t ht h
  · rw [abs_sub_comm, abs_sub_comm (Real.log s)]
    exact main t s hs h

end Mocat.Meas
