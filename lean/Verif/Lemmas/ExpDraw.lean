import Verif.Lemmas.Measure
import Mathlib.Probability.Distributions.Exponential
import Mathlib.MeasureTheory.Constructions.Pi
/-!
# Exponential draws from uniforms, and a uniform shifted by a small amount
-/
namespace Mocat.Meas
open MeasureTheory ProbabilityTheory Set

/-- Shift by `ε`, around the circle. -/
noncomputable def rot (ε u : ℝ) : ℝ := if u + ε < 1 then u + ε else u + ε - 1

theorem measurable_rot (ε : ℝ) : Measurable (rot ε) :=
  Measurable.ite (measurableSet_lt (by fun_prop) measurable_const) (by fun_prop) (by fun_prop)

theorem unif_map_rot {ε : ℝ} (h0 : 0 ≤ ε) (h1 : ε ≤ 1) : unif.map (rot ε) = unif := by
  ext A hA
  rw [Measure.map_apply (measurable_rot ε) hA]
  unfold unif
  rw [Measure.restrict_apply (measurable_rot ε hA), Measure.restrict_apply hA]
  have e1 : rot ε ⁻¹' A ∩ Ico 0 1 = ((· + ε) ⁻¹' (A ∩ Ico ε 1)) ∪ ((· + (ε - 1)) ⁻¹' (A ∩ Ico 0 ε)) := by
    ext u
    simp only [mem_inter_iff, mem_preimage, mem_Ico, mem_union, rot]
    constructor
    · rintro ⟨h, hu0, hu1⟩
      split_ifs at h with hc
      · exact .inl ⟨h, by linarith, hc⟩
      · exact .inr ⟨by rwa [← add_sub_assoc], by linarith, by linarith⟩
    · rintro (⟨h, h2, h3⟩ | ⟨h, h2, h3⟩)
      · exact ⟨by rwa [if_pos h3], by linarith, by linarith⟩
      · refine ⟨?_, by linarith, by linarith⟩
        rw [if_neg (by linarith)]
        rwa [add_sub_assoc]
  have e2 : A ∩ Ico (0 : ℝ) 1 = (A ∩ Ico ε 1) ∪ (A ∩ Ico 0 ε) := by
    rw [← inter_union_distrib_left, union_comm, Ico_union_Ico_eq_Ico h0 h1]
  rw [e1, e2, measure_union, measure_union, measure_preimage_add_right, measure_preimage_add_right]
  · refine disjoint_left.2 ?_
    rintro x ⟨-, h⟩ ⟨-, h'⟩
    exact absurd h.1 (not_le.2 h'.2)
  · exact hA.inter measurableSet_Ico
  · refine disjoint_left.2 ?_
    rintro x ⟨-, h⟩ ⟨-, h'⟩
    have a := h.1
    have b := h'.2
    simp only at a b
    linarith [h.2, h'.1]
  · exact (measurable_add_const _) (hA.inter measurableSet_Ico)

/-- `-log u / r` of a uniform is exponential. -/
theorem unif_map_neg_log {r : ℝ} (hr : 0 < r) : unif.map (fun u => -Real.log u / r) = expMeasure r := by
  have hm : Measurable fun u : ℝ => -Real.log u / r := by fun_prop
  have := isProbabilityMeasure_expMeasure hr
  have : IsProbabilityMeasure (unif.map fun u => -Real.log u / r) := Measure.isProbabilityMeasure_map hm.aemeasurable
  refine Measure.eq_of_cdf _ _ ?_
  ext x
  rw [cdf_expMeasure_eq hr, cdf_eq_real, measureReal_def, Measure.map_apply hm measurableSet_Iic]
  unfold unif
  rw [Measure.restrict_apply (hm measurableSet_Iic)]
  split_ifs with hx
  · have he : Real.exp (-(r * x)) ≤ 1 := Real.exp_le_one_iff.2 (by nlinarith [mul_nonneg hr.le hx])
    have hsub : (Ico (Real.exp (-(r * x))) 1 : Set ℝ) ⊆ (fun u => -Real.log u / r) ⁻¹' Iic x ∩ Ico 0 1 := by
      rintro u ⟨h, h1⟩
      have hu' : 0 < u := (Real.exp_pos _).trans_le h
      refine ⟨?_, hu'.le, h1⟩
      change -Real.log u / r ≤ x
      rw [div_le_iff₀ hr]
      rw [← Real.le_log_iff_exp_le hu'] at h
      linarith
    have hsup : (fun u => -Real.log u / r) ⁻¹' Iic x ∩ Ico 0 1 ⊆ (Ico (Real.exp (-(r * x))) 1 : Set ℝ) ∪ {0} := by
      rintro u ⟨h, h0, h1⟩
      rcases h0.eq_or_lt with rfl | hu'
      · exact .inr rfl
      · refine .inl ⟨?_, h1⟩
        change -Real.log u / r ≤ x at h
        rw [div_le_iff₀ hr] at h
        rw [← Real.le_log_iff_exp_le hu']
        linarith
    have hvol : volume ((fun u => -Real.log u / r) ⁻¹' Iic x ∩ Ico 0 1) = volume (Ico (Real.exp (-(r * x))) 1 : Set ℝ) := by
      refine le_antisymm ((measure_mono hsup).trans ((measure_union_le _ _).trans ?_)) (measure_mono hsub)
      rw [Real.volume_singleton, add_zero]
    rw [hvol, Real.volume_Ico, ENNReal.toReal_ofReal (by linarith)]
  · have : (fun u => -Real.log u / r) ⁻¹' Iic x ∩ Ico 0 1 = ∅ := by
      rw [eq_empty_iff_forall_notMem]
      rintro u ⟨h, h0, h1⟩
      have : Real.log u ≤ 0 := Real.log_nonpos h0 h1.le
      have h2 : 0 ≤ -Real.log u / r := div_nonneg (by linarith) hr.le
      exact hx (h2.trans h)
    rw [this]; simp

/-- The draw with the shifted uniform misses the exact law by at most `ε`, for every event. -/
theorem shifted_exp {r ε : ℝ} (hr : 0 < r) (h0 : 0 ≤ ε) (h1 : ε ≤ 1) {B : Set ℝ} (hB : MeasurableSet B) :
    |(unif {u | -Real.log (ε + u) / r ∈ B}).toReal - (expMeasure r B).toReal| ≤ ε := by
  have hm : Measurable fun u : ℝ => -Real.log u / r := by fun_prop
  have hm' : Measurable fun u : ℝ => -Real.log (ε + u) / r := by fun_prop
  rw [← unif_map_neg_log hr, ← unif_map_rot h0 h1, Measure.map_map hm (measurable_rot ε), Measure.map_apply (hm.comp (measurable_rot ε)) hB, unif_map_rot h0 h1]
  set P : Set ℝ := {u | -Real.log (ε + u) / r ∈ B} with hP
  set Q : Set ℝ := (fun u => -Real.log u / r) ∘ rot ε ⁻¹' B with hQ
  have hbad : unif {u | 1 ≤ u + ε} = ENNReal.ofReal ε := by
    unfold unif
    rw [Measure.restrict_apply (measurableSet_le measurable_const (by fun_prop))]
    have : {u : ℝ | 1 ≤ u + ε} ∩ Ico 0 1 = Ico (1 - ε) 1 := by
      ext u
      simp only [mem_inter_iff, mem_ofPred_eq, mem_Ico]
      constructor
      · rintro ⟨a, b, c⟩; exact ⟨by linarith, c⟩
      · rintro ⟨a, b⟩; exact ⟨by linarith, by linarith, b⟩
    rw [this, Real.volume_Ico]
    ring_nf
  have hsub : ∀ {X Y : Set ℝ}, (∀ u, u + ε < 1 → u ∈ X → u ∈ Y) → (unif X).toReal ≤ (unif Y).toReal + ε := by
    intro X Y h
    have : unif X ≤ unif Y + ENNReal.ofReal ε := by
      rw [← hbad]
      refine (measure_mono ?_).trans (measure_union_le _ _)
      intro u hu
      by_cases hc : u + ε < 1
      · exact .inl (h u hc hu)
      · exact .inr (not_lt.1 hc)
    have := ENNReal.toReal_mono (by finiteness) this
    rwa [ENNReal.toReal_add (by finiteness) (by finiteness), ENNReal.toReal_ofReal h0] at this
  have hpq : ∀ u, u + ε < 1 → (u ∈ P ↔ u ∈ Q) := by
    intro u hu
    rw [hP, hQ]
    change -Real.log (ε + u) / r ∈ B ↔ -Real.log (rot ε u) / r ∈ B
    rw [rot, if_pos hu, add_comm]
  rw [abs_sub_le_iff]
  exact ⟨by linarith [hsub fun u hu h => (hpq u hu).1 h], by linarith [hsub fun u hu h => (hpq u hu).2 h]⟩

end Mocat.Meas
