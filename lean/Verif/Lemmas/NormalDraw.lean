import Verif.Spec.Tape
import Mathlib.Probability.Kernel.Representation
import Mathlib.MeasureTheory.Constructions.UnitInterval
/-! Normal draws from a uniform exist. -/
namespace Mocat.Ideal
open MeasureTheory ProbabilityTheory Mocat.Meas unitInterval

theorem unif_map_projIcc : unif.map (Set.projIcc (0 : ℝ) 1 zero_le_one) = (volume : Measure I) := by
  have hmp : MeasurePreserving (Subtype.val : I → ℝ) volume (volume.restrict (Set.Icc 0 1)) := measurePreserving_subtype_coe measurableSet_Icc
  have hu : unif = volume.restrict (Set.Icc (0 : ℝ) 1) := by
    unfold unif; exact Measure.restrict_congr_set Ico_ae_eq_Icc
  rw [hu, ← hmp.map_eq, Measure.map_map continuous_projIcc.measurable measurable_subtype_coe]
  have : Set.projIcc (0 : ℝ) 1 zero_le_one ∘ (Subtype.val : I → ℝ) = id := by
    funext x; exact Set.projIcc_val zero_le_one x
  rw [this, Measure.map_id]

/-- A draw as required by `IsNormalDraw` exists. -/
theorem exists_isNormalDraw : ∃ q, IsNormalDraw q := by
  obtain ⟨f, hf, h⟩ := Measure.exists_measurable_map_eq (gaussianReal 0 1)
  refine ⟨f ∘ Set.projIcc (0 : ℝ) 1 zero_le_one, hf.comp continuous_projIcc.measurable, ?_⟩
  rw [← Measure.map_map hf continuous_projIcc.measurable, unif_map_projIcc, h]

end Mocat.Ideal
