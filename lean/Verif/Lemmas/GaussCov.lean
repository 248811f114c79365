import Verif.Lemmas.GaussMoments
import Verif.Lemmas.GaussChar
import Mathlib.Probability.Moments.Covariance
/-!
# Covariances of normal distributions
-/
namespace Mocat.MatGauss
open Matrix MeasureTheory ProbabilityTheory Mocat Mocat.Meas Mocat.Spec

variable {d e k : ℕ}

theorem measurable_affine (B : Matrix (Fin d) (Fin k) ℝ) (m : Fin d → ℝ) : Measurable fun z : Fin k → ℝ => B *ᵥ z + m := by
  have : Continuous (toLin' B) := LinearMap.continuous_of_finiteDimensional _
  exact (this.add continuous_const).measurable

theorem memLp_mulVec {Ω : Type*} [MeasurableSpace Ω] {μ : Measure Ω} [IsFiniteMeasure μ] {f : Ω → Fin k → ℝ} (hf : ∀ j, MemLp (fun ω => f ω j) 2 μ) (B : Matrix (Fin d) (Fin k) ℝ) (i : Fin d) :
    MemLp (fun ω => (B *ᵥ f ω) i) 2 μ := by
  simp only [mulVec, dotProduct]
  exact memLp_finsetSum _ fun j _ => (hf j).const_mul _

theorem cov_mulVec_left {Ω : Type*} [MeasurableSpace Ω] {μ : Measure Ω} [IsFiniteMeasure μ] {f : Ω → Fin k → ℝ} {g : Ω → ℝ} (hf : ∀ j, MemLp (fun ω => f ω j) 2 μ) (hg : MemLp g 2 μ)
    (B : Matrix (Fin d) (Fin k) ℝ) (i : Fin d) : cov[fun ω => (B *ᵥ f ω) i, g; μ] = ∑ a, B i a * cov[fun ω => f ω a, g; μ] := by
  simp only [mulVec, dotProduct]
  rw [covariance_fun_sum_left (fun j => (hf j).const_mul _) hg]
  exact Finset.sum_congr rfl fun a _ => covariance_const_mul_left _

theorem cov_stdNormal (i j : Fin d) : cov[fun z => z i, fun z => z j; stdNormal d] = (1 : Matrix (Fin d) (Fin d) ℝ) i j := by
  rw [covariance_eq_sub (stdNormal_memLp i) (stdNormal_memLp j), stdNormal_mean, zero_mul, sub_zero]
  exact stdNormal_second i j

theorem memLp_gauss (m : Fin d → ℝ) {P : Matrix (Fin d) (Fin d) ℝ} (hP : P.PosDef) (i : Fin d) : MemLp (fun x => x i) 2 (gauss m P) := by
  obtain ⟨L, rfl, hL⟩ := posDef_factor P hP
  rw [← stdNormal_map_affine m L hL]
  refine (memLp_map_measure_iff (measurable_pi_apply i).aestronglyMeasurable (measurable_affine L m).aemeasurable).2 ?_
  exact (memLp_mulVec (fun j => stdNormal_memLp j) L i).add (memLp_const (m i))

theorem cov_gauss (m : Fin d → ℝ) {P : Matrix (Fin d) (Fin d) ℝ} (hP : P.PosDef) (i j : Fin d) : cov[fun x => x i, fun x => x j; gauss m P] = P i j := by
  obtain ⟨L, rfl, hL⟩ := posDef_factor P hP
  rw [← stdNormal_map_affine m L hL, covariance_map_fun (measurable_pi_apply i).aestronglyMeasurable (measurable_pi_apply j).aestronglyMeasurable (measurable_affine L m).aemeasurable]
  simp only [Pi.add_apply]
  have hm : ∀ i, MemLp (fun z => (L *ᵥ z) i) 2 (stdNormal d) := memLp_mulVec (fun j => stdNormal_memLp j) L
  rw [covariance_add_const_left ((hm i).integrable (by norm_num)), covariance_add_const_right ((hm j).integrable (by norm_num)), cov_mulVec_left (fun j => stdNormal_memLp j) (hm j)]
  simp_rw [covariance_comm _ (fun z => (L *ᵥ z) j)]
  simp_rw [cov_mulVec_left (fun j => stdNormal_memLp j) (stdNormal_memLp _), cov_stdNormal]
  simp [mul_apply, one_apply]

theorem gauss_shift (m : Fin d → ℝ) {P : Matrix (Fin d) (Fin d) ℝ} (hP : P.PosDef) : gauss m P = (gauss 0 P).map fun x => m + x := by
  obtain ⟨L, rfl, hL⟩ := posDef_factor P hP
  rw [← stdNormal_map_affine m L hL, ← stdNormal_map_affine 0 L hL, Measure.map_map (measurable_const_add m) (measurable_affine L 0)]
  congr 1
  funext z
  simp [add_comm]

end Mocat.MatGauss
