import Verif.Lemmas.Measure
import Verif.Lemmas.Leapfrog
import Mathlib.Probability.Distributions.Gaussian.Basic
import Mathlib.MeasureTheory.Group.Convolution
/-! Helper lemmas for the invariance of Underdamped + Metropolis. -/
namespace Mocat.Mcmc
open Mocat MeasureTheory ProbabilityTheory Set Mocat.Meas
open scoped ENNReal

variable {d : ℕ}

theorem measurePreserving_kick (c : ℝ) (g : (Fin d → ℝ) → Fin d → ℝ) (hg : Measurable g) :
    MeasurePreserving (fun z : (Fin d → ℝ) × (Fin d → ℝ) => (z.1, fun i => z.2 i - c * g z.1 i))
      volume volume := by
  refine MeasurePreserving.skew_product (g := fun (x p : Fin d → ℝ) i => p i - c * g x i) (MeasurePreserving.id volume) ?_ ?_
  · simp only [Function.uncurry_def]; fun_prop
  · refine ae_of_all _ fun x => ?_
    exact (measurePreserving_sub_right volume (fun i => c * g x i)).map_eq

theorem measurePreserving_drift (c : ℝ) :
    MeasurePreserving (fun z : (Fin d → ℝ) × (Fin d → ℝ) => (fun i => z.1 i + c * z.2 i, z.2))
      volume volume := by
  have h : MeasurePreserving (fun z : (Fin d → ℝ) × (Fin d → ℝ) => (z.1, fun i => z.2 i + c * z.1 i))
      volume volume := by
    refine MeasurePreserving.skew_product (g := fun (x p : Fin d → ℝ) i => p i + c * x i) (MeasurePreserving.id volume) ?_ ?_
    · simp only [Function.uncurry_def]; fun_prop
    · refine ae_of_all _ fun x => ?_
      exact (measurePreserving_add_right volume (fun i => c * x i)).map_eq
  exact (Measure.measurePreserving_swap.comp h).comp Measure.measurePreserving_swap

theorem measurePreserving_lfMap (ε : ℝ) (g : (Fin d → ℝ) → Fin d → ℝ) (hg : Measurable g) :
    MeasurePreserving (lfMap ε g) volume volume :=
  ((measurePreserving_kick (ε / 2) g hg).comp (measurePreserving_drift ε)).comp
    (measurePreserving_kick (ε / 2) g hg)

theorem measurePreserving_flip : MeasurePreserving (flip (d := d)) volume volume :=
  (MeasurePreserving.id volume).prod (Measure.measurePreserving_neg volume)

/-- The Underdamped proposal map: `L` leapfrog steps, then flip. -/
noncomputable def hmcMap (ε : ℝ) (g : (Fin d → ℝ) → Fin d → ℝ) (L : ℕ) (z : (Fin d → ℝ) × (Fin d → ℝ)) :
    (Fin d → ℝ) × (Fin d → ℝ) := flip ((lfMap ε g)^[L] z)

theorem measurePreserving_hmcMap (ε : ℝ) (g : (Fin d → ℝ) → Fin d → ℝ) (hg : Measurable g) (L : ℕ) :
    MeasurePreserving (hmcMap ε g L) volume volume :=
  measurePreserving_flip.comp ((measurePreserving_lfMap ε g hg).iterate L)

theorem hmcMap_invol (ε : ℝ) (g : (Fin d → ℝ) → Fin d → ℝ) (L : ℕ) (z) :
    hmcMap ε g L (hmcMap ε g L z) = z := lf_iter_flip ε g L z

/-- Metropolis with a deterministic measure preserving involution. -/
theorem involution_metropolis {X : Type*} [MeasurableSpace X] (lam : Measure X) [SFinite lam]
    (T : X → X) (hT : MeasurePreserving T lam lam) (hinv : ∀ x, T (T x) = x) (H : X → ℝ) (hH : Measurable H)
    (f : X → ℝ≥0∞) (hf : Measurable f) :
    ∫⁻ x, ∫⁻ u, f (if u < min 1 (Real.exp (-H (T x) + H x)) then T x else x) ∂unif
        ∂(lam.withDensity fun x => ENNReal.ofReal (Real.exp (-H x)))
      = ∫⁻ x, f x ∂(lam.withDensity fun x => ENNReal.ofReal (Real.exp (-H x))) := by
  have mT := hT.measurable
  have hw : Measurable fun x => ENNReal.ofReal (Real.exp (-H x)) :=
    ENNReal.measurable_ofReal.comp (Real.measurable_exp.comp hH.neg)
  have ma : Measurable fun x => min 1 (Real.exp (-H (T x) + H x)) :=
    measurable_const.min (Real.measurable_exp.comp ((hH.comp mT).neg.add hH))
  have hflow : ∀ x, ENNReal.ofReal (Real.exp (-H x)) * ENNReal.ofReal (min 1 (Real.exp (-H (T x) + H x)))
      = min (ENNReal.ofReal (Real.exp (-H x))) (ENNReal.ofReal (Real.exp (-H (T x)))) := by
    intro x
    rw [← ENNReal.ofReal_mul (Real.exp_pos _).le, ← ENNReal.ofReal_min, mul_min_of_nonneg _ _ (Real.exp_pos _).le,
      mul_one, ← Real.exp_add]
    congr 3; ring
  have hbal : ∫⁻ x, ∫⁻ _ω : Unit, ENNReal.ofReal (Real.exp (-H x))
          * ENNReal.ofReal (min 1 (Real.exp (-H (T x) + H x))) * f (T x) ∂(Measure.dirac ()) ∂lam
      = ∫⁻ x, ∫⁻ _ω : Unit, ENNReal.ofReal (Real.exp (-H x))
          * ENNReal.ofReal (min 1 (Real.exp (-H (T x) + H x))) * f x ∂(Measure.dirac ()) ∂lam := by
    simp_rw [hflow, lintegral_const, measure_univ, mul_one]
    have m2 : Measurable fun x => min (ENNReal.ofReal (Real.exp (-H x))) (ENNReal.ofReal (Real.exp (-H (T x)))) * f x :=
      (hw.min (hw.comp mT)).mul hf
    rw [← hT.lintegral_comp m2]
    refine lintegral_congr fun x => ?_
    rw [hinv, min_comm]
  have h := metropolis_invariant lam (Measure.dirac ()) (fun z : X × Unit => T z.1) (mT.comp measurable_fst)
    (fun z => min 1 (Real.exp (-H (T z.1) + H z.1))) (ma.comp measurable_fst)
    (fun z => le_min zero_le_one (Real.exp_pos _).le) (fun z => min_le_left _ _) _ hw f hf hbal
  rw [← h]
  refine lintegral_congr fun x => ?_
  have m3 : Measurable fun z : Unit × ℝ => f (if z.2 < min 1 (Real.exp (-H (T x) + H x)) then T x else x) :=
    hf.comp (Measurable.ite (measurableSet_lt measurable_snd measurable_const) measurable_const measurable_const)
  rw [lintegral_prod _ m3.aemeasurable, lintegral_dirac]

theorem refresh_1d (c s : ℝ) (hcs : c ^ 2 + s ^ 2 = 1) :
    ((gaussianReal 0 1).prod (gaussianReal 0 1)).map (fun z : ℝ × ℝ => (-z.1) * c + s * z.2)
      = gaussianReal 0 1 := by
  have e : (fun z : ℝ × ℝ => (-z.1) * c + s * z.2)
      = (fun z : ℝ × ℝ => z.1 + z.2) ∘ (Prod.map (fun x => (-c) * x) (fun x => s * x)) := by
    funext z; simp; ring
  rw [e, ← Measure.map_map (by fun_prop) (by fun_prop), ← Measure.map_prod_map _ _ (by fun_prop) (by fun_prop),
    gaussianReal_map_const_mul, gaussianReal_map_const_mul]
  have h := gaussianReal_conv_gaussianReal (m₁ := -c * 0) (m₂ := s * 0)
    (v₁ := NNReal.mk ((-c) ^ 2) (sq_nonneg _) * 1) (v₂ := NNReal.mk (s ^ 2) (sq_nonneg _) * 1)
  rw [Measure.conv] at h
  rw [h]
  congr 1
  · simp
  · ext; simp [hcs]

theorem refresh_nd (c s : ℝ) (hcs : c ^ 2 + s ^ 2 = 1) :
    ((stdNormal d).prod (stdNormal d)).map
      (fun z : (Fin d → ℝ) × (Fin d → ℝ) => fun i => (-z.1 i) * c + s * z.2 i) = stdNormal d := by
  have h := measurePreserving_arrowProdEquivProdArrow ℝ ℝ (Fin d)
    (fun _ => gaussianReal 0 1) (fun _ => gaussianReal 0 1)
  unfold stdNormal
  rw [← h.map_eq, Measure.map_map (by fun_prop) h.measurable]
  have e : ((fun z : (Fin d → ℝ) × (Fin d → ℝ) => fun i => (-z.1 i) * c + s * z.2 i)
      ∘ (MeasurableEquiv.arrowProdEquivProdArrow ℝ ℝ (Fin d)))
      = fun y i => (fun z : ℝ × ℝ => (-z.1) * c + s * z.2) (y i) := rfl
  rw [e, Measure.pi_map_pi (f := fun _ (z : ℝ × ℝ) => (-z.1) * c + s * z.2) (fun _ => by fun_prop)]
  simp_rw [refresh_1d c s hcs]

end Mocat.Mcmc
