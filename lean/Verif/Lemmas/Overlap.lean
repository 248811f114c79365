import Mathlib.MeasureTheory.Function.LpSpace.DomAct.Continuous
import Mathlib.MeasureTheory.Function.L1Space.AEEqFun
import Mathlib.MeasureTheory.Measure.Lebesgue.Basic
import Mathlib.MeasureTheory.Measure.Haar.OfBasis
import Mathlib.MeasureTheory.Group.Integral
import Mathlib.MeasureTheory.Group.LIntegral
import Mathlib.MeasureTheory.Integral.DominatedConvergence
import Mathlib.MeasureTheory.Measure.Lebesgue.EqHaar
/-! The mass that an integrable density shares with its translate. -/
namespace Mocat.Meas
open MeasureTheory Filter Set
open scoped ENNReal Topology

variable {d : ℕ}

/-- The integral of the smaller of `p` and its translate by `t`. -/
noncomputable def overlap (p : (Fin d → ℝ) → ℝ) (t : Fin d → ℝ) : ℝ := ∫ x, min (p x) (p (x + t))

theorem overlap_zero (p : (Fin d → ℝ) → ℝ) : overlap p 0 = ∫ x, p x := by simp [overlap]

theorem integrable_shift {p : (Fin d → ℝ) → ℝ} (hp : Integrable p) (t : Fin d → ℝ) : Integrable fun x => p (x + t) := hp.comp_add_right t

theorem integrable_min_shift {p : (Fin d → ℝ) → ℝ} (hp : Integrable p) (t : Fin d → ℝ) : Integrable fun x => min (p x) (p (x + t)) :=
  hp.inf (integrable_shift hp t)

theorem overlap_eq {p : (Fin d → ℝ) → ℝ} (hp : Integrable p) (t : Fin d → ℝ) : overlap p t = (∫ x, p x) - (∫ x, ‖p x - p (t + x)‖) / 2 := by
  have h : ∀ x, min (p x) (p (x + t)) = (p x + p (x + t) - ‖p x - p (t + x)‖) / 2 := by
    intro x
    rw [add_comm t x, Real.norm_eq_abs]
    rcases le_total (p x) (p (x + t)) with h | h
    · rw [min_eq_left h, abs_of_nonpos (by linarith)]; ring
    · rw [min_eq_right h, abs_of_nonneg (by linarith)]; ring
  have hs := integrable_shift hp t
  have hs' : Integrable fun x => p (t + x) := hp.comp_add_left t
  simp only [overlap, h]
  have ha : Integrable fun x => p x + p (x + t) := hp.add hs
  have hn : Integrable fun x => ‖p x - p (t + x)‖ := (hp.sub hs').norm
  rw [integral_div, integral_sub ha hn, integral_add hp hs, integral_add_right_eq_self p t]
  ring

theorem continuous_overlap {p : (Fin d → ℝ) → ℝ} (hp : Integrable p) : Continuous (overlap p) := by
  have hL : MemLp p 1 := memLp_one_iff_integrable.mpr hp
  have hnorm : ∀ t, ∫ x, ‖p x - p (t + x)‖ = ‖hL.toLp p - (DomAddAct.mk t +ᵥ hL.toLp p)‖ := by
    intro t
    have e : hL.toLp p - (DomAddAct.mk t +ᵥ hL.toLp p) = (hL.sub (hL.comp_measurePreserving <| measurePreserving_vadd t volume)).toLp _ := rfl
    rw [e, Lp.norm_toLp, eLpNorm_one_eq_lintegral_enorm, integral_norm_eq_lintegral_enorm]
    · rfl
    · exact hp.aestronglyMeasurable.sub (hp.comp_add_left t).aestronglyMeasurable
  have e : overlap p = fun t => (∫ x, p x) - ‖hL.toLp p - (DomAddAct.mk t +ᵥ hL.toLp p)‖ / 2 := by
    funext t; rw [overlap_eq hp, hnorm]
  rw [e]
  have hfact : Fact ((1 : ℝ≥0∞) ≠ ∞) := ⟨ENNReal.one_ne_top⟩
  have hc : Continuous fun t : Fin d → ℝ => DomAddAct.mk t +ᵥ hL.toLp p :=
    (continuous_vadd (M := (Fin d → ℝ)ᵈᵃᵃ) (X := Lp ℝ 1 (volume : Measure (Fin d → ℝ)))).comp ((DomAddAct.continuous_mk).prodMk continuous_const)
  fun_prop

theorem overlap_nonneg {p : (Fin d → ℝ) → ℝ} (h0 : ∀ x, 0 ≤ p x) (t : Fin d → ℝ) : 0 ≤ overlap p t :=
  integral_nonneg fun x => le_min (h0 x) (h0 _)

theorem overlap_le {p : (Fin d → ℝ) → ℝ} (hp : Integrable p) (t : Fin d → ℝ) : overlap p t ≤ ∫ x, p x :=
  integral_mono (integrable_min_shift hp t) hp fun _ => min_le_left _ _

/-- Translated far enough, a density shares arbitrarily little with itself. -/
theorem overlap_tendsto {p : (Fin d → ℝ) → ℝ} (hp : Integrable p) (h0 : ∀ x, 0 ≤ p x) {z : Fin d → ℝ} (hz : z ≠ 0) :
    Tendsto (fun r : ℝ => overlap p fun i => r * z i) atTop (𝓝 0) := by
  have htail : Tendsto (fun n : ℕ => ∫ x in (Metric.closedBall (0 : Fin d → ℝ) n)ᶜ, p x) atTop (𝓝 0) := by
    have := tendsto_setIntegral_of_antitone (μ := (volume : Measure (Fin d → ℝ))) (s := fun n : ℕ => (Metric.closedBall (0 : Fin d → ℝ) n)ᶜ) (f := p)
      (fun n => Metric.isClosed_closedBall.measurableSet.compl)
      (fun m n h => compl_subset_compl.mpr (Metric.closedBall_subset_closedBall (by exact_mod_cast h))) ⟨0, hp.integrableOn⟩
    have hempty : (⋂ n : ℕ, (Metric.closedBall (0 : Fin d → ℝ) n)ᶜ) = ∅ := by
      rw [← compl_iUnion, Metric.iUnion_closedBall_nat, compl_univ]
    rwa [hempty, setIntegral_empty] at this
  rw [Metric.tendsto_atTop]
  intro ε hε
  obtain ⟨n, hn⟩ := (htail.eventually (gt_mem_nhds (show (0 : ℝ) < ε / 2 by positivity))).exists
  have hz' : 0 < ‖z‖ := norm_pos_iff.mpr hz
  refine ⟨(2 * n + 1) / ‖z‖, fun r hr => ?_⟩
  rw [Real.dist_eq, sub_zero, abs_of_nonneg (overlap_nonneg h0 _)]
  set t : Fin d → ℝ := fun i => r * z i with ht
  have hrz : 2 * n + 1 ≤ r * ‖z‖ := (div_le_iff₀ hz').mp hr
  have htn : (2 * n : ℝ) < ‖t‖ := by
    have : t = r • z := rfl
    rw [this, norm_smul, Real.norm_eq_abs]
    nlinarith [le_abs_self r, norm_nonneg z]
  set B := Metric.closedBall (0 : Fin d → ℝ) n
  have hB : MeasurableSet Bᶜ := Metric.isClosed_closedBall.measurableSet.compl
  have hle : ∀ x, min (p x) (p (x + t)) ≤ Bᶜ.indicator p x + Bᶜ.indicator p (x + t) := by
    intro x
    by_cases hx : x ∈ B
    · have hx' : x + t ∈ Bᶜ := by
        intro h
        have h1 : ‖x‖ ≤ n := by simpa [B] using hx
        have h2 : ‖x + t‖ ≤ n := by simpa [B] using h
        have h3 : ‖t‖ ≤ ‖x + t‖ + ‖x‖ := by simpa using norm_sub_le (x + t) x
        linarith
      rw [indicator_of_mem hx', indicator_of_notMem (by simpa using hx), zero_add]
      exact min_le_right _ _
    · rw [indicator_of_mem (show x ∈ Bᶜ from hx)]
      exact (min_le_left _ _).trans (le_add_of_nonneg_right (indicator_nonneg (fun _ _ => h0 _) _))
  have hi := hp.indicator hB
  calc overlap p t ≤ ∫ x, Bᶜ.indicator p x + Bᶜ.indicator p (x + t) :=
        integral_mono (integrable_min_shift hp t) (hi.add (integrable_shift hi t)) hle
    _ = (∫ x in Bᶜ, p x) + ∫ x in Bᶜ, p x := by
        rw [integral_add hi (integrable_shift hi t), integral_add_right_eq_self (Bᶜ.indicator p) t, integral_indicator hB]
    _ < ε := by linarith

end Mocat.Meas
