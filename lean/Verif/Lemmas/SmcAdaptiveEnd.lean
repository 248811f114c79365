import Verif.Lemmas.SmcAdaptiveProgress
import Verif.Props.SmcAdaptive
import Mathlib.Algebra.Order.Chebyshev
import Mathlib.Order.Filter.CountableSeparatingOn
/-! Effective sample sizes and tempered means: what keeps an adaptive run going. -/
namespace Mocat.Smc
open Mocat Mocat.Ideal Mocat.Meas Mocat.Spec Mocat.Utils Mocat.Props MeasureTheory Filter Topology

section
variable {n : ℕ} [NeZero n]

theorem sum_exp_pos (v : Fin n → ℝ) : 0 < ∑ i, Real.exp (v i) := Finset.sum_pos (fun _ _ => Real.exp_pos _) ⟨0, Finset.mem_univ _⟩

/-- Reweighting lowers the effective sample size by no more than the square of a weighted mean. -/
theorem ess_drop (lw l : Fin n → ℝ) {w δ : ℝ} (hw : ∀ i, w ≤ l i) (hδ : 0 ≤ δ) :
    logEss lw + 2 * Real.log ((∑ i, Real.exp (lw i) * Real.exp (-(δ * (l i - w)))) / ∑ i, Real.exp (lw i)) ≤ logEss fun i => lw i - δ * l i := by
  have h1 : ∑ i, Real.exp (lw i) * Real.exp (-(δ * (l i - w))) = Real.exp (δ * w) * ∑ i, Real.exp (lw i - δ * l i) := by
    rw [Finset.mul_sum]
    refine Finset.sum_congr rfl fun i _ => ?_
    rw [← Real.exp_add, ← Real.exp_add]
    congr 1
    ring
  have h2 : Real.log (∑ i, Real.exp (2 * (lw i - δ * l i))) ≤ -(2 * δ * w) + Real.log (∑ i, Real.exp (2 * lw i)) := by
    have h3 : ∑ i, Real.exp (2 * (lw i - δ * l i)) ≤ Real.exp (-(2 * δ * w)) * ∑ i, Real.exp (2 * lw i) := by
      rw [Finset.mul_sum]
      refine Finset.sum_le_sum fun i _ => ?_
      rw [← Real.exp_add]
      exact Real.exp_le_exp.2 (by nlinarith [mul_le_mul_of_nonneg_left (hw i) hδ])
    have h4 := Real.log_le_log (sum_exp_pos _) h3
    rwa [Real.log_mul (Real.exp_pos _).ne' (sum_exp_pos _).ne', Real.log_exp] at h4
  rw [h1, Real.log_div (mul_pos (Real.exp_pos _) (sum_exp_pos _)).ne' (sum_exp_pos _).ne', Real.log_mul (Real.exp_pos _).ne' (sum_exp_pos _).ne', Real.log_exp]
  unfold logEss lse
  linarith

theorem logEss_le_log (v : Fin n → ℝ) : logEss v ≤ Real.log n := by
  have hn : (0 : ℝ) < n := by exact_mod_cast Nat.pos_of_ne_zero (NeZero.ne n)
  have h := sq_sum_le_card_mul_sum_sq (s := (Finset.univ : Finset (Fin n))) (f := fun i => Real.exp (v i))
  rw [Finset.card_univ, Fintype.card_fin] at h
  have e : ∀ i, Real.exp (v i) ^ 2 = Real.exp (2 * v i) := fun i => by rw [← Real.exp_nat_mul]; push_cast; rfl
  simp only [e] at h
  have h' := Real.log_le_log (pow_pos (sum_exp_pos v) 2) h
  rw [Real.log_mul hn.ne' (sum_exp_pos _).ne', Real.log_pow] at h'
  push_cast at h'
  unfold logEss lse
  linarith

/-- Only equal weights have the full effective sample size. -/
theorem equal_of_logEss {v : Fin n → ℝ} (h : Real.log n ≤ logEss v) (i j : Fin n) : v i = v j := by
  have hn : (0 : ℝ) < n := by exact_mod_cast Nat.pos_of_ne_zero (NeZero.ne n)
  have e : ∀ i, Real.exp (v i) ^ 2 = Real.exp (2 * v i) := fun i => by rw [← Real.exp_nat_mul]; push_cast; rfl
  have h1 : n * ∑ i, Real.exp (v i) ^ 2 ≤ (∑ i, Real.exp (v i)) ^ 2 := by
    simp only [e]
    rw [← Real.log_le_log_iff (mul_pos hn (sum_exp_pos _)) (pow_pos (sum_exp_pos v) 2), Real.log_mul hn.ne' (sum_exp_pos _).ne', Real.log_pow]
    push_cast
    unfold logEss lse at h
    linarith
  have h2 : ∑ i, ∑ j, (Real.exp (v i) - Real.exp (v j)) ^ 2 = 2 * (n * ∑ i, Real.exp (v i) ^ 2 - (∑ i, Real.exp (v i)) ^ 2) := by
    have h3 : ∀ i j : Fin n, (Real.exp (v i) - Real.exp (v j)) ^ 2 = Real.exp (v i) ^ 2 - 2 * (Real.exp (v i) * Real.exp (v j)) + Real.exp (v j) ^ 2 := fun i j => by ring
    simp only [h3, Finset.sum_add_distrib, Finset.sum_sub_distrib, ← Finset.mul_sum, Finset.sum_const, Finset.card_univ, Fintype.card_fin, nsmul_eq_mul, ← Finset.sum_mul]
    ring
  have h4 : ∑ i, ∑ j, (Real.exp (v i) - Real.exp (v j)) ^ 2 = 0 := le_antisymm (by rw [h2]; linarith) (Finset.sum_nonneg fun i _ => Finset.sum_nonneg fun j _ => sq_nonneg _)
  rw [Finset.sum_eq_zero_iff_of_nonneg fun i _ => Finset.sum_nonneg fun j _ => sq_nonneg _] at h4
  have h5 := h4 i (Finset.mem_univ _)
  rw [Finset.sum_eq_zero_iff_of_nonneg fun j _ => sq_nonneg _] at h5
  have h6 := h5 j (Finset.mem_univ _)
  exact Real.exp_injective (by nlinarith [sub_eq_zero.1 (pow_eq_zero_iff (two_ne_zero)|>.1 h6)])

/-- The next temperature, from two weighted means. -/
theorem nextOf_progress {p : Params} {M T : ℝ} (hT : T ≤ M) (hr0 : 0 < p.essThresholdRetain) (hr1 : p.essThresholdRetain < 1) (htol : p.bisectionTol ≤ -Real.log p.essThresholdRetain)
    (lw l : Fin n → ℝ) {w δ c D τ : ℝ} (hw : ∀ i, w ≤ l i) (hδ : 0 < δ) (hD : M - T ≤ D) (hc0 : 0 < c) (hc1 : c ≤ 1)
    (hnear : Real.sqrt p.essThresholdRetain < (∑ i, Real.exp (lw i) * Real.exp (-(δ * (l i - w)))) / ∑ i, Real.exp (lw i))
    (hfar : c ≤ (∑ i, Real.exp (lw i) * Real.exp (-(D * (l i - w)))) / ∑ i, Real.exp (lw i))
    (hτ : 0 < τ) (hτL : τ ≤ -Real.log p.essThresholdRetain) (hkeep : τ ≤ p.bisectionTol ∨ lw = fun _ => 0)
    (hN : (M - T) * (-Real.log p.essThresholdRetain / (-Real.log p.essThresholdRetain + τ)) ^ p.maxBisectionIter ≤ δ) :
    (logEss lw ≤ logEss (fun i => lw i - (M - T) * l i) ∧ nextOf p M T lw l = T) ∨ M ≤ nextOf p M T lw l ∨
      T + -Real.log p.essThresholdRetain / (-Real.log p.essThresholdRetain + -(2 * Real.log c)) * δ ≤ nextOf p M T lw l := by
  have hL : Real.log p.essThresholdRetain < 0 := Real.log_neg hr0 hr1
  obtain ⟨f, hf⟩ : ∃ f : ℝ → ℝ, f = fun x => logEss (fun i => lw i - (x - T) * l i) - Real.log (Real.exp (logEss lw) * p.essThresholdRetain) := ⟨_, rfl⟩
  have hfx : ∀ x, f x = logEss (fun i => lw i - (x - T) * l i) - logEss lw - Real.log p.essThresholdRetain := fun x => by
    rw [hf]
    simp only
    rw [Real.log_mul (Real.exp_pos _).ne' hr0.ne', Real.log_exp]
    ring
  have hmono : ∀ s t : ℝ, s ≤ t → (∑ i, Real.exp (lw i) * Real.exp (-(t * (l i - w)))) / ∑ i, Real.exp (lw i) ≤ (∑ i, Real.exp (lw i) * Real.exp (-(s * (l i - w)))) / ∑ i, Real.exp (lw i) := fun s t hst =>
    div_le_div_of_nonneg_right (Finset.sum_le_sum fun i _ => mul_le_mul_of_nonneg_left (Real.exp_le_exp.2 (neg_le_neg (mul_le_mul_of_nonneg_right hst (sub_nonneg.2 (hw i))))) (Real.exp_pos _).le) (sum_exp_pos lw).le
  have hlow : ∀ x, T ≤ x → ∀ y : ℝ, 0 < y → y ≤ (∑ i, Real.exp (lw i) * Real.exp (-((x - T) * (l i - w)))) / ∑ i, Real.exp (lw i) → 2 * Real.log y - Real.log p.essThresholdRetain ≤ f x := fun x hx y hy hyx => by
    have h1 := ess_drop lw l hw (sub_nonneg.2 hx)
    have h2 := Real.log_le_log hy hyx
    rw [hfx]
    linarith
  have hfT : f T = -Real.log p.essThresholdRetain := by
    rw [hfx]
    simp only [sub_self, zero_mul, sub_zero, zero_sub]
  have hfall : Falling f T M (-Real.log p.essThresholdRetain) δ (-(2 * Real.log c)) := by
    refine ⟨hfT, by linarith, by linarith [Real.log_nonpos hc0.le hc1], hδ, fun x hx _ hxδ => ?_, fun x hx hxM => ?_⟩
    · have h1 : Real.sqrt p.essThresholdRetain < (∑ i, Real.exp (lw i) * Real.exp (-((x - T) * (l i - w)))) / ∑ i, Real.exp (lw i) := hnear.trans_le (hmono _ _ (by linarith))
      have h0 : 0 < Real.sqrt p.essThresholdRetain := Real.sqrt_pos.2 hr0
      have h2 := hlow x hx _ (h0.trans h1) le_rfl
      have h3 := Real.log_lt_log h0 h1
      rw [Real.log_sqrt hr0.le] at h3
      linarith
    · have h2 := hlow x hx c hc0 (hfar.trans (hmono _ _ (by linarith)))
      linarith
  have h := search_progress (f := f) hT hfall hτ hτL htol p.maxBisectionIter (hkeep.imp_right fun hz x y hTx hxy _ => by
    rw [hfx, hfx, hz]
    have h1 := logEss_antitone l (sub_nonneg.2 hTx) (sub_le_sub_right hxy T)
    simp only [zero_sub]
    linarith) hN
  have hres : nextOf p M T lw l = if |(bisect f T M p.maxBisectionIter p.bisectionTol).flo| ≤ |(bisect f T M p.maxBisectionIter p.bisectionTol).fhi| then (bisect f T M p.maxBisectionIter p.bisectionTol).lo
      else (bisect f T M p.maxBisectionIter p.bisectionTol).hi := by
    rw [hf]
    rfl
  rw [hres]
  refine h.imp_left fun h1 => ⟨?_, h1.2⟩
  have h2 := h1.1
  rw [hfT, hfx] at h2
  linarith

end

section
variable {X : Type*} [MeasurableSpace X] {μ0 : Measure X} [IsProbabilityMeasure μ0] {lik : X → ℝ} (hlik : Measurable lik) {w : ℝ} (hw : ∀ x, w ≤ lik x) {M : ℝ}

omit [IsProbabilityMeasure μ0] in
theorem not_const_set (hc : ¬ ∃ b : ℝ, ∀ᵐ x ∂μ0, lik x = b) : ∃ U : Set ℝ, MeasurableSet U ∧ μ0 {x | lik x ∈ U} ≠ 0 ∧ μ0 {x | lik x ∉ U} ≠ 0 := by
  by_contra hn
  push Not at hn
  refine hc (exists_eventuallyEq_const_of_forall_separating (l := ae μ0) (f := lik) MeasurableSet fun U hU => ?_)
  by_cases h : μ0 {x | lik x ∈ U} = 0
  · right
    rw [ae_iff]
    simpa using h
  · left
    rw [ae_iff]
    exact hn U hU h

include hw
omit [MeasurableSpace X] in
theorem weight_le {T : ℝ} (hT : T ∈ Set.Icc 0 M) (x : X) : Real.exp (-(T * lik x)) ≤ Real.exp (M * |w|) := (exp_bound hw hT.1 x).trans (Real.exp_le_exp.2 (by
    have h1 := neg_le_abs w
    nlinarith [mul_le_mul_of_nonneg_left h1 hT.1, mul_le_mul_of_nonneg_right hT.2 (abs_nonneg w)]))

include hlik
/-- Tempered means of a function that is not almost surely 0 are bounded away from 0. -/
theorem tempered_lower {f : X → ℝ} (hf : Measurable f) (hf0 : ∀ x, 0 ≤ f x) {B : ℝ} (hB : ∀ x, f x ≤ B) (hpos : μ0 {x | 0 < f x} ≠ 0) :
    ∃ c : ℝ, 0 < c ∧ ∀ T ∈ Set.Icc 0 M, c ≤ temperedMean μ0 lik T f := by
  have hmin0 : ∀ x, 0 < min 1 (Real.exp (-(M * lik x))) := fun x => lt_min one_pos (Real.exp_pos _)
  have hmm : Measurable fun x => min 1 (Real.exp (-(M * lik x))) * f x := (measurable_const.min (Real.measurable_exp.comp (measurable_const.mul hlik).neg)).mul hf
  have hi : Integrable (fun x => min 1 (Real.exp (-(M * lik x))) * f x) μ0 := Integrable.of_bound hmm.aestronglyMeasurable B (Filter.Eventually.of_forall fun x => by
    rw [Real.norm_eq_abs, abs_of_nonneg (mul_nonneg (hmin0 x).le (hf0 x))]
    exact (mul_le_of_le_one_left (hf0 x) (min_le_left _ _)).trans (hB x))
  have hp : 0 < ∫ x, min 1 (Real.exp (-(M * lik x))) * f x ∂μ0 := by
    rw [integral_pos_iff_support_of_nonneg (fun x => mul_nonneg (hmin0 x).le (hf0 x)) hi]
    refine pos_iff_ne_zero.2 fun h => hpos (measure_mono_null (fun x hx => ?_) h)
    exact (mul_pos (hmin0 x) hx).ne'
  have hW := Real.exp_pos (M * |w|)
  refine ⟨(∫ x, min 1 (Real.exp (-(M * lik x))) * f x ∂μ0) / Real.exp (M * |w|), div_pos hp hW, fun T hT => ?_⟩
  have hBa : ∀ x, |f x| ≤ B := fun x => by rw [abs_of_nonneg (hf0 x)]; exact hB x
  have hz : 0 < ∫ x, Real.exp (-(T * lik x)) ∂μ0 := integral_exp_pos (exp_integrable hlik hw hT.1)
  unfold temperedMean
  refine div_le_div₀ (integral_nonneg fun x => mul_nonneg (Real.exp_pos _).le (hf0 x)) ?_ hz ?_
  · refine integral_mono hi (gam_integrable hlik (fun T hT => weight_le hw hT) hT hf hBa) fun x => mul_le_mul_of_nonneg_right ?_ (hf0 x)
    rcases le_total 0 (lik x) with h | h
    · exact (min_le_right _ _).trans (Real.exp_le_exp.2 (neg_le_neg (mul_le_mul_of_nonneg_right hT.2 h)))
    · exact (min_le_left _ _).trans (Real.one_le_exp (neg_nonneg.2 (mul_nonpos_of_nonneg_of_nonpos hT.1 h)))
  · have h1 := integral_mono (exp_integrable (μ0 := μ0) hlik hw hT.1) (integrable_const (Real.exp (M * |w|))) fun x => weight_le hw hT x
    rwa [integral_const, probReal_univ, one_smul] at h1

/-- A step that all tempered laws hardly notice. -/
theorem small_step {ρ : ℝ} (hρ : ρ < 1) : ∃ δ : ℝ, 0 < δ ∧ ∀ T ∈ Set.Icc 0 M, ρ ≤ temperedMean μ0 lik T fun x => Real.exp (-(δ * (lik x - w))) := by
  obtain ⟨z0, hz0, hz⟩ := mass_bounded (μ0 := μ0) (M := M) hlik hw
  have hm : ∀ δ : ℝ, Measurable fun x => Real.exp (-(δ * (lik x - w))) := fun δ => Real.measurable_exp.comp (measurable_const.mul (hlik.sub_const w)).neg
  have hle : ∀ δ : ℝ, 0 ≤ δ → ∀ x, Real.exp (-(δ * (lik x - w))) ≤ 1 := fun δ hδ x => Real.exp_le_one_iff.2 (neg_nonpos.2 (mul_nonneg hδ (sub_nonneg.2 (hw x))))
  have hi : ∀ δ : ℝ, 0 ≤ δ → Integrable (fun x => Real.exp (-(δ * (lik x - w)))) μ0 := fun δ hδ => Integrable.of_bound (hm δ).aestronglyMeasurable 1 (Filter.Eventually.of_forall fun x => by
    rw [Real.norm_eq_abs, abs_of_pos (Real.exp_pos _)]; exact hle δ hδ x)
  have hlim : Tendsto (fun m : ℕ => ∫ x, Real.exp (-(1 / ((m : ℝ) + 1) * (lik x - w))) ∂μ0) atTop (𝓝 1) := by
    have h := tendsto_integral_of_dominated_convergence (μ := μ0) (F := fun (m : ℕ) x => Real.exp (-(1 / ((m : ℝ) + 1) * (lik x - w)))) (f := fun _ => 1) (fun _ => 1)
      (fun m => (hm _).aestronglyMeasurable) (integrable_const _) (fun m => Filter.Eventually.of_forall fun x => by
        rw [Real.norm_eq_abs, abs_of_pos (Real.exp_pos _)]; exact hle _ (by positivity) x)
      (Filter.Eventually.of_forall fun x => by
        have h0 : Tendsto (fun m : ℕ => -(1 / ((m : ℝ) + 1) * (lik x - w))) atTop (𝓝 (-(0 * (lik x - w)))) := (tendsto_one_div_add_atTop_nhds_zero_nat.mul_const _).neg
        have h1 := (Real.continuous_exp.tendsto _).comp h0
        rw [zero_mul, neg_zero, Real.exp_zero] at h1
        exact h1)
    rwa [integral_const, probReal_univ, one_smul] at h
  have hW := Real.exp_pos (M * |w|)
  have hev := (hlim.eventually (lt_mem_nhds (show 1 - (1 - ρ) * z0 / Real.exp (M * |w|) < 1 by
    have : 0 < (1 - ρ) * z0 / Real.exp (M * |w|) := div_pos (mul_pos (by linarith) hz0) hW
    linarith))).exists
  obtain ⟨m, hm1⟩ := hev
  have hd : (0 : ℝ) < 1 / ((m : ℝ) + 1) := by positivity
  generalize 1 / ((m : ℝ) + 1) = δ at hm1 hd
  refine ⟨δ, hd, fun T hT => ?_⟩
  have hWT : ∀ T ∈ Set.Icc 0 M, ∀ x, Real.exp (-(T * lik x)) ≤ Real.exp (M * |w|) := fun T hT => weight_le hw hT
  have hzT : z0 ≤ ∫ x, Real.exp (-(T * lik x)) ∂μ0 := by
    have := hz T hT
    simpa only [gam, mul_one] using this
  have h1 : ∫ x, Real.exp (-(T * lik x)) * (1 - Real.exp (-(δ * (lik x - w)))) ∂μ0 ≤ Real.exp (M * |w|) * (1 - ∫ x, Real.exp (-(δ * (lik x - w))) ∂μ0) := by
    have h2 : ∫ x, Real.exp (M * |w|) * (1 - Real.exp (-(δ * (lik x - w)))) ∂μ0 = Real.exp (M * |w|) * (1 - ∫ x, Real.exp (-(δ * (lik x - w))) ∂μ0) := by
      rw [integral_const_mul, integral_sub (integrable_const _) (hi δ hd.le), integral_const, probReal_univ, one_smul]
    rw [← h2]
    refine integral_mono (gam_integrable hlik hWT hT (measurable_const.sub (hm δ)) (B := 1) fun x => ?_) (((integrable_const _).sub (hi δ hd.le)).const_mul _) fun x =>
      mul_le_mul_of_nonneg_right (hWT T hT x) (sub_nonneg.2 (hle δ hd.le x))
    rw [abs_of_nonneg (sub_nonneg.2 (hle δ hd.le x))]
    linarith [Real.exp_pos (-(δ * (lik x - w)))]
  have h3 : ∫ x, Real.exp (-(T * lik x)) * (1 - Real.exp (-(δ * (lik x - w)))) ∂μ0 = ∫ x, Real.exp (-(T * lik x)) ∂μ0 - ∫ x, Real.exp (-(T * lik x)) * Real.exp (-(δ * (lik x - w))) ∂μ0 := by
    rw [← integral_sub (exp_integrable hlik hw hT.1) (gam_integrable hlik hWT hT (hm δ) (B := 1) fun x => by rw [abs_of_pos (Real.exp_pos _)]; exact hle δ hd.le x)]
    exact integral_congr_ae (Filter.Eventually.of_forall fun x => by simp only; ring)
  unfold temperedMean
  rw [le_div_iff₀ (hz0.trans_le hzT)]
  have h4 : Real.exp (M * |w|) * (1 - ∫ x, Real.exp (-(δ * (lik x - w))) ∂μ0) ≤ (1 - ρ) * z0 := by
    have h5 : 1 - ∫ x, Real.exp (-(δ * (lik x - w))) ∂μ0 ≤ (1 - ρ) * z0 / Real.exp (M * |w|) := by linarith
    rw [le_div_iff₀ hW] at h5
    linarith
  have h6 : (1 - ρ) * z0 ≤ (1 - ρ) * ∫ x, Real.exp (-(T * lik x)) ∂μ0 := mul_le_mul_of_nonneg_left hzT (by linarith)
  linarith

end

/-- Estimates that are close to something bounded away from a level exceed the level. -/
theorem inProb_above {Ω : ℕ → Type*} [∀ n, MeasurableSpace (Ω n)] {μ : ∀ n, Measure (Ω n)} {f g : ∀ n, Ω n → ℝ} (h : InProb μ (fun n ω => f n ω - g n ω) 0) {a b : ℝ} (hab : a < b) (hg : ∀ n ω, b ≤ g n ω) :
    Tendsto (fun n => μ n {ω | f n ω ≤ a}) atTop (𝓝 0) := by
  have h1 := inProb_real.1 h (b - a) (sub_pos.2 hab)
  refine tendsto_of_tendsto_of_tendsto_of_le_of_le tendsto_const_nhds h1 (fun n => bot_le) fun n => measure_mono fun ω hω => ?_
  have h2 : f n ω ≤ a := hω
  have h3 := hg n ω
  rw [Set.mem_ofPred_eq, sub_zero, abs_of_nonpos (by linarith)]
  linarith

end Mocat.Smc
