import Verif.Lemmas.SmcAdaptiveStart
/-! The first temperature of an adaptive run is positive with probability tending to 1. -/
namespace Mocat.Smc
open Mocat Mocat.Ideal Mocat.Meas Mocat.Spec Mocat.Utils Mocat.Props MeasureTheory Filter Topology
open scoped ENNReal

theorem inProb_pos {Ω : ℕ → Type*} [∀ n, MeasurableSpace (Ω n)] {μ : ∀ n, Measure (Ω n)} {f : ∀ n, Ω n → ℝ} {c : ℝ} (h : InProb μ f c) (hc : 0 < c) : Tendsto (fun n => μ n {ω | f n ω ≤ 0}) atTop (𝓝 0) := by
  refine (h (Set.Ioi 0) (Ioi_mem_nhds hc)).congr fun n => ?_
  congr 1
  ext ω
  simp

variable {X : Type*}

/-- The mean of the tempered weights over the initial ensemble. -/
noncomputable def avg {n : ℕ} (lik : X → ℝ) (x : Fin n → X) (t : ℝ) : ℝ := Qr (fun y => Real.exp (-(t * lik y))) (startAt (fun _ => 0) x)

theorem avg_eq {n : ℕ} [NeZero n] (lik : X → ℝ) (x : Fin n → X) (t : ℝ) : avg lik x t = (∑ i, Real.exp (-(t * lik (x i)))) / n := by
  unfold avg Qr
  simp only [share_startAt, Real.exp_zero, mul_one]
  rw [Finset.sum_div]
  exact Finset.sum_congr rfl fun i _ => by simp only [startAt]; ring

theorem avg_pos {n : ℕ} [NeZero n] (lik : X → ℝ) (x : Fin n → X) (t : ℝ) : 0 < avg lik x t := by
  have hn : (0 : ℝ) < n := by exact_mod_cast Nat.pos_of_ne_zero (NeZero.ne n)
  rw [avg_eq]
  exact div_pos (Finset.sum_pos (fun i _ => Real.exp_pos _) ⟨0, Finset.mem_univ _⟩) hn

theorem logEss_avg {n : ℕ} [NeZero n] (lik : X → ℝ) (x : Fin n → X) (t : ℝ) : logEss (fun i => -(t * lik (x i))) = Real.log n + 2 * Real.log (avg lik x t) - Real.log (avg lik x (2 * t)) := by
  have hn : (0 : ℝ) < n := by exact_mod_cast Nat.pos_of_ne_zero (NeZero.ne n)
  have hpos : ∀ v : Fin n → ℝ, 0 < ∑ i, Real.exp (v i) := fun v => Finset.sum_pos (fun i _ => Real.exp_pos _) ⟨0, Finset.mem_univ _⟩
  rw [avg_eq, avg_eq, Real.log_div (hpos _).ne' hn.ne', Real.log_div (hpos _).ne' hn.ne']
  have e : ∀ i, Real.exp (2 * -(t * lik (x i))) = Real.exp (-(2 * t * lik (x i))) := fun i => by congr 1; ring
  unfold logEss lse
  simp only [e]
  ring

variable [MeasurableSpace X] {μ0 : Measure X} [IsProbabilityMeasure μ0] {lik : X → ℝ} (hlik : Measurable lik) {w : ℝ} (hw : ∀ x, w ≤ lik x)
include hlik hw

omit [MeasurableSpace X] hlik in
theorem exp_bound {t : ℝ} (ht : 0 ≤ t) (x : X) : Real.exp (-(t * lik x)) ≤ Real.exp (-(t * w)) := Real.exp_le_exp.2 (neg_le_neg (mul_le_mul_of_nonneg_left (hw x) ht))

theorem exp_integrable {t : ℝ} (ht : 0 ≤ t) : Integrable (fun x => Real.exp (-(t * lik x))) μ0 :=
  Integrable.of_bound (Real.measurable_exp.comp (measurable_const.mul hlik).neg).aestronglyMeasurable (Real.exp (-(t * w))) (Filter.Eventually.of_forall fun x => by
    rw [Real.norm_eq_abs, abs_of_pos (Real.exp_pos _)]; exact exp_bound hw ht x)

theorem avg_tendsto {t : ℝ} (ht : 0 ≤ t) :
    InProb (fun n => (Measure.pi fun _ : Fin (n + 1) => μ0).prod ideal) (fun _ z => avg lik z.1 t) (∫ x, Real.exp (-(t * lik x)) ∂μ0) := by
  have h := (start_ok μ0 lik le_rfl (fun _ => [])).good (fun x => Real.exp (-(t * lik x))) (Real.exp (-(t * w))) (Real.measurable_exp.comp (measurable_const.mul hlik).neg) (fun x => (Real.exp_pos _).le) (exp_bound hw ht)
  have h2 := h.add (inProb_const (gam μ0 lik 0 fun x => Real.exp (-(t * lik x))))
  have e : gam μ0 lik 0 (fun x => Real.exp (-(t * lik x))) = ∫ x, Real.exp (-(t * lik x)) ∂μ0 := by simp [gam]
  rw [zero_add, e] at h2
  refine h2.congr (Filter.Eventually.of_forall fun n z => ?_)
  simp only [avg, e, sub_add_cancel]

/-- A likelihood that is not constant lowers the effective sample size. -/
theorem sq_lt_of_not_const (hc : ¬ ∃ a : ℝ, ∀ᵐ x ∂μ0, lik x = a) {t : ℝ} (ht : 0 < t) : (∫ x, Real.exp (-(t * lik x)) ∂μ0) ^ 2 < ∫ x, Real.exp (-(2 * t * lik x)) ∂μ0 := by
  have e : (fun x : ℝ => x ^ 2) ∘ (fun x => Real.exp (-(t * lik x))) = fun x => Real.exp (-(2 * t * lik x)) := by
    funext x
    simp only [Function.comp]
    rw [← Real.exp_nat_mul]
    congr 1
    push_cast
    ring
  have h := (Even.strictConvexOn_pow (n := 2) even_two two_ne_zero).ae_eq_const_or_map_average_lt (μ := μ0) (f := fun x => Real.exp (-(t * lik x))) (continuous_pow 2).continuousOn isClosed_univ
    (Filter.Eventually.of_forall fun _ => Set.mem_univ _) (exp_integrable hlik hw ht.le) (by rw [e]; exact exp_integrable hlik hw (by positivity))
  rw [average_eq_integral, average_eq_integral] at h
  rcases h with h | h
  · exfalso
    refine hc ⟨-(Real.log (∫ x, Real.exp (-(t * lik x)) ∂μ0)) / t, ?_⟩
    filter_upwards [h] with x hx
    simp only [Function.const_apply] at hx
    rw [← hx, Real.log_exp]
    field_simp
  · refine h.trans_le (le_of_eq (integral_congr_ae (Filter.Eventually.of_forall fun x => ?_)))
    exact congrFun e x

/-- With enough iterations of the search the effective sample size at its finest resolution is above the threshold. -/
theorem fine_enough {r : ℝ} (hr0 : 0 < r) (hr1 : r < 1) {M : ℝ} (hM : 0 < M) :
    ∃ N : ℕ, ∀ m ≥ N, r ^ 2 * ∫ x, Real.exp (-(2 * (M / 2 ^ m) * lik x)) ∂μ0 < (∫ x, Real.exp (-(M / 2 ^ m * lik x)) ∂μ0) ^ 2 := by
  have hlim : ∀ c : ℝ, 0 ≤ c → Tendsto (fun m : ℕ => ∫ x, Real.exp (-(c * (M / 2 ^ m) * lik x)) ∂μ0) atTop (𝓝 1) := fun c hc => by
    have ht : Tendsto (fun m : ℕ => c * (M / 2 ^ m)) atTop (𝓝 0) := by
      have h1 : Tendsto (fun m : ℕ => c * M * (1 / 2 : ℝ) ^ m) atTop (𝓝 (c * M * 0)) := (tendsto_pow_atTop_nhds_zero_of_lt_one (by norm_num) (by norm_num)).const_mul _
      rw [mul_zero] at h1
      refine h1.congr fun m => ?_
      rw [one_div, inv_pow]
      ring
    have hle : ∀ m : ℕ, c * (M / 2 ^ m) ≤ c * M := fun m => mul_le_mul_of_nonneg_left (div_le_self hM.le (one_le_pow₀ (by norm_num))) hc
    have h := tendsto_integral_of_dominated_convergence (μ := μ0) (F := fun (m : ℕ) x => Real.exp (-(c * (M / 2 ^ m) * lik x))) (f := fun _ => 1) (fun _ => Real.exp (c * M * |w|))
      (fun m => (Real.measurable_exp.comp (measurable_const.mul hlik).neg).aestronglyMeasurable) (integrable_const _)
      (fun m => Filter.Eventually.of_forall fun x => by
        have h0 : 0 ≤ c * (M / 2 ^ m) := by positivity
        rw [Real.norm_eq_abs, abs_of_pos (Real.exp_pos _)]
        refine (exp_bound hw h0 x).trans (Real.exp_le_exp.2 ?_)
        have h1 : -w ≤ |w| := neg_le_abs w
        nlinarith [mul_le_mul_of_nonneg_right (hle m) (abs_nonneg w), mul_le_mul_of_nonneg_left h1 h0])
      (Filter.Eventually.of_forall fun x => by
        have h1 := (Real.continuous_exp.tendsto 0).comp ((ht.mul_const (lik x)).neg.congr (fun _ => rfl) |>.trans (le_of_eq (by simp)))
        rw [Real.exp_zero] at h1
        exact h1)
    rw [integral_const, probReal_univ, one_smul] at h
    exact h
  have h2 := (hlim 2 (by norm_num)).const_mul (r ^ 2)
  have h1 := (hlim 1 zero_le_one).pow 2
  simp only [one_mul] at h1
  rw [mul_one] at h2
  rw [one_pow] at h1
  have hr : r ^ 2 < 1 := by nlinarith
  obtain ⟨N, hN⟩ := eventually_atTop.1 (h2.eventually_lt h1 hr)
  exact ⟨N, hN⟩

theorem first_positive {p : Params} {M : ℝ} (hM : 0 < M) (hr0 : 0 < p.essThresholdRetain) (hr1 : p.essThresholdRetain < 1) (htol : p.bisectionTol ≤ -Real.log p.essThresholdRetain)
    (hc : ¬ ∃ a : ℝ, ∀ᵐ x ∂μ0, lik x = a)
    (hfine : p.essThresholdRetain ^ 2 * ∫ x, Real.exp (-(2 * (M / 2 ^ p.maxBisectionIter) * lik x)) ∂μ0 < (∫ x, Real.exp (-(M / 2 ^ p.maxBisectionIter * lik x)) ∂μ0) ^ 2) :
    Tendsto (fun n => ((Measure.pi fun _ : Fin (n + 1) => μ0).prod ideal) {z | nextOf p M 0 (fun _ => 0) (fun i => lik (z.1 i)) = 0}) atTop (𝓝 0) := by
  obtain ⟨t, ht⟩ : ∃ t, t = M / 2 ^ p.maxBisectionIter := ⟨_, rfl⟩
  have ht0 : 0 < t := by rw [ht]; positivity
  rw [← ht] at hfine
  have hA := fun s (hs : 0 ≤ s) => avg_tendsto (μ0 := μ0) hlik hw hs
  have h1 := inProb_pos ((hA (2 * M) (by positivity)).sub ((hA M hM.le).mul (hA M hM.le))) (by rw [← pow_two]; exact sub_pos.2 (sq_lt_of_not_const hlik hw hc hM))
  have h2 := inProb_pos (((hA t ht0.le).mul (hA t ht0.le)).sub ((inProb_const (p.essThresholdRetain ^ 2)).mul (hA (2 * t) (by positivity)))) (by rw [← pow_two]; exact sub_pos.2 hfine)
  have h3 := h1.add h2
  rw [add_zero] at h3
  refine tendsto_of_tendsto_of_tendsto_of_le_of_le tendsto_const_nhds h3 (fun n => bot_le) fun n => ?_
  refine (measure_mono fun z hz => ?_).trans (measure_union_le _ _)
  have ha : ∀ s, 0 < avg lik z.1 s := fun s => avg_pos lik z.1 s
  rcases nextOf_zero hM hr0 hr1 htol _ hz with h | h
  · left
    rw [logEss_avg] at h
    have h4 : Real.log (avg lik z.1 (2 * M)) ≤ Real.log (avg lik z.1 M * avg lik z.1 M) := by
      rw [Real.log_mul (ha _).ne' (ha _).ne']
      linarith
    exact sub_nonpos.2 ((Real.log_le_log_iff (ha _) (mul_pos (ha _) (ha _))).1 h4)
  · right
    rw [← ht, logEss_avg] at h
    have h4 : Real.log (avg lik z.1 t * avg lik z.1 t) ≤ Real.log (p.essThresholdRetain ^ 2 * avg lik z.1 (2 * t)) := by
      rw [Real.log_mul (ha _).ne' (ha _).ne', Real.log_mul (by positivity) (ha _).ne', Real.log_pow]
      push_cast
      linarith
    exact sub_nonpos.2 ((Real.log_le_log_iff (mul_pos (ha _) (ha _)) (mul_pos (by positivity) (ha _))).1 h4)

end Mocat.Smc
