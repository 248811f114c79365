import Verif.Props.SmcAdaptiveEnd
/-!
# C40: when exactly adaptive tempering stalls

`lik` are the likelihood potentials of an ensemble, `lw` its log weights, `s` a bound on the differences between the potentials. The bounds on the number of iterations of the search are explicit.
-/
namespace Mocat.Props
open Mocat Mocat.Smc
variable {n : ℕ} [NeZero n]

theorem mean_ge (lw l : Fin n → ℝ) {w s δ : ℝ} (hs : ∀ i, l i - w ≤ s) (hδ : 0 ≤ δ) :
    Real.exp (-(δ * s)) ≤ (∑ i, Real.exp (lw i) * Real.exp (-(δ * (l i - w)))) / ∑ i, Real.exp (lw i) := by
  rw [le_div_iff₀ (sum_exp_pos lw), Finset.mul_sum]
  refine Finset.sum_le_sum fun i _ => ?_
  rw [mul_comm]
  exact mul_le_mul_of_nonneg_left (Real.exp_le_exp.2 (neg_le_neg (mul_le_mul_of_nonneg_left (hs i) hδ))) (Real.exp_pos _).le

theorem stall_or_progress (p : Params) {Tmax T : ℝ} (hT : T < Tmax) (lw lik : Fin n → ℝ) (hr0 : 0 < p.essThresholdRetain) (hr1 : p.essThresholdRetain < 1)
    (htol : p.bisectionTol ≤ -Real.log p.essThresholdRetain) {s τ : ℝ} (hs : ∀ i j, lik i - lik j ≤ s) (hτ : 0 < τ) (hτL : τ ≤ -Real.log p.essThresholdRetain) (hkeep : τ ≤ p.bisectionTol ∨ lw = fun _ => 0)
    (hN : 2 * s * (Tmax - T) * (-Real.log p.essThresholdRetain / (-Real.log p.essThresholdRetain + τ)) ^ p.maxBisectionIter < -Real.log p.essThresholdRetain) :
    (essOf lw ≤ essOf (fun i => lw i - (Tmax - T) * lik i) ∧ nextTemperatureAdaptive p Tmax T (essOf lw) lw lik = T) ∨ T < nextTemperatureAdaptive p Tmax T (essOf lw) lw lik := by
  have hL : Real.log p.essThresholdRetain < 0 := Real.log_neg hr0 hr1
  obtain ⟨j, -, hj⟩ := Finset.exists_min_image (Finset.univ : Finset (Fin n)) lik ⟨0, Finset.mem_univ _⟩
  have hs0 : 0 ≤ s := by have := hs 0 0; linarith
  obtain ⟨δ, hδ⟩ : ∃ δ, δ = (Tmax - T) * (-Real.log p.essThresholdRetain / (-Real.log p.essThresholdRetain + τ)) ^ p.maxBisectionIter := ⟨_, rfl⟩
  have hδ0 : 0 < δ := by rw [hδ]; exact mul_pos (sub_pos.2 hT) (pow_pos (div_pos (by linarith) (by linarith)) _)
  have hδs : 2 * (δ * s) < -Real.log p.essThresholdRetain := by rw [hδ]; linarith
  have hnear : Real.sqrt p.essThresholdRetain < Real.exp (-(δ * s)) := by
    rw [← Real.log_lt_iff_lt_exp (Real.sqrt_pos.2 hr0), Real.log_sqrt hr0.le]
    linarith
  have h := nextOf_progress hT.le hr0 hr1 htol lw lik (w := lik j) (c := Real.exp (-((Tmax - T) * s))) (D := Tmax - T) (fun i => hj i (Finset.mem_univ _)) hδ0 le_rfl (Real.exp_pos _)
    (Real.exp_le_one_iff.2 (neg_nonpos.2 (mul_nonneg (by linarith) hs0))) (hnear.trans_le (mean_ge lw lik (fun i => hs i j) hδ0.le)) (mean_ge lw lik (fun i => hs i j) (by linarith)) hτ hτL hkeep hδ.ge
  unfold nextOf at h
  rw [← essOf_eq] at h
  have hlog : Real.log (Real.exp (-((Tmax - T) * s))) ≤ 0 := by rw [Real.log_exp]; exact neg_nonpos.2 (mul_nonneg (by linarith) hs0)
  rcases h with ⟨h1, h2⟩ | h | h
  · refine Or.inl ⟨?_, h2⟩
    rw [essOf_eq, essOf_eq]
    exact Real.exp_le_exp.2 h1
  · exact Or.inr (by linarith)
  · refine Or.inr (lt_of_lt_of_le ?_ h)
    have : 0 < -Real.log p.essThresholdRetain / (-Real.log p.essThresholdRetain + -(2 * Real.log (Real.exp (-((Tmax - T) * s))))) * δ := mul_pos (div_pos (by linarith) (by linarith)) hδ0
    linarith

/-- Reweighting that does not lower the effective sample size makes the search stay, whatever its settings. -/
theorem C40_stalls_no_loss (p : Params) (Tmax T : ℝ) (lw lik : Fin n → ℝ) (hr0 : 0 < p.essThresholdRetain) (hr1 : p.essThresholdRetain < 1)
    (h : essOf lw ≤ essOf fun i => lw i - (Tmax - T) * lik i) : nextTemperatureAdaptive p Tmax T (essOf lw) lw lik = T := by
  have hL : Real.log p.essThresholdRetain < 0 := Real.log_neg hr0 hr1
  rw [essOf_eq, essOf_eq, Real.exp_le_exp] at h
  rw [essOf_eq]
  unfold nextTemperatureAdaptive
  dsimp only
  obtain ⟨f, hf⟩ : ∃ f : ℝ → ℝ, f = fun x => logEss (fun i => lw i - (x - T) * lik i) - Real.log (Real.exp (logEss lw) * p.essThresholdRetain) := ⟨_, rfl⟩
  have hfx : ∀ x, f x = logEss (fun i => lw i - (x - T) * lik i) - logEss lw - Real.log p.essThresholdRetain := fun x => by
    rw [hf]
    simp only
    rw [Real.log_mul (Real.exp_pos _).ne' hr0.ne', Real.log_exp]
    ring
  have hfT : f T = -Real.log p.essThresholdRetain := by
    rw [hfx]
    simp only [sub_self, zero_mul, sub_zero, zero_sub]
  have hfM : f T ≤ f Tmax := by rw [hfT, hfx]; linarith
  have h0 : 0 < f T := by rw [hfT]; linarith
  rw [← hf, C28_same_sign f T Tmax (mul_pos h0 (h0.trans_le hfM))]
  simp only
  rw [if_pos (by rw [abs_of_pos h0, abs_of_pos (h0.trans_le hfM)]; exact hfM)]

/-- C40: with enough iterations of the search, the temperature stays where it is exactly when reweighting to the maximal temperature would not lower the effective sample size. -/
theorem C40_stalls_iff (p : Params) {Tmax T : ℝ} (hT : T < Tmax) (lw lik : Fin n → ℝ) (hr0 : 0 < p.essThresholdRetain) (hr1 : p.essThresholdRetain < 1)
    (ht0 : 0 < p.bisectionTol) (htol : p.bisectionTol ≤ -Real.log p.essThresholdRetain) {s : ℝ} (hs : ∀ i j, lik i - lik j ≤ s)
    (hN : 2 * s * (Tmax - T) * (-Real.log p.essThresholdRetain / (-Real.log p.essThresholdRetain + p.bisectionTol)) ^ p.maxBisectionIter < -Real.log p.essThresholdRetain) :
    nextTemperatureAdaptive p Tmax T (essOf lw) lw lik = T ↔ essOf lw ≤ essOf fun i => lw i - (Tmax - T) * lik i := by
  refine ⟨fun h => ?_, fun h => C40_stalls_no_loss p Tmax T lw lik hr0 hr1 h⟩
  rcases stall_or_progress p hT lw lik hr0 hr1 htol hs ht0 htol (Or.inl le_rfl) hN with h1 | h1
  · exact h1.1
  · exact absurd h h1.ne'

/-- C40: right after resampling, the temperature stays where it is exactly when all particles have the same likelihood potential. -/
theorem C40_stalls_resampled_iff (p : Params) {Tmax T : ℝ} (hT : T < Tmax) (lik : Fin n → ℝ) (hr0 : 0 < p.essThresholdRetain) (hr1 : p.essThresholdRetain < 1)
    (htol : p.bisectionTol ≤ -Real.log p.essThresholdRetain) {s : ℝ} (hs : ∀ i j, lik i - lik j ≤ s) (hN : 2 * s * (Tmax - T) < -Real.log p.essThresholdRetain * 2 ^ p.maxBisectionIter) :
    nextTemperatureAdaptive p Tmax T n (fun _ => 0) lik = T ↔ ∀ i j, lik i = lik j := by
  have hL : Real.log p.essThresholdRetain < 0 := Real.log_neg hr0 hr1
  have hn : essOf (fun _ : Fin n => 0) = n := by rw [essOf_eq, logEss_zero]
  have hhalf : -Real.log p.essThresholdRetain / (-Real.log p.essThresholdRetain + -Real.log p.essThresholdRetain) = 1 / 2 := by
    rw [div_eq_div_iff (by linarith) two_ne_zero]
    ring
  rw [← hn]
  constructor
  · intro h
    rcases stall_or_progress p hT (fun _ => 0) lik hr0 hr1 htol hs (τ := -Real.log p.essThresholdRetain) (by linarith) le_rfl (Or.inr rfl) (by
      rw [hhalf, one_div, inv_pow, ← div_eq_mul_inv, div_lt_iff₀ (by positivity)]
      exact hN) with ⟨h1, -⟩ | h1
    · intro i j
      rw [hn, essOf_eq] at h1
      have hnp : (0 : ℝ) < n := by exact_mod_cast Nat.pos_of_ne_zero (NeZero.ne n)
      have h2 := equal_of_logEss ((Real.log_le_iff_le_exp hnp).2 h1) i j
      have h3 : (Tmax - T) * (lik i - lik j) = 0 := by linarith
      rcases mul_eq_zero.1 h3 with h4 | h4
      · linarith
      · linarith
    · exact absurd h h1.ne'
  · intro h
    rw [essOf_eq]
    exact C40_stalls p Tmax T _ _ lik rfl hr0 hr1 fun i => h i 0

/-- Default settings, three particles whose potentials differ by at most 1000, maximal temperature 1: the search leaves every lower temperature. -/
example (T : ℝ) (h0 : 0 ≤ T) (hT : T < 1) : nextTemperatureAdaptive (n := 3) ⟨1, 0.9, 0.5, 0.00001, 1000⟩ 1 T (3 : ℕ) (fun _ => 0) ![0, 1, 1000] ≠ T := by
  have hl := Real.log_le_sub_one_of_pos (show (0 : ℝ) < 0.9 by norm_num)
  have hp : (2 : ℝ) ^ 1000 = 2 ^ 16 * 2 ^ 984 := by rw [← pow_add]
  have h1 : (1 : ℝ) ≤ 2 ^ 984 := one_le_pow₀ (by norm_num)
  rw [Ne, C40_stalls_resampled_iff _ hT _ (by norm_num) (by norm_num) (by norm_num at hl ⊢; linarith) (s := 1000) (fun i j => by fin_cases i <;> fin_cases j <;> norm_num) (by
    simp only
    rw [hp]
    generalize (2 : ℝ) ^ 984 = z at h1
    norm_num at hl ⊢
    nlinarith)]
  intro h
  have := h 0 1
  norm_num at this

/-- A stall although the potentials differ: weights 1 and 3, and the heavier particle loses weight. Reweighting to the maximal temperature would make the weights equal. -/
example : nextTemperatureAdaptive (n := 2) ⟨1, 0.9, 0.5, 0.00001, 1000⟩ 1 0 (essOf ![0, Real.log 3]) ![0, Real.log 3] ![0, Real.log 3] = 0 := by
  refine C40_stalls_no_loss _ _ _ _ _ (by norm_num) (by norm_num) ?_
  simp [essOf, Fin.sum_univ_two, Real.exp_log]
  norm_num

end Mocat.Props
