import Verif.Lemmas.SmcAdaptiveLink
import Mathlib.Analysis.Convex.Integral
/-! When the first temperature of an adaptive run is zero. -/
namespace Mocat.Smc
open Mocat Mocat.Ideal Mocat.Meas Mocat.Spec Mocat.Utils Mocat.Props MeasureTheory Filter Topology
open scoped ENNReal

theorem chebyshev_sum {n : ℕ} (w v : Fin n → ℝ) (hw : ∀ i, 0 ≤ w i) (h : ∀ i j, 0 ≤ (w i - w j) * (v i - v j)) :
    (∑ i, w i ^ 2) * ∑ i, w i * v i ≤ (∑ i, w i) * ∑ i, w i ^ 2 * v i := by
  have h0 : 0 ≤ ∑ i, ∑ j, w i * w j * ((w i - w j) * (v i - v j)) := Finset.sum_nonneg fun i _ => Finset.sum_nonneg fun j _ => mul_nonneg (mul_nonneg (hw i) (hw j)) (h i j)
  have e : ∑ i, ∑ j, w i * w j * ((w i - w j) * (v i - v j)) = (∑ i, ∑ j, (w i ^ 2 * v i) * w j) - (∑ i, ∑ j, w i ^ 2 * (w j * v j)) - (∑ i, ∑ j, (w i * v i) * w j ^ 2)
      + ∑ i, ∑ j, w i * (w j ^ 2 * v j) := by
    simp only [← Finset.sum_add_distrib, ← Finset.sum_sub_distrib]
    exact Finset.sum_congr rfl fun i _ => Finset.sum_congr rfl fun j _ => by ring
  rw [e, ← Finset.sum_mul_sum, ← Finset.sum_mul_sum, ← Finset.sum_mul_sum, ← Finset.sum_mul_sum] at h0
  linarith

theorem ess_core {n : ℕ} (w u : Fin n → ℝ) (hw : ∀ i, 0 ≤ w i) (h : ∀ i j, 0 ≤ (w i - w j) * (u i ^ 2 - u j ^ 2)) :
    (∑ i, w i * u i) ^ 2 * ∑ i, w i ^ 2 ≤ (∑ i, w i) ^ 2 * ∑ i, w i ^ 2 * u i ^ 2 := by
  have h1 := chebyshev_sum w (fun i => u i ^ 2) hw h
  have h2 : (∑ i, w i * u i) ^ 2 ≤ (∑ i, w i) * ∑ i, w i * u i ^ 2 :=
    Finset.sum_sq_le_sum_mul_sum_of_sq_le_mul _ (fun i _ => hw i) (fun i _ => mul_nonneg (hw i) (sq_nonneg _)) fun i _ => le_of_eq (by ring)
  have hA : 0 ≤ ∑ i, w i := Finset.sum_nonneg fun i _ => hw i
  have hC : 0 ≤ ∑ i, w i ^ 2 := Finset.sum_nonneg fun i _ => sq_nonneg _
  calc (∑ i, w i * u i) ^ 2 * ∑ i, w i ^ 2 ≤ ((∑ i, w i) * ∑ i, w i * u i ^ 2) * ∑ i, w i ^ 2 := mul_le_mul_of_nonneg_right h2 hC
    _ = (∑ i, w i) * ((∑ i, w i ^ 2) * ∑ i, w i * u i ^ 2) := by ring
    _ ≤ (∑ i, w i) * ((∑ i, w i) * ∑ i, w i ^ 2 * u i ^ 2) := mul_le_mul_of_nonneg_left h1 hA
    _ = _ := by ring

variable {n : ℕ} [NeZero n]

/-- The effective sample size of tempered weights decreases with the temperature. -/
theorem logEss_antitone (l : Fin n → ℝ) {s t : ℝ} (hs : 0 ≤ s) (hst : s ≤ t) : logEss (fun i => -(t * l i)) ≤ logEss fun i => -(s * l i) := by
  have hpos : ∀ v : Fin n → ℝ, 0 < ∑ i, Real.exp (v i) := fun v => Finset.sum_pos (fun i _ => Real.exp_pos _) ⟨0, Finset.mem_univ _⟩
  have h := ess_core (fun i => Real.exp (-(s * l i))) (fun i => Real.exp (-((t - s) * l i))) (fun i => (Real.exp_pos _).le) fun i j => by
    have e : ∀ x : ℝ, Real.exp (-((t - s) * x)) ^ 2 = Real.exp (-(2 * (t - s) * x)) := fun x => by rw [← Real.exp_nat_mul]; congr 1; push_cast; ring
    rw [e, e]
    have hts : 0 ≤ 2 * (t - s) := by linarith
    rcases le_total (l i) (l j) with hl | hl
    · exact mul_nonneg (sub_nonneg.2 (Real.exp_le_exp.2 (neg_le_neg (mul_le_mul_of_nonneg_left hl hs)))) (sub_nonneg.2 (Real.exp_le_exp.2 (neg_le_neg (mul_le_mul_of_nonneg_left hl hts))))
    · exact mul_nonneg_of_nonpos_of_nonpos (sub_nonpos.2 (Real.exp_le_exp.2 (neg_le_neg (mul_le_mul_of_nonneg_left hl hs)))) (sub_nonpos.2 (Real.exp_le_exp.2 (neg_le_neg (mul_le_mul_of_nonneg_left hl hts))))
  have e1 : ∀ i, Real.exp (-(s * l i)) * Real.exp (-((t - s) * l i)) = Real.exp (-(t * l i)) := fun i => by rw [← Real.exp_add]; congr 1; ring
  have e2 : ∀ i, Real.exp (-(s * l i)) ^ 2 = Real.exp (2 * -(s * l i)) := fun i => by rw [← Real.exp_nat_mul]; push_cast; rfl
  have e3 : ∀ i, Real.exp (-(s * l i)) ^ 2 * Real.exp (-((t - s) * l i)) ^ 2 = Real.exp (2 * -(t * l i)) := fun i => by rw [← mul_pow, e1, ← Real.exp_nat_mul]; push_cast; rfl
  simp only [e1, e3] at h
  simp only [e2] at h
  have h' := Real.log_le_log (mul_pos (pow_pos (hpos _) 2) (hpos _)) h
  rw [Real.log_mul (pow_pos (hpos _) 2).ne' (hpos _).ne', Real.log_mul (pow_pos (hpos _) 2).ne' (hpos _).ne', Real.log_pow, Real.log_pow] at h'
  push_cast at h'
  unfold logEss lse
  linarith

/-- What the iterates of the search from the lower end 0 look like. -/
structure FromZero (f : ℝ → ℝ) (M : ℝ) (s : BState) : Prop where
  le : s.lo ≤ s.hi
  hi : 0 < s.hi
  flo : 0 ≤ s.flo
  fhi : s.fhi ≤ 0
  zero : 0 < s.lo ∨ (s.lo = 0 ∧ s.flo = f 0 ∧ s.fhi = f s.hi ∧ (-f 0 < s.fhi ∨ s.hi ≤ M / 2 ^ s.iter))

theorem FromZero.step {f : ℝ → ℝ} {M : ℝ} (hf0 : 0 < f 0) (hanti : ∀ s t, 0 ≤ s → s ≤ t → f t ≤ f s) {inc : Prop} (hinc : ¬ inc) {s : BState} (hs : FromZero f M s) : FromZero f M (s.step f inc) := by
  obtain ⟨θ, hθ⟩ : ∃ θ, θ = s.flo / (s.flo - s.fhi) := ⟨_, rfl⟩
  have hθ0 : 0 ≤ θ := by rw [hθ]; exact div_nonneg hs.flo (by linarith [hs.flo, hs.fhi])
  have hθ1 : θ ≤ 1 := by rw [hθ]; exact div_le_one_of_le₀ (by linarith [hs.fhi]) (by linarith [hs.flo, hs.fhi])
  obtain ⟨x, hx⟩ : ∃ x, x = s.lo - s.flo * (s.hi - s.lo) / (s.fhi - s.flo) := ⟨_, rfl⟩
  have hxθ : x = s.lo + θ * (s.hi - s.lo) := by
    rw [hx, hθ, ← neg_sub s.flo s.fhi, div_neg]
    ring
  have hxlo : s.lo ≤ x := by rw [hxθ]; linarith [mul_nonneg hθ0 (sub_nonneg.2 hs.le)]
  have hxhi : x ≤ s.hi := by rw [hxθ]; nlinarith [mul_le_mul_of_nonneg_right hθ1 (sub_nonneg.2 hs.le)]
  have hlo0 : 0 ≤ s.lo := by rcases hs.zero with h | h <;> linarith [h]
  have hx0 : 0 < x := by
    rcases hs.zero with h | ⟨h, h1, -, -⟩
    · linarith
    · have hθp : 0 < θ := by rw [hθ, h1]; exact div_pos hf0 (by linarith [hs.fhi])
      rw [hxθ, h, sub_zero, zero_add]
      exact mul_pos hθp hs.hi
  have hstep : s.step f inc = if f x < 0 then ⟨s.lo, x, s.flo, f x, s.iter + 1⟩ else ⟨x, s.hi, f x, s.fhi, s.iter + 1⟩ := by
    simp only [BState.step, ← hx, if_neg hinc]
    split <;> rfl
  rw [hstep]
  split
  · rename_i hneg
    refine ⟨hxlo, hx0, hs.flo, hneg.le, ?_⟩
    rcases hs.zero with h | ⟨h, h1, h2, h3⟩
    · exact Or.inl h
    · refine Or.inr ⟨h, h1, rfl, ?_⟩
      rcases h3 with h3 | h3
      · refine Or.inl (h3.trans_le ?_)
        rw [h2]
        exact hanti _ _ hx0.le hxhi
      · by_cases hc : -f 0 < s.fhi
        · refine Or.inl (hc.trans_le ?_)
          rw [h2]
          exact hanti _ _ hx0.le hxhi
        · refine Or.inr ?_
          have hθh : θ ≤ 1 / 2 := by
            rw [hθ, h1, div_le_iff₀ (by linarith [hs.fhi])]
            linarith
          simp only
          rw [hxθ, h, sub_zero, zero_add, pow_succ, ← div_div]
          nlinarith [hs.hi]
  · rename_i hneg
    exact ⟨hxhi, hs.hi, not_lt.1 hneg, hs.fhi, Or.inl hx0⟩

omit [NeZero n] in
/-- The search returns 0 only if the effective sample size does not drop at all, or drops too fast near 0. -/
theorem search_zero {f : ℝ → ℝ} {M tol : ℝ} (hM : 0 < M) (hf0 : 0 < f 0) (hanti : ∀ s t, 0 ≤ s → s ≤ t → f t ≤ f s) (htol : tol ≤ f 0) (maxIter : ℕ)
    (h : (if |(bisect f 0 M maxIter tol).flo| ≤ |(bisect f 0 M maxIter tol).fhi| then (bisect f 0 M maxIter tol).lo else (bisect f 0 M maxIter tol).hi) = 0) :
    f 0 ≤ f M ∨ f (M / 2 ^ maxIter) ≤ -f 0 := by
  by_cases hfM : 0 < f M
  · left
    rw [C28_same_sign f 0 M (mul_pos hf0 hfM)] at h
    simp only [abs_of_pos hf0, abs_of_pos hfM] at h
    by_contra hc
    rw [if_neg hc] at h
    linarith
  · right
    rw [not_lt] at hfM
    have hinc : ¬ f M > f 0 := by linarith
    obtain ⟨hr, hstop⟩ := bisectLoop_reaches f (f M > f 0) maxIter tol (bisectInit f 0 M) _ .refl
    have key : ∀ s, Reaches f (f M > f 0) maxIter tol (bisectInit f 0 M) s → FromZero f M s := fun s hs => by
      induction hs with
      | refl => exact ⟨hM.le, hM, hf0.le, hfM, Or.inr ⟨rfl, rfl, rfl, Or.inr (by simp [bisectInit])⟩⟩
      | step _ _ ih => exact ih.step hf0 hanti hinc
    have hs := key _ hr
    rw [show bisectLoop f (f M > f 0) maxIter tol (bisectInit f 0 M) = bisect f 0 M maxIter tol from rfl] at hs hstop
    generalize bisect f 0 M maxIter tol = s at h hs hstop
    rcases hs.zero with h1 | ⟨h1, h2, h3, h4⟩
    · exfalso
      split at h
      · linarith
      · linarith [hs.hi]
    · by_cases hc : |s.flo| ≤ |s.fhi|
      · rw [abs_of_nonneg hs.flo, abs_of_nonpos hs.fhi, h2] at hc
        have h5 : s.hi ≤ M / 2 ^ s.iter := by
          rcases h4 with h4 | h4
          · linarith
          · exact h4
        have h6 : maxIter ≤ s.iter := by
          rcases hstop with h7 | h7 | ⟨h7, -⟩ | ⟨-, h7⟩
          · exfalso
            rw [abs_of_nonneg hs.flo, abs_of_nonpos hs.fhi, h2, min_eq_left hc] at h7
            linarith
          · exact h7
          · linarith [hs.flo]
          · linarith [hs.fhi]
        have h7 : M / 2 ^ s.iter ≤ M / 2 ^ maxIter := div_le_div_of_nonneg_left hM.le (by positivity) (pow_le_pow_right₀ (by norm_num) h6)
        have h8 := hanti s.hi (M / 2 ^ maxIter) hs.hi.le (h5.trans h7)
        rw [← h3] at h8
        linarith
      · rw [if_neg hc] at h
        linarith [hs.hi]

/-- The first temperature is 0 only if the effective sample size at the maximal temperature is `n`, or that at a very small temperature is at most `retain ^ 2 * n`. -/
theorem nextOf_zero {p : Params} {M : ℝ} (hM : 0 < M) (hr0 : 0 < p.essThresholdRetain) (hr1 : p.essThresholdRetain < 1) (htol : p.bisectionTol ≤ -Real.log p.essThresholdRetain) (l : Fin n → ℝ)
    (h : nextOf p M 0 (fun _ => 0) l = 0) : Real.log n ≤ logEss (fun i => -(M * l i)) ∨ logEss (fun i => -(M / 2 ^ p.maxBisectionIter * l i)) ≤ Real.log n + 2 * Real.log p.essThresholdRetain := by
  have hn : (0 : ℝ) < n := by exact_mod_cast Nat.pos_of_ne_zero (NeZero.ne n)
  have hL : Real.log p.essThresholdRetain < 0 := Real.log_neg hr0 hr1
  have h0 : logEss (fun _ : Fin n => (0 : ℝ)) = Real.log n := by
    have := logEss_zero (n := n)
    rw [← this, Real.log_exp]
  unfold nextOf nextTemperatureAdaptive at h
  simp only [logEss_zero, zero_sub, sub_zero] at h
  obtain ⟨f, hf⟩ : ∃ f : ℝ → ℝ, f = fun x => logEss (fun i => -(x * l i)) - Real.log (n * p.essThresholdRetain) := ⟨_, rfl⟩
  rw [← hf] at h
  have hf0 : f 0 = -Real.log p.essThresholdRetain := by
    rw [hf]
    simp only [zero_mul, neg_zero, h0]
    rw [Real.log_mul hn.ne' hr0.ne']
    ring
  have hfx : ∀ x, f x = logEss (fun i => -(x * l i)) - Real.log n - Real.log p.essThresholdRetain := fun x => by
    rw [hf]
    simp only
    rw [Real.log_mul hn.ne' hr0.ne']
    ring
  have hanti : ∀ s t, 0 ≤ s → s ≤ t → f t ≤ f s := fun s t hs hst => by
    rw [hf]
    exact sub_le_sub_right (logEss_antitone l hs hst) _
  rcases search_zero hM (by rw [hf0]; linarith) hanti (by rw [hf0]; exact htol) p.maxBisectionIter h with h1 | h1
  · left
    rw [hf0, hfx] at h1
    linarith
  · right
    rw [hf0, hfx] at h1
    linarith

end Mocat.Smc
