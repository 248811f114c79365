import Verif.Props.Abc
import Mathlib.Order.Filter.AtTopBot.Archimedean
import Mathlib.Analysis.SpecificLimits.Basic
/-!
# Empirical quantiles along a sequence
-/
namespace Mocat.Props
open Mocat Mocat.Abc Filter Topology

/-- The fraction of the first `n` terms that satisfy `P`. -/
noncomputable def fractionOf (v : ℕ → ℝ) (P : ℝ → Prop) (n : ℕ) : ℝ := open Classical in (∑ i ∈ Finset.range n, if P (v i) then (1 : ℝ) else 0) / n

theorem card_sorted_iff {n : ℕ} (v : Fin n → ℝ) (P : ℝ → Prop) [DecidablePred P] :
    (Finset.univ.filter fun i => P (v i)).card = (Finset.univ.filter fun j => P (sorted v j)).card := by
  symm
  apply Finset.card_bij (fun j _ => Tuple.sort v j)
  · intro j hj
    exact Finset.mem_filter.mpr ⟨Finset.mem_univ _, (Finset.mem_filter.mp hj).2⟩
  · intro a _ b _ h; exact (Tuple.sort v).injective h
  · intro i hi
    refine ⟨(Tuple.sort v).symm i, Finset.mem_filter.mpr ⟨Finset.mem_univ _, ?_⟩, by simp⟩
    have := (Finset.mem_filter.mp hi).2
    simpa [sorted] using this

theorem fractionOf_card (v : ℕ → ℝ) (P : ℝ → Prop) [DecidablePred P] (n : ℕ) :
    fractionOf v P (n + 1) * ((n : ℝ) + 1) = ((Finset.univ.filter fun j : Fin (n + 1) => P (sorted (fun i : Fin (n + 1) => v i) j)).card : ℝ) := by
  classical
  rw [← card_sorted_iff (fun i : Fin (n + 1) => v i) P, fractionOf, Finset.sum_range, Finset.card_filter]
  push_cast
  rw [div_mul_cancel₀ _ (by positivity)]
  refine Finset.sum_congr rfl fun i _ => ?_
  split_ifs <;> rfl

/-- A sorted entry is above `s` if at most its position many terms are at most `s`. -/
theorem lt_sorted {n : ℕ} (v : Fin (n + 1) → ℝ) (s : ℝ) (k : Fin (n + 1)) (h : (Finset.univ.filter fun j => sorted v j ≤ s).card ≤ k) : s < sorted v k := by
  by_contra hn
  push Not at hn
  have hsub : (Finset.univ.filter fun j : Fin (n + 1) => (j : ℕ) < k + 1) ⊆ Finset.univ.filter fun j => sorted v j ≤ s := fun j hj => by
    have hj' := (Finset.mem_filter.1 hj).2
    exact Finset.mem_filter.2 ⟨Finset.mem_univ _, (sorted_mono v (Fin.le_def.2 (by omega))).trans hn⟩
  have := Finset.card_le_card hsub
  rw [card_fin_lt _ (by omega)] at this
  omega

/-- A sorted entry is below `s` if more than its position many terms are below `s`. -/
theorem sorted_lt {n : ℕ} (v : Fin (n + 1) → ℝ) (s : ℝ) (k : Fin (n + 1)) (h : (k : ℕ) < (Finset.univ.filter fun j => sorted v j < s).card) : sorted v k < s := by
  by_contra hn
  push Not at hn
  have hsub : (Finset.univ.filter fun j => sorted v j < s) ⊆ Finset.univ.filter fun j : Fin (n + 1) => (j : ℕ) < k := fun j hj => by
    have hj' := (Finset.mem_filter.1 hj).2
    refine Finset.mem_filter.2 ⟨Finset.mem_univ _, ?_⟩
    by_contra hk
    exact absurd ((hn.trans (sorted_mono v (Fin.le_def.2 (by omega)))).trans_lt hj') (lt_irrefl _)
  have := Finset.card_le_card hsub
  rw [card_fin_lt _ (by omega)] at this
  omega

/-- If for every `k` the fraction of terms up to `t - 1/(k+1)` tends to less than `q` and the fraction of terms below `t + 1/(k+1)` to more than `q`, then the empirical `q`-quantiles tend to `t`. -/
theorem quantile_tendsto (v : ℕ → ℝ) {q t : ℝ} (h0 : 0 ≤ q) (h1 : q ≤ 1) (a b : ℕ → ℝ) (ha : ∀ k, a k < q) (hb : ∀ k, q < b k)
    (hlo : ∀ k : ℕ, Tendsto (fractionOf v fun x => x ≤ t - 1 / ((k : ℝ) + 1)) atTop (𝓝 (a k))) (hhi : ∀ k : ℕ, Tendsto (fractionOf v fun x => x < t + 1 / ((k : ℝ) + 1)) atTop (𝓝 (b k))) :
    Tendsto (fun n : ℕ => quantile (fun i : Fin (n + 1) => v i) q) atTop (𝓝 t) := by
  classical
  have hpos : ∀ n : ℕ, q * (((n + 1 : ℕ) : ℝ) - 1) = q * n := fun n => by push_cast; ring
  rw [tendsto_order]
  constructor
  · intro x hx
    obtain ⟨k, hk⟩ := exists_nat_one_div_lt (sub_pos.2 hx)
    have e1 := ((hlo k).comp (tendsto_add_atTop_nat 1)).eventually_lt_const (show a k < (a k + q) / 2 by linarith [ha k])
    have e2 : ∀ᶠ n : ℕ in atTop, (a k + q) / (q - a k) ≤ n := tendsto_natCast_atTop_atTop.eventually (eventually_ge_atTop _)
    filter_upwards [e1, e2] with n h1n h2n
    have hqa : 0 < q - a k := by linarith [ha k]
    rw [div_le_iff₀ hqa] at h2n
    have hc := fractionOf_card v (fun x => x ≤ t - 1 / ((k : ℝ) + 1)) n
    simp only [Function.comp_apply] at h1n
    have hle : ((Finset.univ.filter fun j : Fin (n + 1) => sorted (fun i : Fin (n + 1) => v i) j ≤ t - 1 / ((k : ℝ) + 1)).card : ℝ) ≤ q * n := by
      rw [← hc]
      have hn : (0 : ℝ) < n + 1 := by positivity
      nlinarith
    obtain ⟨hb1, hb2, hb3⟩ := quantile_pos (n := n + 1) h0 h1
    have hfl := Nat.le_floor hle
    have := lt_sorted (fun i : Fin (n + 1) => v i) (t - 1 / ((k : ℝ) + 1)) (clampIdx (n + 1) ⌊q * (((n + 1 : ℕ) : ℝ) - 1)⌋₊) (by rw [clampIdx_val hb2, hpos]; exact hfl)
    linarith [(quantile_bounds (fun i : Fin (n + 1) => v i) h0 h1).1]
  · intro x hx
    obtain ⟨k, hk⟩ := exists_nat_one_div_lt (sub_pos.2 hx)
    have e1 := ((hhi k).comp (tendsto_add_atTop_nat 1)).eventually_const_lt (show (b k + q) / 2 < b k by linarith [hb k])
    have e2 : ∀ᶠ n : ℕ in atTop, 2 / (b k - q) ≤ n := tendsto_natCast_atTop_atTop.eventually (eventually_ge_atTop _)
    filter_upwards [e1, e2] with n h1n h2n
    have hqa : 0 < b k - q := by linarith [hb k]
    rw [div_le_iff₀ hqa] at h2n
    have hc := fractionOf_card v (fun x => x < t + 1 / ((k : ℝ) + 1)) n
    simp only [Function.comp_apply] at h1n
    have hle : q * n + 1 ≤ ((Finset.univ.filter fun j : Fin (n + 1) => sorted (fun i : Fin (n + 1) => v i) j < t + 1 / ((k : ℝ) + 1)).card : ℝ) := by
      rw [← hc]
      have hn : (0 : ℝ) < n + 1 := by positivity
      nlinarith
    obtain ⟨hb1, hb2, hb3⟩ := quantile_pos (n := n + 1) h0 h1
    have hfl : ⌈q * (n : ℝ)⌉₊ < (Finset.univ.filter fun j : Fin (n + 1) => sorted (fun i : Fin (n + 1) => v i) j < t + 1 / ((k : ℝ) + 1)).card := by
      have h3 := Nat.ceil_lt_add_one (mul_nonneg h0 (Nat.cast_nonneg n) : (0 : ℝ) ≤ q * n)
      exact_mod_cast h3.trans_le hle
    have := sorted_lt (fun i : Fin (n + 1) => v i) (t + 1 / ((k : ℝ) + 1)) (clampIdx (n + 1) ⌈q * (((n + 1 : ℕ) : ℝ) - 1)⌉₊) (by rw [clampIdx_val hb3, hpos]; exact hfl)
    linarith [(quantile_bounds (fun i : Fin (n + 1) => v i) h0 h1).2]

/-- Replacing a threshold by thresholds that tend to it changes averages over the terms below it by nothing in the limit, if few terms are near it. -/
theorem below_tendsto (v c : ℕ → ℝ) {B t L : ℝ} (hB : 0 ≤ B) (hc : ∀ i, |c i| ≤ B) (θ : ℕ → ℝ) (hθ : Tendsto θ atTop (𝓝 t)) (ρ : ℕ → ℝ) (hρ : Tendsto ρ atTop (𝓝 0))
    (hnear : ∀ k : ℕ, Tendsto (fractionOf v fun x => t - 1 / ((k : ℝ) + 1) ≤ x ∧ x ≤ t + 1 / ((k : ℝ) + 1)) atTop (𝓝 (ρ k)))
    (hL : open Classical in Tendsto (fun n : ℕ => (∑ i ∈ Finset.range n, if v i < t then c i else 0) / (n : ℝ)) atTop (𝓝 L)) :
    open Classical in Tendsto (fun n : ℕ => (∑ i ∈ Finset.range (n + 1), if v i < θ n then c i else 0) / ((n : ℝ) + 1)) atTop (𝓝 L) := by
  classical
  have hL' := hL.comp (tendsto_add_atTop_nat 1)
  rw [Metric.tendsto_atTop'] at *
  intro ε hε
  obtain ⟨k, hk⟩ : ∃ k, |ρ k| < ε / (4 * (B + 1)) := by
    obtain ⟨N, hN⟩ := hρ (ε / (4 * (B + 1))) (by positivity)
    exact ⟨N + 1, by simpa [Real.dist_eq] using hN (N + 1) (by omega)⟩
  have h1 := (hnear k).comp (tendsto_add_atTop_nat 1)
  rw [Metric.tendsto_atTop'] at h1
  obtain ⟨N1, h1⟩ := h1 (ε / (4 * (B + 1))) (by positivity)
  obtain ⟨N2, h2⟩ := hθ (1 / ((k : ℝ) + 1)) (by positivity)
  obtain ⟨N3, h3⟩ := hL' (ε / 2) (by positivity)
  refine ⟨max N1 (max N2 N3), fun n hn => ?_⟩
  have h1 := h1 n (lt_of_le_of_lt (le_max_left _ _) hn)
  have h2 := h2 n (lt_of_le_of_lt ((le_max_left _ _).trans (le_max_right _ _)) hn)
  have h3 := h3 n (lt_of_le_of_lt ((le_max_right _ _).trans (le_max_right _ _)) hn)
  simp only [Function.comp_apply, Real.dist_eq, Nat.cast_add, Nat.cast_one] at h1 h2 h3 ⊢
  have hn0 : (0 : ℝ) < (n : ℝ) + 1 := by positivity
  have hdiff : |(∑ i ∈ Finset.range (n + 1), if v i < θ n then c i else 0) / ((n : ℝ) + 1) - (∑ i ∈ Finset.range (n + 1), if v i < t then c i else 0) / ((n : ℝ) + 1)|
      ≤ B * fractionOf v (fun x => t - 1 / ((k : ℝ) + 1) ≤ x ∧ x ≤ t + 1 / ((k : ℝ) + 1)) (n + 1) := by
    rw [← sub_div, ← Finset.sum_sub_distrib, abs_div, abs_of_pos hn0, fractionOf, Nat.cast_add, Nat.cast_one, mul_div_assoc']
    refine div_le_div_of_nonneg_right ((Finset.abs_sum_le_sum_abs _ _).trans ?_) hn0.le
    rw [Finset.mul_sum]
    refine Finset.sum_le_sum fun i _ => ?_
    obtain ⟨h2a, h2b⟩ := abs_lt.1 h2
    have hk0 : (0 : ℝ) < 1 / ((k : ℝ) + 1) := by positivity
    by_cases ha : v i < θ n <;> by_cases hb : v i < t
    · simp only [ha, hb, if_true, sub_self, abs_zero]
      exact mul_nonneg hB (by split_ifs <;> norm_num)
    · push Not at hb
      rw [if_pos ha, if_neg (not_lt.2 hb), if_pos ⟨by linarith, by linarith⟩, sub_zero, mul_one]
      exact hc i
    · push Not at ha
      rw [if_neg (not_lt.2 ha), if_pos hb, if_pos ⟨by linarith, by linarith⟩, zero_sub, abs_neg, mul_one]
      exact hc i
    · simp only [ha, hb, if_false, sub_self, abs_zero]
      exact mul_nonneg hB (by split_ifs <;> norm_num)
  set F := fractionOf v (fun x => t - 1 / ((k : ℝ) + 1) ≤ x ∧ x ≤ t + 1 / ((k : ℝ) + 1)) (n + 1) with hF
  have hF1 : F < 2 * (ε / (4 * (B + 1))) := by
    have := (abs_lt.1 h1).2
    have := (abs_lt.1 hk).2
    linarith
  have hBF : B * F < ε / 2 := by
    rcases hB.eq_or_lt with hB0 | hB0
    · rw [← hB0, zero_mul]; linarith
    · calc B * F < B * (2 * (ε / (4 * (B + 1)))) := (mul_lt_mul_iff_right₀ hB0).2 hF1
        _ = ε / 2 * (B / (B + 1)) := by field_simp; ring
        _ ≤ ε / 2 * 1 := mul_le_mul_of_nonneg_left ((div_le_one (by linarith)).2 (by linarith)) (by linarith)
        _ = ε / 2 := mul_one _
  calc _ ≤ |(∑ i ∈ Finset.range (n + 1), if v i < θ n then c i else 0) / ((n : ℝ) + 1) - (∑ i ∈ Finset.range (n + 1), if v i < t then c i else 0) / ((n : ℝ) + 1)|
        + |(∑ i ∈ Finset.range (n + 1), if v i < t then c i else 0) / ((n : ℝ) + 1) - L| := abs_sub_le _ _ _
    _ < ε / 2 + ε / 2 := add_lt_add_of_le_of_lt (hdiff.trans hBF.le) h3
    _ = ε := by ring

end Mocat.Props
