import Verif.Lemmas.SubtapeRuns
import Mathlib.Probability.Moments.SubGaussian
/-!
# Large errors of averages over runs are exponentially rare
-/
namespace Mocat.Ideal
open Mocat Mocat.Meas MeasureTheory ProbabilityTheory
open scoped ENNReal NNReal

section
variable {Ω Ω' : Type*} [MeasurableSpace Ω] [MeasurableSpace Ω']

/-- For every number `R` of runs and every `ε > 0`, the weighted average over the first `R` runs is off by `ε` or more with probability at most `2 exp (-R * rate ε)`. -/
def RareErrors (P : Measure Ω) (truth : ℝ) (rate : ℝ → ℝ) (L m : ℕ → Ω → ℝ) : Prop :=
  ∀ (R : ℕ) (ε : ℝ), 0 < ε → P.real {ω | ε ≤ |runsMean (fun r => L r ω) (fun r => m r ω) R - truth|} ≤ 2 * Real.exp (-(R * rate ε))

/-- Hoeffding's inequality for copies of a bounded number with a negative mean. -/
theorem tail_of_copies {P : Measure Ω} [IsProbabilityMeasure P] {P' : Measure Ω'} [IsProbabilityMeasure P'] {T : ℕ → Ω → Ω'} (hT : ∀ r, Measurable (T r)) (hTi : iIndepFun T P) (hTl : ∀ r, P.map (T r) = P')
    {y : Ω' → ℝ} (hy : Measurable y) {a b c : ℝ} (hab : ∀ τ, y τ ∈ Set.Icc a b) (hc : 0 ≤ c) (hmean : ∫ τ, y τ ∂P' = -c) (R : ℕ) :
    P.real {ω | 0 ≤ ∑ r ∈ Finset.range R, y (T r ω)} ≤ Real.exp (-(R * (2 * c ^ 2 / (b - a) ^ 2))) := by
  rcases Nat.eq_zero_or_pos R with rfl | hR
  · simp
  have hR' : (R : ℝ) ≠ 0 := by positivity
  have hm : ∀ r, ∫ ω, y (T r ω) ∂P = -c := fun r => by
    rw [← hmean, ← hTl r, integral_map (hT r).aemeasurable hy.aestronglyMeasurable]
  have hsub : ∀ r < R, HasSubgaussianMGF (fun ω => y (T r ω) + c) ((‖b - a‖₊ / 2) ^ 2) P := fun r _ => by
    have h := hasSubgaussianMGF_of_mem_Icc (μ := P) (X := fun ω => y (T r ω)) (hy.comp (hT r)).aemeasurable (Filter.Eventually.of_forall fun ω => hab (T r ω))
    rw [hm r] at h
    simpa only [sub_neg_eq_add] using h
  have hind : iIndepFun (fun r ω => y (T r ω) + c) P := hTi.comp (fun _ τ => y τ + c) fun _ => hy.add_const c
  have h := HasSubgaussianMGF.measure_sum_range_ge_le_of_iIndepFun hind hsub (n := R) (ε := R * c) (by positivity)
  have e : {ω | (R : ℝ) * c ≤ ∑ r ∈ Finset.range R, (y (T r ω) + c)} = {ω | 0 ≤ ∑ r ∈ Finset.range R, y (T r ω)} := by
    ext ω
    simp only [Set.mem_ofPred_eq, Finset.sum_add_distrib, Finset.sum_const, Finset.card_range, nsmul_eq_mul]
    constructor <;> intro h <;> linarith
  rw [e] at h
  refine h.trans_eq ?_
  congr 1
  push_cast
  rw [Real.norm_eq_abs, div_pow, sq_abs]
  by_cases h0 : (b - a) ^ 2 = 0
  · simp [h0]
  · field_simp

/-- Weighted averages over copies of a run with weight in `[0, M]` of mean `c` and a number in `[-B, B]`. -/
theorem rareErrors_of_copies {P : Measure Ω} [IsProbabilityMeasure P] {P' : Measure Ω'} [IsProbabilityMeasure P'] {T : ℕ → Ω → Ω'} (hT : ∀ r, Measurable (T r)) (hTi : iIndepFun T P) (hTl : ∀ r, P.map (T r) = P')
    {L m : ℕ → Ω → ℝ} {l n : Ω' → ℝ} (hl : Measurable l) (hn : Measurable n) {M B : ℝ} (hl0 : ∀ τ, 0 ≤ l τ) (hlM : ∀ τ, l τ ≤ M) (hnB : ∀ τ, |n τ| ≤ B * l τ) (hL : ∀ r ω, L r ω = l (T r ω))
    (hN : ∀ r ω, L r ω * m r ω = n (T r ω)) {θ c : ℝ} (hB : 0 ≤ B) (hθB : |θ| ≤ B) (hc : ∫ τ, l τ ∂P' = c) (hθ : ∫ τ, n τ ∂P' = θ * c) :
    RareErrors P θ (fun ε => (c * ε) ^ 2 / (2 * (M * (2 * B + ε)) ^ 2)) L m := by
  intro R ε hε
  have hc0 : 0 ≤ c := by rw [← hc]; exact integral_nonneg hl0
  obtain ⟨τ0⟩ : Nonempty Ω' := nonempty_of_isProbabilityMeasure P'
  have hM : 0 ≤ M := (hl0 τ0).trans (hlM τ0)
  have hli : Integrable l P' := Integrable.of_bound hl.aestronglyMeasurable M (Filter.Eventually.of_forall fun τ => by rw [Real.norm_eq_abs, abs_of_nonneg (hl0 τ)]; exact hlM τ)
  have hni : Integrable n P' := Integrable.of_bound hn.aestronglyMeasurable (B * M) (Filter.Eventually.of_forall fun τ => (hnB τ).trans (mul_le_mul_of_nonneg_left (hlM τ) hB))
  have hside : ∀ s : ℝ, |s| = 1 → P.real {ω | 0 ≤ ∑ r ∈ Finset.range R, (s * (n (T r ω) - θ * l (T r ω)) - ε * l (T r ω))} ≤ Real.exp (-(R * ((c * ε) ^ 2 / (2 * (M * (2 * B + ε)) ^ 2)))) := fun s hs => by
    have hb : ∀ τ, s * (n τ - θ * l τ) - ε * l τ ∈ Set.Icc (-(M * (2 * B + ε))) (M * (2 * B + ε)) := fun τ => by
      rw [Set.mem_Icc, ← abs_le]
      have h1 : |s * (n τ - θ * l τ)| ≤ 2 * B * l τ := by
        rw [abs_mul, hs, one_mul]
        refine (abs_sub _ _).trans ?_
        rw [abs_mul, abs_of_nonneg (hl0 τ)]
        have := hnB τ
        have := mul_le_mul_of_nonneg_right hθB (hl0 τ)
        linarith
      refine (abs_sub _ _).trans ?_
      rw [abs_mul ε, abs_of_pos hε, abs_of_nonneg (hl0 τ)]
      have h2 : (2 * B + ε) * l τ ≤ (2 * B + ε) * M := mul_le_mul_of_nonneg_left (hlM τ) (by positivity)
      linarith
    have hmean : ∫ τ, (s * (n τ - θ * l τ) - ε * l τ) ∂P' = -(c * ε) := by
      have hi : Integrable (fun τ => n τ - θ * l τ) P' := hni.sub (hli.const_mul θ)
      rw [integral_sub (hi.const_mul s) (hli.const_mul ε), integral_const_mul, integral_sub hni (hli.const_mul θ), integral_const_mul, integral_const_mul, hc, hθ]
      ring
    refine (tail_of_copies hT hTi hTl (y := fun τ => s * (n τ - θ * l τ) - ε * l τ) (by fun_prop) hb (mul_nonneg hc0 hε.le) hmean R).trans_eq ?_
    congr 3
    have e : (M * (2 * B + ε) - -(M * (2 * B + ε))) ^ 2 = 4 * (M * (2 * B + ε)) ^ 2 := by ring
    rw [e]
    by_cases h0 : (M * (2 * B + ε)) ^ 2 = 0
    · simp [h0]
    · field_simp
      ring
  have hsubset : {ω | ε ≤ |runsMean (fun r => L r ω) (fun r => m r ω) R - θ|}
      ⊆ {ω | 0 ≤ ∑ r ∈ Finset.range R, (1 * (n (T r ω) - θ * l (T r ω)) - ε * l (T r ω))} ∪ {ω | 0 ≤ ∑ r ∈ Finset.range R, (-1 * (n (T r ω) - θ * l (T r ω)) - ε * l (T r ω))} := by
    intro ω hω
    have hω' : ε ≤ |runsMean (fun r => L r ω) (fun r => m r ω) R - θ| := hω
    unfold runsMean at hω'
    simp only [hN] at hω'
    simp only [hL] at hω'
    set A := ∑ r ∈ Finset.range R, l (T r ω) with hA
    set N := ∑ r ∈ Finset.range R, n (T r ω) with hNd
    have hA0 : 0 ≤ A := Finset.sum_nonneg fun r _ => hl0 _
    have hNB : |N| ≤ B * A := by
      rw [hA, Finset.mul_sum]
      exact (Finset.abs_sum_le_sum_abs _ _).trans (Finset.sum_le_sum fun r _ => hnB _)
    have e : ∀ s : ℝ, ∑ r ∈ Finset.range R, (s * (n (T r ω) - θ * l (T r ω)) - ε * l (T r ω)) = s * (N - θ * A) - ε * A := fun s => by
      rw [Finset.sum_sub_distrib, ← Finset.mul_sum, Finset.sum_sub_distrib, ← Finset.mul_sum, ← Finset.mul_sum]
    rw [Set.mem_union, Set.mem_ofPred_eq, Set.mem_ofPred_eq]
    rw [e, e]
    rcases hA0.eq_or_lt with h0 | h0
    · left
      rw [← h0, mul_zero] at hNB
      rw [← h0, abs_nonpos_iff.1 hNB]
      simp
    · have h1 : N / A - θ = (N - θ * A) / A := by field_simp
      rw [h1, abs_div, abs_of_pos h0, le_div_iff₀ h0] at hω'
      rcases le_abs'.1 hω' with h2 | h2
      · right; linarith
      · left; linarith
  refine (measureReal_mono hsubset).trans ((measureReal_union_le _ _).trans ?_)
  have h1 := hside 1 (by simp)
  have h2 := hside (-1) (by simp)
  linarith

/-- Plain averages of copies of a number in `[0, M]`. -/
theorem rareErrors_one {P : Measure Ω} [IsProbabilityMeasure P] {P' : Measure Ω'} [IsProbabilityMeasure P'] {T : ℕ → Ω → Ω'} (hT : ∀ r, Measurable (T r)) (hTi : iIndepFun T P) (hTl : ∀ r, P.map (T r) = P')
    {m : ℕ → Ω → ℝ} {n : Ω' → ℝ} (hn : Measurable n) {M : ℝ} (hn0 : ∀ τ, 0 ≤ n τ) (hnM : ∀ τ, n τ ≤ M) (hN : ∀ r ω, m r ω = n (T r ω)) {θ : ℝ} (hθ : ∫ τ, n τ ∂P' = θ) :
    RareErrors P θ (fun ε => 2 * ε ^ 2 / M ^ 2) (fun _ _ => 1) m := by
  intro R ε hε
  rcases Nat.eq_zero_or_pos R with rfl | hR
  · simp only [Nat.cast_zero, zero_mul, neg_zero, Real.exp_zero, mul_one]
    exact measureReal_le_one.trans one_le_two
  have hR' : (0 : ℝ) < R := by positivity
  have hni : Integrable n P' := Integrable.of_bound hn.aestronglyMeasurable M (Filter.Eventually.of_forall fun τ => by rw [Real.norm_eq_abs, abs_of_nonneg (hn0 τ)]; exact hnM τ)
  have h1 := tail_of_copies hT hTi hTl (y := fun τ => n τ - θ - ε) (by fun_prop) (a := 0 - θ - ε) (b := M - θ - ε) (c := ε) (fun τ => ⟨by have := hn0 τ; linarith, by have := hnM τ; linarith⟩) hε.le
    (by
      have hi : Integrable (fun τ => n τ - θ) P' := hni.sub (integrable_const _)
      rw [integral_sub hi (integrable_const _), integral_sub hni (integrable_const _), hθ]; simp) R
  have h2 := tail_of_copies hT hTi hTl (y := fun τ => θ - n τ - ε) (by fun_prop) (a := θ - M - ε) (b := θ - 0 - ε) (c := ε) (fun τ => ⟨by have := hnM τ; linarith, by have := hn0 τ; linarith⟩) hε.le
    (by
      have hi : Integrable (fun τ => θ - n τ) P' := (integrable_const _).sub hni
      rw [integral_sub hi (integrable_const _), integral_sub (integrable_const _) hni, hθ]; simp) R
  have hsubset : {ω | ε ≤ |runsMean (fun _ => 1) (fun r => m r ω) R - θ|} ⊆ {ω | 0 ≤ ∑ r ∈ Finset.range R, (n (T r ω) - θ - ε)} ∪ {ω | 0 ≤ ∑ r ∈ Finset.range R, (θ - n (T r ω) - ε)} := by
    intro ω hω
    have hω' : ε ≤ |runsMean (fun _ => 1) (fun r => m r ω) R - θ| := hω
    unfold runsMean at hω'
    simp only [hN, one_mul, Finset.sum_const, Finset.card_range, nsmul_eq_mul, mul_one] at hω'
    rw [Set.mem_union, Set.mem_ofPred_eq, Set.mem_ofPred_eq]
    simp only [Finset.sum_sub_distrib, Finset.sum_const, Finset.card_range, nsmul_eq_mul]
    set N := ∑ r ∈ Finset.range R, n (T r ω)
    have e : N / R - θ = (N - R * θ) / R := by field_simp
    rw [e, abs_div, abs_of_pos hR', le_div_iff₀ hR'] at hω'
    rcases le_abs'.1 hω' with h | h
    · right; linarith
    · left; linarith
  refine (measureReal_mono hsubset).trans ((measureReal_union_le _ _).trans ?_)
  have e1 : (M - θ - ε - (0 - θ - ε)) = M := by ring
  have e2 : (θ - 0 - ε - (θ - M - ε)) = M := by ring
  rw [e1] at h1
  rw [e2] at h2
  linarith

end

/-- Runs that are handed keys without common splits. -/
theorem keys_independent (keys : ℕ → Keys.Key) (hk : ∀ a b, a ≠ b → Disjoint (below (keys a)) (below (keys b))) : iIndepFun (fun r => subtape (keys r)) ideal :=
  iIndepFun_of_dependsOn (S := fun r => below (keys r)) hk (fun r => measurable_subtape (keys r)) fun _ _ _ h => subtape_dependsOn _ h

end Mocat.Ideal
