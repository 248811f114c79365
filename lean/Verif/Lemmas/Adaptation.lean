import Verif.Lemmas.TapeMoves
import Mathlib.Analysis.SpecialFunctions.Exp
import Mathlib.Analysis.SpecialFunctions.Pow.Real
import Mathlib.Algebra.BigOperators.Intervals
import Mathlib.Analysis.SpecialFunctions.Exponential
/-!
# Stochastic approximation

A quantity that moves by small multiples of deviations. If it stays bounded, the average deviation vanishes; and it stays bounded, in mean, if deviations have
the right sign on average when it is far out.
-/
namespace Mocat.Adaptation
open Mocat Mocat.Ideal Mocat.Meas MeasureTheory
open scoped ENNReal

/-! ## Summation by parts -/

theorem sum_by_parts (g L : ℕ → ℝ) (n : ℕ) :
    ∑ k ∈ Finset.range (n + 1), g k * (L (k + 1) - L k) = g n * L (n + 1) - g 0 * L 0 - ∑ k ∈ Finset.range n, (g (k + 1) - g k) * L (k + 1) := by
  induction n with
  | zero => simp; ring
  | succ n ih => rw [Finset.sum_range_succ, ih, Finset.sum_range_succ _ n]; ring

/-- If `L` moves by `a / g`, the sum of `a` is bounded by the values of `L`. -/
theorem abs_sum_le (g L a : ℕ → ℝ) (hg0 : ∀ k, 0 ≤ g k) (hg : Monotone g) (n : ℕ) (h : ∀ k ≤ n, a k = g k * (L (k + 1) - L k)) :
    |∑ k ∈ Finset.range (n + 1), a k| ≤ g n * |L (n + 1)| + g 0 * |L 0| + ∑ k ∈ Finset.range n, (g (k + 1) - g k) * |L (k + 1)| := by
  rw [Finset.sum_congr rfl fun k hk => h k (Nat.lt_succ_iff.mp (Finset.mem_range.mp hk)), sum_by_parts]
  have h1 : |g n * L (n + 1)| = g n * |L (n + 1)| := by rw [abs_mul, abs_of_nonneg (hg0 n)]
  have h2 : |g 0 * L 0| = g 0 * |L 0| := by rw [abs_mul, abs_of_nonneg (hg0 0)]
  have h3 : |∑ k ∈ Finset.range n, (g (k + 1) - g k) * L (k + 1)| ≤ ∑ k ∈ Finset.range n, (g (k + 1) - g k) * |L (k + 1)| := by
    refine (Finset.abs_sum_le_sum_abs _ _).trans (Finset.sum_le_sum fun k _ => ?_)
    rw [abs_mul, abs_of_nonneg (sub_nonneg.mpr (hg k.le_succ))]
  rw [← h1, ← h2]
  refine (abs_sub _ _).trans ?_
  exact add_le_add (abs_sub _ _) h3

theorem sum_bound (g : ℕ → ℝ) (n : ℕ) (R : ℝ) : g n * R + g 0 * R + ∑ k ∈ Finset.range n, (g (k + 1) - g k) * R = 2 * R * g n := by
  rw [← Finset.sum_mul, Finset.sum_range_sub]
  ring

/-- If `L` stays in an interval, the sum of `a` is at most the length of the interval times the last `g`. -/
theorem abs_sum_le_range (g L a : ℕ → ℝ) (hg0 : ∀ k, 0 ≤ g k) (hg : Monotone g) (n : ℕ) (h : ∀ k ≤ n, a k = g k * (L (k + 1) - L k)) {lo hi : ℝ}
    (hL : ∀ k ≤ n + 1, lo ≤ L k ∧ L k ≤ hi) : |∑ k ∈ Finset.range (n + 1), a k| ≤ (hi - lo) * g n := by
  have hc : ∀ k ≤ n + 1, |L k - (lo + hi) / 2| ≤ (hi - lo) / 2 := fun k hk => by
    obtain ⟨h1, h2⟩ := hL k hk
    rw [abs_le]
    constructor <;> linarith
  refine (abs_sum_le g (fun k => L k - (lo + hi) / 2) a hg0 hg n fun k hk => by rw [h k hk]; ring).trans ?_
  calc _ ≤ g n * ((hi - lo) / 2) + g 0 * ((hi - lo) / 2) + ∑ k ∈ Finset.range n, (g (k + 1) - g k) * ((hi - lo) / 2) := by
        refine add_le_add (add_le_add (mul_le_mul_of_nonneg_left (hc _ le_rfl) (hg0 _)) (mul_le_mul_of_nonneg_left (hc _ (Nat.zero_le _)) (hg0 _)))
          (Finset.sum_le_sum fun k hk => mul_le_mul_of_nonneg_left (hc _ ?_) (sub_nonneg.mpr (hg k.le_succ)))
        have := Finset.mem_range.mp hk
        omega
    _ = (hi - lo) * g n := by rw [sum_bound]; ring

/-! ## Drift -/

theorem exp_le_quadratic {x : ℝ} (hx : |x| ≤ 1) : Real.exp x ≤ 1 + x + x ^ 2 := by
  have := (abs_le.mp (Real.abs_exp_sub_one_sub_id_le hx)).2
  linarith

/-- One step of a chain that is pushed back when it is above `B`: exponential moments contract towards `M`. -/
theorem drift {D : Type*} [MeasurableSpace D] {δ : Measure D} [IsProbabilityMeasure δ] {ξ : D → ℝ} (hξ : Measurable ξ) (h1 : ∀ w, |ξ w| ≤ 1) {γ θ η B W : ℝ} (hγ : 0 ≤ γ) (hθ : 0 ≤ θ) (hη : 0 < η) (hη1 : η ≤ 1)
    (hθγ : θ * γ ≤ η / 2) (hm : B ≤ W → ∫ w, ξ w ∂δ ≤ -η) :
    ∫⁻ w, ENNReal.ofReal (Real.exp (θ * (W + γ * ξ w))) ∂δ
      ≤ ENNReal.ofReal ((1 - θ * γ * η / 2) * Real.exp (θ * W) + θ * γ * η / 2 * (Real.exp (θ * B) * (4 / η + 1))) := by
  have h0 : 0 ≤ θ * γ := mul_nonneg hθ hγ
  have hint : Integrable ξ δ := Integrable.of_bound hξ.aestronglyMeasurable 1 (.of_forall h1)
  have hb : ∀ w, Real.exp (θ * (W + γ * ξ w)) ≤ Real.exp (θ * W) * (1 + θ * γ * ξ w + (θ * γ) ^ 2) := fun w => by
    have e : θ * (W + γ * ξ w) = θ * W + θ * γ * ξ w := by ring
    rw [e, Real.exp_add]
    refine mul_le_mul_of_nonneg_left ?_ (Real.exp_pos _).le
    have habs : |θ * γ * ξ w| ≤ θ * γ := by
      rw [abs_mul, abs_of_nonneg h0]
      exact mul_le_of_le_one_right h0 (h1 w)
    refine (exp_le_quadratic (habs.trans (by linarith))).trans ?_
    have : (θ * γ * ξ w) ^ 2 ≤ (θ * γ) ^ 2 := by
      rw [← sq_abs]
      exact pow_le_pow_left₀ (abs_nonneg _) habs 2
    linarith
  have hi2 : Integrable (fun w => Real.exp (θ * W) * (1 + θ * γ * ξ w + (θ * γ) ^ 2)) δ :=
    (((integrable_const _).add (hint.const_mul _)).add (integrable_const _)).const_mul _
  have hnn : ∀ w, 0 ≤ Real.exp (θ * W) * (1 + θ * γ * ξ w + (θ * γ) ^ 2) := fun w => (Real.exp_pos _).le.trans (hb w)
  have hmean : ∫ w, Real.exp (θ * W) * (1 + θ * γ * ξ w + (θ * γ) ^ 2) ∂δ = Real.exp (θ * W) * (1 + θ * γ * (∫ w, ξ w ∂δ) + (θ * γ) ^ 2) := by
    have i1 : Integrable (fun w => 1 + θ * γ * ξ w) δ := (integrable_const _).add (hint.const_mul _)
    rw [integral_const_mul, integral_add i1 (integrable_const _), integral_add (integrable_const _) (hint.const_mul _), integral_const_mul]
    simp
  refine (lintegral_mono fun w => ENNReal.ofReal_le_ofReal (hb w)).trans ?_
  rw [← ofReal_integral_eq_lintegral_ofReal hi2 (.of_forall hnn), hmean]
  refine ENNReal.ofReal_le_ofReal ?_
  have hE := (Real.exp_pos (θ * W)).le
  have hF := (Real.exp_pos (θ * B)).le
  by_cases hWB : B ≤ W
  · have h2 := hm hWB
    have h3 : 1 + θ * γ * (∫ w, ξ w ∂δ) + (θ * γ) ^ 2 ≤ 1 - θ * γ * η / 2 := by
      have := mul_le_mul_of_nonneg_left h2 h0
      have := mul_le_mul_of_nonneg_left hθγ h0
      nlinarith
    have h4 : 0 ≤ θ * γ * η / 2 * (Real.exp (θ * B) * (4 / η + 1)) := by positivity
    have := mul_le_mul_of_nonneg_left h3 hE
    linarith
  · have h2 : (∫ w, ξ w ∂δ) ≤ 1 := by
      have h := norm_integral_le_of_norm_le_const (μ := δ) (f := ξ) (.of_forall h1)
      simp only [probReal_univ, mul_one] at h
      exact (le_abs_self _).trans h
    have h3 : 1 + θ * γ * (∫ w, ξ w ∂δ) + (θ * γ) ^ 2 ≤ 1 + 2 * (θ * γ) := by
      have := mul_le_mul_of_nonneg_left h2 h0
      nlinarith
    have h4 : Real.exp (θ * W) ≤ Real.exp (θ * B) := Real.exp_le_exp.mpr (mul_le_mul_of_nonneg_left (le_of_not_ge hWB) hθ)
    have h5 : θ * γ * η / 2 * (Real.exp (θ * B) * (4 / η + 1)) = Real.exp (θ * B) * (2 * (θ * γ) + θ * γ * η / 2) := by
      field_simp
      ring
    rw [h5]
    have h6 := mul_le_mul_of_nonneg_left h3 hE
    have h7 : Real.exp (θ * W) * (2 * (θ * γ) + θ * γ * η / 2) ≤ Real.exp (θ * B) * (2 * (θ * γ) + θ * γ * η / 2) :=
      mul_le_mul_of_nonneg_right h4 (by positivity)
    nlinarith

section
variable {X D : Type*} [MeasurableSpace X] [MeasurableSpace D] {δ : Measure D} [IsProbabilityMeasure δ] {step : X → D → X}

/-- Contraction towards `M` at every step keeps the moment below its first value plus `M`. -/
theorem stepOp_bounded (hs : Measurable (Function.uncurry step)) {v : X → ℝ} (hv : Measurable v) (hv0 : ∀ x, 0 ≤ v x) {M : ℝ} (hM : 0 ≤ M) (G : Set X) (hG : ∀ x ∈ G, ∀ᵐ w ∂δ, step x w ∈ G) (cnt : X → ℕ)
    (hcnt : ∀ x ∈ G, ∀ w, cnt (step x w) = cnt x + 1) (p : ℕ → ℝ) (hp0 : ∀ i, 0 ≤ p i) (hp1 : ∀ i, p i ≤ 1)
    (hdrift : ∀ x ∈ G, ∫⁻ w, ENNReal.ofReal (v (step x w)) ∂δ ≤ ENNReal.ofReal ((1 - p (cnt x)) * v x + p (cnt x) * M)) (n : ℕ) :
    ∀ x ∈ G, (stepOp δ step)^[n] (fun x => ENNReal.ofReal (v x)) x ≤ ENNReal.ofReal (v x + M) := by
  have key : ∀ n i, ∃ P : ℝ, 0 ≤ P ∧ P ≤ 1 ∧ ∀ x ∈ G, cnt x = i → (stepOp δ step)^[n] (fun x => ENNReal.ofReal (v x)) x ≤ ENNReal.ofReal (P * v x + (1 - P) * M) := by
    intro n
    induction n with
    | zero => exact fun i => ⟨1, zero_le_one, le_rfl, fun x _ _ => by simp⟩
    | succ n ih =>
      intro i
      obtain ⟨P, hP0, hP1, hP⟩ := ih (i + 1)
      refine ⟨P * (1 - p i), mul_nonneg hP0 (sub_nonneg.mpr (hp1 i)), mul_le_one₀ hP1 (sub_nonneg.mpr (hp1 i)) (by linarith [hp0 i]), fun x hx hi => ?_⟩
      rw [Function.iterate_succ_apply', stepOp]
      have hsx : Measurable fun w => step x w := hs.comp measurable_prodMk_left
      have hvm : Measurable fun w => v (step x w) := hv.comp hsx
      calc _ ≤ ∫⁻ w, ENNReal.ofReal (P * v (step x w) + (1 - P) * M) ∂δ := lintegral_mono_ae ((hG x hx).mono fun w hw => hP _ hw (by rw [hcnt x hx w, hi]))
        _ = ∫⁻ w, (ENNReal.ofReal P * ENNReal.ofReal (v (step x w)) + ENNReal.ofReal ((1 - P) * M)) ∂δ := by
          refine lintegral_congr fun w => ?_
          rw [ENNReal.ofReal_add (mul_nonneg hP0 (hv0 _)) (mul_nonneg (sub_nonneg.mpr hP1) hM), ENNReal.ofReal_mul hP0]
        _ = ENNReal.ofReal P * ∫⁻ w, ENNReal.ofReal (v (step x w)) ∂δ + ENNReal.ofReal ((1 - P) * M) := by
          rw [lintegral_add_right _ measurable_const, lintegral_const_mul _ hvm.ennreal_ofReal]
          simp
        _ ≤ ENNReal.ofReal P * ENNReal.ofReal ((1 - p i) * v x + p i * M) + ENNReal.ofReal ((1 - P) * M) := by
          have := hdrift x hx
          rw [hi] at this
          gcongr
        _ = ENNReal.ofReal (P * (1 - p i) * v x + (1 - P * (1 - p i)) * M) := by
          have h1 : 0 ≤ (1 - p i) * v x + p i * M := add_nonneg (mul_nonneg (sub_nonneg.mpr (hp1 i)) (hv0 x)) (mul_nonneg (hp0 i) hM)
          rw [← ENNReal.ofReal_mul hP0, ← ENNReal.ofReal_add (mul_nonneg hP0 h1) (mul_nonneg (sub_nonneg.mpr hP1) hM)]
          congr 1
          ring
  intro x hx
  obtain ⟨P, hP0, hP1, hP⟩ := key n (cnt x)
  refine (hP x hx rfl).trans (ENNReal.ofReal_le_ofReal ?_)
  have := mul_le_of_le_one_left (hv0 x) hP1
  have := mul_le_of_le_one_left hM (by linarith : 1 - P ≤ 1)
  linarith

/-- A chain pushed back above `B` keeps its exponential moments. -/
theorem exp_moment_bounded (hs : Measurable (Function.uncurry step)) {W : X → ℝ} (hW : Measurable W) (G : Set X) (hG : ∀ x ∈ G, ∀ᵐ w ∂δ, step x w ∈ G) (cnt : X → ℕ)
    (hcnt : ∀ x ∈ G, ∀ w, cnt (step x w) = cnt x + 1) (γ : ℕ → ℝ) (hγ : ∀ i, 0 ≤ γ i) {Γ θ η B : ℝ} (hΓ : ∀ i, γ i ≤ Γ) (ξ : X → D → ℝ) (hξ : ∀ x, Measurable (ξ x)) (h1 : ∀ x ∈ G, ∀ w, |ξ x w| ≤ 1)
    (hstep : ∀ x ∈ G, ∀ w, W (step x w) = W x + γ (cnt x) * ξ x w) (hθ : 0 ≤ θ) (hη : 0 < η) (hη1 : η ≤ 1) (hθΓ : θ * Γ ≤ η / 2)
    (hm : ∀ x ∈ G, B ≤ W x → ∫ w, ξ x w ∂δ ≤ -η) (n : ℕ) :
    ∀ x ∈ G, (stepOp δ step)^[n] (fun x => ENNReal.ofReal (Real.exp (θ * W x))) x ≤ ENNReal.ofReal (Real.exp (θ * W x) + Real.exp (θ * B) * (4 / η + 1)) := by
  have hθγ : ∀ i, θ * γ i ≤ η / 2 := fun i => (mul_le_mul_of_nonneg_left (hΓ i) hθ).trans hθΓ
  refine stepOp_bounded hs (Real.measurable_exp.comp (hW.const_mul θ)) (fun x => (Real.exp_pos _).le) (by positivity) G hG cnt hcnt (fun i => θ * γ i * η / 2)
    (fun i => div_nonneg (mul_nonneg (mul_nonneg hθ (hγ i)) hη.le) zero_le_two) (fun i => ?_) (fun x hx => ?_) n
  · have := hθγ i
    have h0 : 0 ≤ θ * γ i := mul_nonneg hθ (hγ i)
    nlinarith
  · change ∫⁻ w, ENNReal.ofReal (Real.exp (θ * W (step x w))) ∂δ ≤ _
    simp only [hstep x hx]
    exact drift (hξ x) (h1 x hx) (hγ _) hθ hη hη1 (hθγ _) (hm x hx)

end

end Mocat.Adaptation
