import Verif.Lemmas.SmcAdaptiveStep
import Mathlib.Probability.Moments.Variance
/-!
# Averages over independent particle systems
-/
namespace Mocat.Props
open Mocat Mocat.Ideal MeasureTheory ProbabilityTheory
open Mocat.Smc (Red Q Qr share Spread)
open scoped ENNReal

variable {X : Type*} {n : ℕ} {Ω : Type*} [MeasurableSpace Ω] {μ : Measure Ω} [IsProbabilityMeasure μ]

section

/-! ## Averages of independent bounded numbers -/

theorem average_bound {Y : ℕ → Ω → ℝ} (hY : ∀ r, Measurable (Y r)) (hind : Pairwise fun i j => IndepFun (Y i) (Y j) μ) {K c : ℝ} (hK : ∀ r ω, |Y r ω| ≤ K) (hc : ∀ r, ∫ ω, Y r ω ∂μ = c) {ε : ℝ} (hε : 0 < ε) {R : ℕ} (hR : 1 ≤ R) :
    μ {ω | ε ≤ |(∑ r ∈ Finset.range R, Y r ω) / R - c|} ≤ ENNReal.ofReal (K ^ 2 / ε ^ 2 / R) := by
  have hR0 : (0 : ℝ) < R := by exact_mod_cast hR
  have hL : ∀ r, MemLp (Y r) 2 μ := fun r => MemLp.of_bound (hY r).aestronglyMeasurable K (ae_of_all _ fun ω => hK r ω)
  have hv : ∀ r, variance (Y r) μ ≤ K ^ 2 := fun r => by
    refine (variance_le_expectation_sq (hY r).aestronglyMeasurable).trans ?_
    have h1 : ∫ ω, (Y r ^ 2) ω ∂μ ≤ ∫ _, K ^ 2 ∂μ := integral_mono (hL r).integrable_sq (integrable_const _) fun ω => by
      simpa using sq_le_sq' (abs_le.1 (hK r ω)).1 (abs_le.1 (hK r ω)).2
    simpa using h1
  set A : Ω → ℝ := fun ω => (R : ℝ)⁻¹ * (∑ r ∈ Finset.range R, Y r) ω with hA
  have hAL : MemLp A 2 μ := (memLp_finsetSum' _ fun r _ => hL r).const_mul _
  have hAe : ∀ ω, A ω = (∑ r ∈ Finset.range R, Y r ω) / R := fun ω => by rw [hA]; simp only [Finset.sum_apply]; field_simp
  have hAm : ∫ ω, A ω ∂μ = c := by
    rw [hA]
    simp only [Finset.sum_apply]
    rw [integral_const_mul, integral_finsetSum _ fun r _ => (hL r).integrable one_le_two]
    simp only [hc, Finset.sum_const, Finset.card_range, nsmul_eq_mul]
    field_simp
  have hAv : variance A μ ≤ K ^ 2 / R := by
    rw [hA, variance_const_mul, IndepFun.variance_sum (fun r _ => hL r) fun i _ j _ h => hind h]
    have h1 : ∑ r ∈ Finset.range R, variance (Y r) μ ≤ R * K ^ 2 := by
      refine (Finset.sum_le_sum fun r _ => hv r).trans (le_of_eq ?_)
      simp
    calc _ ≤ ((R : ℝ)⁻¹) ^ 2 * (R * K ^ 2) := mul_le_mul_of_nonneg_left h1 (sq_nonneg _)
      _ = K ^ 2 / R := by field_simp
  have h := meas_ge_le_variance_div_sq hAL hε
  rw [hAm] at h
  simp only [hAe] at h
  refine h.trans (ENNReal.ofReal_le_ofReal ?_)
  rw [div_right_comm]
  exact div_le_div_of_nonneg_right hAv (sq_nonneg _)

end

variable [MeasurableSpace X] [NeZero n]

omit [MeasurableSpace X] in
theorem exp_le_of_spread {A : ℝ} {R : Red n X} (h : Spread A R) : Real.exp R.2.2 ≤ A := by
  rw [← Smc.share_sum R]
  refine (Finset.sum_le_sum fun i _ => h i).trans (le_of_eq ?_)
  have hn : (n : ℝ) ≠ 0 := by exact_mod_cast NeZero.ne n
  simp
  field_simp

omit [MeasurableSpace X] in
theorem Qr_abs_le {g : X → ℝ} {B : ℝ} (hB : ∀ x, |g x| ≤ B) (R : Red n X) : |Qr g R| ≤ B * Real.exp R.2.2 := by
  unfold Qr
  refine (Finset.abs_sum_le_sum_abs _ _).trans ?_
  rw [← Smc.share_sum R, Finset.mul_sum]
  refine Finset.sum_le_sum fun i _ => ?_
  rw [abs_mul, abs_of_nonneg (Smc.share_nonneg R i), mul_comm]
  exact mul_le_mul_of_nonneg_right (hB _) (Smc.share_nonneg R i)

omit [NeZero n] in
theorem Qr_mean {F : Ω → Red n X} (hFm : Measurable F) {M : ℝ} (hM : ∀ ω, |Qr (fun _ : X => (1 : ℝ)) (F ω)| ≤ M) {Φ : Measure X} [IsFiniteMeasure Φ]
    (hmean0 : ∀ {h : X → ℝ≥0∞}, Measurable h → ∫⁻ ω, Q h (F ω) ∂μ = ∫⁻ x, h x ∂Φ) {g : X → ℝ} (hg : Measurable g) {B : ℝ} (hB0 : 0 ≤ B) (hB : ∀ x, |g x| ≤ B) : ∫ ω, Qr g (F ω) ∂μ = ∫ x, g x ∂Φ := by
  have hqm : ∀ {g : X → ℝ}, Measurable g → Measurable fun ω => Qr g (F ω) := fun hg => (Smc.measurable_Qr hg).comp hFm
  have hqb : ∀ {g : X → ℝ}, (∀ x, |g x| ≤ B) → ∀ ω, |Qr g (F ω)| ≤ B * M := fun {g} hB ω => by
    refine le_trans ?_ (mul_le_mul_of_nonneg_left (hM ω) hB0)
    unfold Qr
    refine (Finset.abs_sum_le_sum_abs _ _).trans ?_
    rw [abs_of_nonneg (Finset.sum_nonneg fun i _ => mul_nonneg (Smc.share_nonneg _ i) zero_le_one), Finset.mul_sum]
    refine Finset.sum_le_sum fun i _ => ?_
    rw [abs_mul, abs_of_nonneg (Smc.share_nonneg _ i), mul_one, mul_comm]
    exact mul_le_mul_of_nonneg_right (hB _) (Smc.share_nonneg _ i)
  have hqi : ∀ {g : X → ℝ}, Measurable g → (∀ x, |g x| ≤ B) → Integrable (fun ω => Qr g (F ω)) μ := fun hg hB =>
    Integrable.of_bound (hqm hg).aestronglyMeasurable _ (ae_of_all _ fun ω => hqb hB ω)
  have hmean1 : ∀ {g : X → ℝ}, Measurable g → (∀ x, 0 ≤ g x) → ∫ ω, Qr g (F ω) ∂μ = ∫ x, g x ∂Φ := fun {g} hg h0 => by
    rw [integral_eq_lintegral_of_nonneg_ae (ae_of_all _ fun ω => Smc.Qr_nonneg h0 _) (hqm hg).aestronglyMeasurable, integral_eq_lintegral_of_nonneg_ae (ae_of_all _ h0) hg.aestronglyMeasurable,
      ← hmean0 hg.ennreal_ofReal]
    congr 1
    refine lintegral_congr fun ω => ?_
    rw [← Smc.Qr_eq h0, ENNReal.ofReal_toReal]
    unfold Q
    exact ENNReal.sum_ne_top.2 fun i _ => ENNReal.mul_ne_top ENNReal.ofReal_ne_top ENNReal.ofReal_ne_top
  have h1 := hmean1 (g := fun x => g x + B) (hg.add_const B) (fun x => by have := (abs_le.1 (hB x)).1; linarith)
  have h2 := hmean1 (g := fun _ => B) measurable_const (fun _ => hB0)
  have hBB : ∀ x : X, |(fun _ : X => B) x| ≤ B := fun _ => by simp [abs_of_nonneg hB0]
  have e : ∀ ω, Qr (fun x => g x + B) (F ω) = Qr g (F ω) + Qr (fun _ => B) (F ω) := fun ω => by simp only [Qr, mul_add, Finset.sum_add_distrib]
  simp only [e] at h1
  rw [integral_add (hqi hg hB) (hqi measurable_const hBB), integral_add (Integrable.of_bound hg.aestronglyMeasurable _ (ae_of_all _ fun x => hB x)) (integrable_const B), h2] at h1
  exact add_right_cancel h1

/-- The constant in the bound for pooled means. -/
noncomputable def poolConst (M B Z ε : ℝ) : ℝ := M ^ 2 / (Z / 2) ^ 2 + (2 * B * M) ^ 2 / (ε * Z / 2) ^ 2

/-- Averages over independent final particle systems that are properly weighted for `Φ`. -/
theorem pooled_systems {F : ℕ → Ω → Red n X} (hFm : ∀ r, Measurable (F r)) (hind : Pairwise fun i j => IndepFun (F i) (F j) μ) {M : ℝ} (hspread : ∀ r ω, Real.exp (F r ω).2.2 ≤ M) {Φ : Measure X} [IsFiniteMeasure Φ]
    (hmean0 : ∀ r {h : X → ℝ≥0∞}, Measurable h → ∫⁻ ω, Q h (F r ω) ∂μ = ∫⁻ x, h x ∂Φ) {g : X → ℝ} (hg : Measurable g) {B : ℝ} (hB0 : 0 ≤ B) (hB : ∀ x, |g x| ≤ B) {ε : ℝ} (hε : 0 < ε) {R : ℕ} (hR : 1 ≤ R) :
    μ {ω | ε ≤ |(∑ r ∈ Finset.range R, Real.exp (F r ω).2.2) / R - Φ.real Set.univ|} ≤ ENNReal.ofReal (M ^ 2 / ε ^ 2 / R) ∧
    μ {ω | ε ≤ |(∑ r ∈ Finset.range R, Qr g (F r ω)) / (∑ r ∈ Finset.range R, Real.exp (F r ω).2.2) - (∫ x, g x ∂Φ) / Φ.real Set.univ|} ≤ ENNReal.ofReal (poolConst M B (Φ.real Set.univ) ε / R) := by
  have hqm : ∀ {g : X → ℝ}, Measurable g → ∀ r, Measurable fun ω => Qr g (F r ω) := fun hg r => (Smc.measurable_Qr hg).comp (hFm r)
  have hqb : ∀ {g : X → ℝ} {B : ℝ}, 0 ≤ B → (∀ x, |g x| ≤ B) → ∀ r ω, |Qr g (F r ω)| ≤ B * M := fun hB0 hB r ω => (Qr_abs_le hB _).trans (mul_le_mul_of_nonneg_left (hspread r ω) hB0)
  have hqi : ∀ {g : X → ℝ} {B : ℝ}, Measurable g → 0 ≤ B → (∀ x, |g x| ≤ B) → ∀ r, Integrable (fun ω => Qr g (F r ω)) μ := fun hg hB0 hB r =>
    Integrable.of_bound (hqm hg r).aestronglyMeasurable _ (ae_of_all _ fun ω => hqb hB0 hB r ω)
  have hgi : ∀ {g : X → ℝ} {B : ℝ}, Measurable g → (∀ x, |g x| ≤ B) → Integrable g Φ := fun hg hB => Integrable.of_bound hg.aestronglyMeasurable _ (ae_of_all _ fun x => hB x)
  have hmean1 : ∀ {g : X → ℝ}, Measurable g → (∀ x, 0 ≤ g x) → ∀ r, ∫ ω, Qr g (F r ω) ∂μ = ∫ x, g x ∂Φ := fun {g} hg h0 r => by
    rw [integral_eq_lintegral_of_nonneg_ae (ae_of_all _ fun ω => Smc.Qr_nonneg h0 _) (hqm hg r).aestronglyMeasurable, integral_eq_lintegral_of_nonneg_ae (ae_of_all _ h0) hg.aestronglyMeasurable,
      ← hmean0 r hg.ennreal_ofReal]
    congr 1
    refine lintegral_congr fun ω => ?_
    rw [← Smc.Qr_eq h0, ENNReal.ofReal_toReal]
    unfold Q
    exact ENNReal.sum_ne_top.2 fun i _ => ENNReal.mul_ne_top ENNReal.ofReal_ne_top ENNReal.ofReal_ne_top
  have hmean : ∀ {g : X → ℝ} {B : ℝ}, Measurable g → 0 ≤ B → (∀ x, |g x| ≤ B) → ∀ r, ∫ ω, Qr g (F r ω) ∂μ = ∫ x, g x ∂Φ := fun {g B} hg hB0 hB r => by
    have h1 := hmean1 (g := fun x => g x + B) (hg.add_const B) (fun x => by have := (abs_le.1 (hB x)).1; linarith) r
    have h2 := hmean1 (g := fun _ => B) measurable_const (fun _ => hB0) r
    have hBB : ∀ x : X, |(fun _ : X => B) x| ≤ B := fun _ => by simp [abs_of_nonneg hB0]
    have e : ∀ ω, Qr (fun x => g x + B) (F r ω) = Qr g (F r ω) + Qr (fun _ => B) (F r ω) := fun ω => by simp only [Qr, mul_add, Finset.sum_add_distrib]
    simp only [e] at h1
    rw [integral_add (hqi hg hB0 hB r) (hqi measurable_const hB0 hBB r), integral_add (hgi hg hB) (integrable_const B), h2] at h1
    exact add_right_cancel h1
  have hone : ∀ r ω, Qr (fun _ => 1) (F r ω) = Real.exp (F r ω).2.2 := fun r ω => by
    unfold Qr
    rw [← Smc.share_sum (F r ω)]
    simp
  have hindq : ∀ {g : X → ℝ}, Measurable g → Pairwise fun i j => IndepFun (fun ω => Qr g (F i ω)) (fun ω => Qr g (F j ω)) μ := fun hg i j h => (hind h).comp (Smc.measurable_Qr hg) (Smc.measurable_Qr hg)
  obtain ⟨Z, hZ⟩ : ∃ Z, Z = Φ.real Set.univ := ⟨_, rfl⟩
  rw [← hZ]
  have hEL : ∀ r, ∫ ω, Real.exp (F r ω).2.2 ∂μ = Z := fun r => by
    have := hmean (g := fun _ => 1) measurable_const zero_le_one (fun _ => by simp) r
    simp only [hone] at this
    rw [this, hZ]
    simp
  have hZ0 : 0 < Z := by
    rw [← hEL 0]
    have hi : Integrable (fun ω => Real.exp (F 0 ω).2.2) μ := by
      have := hqi (g := fun _ => 1) measurable_const zero_le_one (fun _ => by simp) 0
      simpa only [hone] using this
    rw [integral_pos_iff_support_of_nonneg (fun ω => (Real.exp_pos _).le) hi]
    have : Function.support (fun ω => Real.exp (F 0 ω).2.2) = Set.univ := by
      ext ω
      simp
    rw [this, measure_univ]
    exact one_pos
  set θ := (∫ x, g x ∂Φ) / Z with hθ
  have hθB : |θ| ≤ B := by
    rw [hθ, abs_div, abs_of_pos hZ0, div_le_iff₀ hZ0]
    have := norm_integral_le_of_norm_le_const (μ := Φ) (f := g) (ae_of_all _ fun x => hB x)
    rw [Real.norm_eq_abs, ← hZ] at this
    exact this
  have hD : ∀ x, |g x - θ| ≤ 2 * B := fun x => (abs_sub _ _).trans (by linarith [hB x])
  have hDm : ∀ r, ∫ ω, Qr (fun x => g x - θ) (F r ω) ∂μ = 0 := fun r => by
    rw [hmean (hg.sub_const θ) (by positivity) hD r, integral_sub (hgi hg hB) (integrable_const θ), integral_const, smul_eq_mul, ← hZ, hθ]
    field_simp
    ring
  have hR0 : (0 : ℝ) < R := by exact_mod_cast hR
  have hLb : ∀ {δ : ℝ}, 0 < δ → μ {ω | δ ≤ |(∑ r ∈ Finset.range R, Real.exp (F r ω).2.2) / R - Z|} ≤ ENNReal.ofReal (M ^ 2 / δ ^ 2 / R) := fun {δ} hδ => by
    have h1 := average_bound (Y := fun r ω => Qr (fun _ => 1) (F r ω)) (fun r => hqm measurable_const r) (hindq measurable_const) (K := M) (c := Z)
      (fun r ω => by simpa using hqb (g := fun _ => 1) zero_le_one (fun _ => by simp) r ω) (fun r => by simp only [hone]; exact hEL r) hδ hR
    simpa only [hone] using h1
  refine ⟨hLb hε, ?_⟩
  have hDb := average_bound (Y := fun r ω => Qr (fun x => g x - θ) (F r ω)) (fun r => hqm (hg.sub_const θ) r) (hindq (hg.sub_const θ)) (K := 2 * B * M) (c := 0)
    (fun r ω => hqb (by positivity) hD r ω) hDm (ε := ε * Z / 2) (by positivity) hR
  have hLb' := hLb (δ := Z / 2) (by positivity)
  have hsub : {ω | ε ≤ |(∑ r ∈ Finset.range R, Qr g (F r ω)) / (∑ r ∈ Finset.range R, Real.exp (F r ω).2.2) - θ|}
      ⊆ {ω | Z / 2 ≤ |(∑ r ∈ Finset.range R, Real.exp (F r ω).2.2) / R - Z|} ∪ {ω | ε * Z / 2 ≤ |(∑ r ∈ Finset.range R, Qr (fun x => g x - θ) (F r ω)) / R - 0|} := by
    intro ω hω
    by_contra hn
    rw [Set.mem_union, not_or, Set.mem_ofPred_eq, Set.mem_ofPred_eq, not_le, not_le] at hn
    obtain ⟨h1, h2⟩ := hn
    rw [Set.mem_ofPred_eq] at hω
    set L := (∑ r ∈ Finset.range R, Real.exp (F r ω).2.2) with hLd
    have hL : Z / 2 < L / R := by have := (abs_lt.1 h1).1; linarith
    have hL0 : 0 < L := by
      have : 0 < L / R := by linarith
      exact (div_pos_iff_of_pos_right hR0).1 this
    have e : ∑ r ∈ Finset.range R, Qr (fun x => g x - θ) (F r ω) = (∑ r ∈ Finset.range R, Qr g (F r ω)) - θ * L := by
      rw [hLd, Finset.mul_sum, ← Finset.sum_sub_distrib]
      refine Finset.sum_congr rfl fun r _ => ?_
      rw [Smc.Qr_sub, ← hone, Qr, Qr, Qr, Finset.mul_sum]
      congr 1
      exact Finset.sum_congr rfl fun i _ => by ring
    rw [e, sub_zero] at h2
    have e2 : (∑ r ∈ Finset.range R, Qr g (F r ω)) - θ * L = ((∑ r ∈ Finset.range R, Qr g (F r ω)) / L - θ) * L := by field_simp
    rw [e2, mul_div_assoc, abs_mul, abs_of_pos (by positivity : 0 < L / R)] at h2
    have h3 : ε * (Z / 2) < ε * (L / R) := mul_lt_mul_of_pos_left hL hε
    have h4 : ε * (L / R) ≤ |(∑ r ∈ Finset.range R, Qr g (F r ω)) / L - θ| * (L / R) := mul_le_mul_of_nonneg_right hω (by positivity)
    linarith
  refine (measure_mono hsub).trans ((measure_union_le _ _).trans ((add_le_add hLb' hDb).trans (le_of_eq ?_)))
  rw [← ENNReal.ofReal_add (by positivity) (by positivity), poolConst, add_div]



end Mocat.Props
