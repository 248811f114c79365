import Mathlib.Probability.CentralLimitTheorem
import Mathlib.Probability.StrongLaw
import Mathlib.MeasureTheory.Measure.Portmanteau
import Mathlib.MeasureTheory.Integral.Indicator
/-!
# Standardised errors of weighted means

A weighted mean of independent draws, divided by its estimated standard error, is asymptotically standard normal. The first draw may have another law than the others.
-/
namespace Mocat.ErrorBars
open MeasureTheory ProbabilityTheory Filter
open scoped ENNReal Topology

variable {Ω E : Type*} [MeasurableSpace Ω] [MeasurableSpace E] {P : Measure Ω} [IsProbabilityMeasure P]

/-- If almost surely only finitely many of the sets are hit, their probabilities vanish. -/
theorem tendsto_of_eventually_not {s : ℕ → Set Ω} (hs : ∀ n, MeasurableSet (s n)) (h : ∀ᵐ ω ∂P, ∀ᶠ n in atTop, ω ∉ s n) : Tendsto (fun n => P (s n)) atTop (𝓝 0) := by
  have := tendsto_measure_of_ae_tendsto_indicator_of_isFiniteMeasure (μ := P) atTop MeasurableSet.empty hs (h.mono fun ω hω => hω.mono fun n hn => by simp [hn])
  simpa using this

omit [IsProbabilityMeasure P] in
/-- Sums of independent draws with a common law `μ`, the first excepted. -/
theorem strong_law {Z : ℕ → Ω → E} (hZ : ∀ i, Measurable (Z i)) (hind : iIndepFun Z P) {μ : Measure E} (hlaw : ∀ i, P.map (Z (i + 1)) = μ) {G : E → ℝ} (hG : Measurable G) (hint : Integrable G μ) :
    ∀ᵐ ω ∂P, Tendsto (fun n : ℕ => (∑ i ∈ Finset.range (n + 1), G (Z i ω)) / n) atTop (𝓝 (∫ z, G z ∂μ)) := by
  have hsl := strong_law_ae_real (μ := P) (fun i ω => G (Z (i + 1) ω)) ((integrable_map_measure (by rw [hlaw 0]; exact hint.1) (hZ 1).aemeasurable).1 (by rw [hlaw 0]; exact hint))
    (fun i j hij => (hind.indepFun (by simpa using hij : i + 1 ≠ j + 1)).comp hG hG)
    (fun i => (IdentDistrib.mk (hZ _).aemeasurable (hZ _).aemeasurable (by rw [hlaw, hlaw])).comp hG)
  have he : ∫ ω, G (Z (0 + 1) ω) ∂P = ∫ z, G z ∂μ := by
    rw [← hlaw 0, integral_map (hZ 1).aemeasurable hG.aestronglyMeasurable]
  rw [he] at hsl
  filter_upwards [hsl] with ω hω
  have h2 : Tendsto (fun n : ℕ => G (Z 0 ω) / (n : ℝ)) atTop (𝓝 0) := tendsto_const_nhds.div_atTop tendsto_natCast_atTop_atTop
  have h3 := hω.add h2
  rw [add_zero] at h3
  refine h3.congr fun n => ?_
  rw [Finset.sum_range_succ', add_div]

/-- The central limit theorem for them. -/
theorem central_limit {Z : ℕ → Ω → E} (hZ : ∀ i, Measurable (Z i)) (hind : iIndepFun Z P) {μ : Measure E} (hlaw : ∀ i, P.map (Z (i + 1)) = μ) {G : E → ℝ} (hG : Measurable G) (h2 : MemLp G 2 μ)
    (h0 : ∫ z, G z ∂μ = 0) : TendstoInDistribution (fun (n : ℕ) ω => (Real.sqrt n)⁻¹ * ∑ i ∈ Finset.range (n + 1), G (Z i ω)) atTop (id : ℝ → ℝ) (fun _ => P) (gaussianReal 0 (∫ z, G z ^ 2 ∂μ).toNNReal) := by
  have hX2 : MemLp (fun ω => G (Z (0 + 1) ω)) 2 P := by
    have := (memLp_map_measure_iff (by rw [hlaw 0]; exact h2.1) (hZ 1).aemeasurable).1 (by rw [hlaw 0]; exact h2)
    exact this
  have hm : ∫ ω, G (Z (0 + 1) ω) ∂P = 0 := by
    rw [← h0, ← hlaw 0, integral_map (hZ 1).aemeasurable hG.aestronglyMeasurable]
  have hv : Var[fun ω => G (Z (0 + 1) ω); P] = ∫ z, G z ^ 2 ∂μ := by
    have mX : Measurable fun ω => G (Z (0 + 1) ω) := hG.comp (hZ 1)
    rw [variance_of_integral_eq_zero mX.aemeasurable hm, ← hlaw 0, integral_map (hZ 1).aemeasurable (hG.pow_const 2).aestronglyMeasurable]
  have hclt := tendstoInDistribution_inv_sqrt_mul_sum_sub (P := P) (X := fun i ω => G (Z (i + 1) ω)) (Y := (id : ℝ → ℝ)) (P' := gaussianReal 0 (∫ z, G z ^ 2 ∂μ).toNNReal)
    ⟨aemeasurable_id, by rw [Measure.map_id, hv]⟩ hX2 ((hind.precomp (g := fun i : ℕ => i + 1) (fun a b h => by simpa using h)).comp (fun _ => G) fun _ => hG)
    (fun i => (IdentDistrib.mk (hZ _).aemeasurable (hZ _).aemeasurable (by rw [hlaw, hlaw])).comp hG)
  have hfirst : TendstoInMeasure P (fun (n : ℕ) ω => (Real.sqrt n)⁻¹ * G (Z 0 ω)) atTop fun _ => (0 : ℝ) := by
    refine tendstoInMeasure_of_tendsto_ae (fun n => ((hG.comp (hZ 0)).const_mul _).aestronglyMeasurable) (ae_of_all _ fun ω => ?_)
    have : Tendsto (fun n : ℕ => (Real.sqrt n)⁻¹) atTop (𝓝 0) := tendsto_inv_atTop_zero.comp (Real.tendsto_sqrt_atTop.comp tendsto_natCast_atTop_atTop)
    simpa using this.mul_const (G (Z 0 ω))
  have h := hclt.add_of_tendstoInMeasure_const hfirst fun n => ((hG.comp (hZ 0)).const_mul _).aemeasurable
  refine (h.congr (Y := fun (n : ℕ) ω => (Real.sqrt n)⁻¹ * ∑ i ∈ Finset.range (n + 1), G (Z i ω)) (T := id) (fun n => ae_of_all _ fun ω => ?_) (ae_of_all _ fun x => by simp))
  simp only [Pi.add_apply, hm]
  rw [Finset.sum_range_succ']
  ring

/-- Convergence in distribution to the standard normal law, for a set with small boundary. -/
theorem prob_tendsto {Ω' : Type*} [MeasurableSpace Ω'] {P' : Measure Ω'} [IsProbabilityMeasure P'] {X : ℕ → Ω → ℝ} {Y : Ω' → ℝ} (hX : ∀ n, Measurable (X n))
    (h : TendstoInDistribution X atTop Y (fun _ => P) P') (hY : P'.map Y = gaussianReal 0 1) {J : Set ℝ} (hJ : MeasurableSet J) (hJ0 : volume (frontier J) = 0) :
    Tendsto (fun n => P {ω | X n ω ∈ J}) atTop (𝓝 (gaussianReal 0 1 J)) := by
  have h0 : gaussianReal 0 1 (frontier J) = 0 := gaussianReal_absolutelyContinuous 0 one_ne_zero hJ0
  have := ProbabilityMeasure.tendsto_measure_of_null_frontier_of_tendsto' h.tendsto (E := J) (by simpa only [ProbabilityMeasure.coe_mk, hY] using h0)
  simp only [ProbabilityMeasure.coe_mk, hY] at this
  refine this.congr fun n => ?_
  rw [Measure.map_apply (hX n) hJ]
  rfl

/-- The sum of squared weighted deviations from `a`, from the moments. -/
theorem sum_sq_dev {ι : Type*} (s : Finset ι) (w f : ι → ℝ) (a : ℝ) :
    ∑ i ∈ s, (w i * (f i - a)) ^ 2 = ∑ i ∈ s, (w i * f i) ^ 2 - 2 * a * ∑ i ∈ s, w i * (w i * f i) + a ^ 2 * ∑ i ∈ s, w i ^ 2 := by
  rw [Finset.mul_sum, Finset.mul_sum, ← Finset.sum_sub_distrib, ← Finset.sum_add_distrib]
  exact Finset.sum_congr rfl fun i _ => by ring

section
variable {Z : ℕ → Ω → E} {μ : Measure E} {w f : E → ℝ} {θ : ℝ}

/-- Weighted mean over the first `n` draws. -/
noncomputable def avg (w f : E → ℝ) (Z : ℕ → Ω → E) (n : ℕ) (ω : Ω) : ℝ := (∑ i ∈ Finset.range n, w (Z i ω) * f (Z i ω)) / ∑ i ∈ Finset.range n, w (Z i ω)

/-- Its estimated standard error. -/
noncomputable def se (w f : E → ℝ) (Z : ℕ → Ω → E) (n : ℕ) (ω : Ω) : ℝ :=
  Real.sqrt (∑ i ∈ Finset.range n, (w (Z i ω) * (f (Z i ω) - avg w f Z n ω)) ^ 2) / ∑ i ∈ Finset.range n, w (Z i ω)

/-- The estimated scale: the root of the average squared weighted deviation. -/
noncomputable def spread (w f : E → ℝ) (Z : ℕ → Ω → E) (n : ℕ) (ω : Ω) : ℝ :=
  Real.sqrt ((∑ i ∈ Finset.range (n + 1), (w (Z i ω) * (f (Z i ω) - avg w f Z (n + 1) ω)) ^ 2) / n)

omit [IsProbabilityMeasure P] in
theorem avg_tendsto (hZ : ∀ i, Measurable (Z i)) (hind : iIndepFun Z P) (hlaw : ∀ i, P.map (Z (i + 1)) = μ) (hw : Measurable w) (hf : Measurable f) (hwi : Integrable w μ)
    (hwfi : Integrable (fun z => w z * f z) μ) (hpos : 0 < ∫ z, w z ∂μ) (hθ : ∫ z, w z * f z ∂μ = θ * ∫ z, w z ∂μ) :
    ∀ᵐ ω ∂P, Tendsto (fun n => avg w f Z (n + 1) ω) atTop (𝓝 θ) := by
  filter_upwards [strong_law hZ hind hlaw hw hwi, strong_law hZ hind hlaw (hw.mul hf) hwfi] with ω h0 h1
  have h := h1.div h0 hpos.ne'
  have e : (∫ z, (w * f) z ∂μ) / ∫ z, w z ∂μ = θ := by
    rw [div_eq_iff hpos.ne', ← hθ]
    rfl
  rw [e] at h
  refine h.congr' ?_
  filter_upwards [eventually_ge_atTop 1] with n hn
  have : (n : ℝ) ≠ 0 := by positivity
  rw [Pi.div_apply, avg, div_div_div_cancel_right₀ this]
  rfl

omit [IsProbabilityMeasure P] in
theorem spread_tendsto (hZ : ∀ i, Measurable (Z i)) (hind : iIndepFun Z P) (hlaw : ∀ i, P.map (Z (i + 1)) = μ) [IsFiniteMeasure μ] (hw : Measurable w) (hf : Measurable f) (hw2 : MemLp w 2 μ)
    (hwf2 : MemLp (fun z => w z * f z) 2 μ) (hpos : 0 < ∫ z, w z ∂μ) (hθ : ∫ z, w z * f z ∂μ = θ * ∫ z, w z ∂μ) :
    ∀ᵐ ω ∂P, Tendsto (fun n => spread w f Z n ω) atTop (𝓝 (Real.sqrt (∫ z, (w z * (f z - θ)) ^ 2 ∂μ))) := by
  have hi0 : Integrable (fun z => w z ^ 2) μ := hw2.integrable_sq
  have hi2 : Integrable (fun z => (w z * f z) ^ 2) μ := hwf2.integrable_sq
  have hi1 : Integrable (fun z => w z * (w z * f z)) μ := hw2.integrable_mul hwf2
  filter_upwards [avg_tendsto hZ hind hlaw hw hf (hw2.integrable one_le_two) (hwf2.integrable one_le_two) hpos hθ, strong_law hZ hind hlaw (hw.pow_const 2) hi0,
    strong_law hZ hind hlaw (hw.mul (hw.mul hf)) hi1, strong_law hZ hind hlaw ((hw.mul hf).pow_const 2) hi2] with ω ha h0 h1 h2
  have h := ((h2.sub ((ha.const_mul 2).mul h1)).add ((ha.pow 2).mul h0)).sqrt
  have e : ∫ z, (w z * (f z - θ)) ^ 2 ∂μ = ∫ z, (w z * f z) ^ 2 ∂μ - 2 * θ * ∫ z, w z * (w z * f z) ∂μ + θ ^ 2 * ∫ z, w z ^ 2 ∂μ := by
    have hi3 : Integrable (fun z => (w z * f z) ^ 2 - 2 * θ * (w z * (w z * f z))) μ := hi2.sub (hi1.const_mul _)
    rw [← integral_const_mul, ← integral_const_mul, ← integral_sub hi2 (hi1.const_mul _), ← integral_add hi3 (hi0.const_mul _)]
    exact integral_congr_ae (ae_of_all _ fun z => by ring)
  rw [e]
  refine h.congr fun n => ?_
  rw [spread, sum_sq_dev, add_div, sub_div, mul_div_assoc, mul_div_assoc]
  rfl

/-- The weighted mean minus its limit, divided by the estimated standard error: the probability of every interval (or set with small boundary) tends to that under the standard normal law. -/
theorem standardised (hZ : ∀ i, Measurable (Z i)) (hind : iIndepFun Z P) (hlaw : ∀ i, P.map (Z (i + 1)) = μ) (hw : Measurable w) (hf : Measurable f) (hw2 : MemLp w 2 μ)
    (hwf2 : MemLp (fun z => w z * f z) 2 μ) (hpos : 0 < ∫ z, w z ∂μ) (hθ : ∫ z, w z * f z ∂μ = θ * ∫ z, w z ∂μ) (hv : 0 < ∫ z, (w z * (f z - θ)) ^ 2 ∂μ) {J : Set ℝ} (hJ : MeasurableSet J)
    (hJ0 : volume (frontier J) = 0) {A : ℕ → Set Ω} (hA : ∀ n ω, 0 < ∑ i ∈ Finset.range n, w (Z i ω) → 0 < se w f Z n ω → (ω ∈ A n ↔ (avg w f Z n ω - θ) / se w f Z n ω ∈ J)) :
    Tendsto (fun n => P (A n)) atTop (𝓝 (gaussianReal 0 1 J)) := by
  have : IsProbabilityMeasure μ := by rw [← hlaw 0]; exact Measure.isProbabilityMeasure_map (hZ 1).aemeasurable
  have mG : Measurable fun z => w z * (f z - θ) := hw.mul (hf.sub_const θ)
  have hG2 : MemLp (fun z => w z * (f z - θ)) 2 μ := by
    have e : (fun z => w z * (f z - θ)) = fun z => w z * f z - θ * w z := by funext z; ring
    rw [e]
    exact hwf2.sub (hw2.const_mul θ)
  have hG0 : ∫ z, w z * (f z - θ) ∂μ = 0 := by
    have e : ∀ z, w z * (f z - θ) = w z * f z - θ * w z := fun z => by ring
    simp_rw [e]
    rw [integral_sub (hwf2.integrable one_le_two) ((hw2.integrable one_le_two).const_mul θ), integral_const_mul, hθ, sub_self]
  have hclt := central_limit hZ hind hlaw mG hG2 hG0
  have hspr := spread_tendsto hZ hind hlaw hw hf hw2 hwf2 hpos hθ
  have msum : ∀ {g : E → ℝ}, Measurable g → ∀ n, Measurable fun ω => ∑ i ∈ Finset.range n, g (Z i ω) := fun hg n => Finset.measurable_fun_sum _ fun i _ => hg.comp (hZ i)
  have mavg : ∀ n, Measurable (avg w f Z n) := fun n => (msum (hw.mul hf) n).div (msum hw n)
  have msp : ∀ n, Measurable (spread w f Z n) := fun n => by
    refine ((Finset.measurable_fun_sum _ fun i _ => ?_).div_const _).sqrt
    exact (((hw.comp (hZ i)).mul ((hf.comp (hZ i)).sub (mavg (n + 1)))).pow_const 2)
  set v := ∫ z, (w z * (f z - θ)) ^ 2 ∂μ with hvd
  have hsv : 0 < Real.sqrt v := Real.sqrt_pos.2 hv
  have hinv : TendstoInMeasure P (fun n ω => (spread w f Z n ω)⁻¹) atTop fun _ => (Real.sqrt v)⁻¹ :=
    tendstoInMeasure_of_tendsto_ae (fun n => (msp n).inv.aestronglyMeasurable) (hspr.mono fun ω h => h.inv₀ hsv.ne')
  have hY := hclt.continuous_comp_prodMk_of_tendstoInMeasure_const (g := fun p : ℝ × ℝ => p.1 * p.2) (by fun_prop) hinv fun n => (msp n).inv.aemeasurable
  have hlim : (gaussianReal 0 v.toNNReal).map (fun x => id x * (Real.sqrt v)⁻¹) = gaussianReal 0 1 := by
    have := gaussianReal_map_mul_const (μ := 0) (v := v.toNNReal) (Real.sqrt v)⁻¹
    simp only [id]
    rw [this, mul_zero]
    congr 1
    ext
    simp only [NNReal.coe_mul, NNReal.coe_mk, Real.coe_toNNReal _ hv.le, NNReal.coe_one]
    rw [inv_pow, Real.sq_sqrt hv.le, inv_mul_cancel₀ hv.ne']
  have mN : ∀ n : ℕ, Measurable fun ω => (Real.sqrt n)⁻¹ * (∑ i ∈ Finset.range (n + 1), w (Z i ω) * (f (Z i ω) - θ)) * (spread w f Z n ω)⁻¹ := fun n => ((msum mG (n + 1)).const_mul _).mul (msp n).inv
  have hF := prob_tendsto mN hY hlim hJ hJ0
  have hbad : Tendsto (fun n : ℕ => P {ω | ¬(0 < ∑ i ∈ Finset.range (n + 1), w (Z i ω) ∧ 0 < spread w f Z n ω ∧ 0 < n)}) atTop (𝓝 0) := by
    refine tendsto_of_eventually_not (fun n => ?_) ?_
    · exact ((measurableSet_lt measurable_const (msum hw (n + 1))).inter ((measurableSet_lt measurable_const (msp n)).inter (MeasurableSet.const _))).compl
    · filter_upwards [hspr, strong_law hZ hind hlaw hw (hw2.integrable one_le_two)] with ω h1 h2
      filter_upwards [h1.eventually (lt_mem_nhds hsv), h2.eventually (lt_mem_nhds hpos), eventually_gt_atTop 0] with n h3 h4 h5
      rw [not_not]
      have h6 : (0 : ℝ) < n := by exact_mod_cast h5
      exact ⟨(div_pos_iff_of_pos_right h6).1 h4, h3, h5⟩
  have hiff : ∀ (n : ℕ) ω, 0 < ∑ i ∈ Finset.range (n + 1), w (Z i ω) ∧ 0 < spread w f Z n ω ∧ 0 < n →
      (ω ∈ A (n + 1) ↔ (Real.sqrt n)⁻¹ * (∑ i ∈ Finset.range (n + 1), w (Z i ω) * (f (Z i ω) - θ)) * (spread w f Z n ω)⁻¹ ∈ J) := by
    rintro n ω ⟨h1, h2, h3⟩
    have h4 : (0 : ℝ) < n := by exact_mod_cast h3
    have hQ : spread w f Z n ω = Real.sqrt (∑ i ∈ Finset.range (n + 1), (w (Z i ω) * (f (Z i ω) - avg w f Z (n + 1) ω)) ^ 2) / Real.sqrt n := by
      rw [spread, Real.sqrt_div (Finset.sum_nonneg fun i _ => sq_nonneg _)]
    have h5 : 0 < Real.sqrt n := Real.sqrt_pos.2 h4
    rw [hQ] at h2 ⊢
    have h6 := (div_pos_iff_of_pos_right h5).1 h2
    have hse : se w f Z (n + 1) ω = Real.sqrt (∑ i ∈ Finset.range (n + 1), (w (Z i ω) * (f (Z i ω) - avg w f Z (n + 1) ω)) ^ 2) / ∑ i ∈ Finset.range (n + 1), w (Z i ω) := rfl
    have hsum : ∑ i ∈ Finset.range (n + 1), w (Z i ω) * (f (Z i ω) - θ) = (avg w f Z (n + 1) ω - θ) * ∑ i ∈ Finset.range (n + 1), w (Z i ω) := by
      rw [sub_mul, avg, div_mul_cancel₀ _ h1.ne', Finset.mul_sum, ← Finset.sum_sub_distrib]
      exact Finset.sum_congr rfl fun i _ => by ring
    rw [hA (n + 1) ω h1 (by rw [hse]; exact div_pos h6 h1), hse, hsum]
    generalize Real.sqrt (∑ i ∈ Finset.range (n + 1), (w (Z i ω) * (f (Z i ω) - avg w f Z (n + 1) ω)) ^ 2) = q at h6
    generalize (∑ i ∈ Finset.range (n + 1), w (Z i ω)) = t at h1
    have : (avg w f Z (n + 1) ω - θ) / (q / t) = (Real.sqrt n)⁻¹ * ((avg w f Z (n + 1) ω - θ) * t) * (q / Real.sqrt n)⁻¹ := by
      have := h1.ne'
      have := h6.ne'
      have := h5.ne'
      field_simp
    rw [this]
  rw [← tendsto_add_atTop_iff_nat 1]
  refine tendsto_of_tendsto_of_tendsto_of_le_of_le (g := fun n : ℕ => P {ω | (Real.sqrt n)⁻¹ * (∑ i ∈ Finset.range (n + 1), w (Z i ω) * (f (Z i ω) - θ)) * (spread w f Z n ω)⁻¹ ∈ J}
      - P {ω | ¬(0 < ∑ i ∈ Finset.range (n + 1), w (Z i ω) ∧ 0 < spread w f Z n ω ∧ 0 < n)})
    (h := fun n : ℕ => P {ω | (Real.sqrt n)⁻¹ * (∑ i ∈ Finset.range (n + 1), w (Z i ω) * (f (Z i ω) - θ)) * (spread w f Z n ω)⁻¹ ∈ J}
      + P {ω | ¬(0 < ∑ i ∈ Finset.range (n + 1), w (Z i ω) ∧ 0 < spread w f Z n ω ∧ 0 < n)}) ?_ ?_ (fun n => ?_) (fun n => ?_)
  · simpa using ENNReal.Tendsto.sub hF hbad (Or.inl (measure_ne_top _ _))
  · simpa using hF.add hbad
  · refine tsub_le_iff_right.2 ((measure_mono fun ω hω => ?_).trans (measure_union_le _ _))
    by_cases hg : 0 < ∑ i ∈ Finset.range (n + 1), w (Z i ω) ∧ 0 < spread w f Z n ω ∧ 0 < n
    · exact Or.inl ((hiff n ω hg).2 hω)
    · exact Or.inr hg
  · refine (measure_mono fun ω hω => ?_).trans (measure_union_le _ _)
    by_cases hg : 0 < ∑ i ∈ Finset.range (n + 1), w (Z i ω) ∧ 0 < spread w f Z n ω ∧ 0 < n
    · exact Or.inl ((hiff n ω hg).1 hω)
    · exact Or.inr hg

end

end Mocat.ErrorBars
