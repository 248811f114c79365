import Verif.Spec.InProb
import Verif.Spec.Eki
import Mathlib.Probability.Moments.Variance
import Mathlib.Topology.Instances.Matrix
/-! Convergence in probability to a constant; means and sample covariances of independent draws. -/
namespace Mocat.Spec
open MeasureTheory ProbabilityTheory Filter Topology
open scoped ENNReal

section
variable {Ω : ℕ → Type*} [∀ n, MeasurableSpace (Ω n)] {μ : ∀ n, Measure (Ω n)} {V W : Type*} [TopologicalSpace V] [TopologicalSpace W]

theorem InProb.comp {f : ∀ n, Ω n → V} {c : V} (h : InProb μ f c) {φ : V → W} (hφ : ContinuousAt φ c) : InProb μ (fun n ω => φ (f n ω)) (φ c) :=
  fun U hU => h (φ ⁻¹' U) (hφ hU)

theorem InProb.prod {f : ∀ n, Ω n → V} {g : ∀ n, Ω n → W} {a : V} {b : W} (hf : InProb μ f a) (hg : InProb μ g b) : InProb μ (fun n ω => (f n ω, g n ω)) (a, b) := by
  intro U hU
  rw [nhds_prod_eq, mem_prod_iff] at hU
  obtain ⟨A, hA, B, hB, hAB⟩ := hU
  have h := (hf A hA).add (hg B hB)
  rw [add_zero] at h
  refine tendsto_of_tendsto_of_tendsto_of_le_of_le tendsto_const_nhds h (fun n => bot_le) fun n => ?_
  refine (measure_mono ?_).trans (measure_union_le _ _)
  intro ω hω
  by_contra hc
  simp only [Set.mem_union, Set.mem_ofPred_eq, not_or, not_not] at hc
  exact hω (hAB ⟨hc.1, hc.2⟩)

theorem InProb.pi {ι : Type*} [Fintype ι] {π : ι → Type*} [∀ i, TopologicalSpace (π i)] {f : ∀ n, Ω n → ∀ i, π i} {c : ∀ i, π i}
    (h : ∀ i, InProb μ (fun n ω => f n ω i) (c i)) : InProb μ f c := by
  intro U hU
  rw [nhds_pi, mem_pi] at hU
  obtain ⟨I, -, t, ht, hU⟩ := hU
  have h1 := tendsto_finsetSum (Finset.univ : Finset ι) fun i _ => h i (t i) (ht i)
  rw [Finset.sum_const_zero] at h1
  refine tendsto_of_tendsto_of_tendsto_of_le_of_le tendsto_const_nhds h1 (fun n => bot_le) fun n => ?_
  refine (measure_mono ?_).trans (measure_biUnion_finset_le Finset.univ _)
  intro ω hω
  by_contra hc
  simp only [Set.mem_iUnion, Set.mem_ofPred_eq, not_exists, not_not] at hc
  exact hω (hU fun i _ => hc i (Finset.mem_univ i))

theorem InProb.matrix {a b : ℕ} {f : ∀ n, Ω n → Matrix (Fin a) (Fin b) ℝ} {c : Matrix (Fin a) (Fin b) ℝ}
    (h : ∀ i j, InProb μ (fun n ω => f n ω i j) (c i j)) : InProb μ f c :=
  InProb.pi fun i => InProb.pi fun j => h i j

theorem InProb.entry {a b : ℕ} {f : ∀ n, Ω n → Matrix (Fin a) (Fin b) ℝ} {c : Matrix (Fin a) (Fin b) ℝ} (h : InProb μ f c) (i : Fin a) (j : Fin b) :
    InProb μ (fun n ω => f n ω i j) (c i j) :=
  h.comp (φ := fun M : Matrix (Fin a) (Fin b) ℝ => M i j) ((continuous_id.matrix_elem i j).continuousAt)

theorem InProb.apply {ι : Type*} {f : ∀ n, Ω n → ι → ℝ} {c : ι → ℝ} (h : InProb μ f c) (i : ι) : InProb μ (fun n ω => f n ω i) (c i) :=
  h.comp (φ := fun v : ι → ℝ => v i) (continuous_apply i).continuousAt

theorem InProb.congr {f g : ∀ n, Ω n → V} {c : V} (h : InProb μ f c) (hfg : ∀ᶠ n in atTop, ∀ ω, f n ω = g n ω) : InProb μ g c := by
  intro U hU
  refine (h U hU).congr' ?_
  filter_upwards [hfg] with n hn
  simp only [hn]

theorem inProb_const (c : V) : InProb μ (fun _ _ => c) c := by
  intro U hU
  simp [mem_of_mem_nhds hU]

/-- What holds near `c` holds with probability tending to one. -/
theorem InProb.replace {f : ∀ n, Ω n → V} {c : V} (h : InProb μ f c) {g g' : ∀ n, Ω n → W} {b : W} (hg : InProb μ g b) {U : Set V} (hU : U ∈ 𝓝 c)
    (he : ∀ᶠ n in atTop, ∀ ω, f n ω ∈ U → g n ω = g' n ω) : InProb μ g' b := by
  intro A hA
  have h1 := (h U hU).add (hg A hA)
  rw [add_zero] at h1
  refine tendsto_of_tendsto_of_tendsto_of_le_of_le' tendsto_const_nhds h1 (.of_forall fun n => bot_le) ?_
  filter_upwards [he] with n hn
  refine (measure_mono ?_).trans (measure_union_le _ _)
  intro ω hω
  by_contra hc
  simp only [Set.mem_union, Set.mem_ofPred_eq, not_or, not_not] at hc
  exact hω (hn ω hc.1 ▸ hc.2)

theorem inProb_real {f : ∀ n, Ω n → ℝ} {c : ℝ} : InProb μ f c ↔ ∀ ε > 0, Tendsto (fun n => μ n {ω | ε ≤ |f n ω - c|}) atTop (𝓝 0) := by
  constructor
  · intro h ε hε
    refine (h _ (Metric.ball_mem_nhds c hε)).congr fun n => ?_
    congr 1
    ext ω
    simp [Real.dist_eq]
  · intro h U hU
    obtain ⟨ε, hε, hb⟩ := Metric.mem_nhds_iff.1 hU
    refine tendsto_of_tendsto_of_tendsto_of_le_of_le tendsto_const_nhds (h ε hε) (fun n => bot_le) fun n => measure_mono ?_
    intro ω hω
    by_contra hc
    exact hω (hb (by simpa [Real.dist_eq] using hc))

theorem InProb.fst {Ω' : ℕ → Type*} [∀ n, MeasurableSpace (Ω' n)] {ν : ∀ n, Measure (Ω' n)} [∀ n, IsProbabilityMeasure (ν n)] [∀ n, SFinite (μ n)] {f : ∀ n, Ω n → V} {c : V}
    (h : InProb μ f c) : InProb (fun n => (μ n).prod (ν n)) (fun n z => f n z.1) c := by
  intro U hU
  refine (h U hU).congr fun n => ?_
  have : {z : Ω n × Ω' n | f n z.1 ∉ U} = {ω | f n ω ∉ U} ×ˢ Set.univ := by ext; simp
  rw [this, Measure.prod_prod, measure_univ, mul_one]

theorem InProb.snd {Ω' : ℕ → Type*} [∀ n, MeasurableSpace (Ω' n)] {ν : ∀ n, Measure (Ω' n)} [∀ n, IsProbabilityMeasure (ν n)] [∀ n, SFinite (μ n)] {f : ∀ n, Ω n → V} {c : V}
    (h : InProb μ f c) : InProb (fun n => (ν n).prod (μ n)) (fun n z => f n z.2) c := by
  intro U hU
  refine (h U hU).congr fun n => ?_
  have : {z : Ω' n × Ω n | f n z.2 ∉ U} = Set.univ ×ˢ {ω | f n ω ∉ U} := by ext; simp
  rw [this, Measure.prod_prod, measure_univ, one_mul]

theorem inProb_map {Ω' : ℕ → Type*} [∀ n, MeasurableSpace (Ω' n)] {g : ∀ n, Ω n → Ω' n} (hg : ∀ n, Measurable (g n)) {f : ∀ n, Ω' n → ℝ} (hf : ∀ n, Measurable (f n)) {c : ℝ} :
    InProb (fun n => (μ n).map (g n)) f c ↔ InProb μ (fun n ω => f n (g n ω)) c := by
  rw [inProb_real, inProb_real]
  refine forall₂_congr fun ε hε => ?_
  have : ∀ n, (μ n).map (g n) {ω | ε ≤ |f n ω - c|} = μ n {ω | ε ≤ |f n (g n ω) - c|} := fun n => by
    have hm : Measurable fun ω => |f n ω - c| := continuous_abs.measurable.comp ((hf n).sub_const c)
    rw [Measure.map_apply (hg n) (measurableSet_le measurable_const hm)]
    rfl
  simp only [this]

theorem InProb.add {f g : ∀ n, Ω n → ℝ} {a b : ℝ} (hf : InProb μ f a) (hg : InProb μ g b) : InProb μ (fun n ω => f n ω + g n ω) (a + b) :=
  (hf.prod hg).comp (φ := fun z : ℝ × ℝ => z.1 + z.2) (by fun_prop)

theorem InProb.sub {f g : ∀ n, Ω n → ℝ} {a b : ℝ} (hf : InProb μ f a) (hg : InProb μ g b) : InProb μ (fun n ω => f n ω - g n ω) (a - b) :=
  (hf.prod hg).comp (φ := fun z : ℝ × ℝ => z.1 - z.2) (by fun_prop)

theorem InProb.mul {f g : ∀ n, Ω n → ℝ} {a b : ℝ} (hf : InProb μ f a) (hg : InProb μ g b) : InProb μ (fun n ω => f n ω * g n ω) (a * b) :=
  (hf.prod hg).comp (φ := fun z : ℝ × ℝ => z.1 * z.2) (by fun_prop)

theorem inProb_of_tendsto {f : ℕ → ℝ} {c : ℝ} (h : Tendsto f atTop (𝓝 c)) : InProb μ (fun n _ => f n) c := by
  intro U hU
  refine tendsto_const_nhds.congr' ?_
  filter_upwards [h hU] with n hn
  have : f n ∈ U := hn
  simp [this]

end

/-! ## Independent draws -/

section
variable {E : Type*} [MeasurableSpace E] {ρ : Measure E} [IsProbabilityMeasure ρ]

theorem memLp_eval {n : ℕ} {g : E → ℝ} (hg : MemLp g 2 ρ) (i : Fin n) : MemLp (fun z : Fin n → E => g (z i)) 2 (Measure.pi fun _ : Fin n => ρ) :=
  hg.comp_measurePreserving (measurePreserving_eval (fun _ : Fin n => ρ) i)

theorem integral_eval {n : ℕ} {g : E → ℝ} (hg : AEStronglyMeasurable g ρ) (i : Fin n) : ∫ z : Fin n → E, g (z i) ∂(Measure.pi fun _ : Fin n => ρ) = ∫ x, g x ∂ρ := by
  have h := (measurePreserving_eval (fun _ : Fin n => ρ) i).map_eq
  conv_rhs => rw [← h]
  rw [integral_map (measurable_pi_apply i).aemeasurable (by rw [h]; exact hg)]

/-- Second moments of a weighted sum of independent draws. -/
theorem weighted_le {n : ℕ} {g : E → ℝ} (hg : MemLp g 2 ρ) (a : Fin n → ℝ) {ε : ℝ} (hε : 0 < ε) :
    (Measure.pi fun _ : Fin n => ρ) {z | ε ≤ |(∑ i, a i * g (z i)) - (∑ i, a i) * ∫ x, g x ∂ρ|} ≤ ENNReal.ofReal ((∑ i, a i ^ 2) * Var[g; ρ] / ε ^ 2) := by
  have h1 : ∀ i, MemLp (fun z : Fin n → E => a i * g (z i)) 2 (Measure.pi fun _ : Fin n => ρ) := fun i => (memLp_eval hg i).const_mul (a i)
  have h2 : MemLp (fun z : Fin n → E => ∑ i, a i * g (z i)) 2 (Measure.pi fun _ : Fin n => ρ) := memLp_finsetSum _ fun i _ => h1 i
  have hmean : ∫ z : Fin n → E, ∑ i, a i * g (z i) ∂(Measure.pi fun _ : Fin n => ρ) = (∑ i, a i) * ∫ x, g x ∂ρ := by
    rw [integral_finsetSum _ fun i _ => (h1 i).integrable one_le_two, Finset.sum_mul]
    refine Finset.sum_congr rfl fun i _ => ?_
    rw [integral_const_mul, integral_eval hg.aestronglyMeasurable i]
  have hvar : Var[fun z : Fin n → E => ∑ i, a i * g (z i); Measure.pi fun _ : Fin n => ρ] = (∑ i, a i ^ 2) * Var[g; ρ] := by
    have e : (fun z : Fin n → E => ∑ i, a i * g (z i)) = ∑ i, fun z : Fin n → E => (fun x => a i * g x) (z i) := by
      funext z; simp
    rw [e, variance_sum_pi (μ := fun _ : Fin n => ρ) (X := fun i x => a i * g x) fun i => hg.const_mul (a i), Finset.sum_mul]
    exact Finset.sum_congr rfl fun i _ => variance_const_mul _ _ _
  have h := meas_ge_le_variance_div_sq h2 hε
  rw [hmean, hvar] at h
  exact h

theorem tendsto_ofReal_div {c : ℝ} : Tendsto (fun n : ℕ => ENNReal.ofReal (c / n)) atTop (𝓝 0) := by
  have := ENNReal.tendsto_ofReal (tendsto_const_div_atTop_nhds_zero_nat c)
  rwa [ENNReal.ofReal_zero] at this

/-- The weak law of large numbers. -/
theorem lln {g : E → ℝ} (hg : MemLp g 2 ρ) : InProb (fun n => Measure.pi fun _ : Fin n => ρ) (fun n z => (∑ i, g (z i)) / n) (∫ x, g x ∂ρ) := by
  rw [inProb_real]
  intro ε hε
  have h0 : Tendsto (fun n : ℕ => ENNReal.ofReal (Var[g; ρ] / ε ^ 2 / n)) atTop (𝓝 0) := tendsto_ofReal_div
  refine tendsto_of_tendsto_of_tendsto_of_le_of_le' tendsto_const_nhds h0 (.of_forall fun n => bot_le) ?_
  filter_upwards [eventually_gt_atTop 0] with n hn
  have hn' : (n : ℝ) ≠ 0 := by positivity
  have h := weighted_le hg (fun _ : Fin n => (n : ℝ)⁻¹) hε
  have e1 : (∑ _i : Fin n, (n : ℝ)⁻¹) * ∫ x, g x ∂ρ = ∫ x, g x ∂ρ := by simp [hn']
  have e2 : (∑ _i : Fin n, ((n : ℝ)⁻¹) ^ 2) * Var[g; ρ] / ε ^ 2 = Var[g; ρ] / ε ^ 2 / n := by
    rw [Finset.sum_const, Finset.card_univ, Fintype.card_fin, nsmul_eq_mul]
    field_simp
  rw [e1, e2] at h
  refine le_trans (le_of_eq ?_) h
  congr 1
  ext z
  simp only [Set.mem_ofPred_eq, ← Finset.mul_sum]
  rw [div_eq_inv_mul]

end

/-! ## Sample covariances of numbers -/

/-- Sample covariance of two lists of numbers (divisor `n - 1`). -/
noncomputable def scov {n : ℕ} (f g : Fin n → ℝ) : ℝ := (∑ k, (f k - (∑ l, f l) / n) * (g k - (∑ l, g l) / n)) / (n - 1)

theorem sampleCov_apply {n a b : ℕ} (f : Fin n → Fin a → ℝ) (g : Fin n → Fin b → ℝ) (i : Fin a) (j : Fin b) : sampleCov f g i j = scov (fun k => f k i) (fun k => g k j) := rfl

theorem sum_centred {n : ℕ} (f : Fin n → ℝ) : ∑ k, (f k - (∑ l, f l) / n) = 0 := by
  rcases Nat.eq_zero_or_pos n with rfl | hn
  · simp
  · have hn' : (n : ℝ) ≠ 0 := by positivity
    rw [Finset.sum_sub_distrib, Finset.sum_const, Finset.card_univ, Fintype.card_fin, nsmul_eq_mul]
    field_simp
    ring

theorem scov_left {n : ℕ} (f g : Fin n → ℝ) : scov f g = ∑ k, (f k - (∑ l, f l) / n) / (n - 1) * g k := by
  unfold scov
  have : ∑ k, (f k - (∑ l, f l) / n) * (g k - (∑ l, g l) / n) = ∑ k, (f k - (∑ l, f l) / n) * g k := by
    simp only [mul_sub _ (g _)]
    rw [Finset.sum_sub_distrib, ← Finset.sum_mul, sum_centred, zero_mul, sub_zero]
  rw [this, Finset.sum_div]
  exact Finset.sum_congr rfl fun k _ => by ring

theorem scov_moments {n : ℕ} (f g : Fin n → ℝ) : scov f g = (n : ℝ) / (n - 1) * ((∑ k, f k * g k) / n - (∑ k, f k) / n * ((∑ k, g k) / n)) := by
  rcases Nat.eq_zero_or_pos n with rfl | hn
  · simp [scov]
  have hn' : (n : ℝ) ≠ 0 := by positivity
  rw [scov_left]
  simp only [sub_div, sub_mul, Finset.sum_sub_distrib]
  have e1 : ∑ k, f k / ((n : ℝ) - 1) * g k = (∑ k, f k * g k) / (n - 1) := by
    rw [Finset.sum_div]; exact Finset.sum_congr rfl fun k _ => by ring
  rw [e1, ← Finset.mul_sum]
  field_simp

theorem measurable_scov {n : ℕ} {α : Type*} [MeasurableSpace α] {f g : α → Fin n → ℝ} (hf : Measurable f) (hg : Measurable g) : Measurable fun x => scov (f x) (g x) := by
  unfold scov
  fun_prop

section
variable {E : Type*} [MeasurableSpace E] {ρ : Measure E} [IsProbabilityMeasure ρ]

theorem tendsto_ratio : Tendsto (fun n : ℕ => (n : ℝ) / (n - 1)) atTop (𝓝 1) := by
  have h : Tendsto (fun n : ℕ => 1 + ((n : ℝ) - 1)⁻¹) atTop (𝓝 (1 + 0)) :=
    tendsto_const_nhds.add (tendsto_inv_atTop_zero.comp (tendsto_atTop_add_const_right _ _ tendsto_natCast_atTop_atTop))
  rw [add_zero] at h
  refine h.congr' ?_
  filter_upwards [eventually_gt_atTop 1] with n hn
  have : (n : ℝ) - 1 ≠ 0 := by
    have : (1 : ℝ) < n := by exact_mod_cast hn
    linarith
  field_simp
  ring

/-- Sample covariances of independent draws. -/
theorem lln_scov {g h : E → ℝ} (hg : MemLp g 2 ρ) (hh : MemLp h 2 ρ) (hgh : MemLp (fun x => g x * h x) 2 ρ) :
    InProb (fun n => Measure.pi fun _ : Fin n => ρ) (fun _ z => scov (fun i => g (z i)) fun i => h (z i)) (cov[g, h; ρ]) := by
  have h1 := (inProb_of_tendsto (μ := fun n => Measure.pi fun _ : Fin n => ρ) tendsto_ratio).mul ((lln hgh).sub ((lln hg).mul (lln hh)))
  rw [one_mul] at h1
  have e : cov[g, h; ρ] = (∫ x, g x * h x ∂ρ) - (∫ x, g x ∂ρ) * ∫ x, h x ∂ρ := covariance_eq_sub hg hh
  rw [e]
  exact h1.congr (.of_forall fun n z => (scov_moments _ _).symm)

/-- Sample covariances with independent draws vanish. -/
theorem scov_cross {S : ℕ → Type*} [∀ n, MeasurableSpace (S n)] {μ : ∀ n, Measure (S n)} [∀ n, IsProbabilityMeasure (μ n)] {a : ∀ n, S n → Fin n → ℝ} (ha : ∀ n, Measurable (a n)) {c : ℝ}
    (hc : InProb μ (fun n s => scov (a n s) (a n s)) c) {g : E → ℝ} (hgm : Measurable g) (hg : MemLp g 2 ρ) :
    InProb (fun n => (μ n).prod (Measure.pi fun _ : Fin n => ρ)) (fun n z => scov (a n z.1) fun i => g (z.2 i)) 0 := by
  rw [inProb_real] at hc ⊢
  intro ε hε
  set C := (|c| + 1) * Var[g; ρ] / ε ^ 2 with hC
  have h0 : Tendsto (fun n : ℕ => μ n {s | 1 ≤ |scov (a n s) (a n s) - c|} + ENNReal.ofReal (C / ((n : ℝ) - 1))) atTop (𝓝 0) := by
    have h1 : Tendsto (fun n : ℕ => ENNReal.ofReal (C / ((n : ℝ) - 1))) atTop (𝓝 0) := by
      have := ENNReal.tendsto_ofReal ((tendsto_const_nhds (x := C)).mul ((tendsto_inv_atTop_zero (𝕜 := ℝ)).comp (tendsto_atTop_add_const_right _ (-1) tendsto_natCast_atTop_atTop)))
      rw [mul_zero, ENNReal.ofReal_zero] at this
      exact this
    simpa using (hc 1 one_pos).add h1
  refine tendsto_of_tendsto_of_tendsto_of_le_of_le' tendsto_const_nhds h0 (.of_forall fun n => bot_le) ?_
  filter_upwards [eventually_gt_atTop 1] with n hn
  have hn1 : (0 : ℝ) < n - 1 := by
    have : (1 : ℝ) < n := by exact_mod_cast hn
    linarith
  have hgz : Measurable fun z : S n × (Fin n → E) => fun i => g (z.2 i) := measurable_pi_lambda _ fun i => hgm.comp ((measurable_pi_apply i).comp measurable_snd)
  have hm : Measurable fun z : S n × (Fin n → E) => scov (a n z.1) fun i => g (z.2 i) := measurable_scov ((ha n).comp measurable_fst) hgz
  have hset : MeasurableSet {z : S n × (Fin n → E) | ε ≤ |(scov (a n z.1) fun i => g (z.2 i)) - 0|} :=
    measurableSet_le measurable_const (continuous_abs.measurable.comp (hm.sub_const 0))
  rw [Measure.prod_apply hset]
  have hB : MeasurableSet {s | 1 ≤ |scov (a n s) (a n s) - c|} :=
    measurableSet_le measurable_const (continuous_abs.measurable.comp ((measurable_scov (ha n) (ha n)).sub_const c))
  have hbound : ∀ s, (Measure.pi fun _ : Fin n => ρ) (Prod.mk s ⁻¹' {z : S n × (Fin n → E) | ε ≤ |(scov (a n z.1) fun i => g (z.2 i)) - 0|})
      ≤ ({s | 1 ≤ |scov (a n s) (a n s) - c|} : Set (S n)).indicator 1 s + ENNReal.ofReal (C / ((n : ℝ) - 1)) := by
    intro s
    by_cases hs : s ∈ {s | 1 ≤ |scov (a n s) (a n s) - c|}
    · rw [Set.indicator_of_mem hs]
      exact prob_le_one.trans (by simp)
    · rw [Set.indicator_of_notMem hs, zero_add]
      have hle : scov (a n s) (a n s) ≤ |c| + 1 := by
        simp only [Set.mem_ofPred_eq, not_le] at hs
        have := abs_lt.1 hs
        linarith [le_abs_self c]
      have h := weighted_le hg (fun k => (a n s k - (∑ l, a n s l) / n) / ((n : ℝ) - 1)) hε
      have e1 : ∑ k, (a n s k - (∑ l, a n s l) / n) / ((n : ℝ) - 1) = 0 := by rw [← Finset.sum_div, sum_centred, zero_div]
      have e2 : ∑ k, ((a n s k - (∑ l, a n s l) / n) / ((n : ℝ) - 1)) ^ 2 = scov (a n s) (a n s) / ((n : ℝ) - 1) := by
        unfold scov
        simp only [div_pow]
        rw [← Finset.sum_div, div_div, ← sq]
        simp only [sq]
      rw [e1, e2, zero_mul] at h
      have e3 : Prod.mk s ⁻¹' {z : S n × (Fin n → E) | ε ≤ |(scov (a n z.1) fun i => g (z.2 i)) - 0|} = {z | ε ≤ |(∑ k, (a n s k - (∑ l, a n s l) / n) / ((n : ℝ) - 1) * g (z k)) - 0|} := by
        ext z
        simp only [Set.mem_preimage, Set.mem_ofPred_eq, scov_left]
      rw [e3]
      refine h.trans (ENNReal.ofReal_le_ofReal ?_)
      have : scov (a n s) (a n s) / ((n : ℝ) - 1) * Var[g; ρ] / ε ^ 2 = scov (a n s) (a n s) * Var[g; ρ] / ε ^ 2 / ((n : ℝ) - 1) := by ring
      rw [this, hC]
      gcongr
      exact variance_nonneg _ _
  refine (lintegral_mono hbound).trans ?_
  rw [lintegral_add_left (measurable_one.indicator hB), lintegral_indicator_one hB, lintegral_const, measure_univ, mul_one]

end

end Mocat.Spec
