import Verif.Lemmas.Ergodic
import Mathlib.Analysis.Asymptotics.Lemmas
import Mathlib.Analysis.SpecialFunctions.Log.Basic
/-!
# Averages along chains that forget

The chain need not have an invariant law: it is enough that, from far along the chain, the mean of `f` some steps ahead is small.
-/
namespace Mocat.Ergodic
open Mocat Mocat.Ideal Mocat.Meas MeasureTheory Filter
open scoped ENNReal Topology

section
variable {X D : Type*} [MeasurableSpace X] [MeasurableSpace D] {δ : Measure D} [IsProbabilityMeasure δ] {step : X → D → X} (hs : Measurable (Function.uncurry step))

include hs in
theorem measurable_next_iterate {f : X → ℝ} (hf : Measurable f) (l : ℕ) : Measurable ((next δ step)^[l] f) := by
  induction l with
  | zero => exact hf
  | succ l ih => rw [Function.iterate_succ_apply']; exact measurable_next hs ih

omit [MeasurableSpace X] in
theorem abs_next_iterate_le {f : X → ℝ} {B : ℝ} (hB : ∀ x, |f x| ≤ B) (l : ℕ) (x : X) : |(next δ step)^[l] f x| ≤ B := by
  induction l generalizing x with
  | zero => exact hB x
  | succ l ih => rw [Function.iterate_succ_apply']; exact abs_next_le ih x

include hs in
theorem next_mono {f g : X → ℝ} (hf : Measurable f) {B : ℝ} (hB : ∀ x, |f x| ≤ B) (hg : Measurable g) {C : ℝ} (hC : ∀ x, |g x| ≤ C) (h : ∀ x, f x ≤ g x) (x : X) : next δ step f x ≤ next δ step g x :=
  integral_mono (integrable_step hs hf hB x) (integrable_step hs hg hC x) fun _ => h _

include hs in
theorem abs_next_iterate {g : X → ℝ} (hg : Measurable g) {B : ℝ} (hB : ∀ x, |g x| ≤ B) (l : ℕ) (x : X) : |(next δ step)^[l] g x| ≤ (next δ step)^[l] (fun y => |g y|) x := by
  have ha : ∀ x, |(fun y => |g y|) x| ≤ B := fun x => by simpa using hB x
  have hma : Measurable fun y => |g y| := continuous_abs.measurable.comp hg
  induction l generalizing x with
  | zero => exact le_rfl
  | succ l ih =>
    rw [Function.iterate_succ_apply', Function.iterate_succ_apply']
    refine (abs_integral_le_integral_abs (μ := δ) (f := fun z => (next δ step)^[l] g (step x z))).trans ?_
    exact integral_mono (integrable_step hs (measurable_next_iterate hs hg l) (abs_next_iterate_le hB l) x).abs
      (integrable_step hs (measurable_next_iterate hs hma l) (abs_next_iterate_le ha l) x) fun z => ih _

variable {f : X → ℝ} (hf : Measurable f) {B : ℝ} (hB : ∀ x, |f x| ≤ B)

include hs hf hB in
theorem sum1_eq_sum (n : ℕ) (x : X) : sum1 δ step f n x = ∑ j ∈ Finset.range n, (next δ step)^[j] f x := by
  induction n generalizing x with
  | zero => rfl
  | succ n ih =>
    rw [sum1, funext ih, Finset.sum_range_succ', add_comm]
    congr 1
    rw [next, integral_finsetSum _ fun j _ => integrable_step hs (measurable_next_iterate hs hf j) (abs_next_iterate_le hB j) x]
    exact Finset.sum_congr rfl fun j _ => by rw [Function.iterate_succ_apply']; rfl

/-- How much the chain remembers of `f` after `M` steps, summed along the chain. -/
noncomputable def memory (δ : Measure D) (step : X → D → X) (f : X → ℝ) (M n : ℕ) (x : X) : ℝ := ∑ l ∈ Finset.range n, (next δ step)^[l] (fun y => |(next δ step)^[M] f y|) x

include hs hf hB in
theorem abs_sum1_le_memory (M n : ℕ) (x : X) : |sum1 δ step f n x| ≤ M * B + memory δ step f M n x := by
  have hB0 : 0 ≤ B := (abs_nonneg _).trans (hB x)
  have hw0 : ∀ l, 0 ≤ (next δ step)^[l] (fun y => |(next δ step)^[M] f y|) x := fun l =>
    (abs_nonneg _).trans (abs_next_iterate hs (measurable_next_iterate hs hf M) (abs_next_iterate_le hB M) l x)
  rw [sum1_eq_sum hs hf hB]
  refine (Finset.abs_sum_le_sum_abs _ _).trans ?_
  rcases le_total n M with h | h
  · refine (Finset.sum_le_sum fun j _ => abs_next_iterate_le hB j x).trans ?_
    rw [Finset.sum_const, Finset.card_range, nsmul_eq_mul]
    have : (n : ℝ) * B ≤ M * B := mul_le_mul_of_nonneg_right (by exact_mod_cast h) hB0
    have : 0 ≤ memory δ step f M n x := Finset.sum_nonneg fun l _ => hw0 l
    linarith
  · obtain ⟨m, rfl⟩ : ∃ m, n = M + m := ⟨n - M, by omega⟩
    rw [Finset.sum_range_add]
    refine add_le_add ((Finset.sum_le_sum fun j _ => abs_next_iterate_le hB j x).trans ?_) ?_
    · rw [Finset.sum_const, Finset.card_range, nsmul_eq_mul]
    · refine (Finset.sum_le_sum (g := fun l => (next δ step)^[l] (fun y => |(next δ step)^[M] f y|) x) fun l _ => ?_).trans ?_
      · rw [add_comm, Function.iterate_add_apply]
        exact abs_next_iterate hs (measurable_next_iterate hs hf M) (abs_next_iterate_le hB M) l x
      · exact Finset.sum_le_sum_of_subset_of_nonneg (Finset.range_subset_range.mpr (by omega)) fun l _ _ => hw0 l

include hs hf hB in
theorem memory_meas (M n : ℕ) : Measurable (memory δ step f M n) ∧ ∀ x, |memory δ step f M n x| ≤ n * B := by
  have hma : Measurable fun y => |(next δ step)^[M] f y| := continuous_abs.measurable.comp (measurable_next_iterate hs hf M)
  have ha : ∀ y, |(fun y => |(next δ step)^[M] f y|) y| ≤ B := fun y => by simpa using abs_next_iterate_le (δ := δ) (step := step) hB M y
  refine ⟨Finset.measurable_fun_sum _ fun l _ => measurable_next_iterate hs hma l, fun x => ?_⟩
  refine (Finset.abs_sum_le_sum_abs _ _).trans ((Finset.sum_le_sum fun j _ => abs_next_iterate_le ha j x).trans ?_)
  simp

include hs hf hB in
theorem next_memory_le (M n : ℕ) (x : X) : next δ step (memory δ step f M n) x ≤ memory δ step f M (n + 1) x := by
  have hma : Measurable fun y => |(next δ step)^[M] f y| := continuous_abs.measurable.comp (measurable_next_iterate hs hf M)
  have ha : ∀ y, |(fun y => |(next δ step)^[M] f y|) y| ≤ B := fun y => by simpa using abs_next_iterate_le (δ := δ) (step := step) hB M y
  have e : next δ step (memory δ step f M n) x = ∑ l ∈ Finset.range n, (next δ step)^[l + 1] (fun y => |(next δ step)^[M] f y|) x := by
    unfold memory
    rw [next, integral_finsetSum _ fun j _ => integrable_step hs (measurable_next_iterate hs hma j) (abs_next_iterate_le ha j) x]
    exact Finset.sum_congr rfl fun j _ => by rw [Function.iterate_succ_apply']; rfl
  rw [e, memory, Finset.sum_range_succ']
  have : 0 ≤ (next δ step)^[0] (fun y => |(next δ step)^[M] f y|) x := abs_nonneg _
  linarith

include hs hf hB in
/-- The mean square of a sum, by what the chain remembers after `M` steps. -/
theorem sum2_le_memory (M n : ℕ) (x : X) : sum2 δ step f n x ≤ n * (B ^ 2 + 2 * M * B ^ 2) + 2 * B * n * memory δ step f M n x := by
  induction n generalizing x with
  | zero => simp [sum2]
  | succ n ih =>
    have hB0 : 0 ≤ B := (abs_nonneg _).trans (hB x)
    obtain ⟨mm, mb⟩ := memory_meas (δ := δ) hs hf hB M n
    have h1 : |next δ step (sum1 δ step f n) x| ≤ M * B + next δ step (memory δ step f M n) x := by
      refine (abs_integral_le_integral_abs (μ := δ) (f := fun z => sum1 δ step f n (step x z))).trans ?_
      have := integral_mono (μ := δ) (integrable_step hs (measurable_sum1 hs hf n) (abs_sum1_le hB n) x).abs ((integrable_const (M * B)).add (integrable_step hs mm mb x)) fun z => abs_sum1_le_memory hs hf hB M n (step x z)
      refine this.trans (le_of_eq ?_)
      simp only [Pi.add_apply]
      rw [integral_add (integrable_const _) (integrable_step hs mm mb x)]
      simp [next]
    have h2 : next δ step (sum2 δ step f n) x ≤ n * (B ^ 2 + 2 * M * B ^ 2) + 2 * B * n * next δ step (memory δ step f M n) x := by
      have := integral_mono (μ := δ) (integrable_step hs (measurable_sum2 hs hf n) (abs_sum2_le hB n) x) ((integrable_const (n * (B ^ 2 + 2 * M * B ^ 2))).add ((integrable_step hs mm mb x).const_mul (2 * B * n)))
        fun z => ih (step x z)
      refine this.trans (le_of_eq ?_)
      simp only [Pi.add_apply]
      rw [integral_add (integrable_const _) ((integrable_step hs mm mb x).const_mul _), integral_const_mul, integral_const, probReal_univ, one_smul, next, integral_const_mul]
    have h3 : f x ^ 2 ≤ B ^ 2 := by rw [← sq_abs]; exact pow_le_pow_left₀ (abs_nonneg _) (hB x) 2
    have h4 : 2 * f x * next δ step (sum1 δ step f n) x ≤ 2 * B * (M * B + next δ step (memory δ step f M n) x) := by
      refine (le_abs_self _).trans ?_
      rw [abs_mul, abs_mul, abs_two]
      have := hB x
      gcongr
    have h5 := next_memory_le (δ := δ) hs hf hB M n x
    have h6 : 2 * B * (n + 1) * next δ step (memory δ step f M n) x ≤ 2 * B * (n + 1) * memory δ step f M (n + 1) x := mul_le_mul_of_nonneg_left h5 (by positivity)
    simp only [sum2]
    push_cast
    nlinarith

end

section
variable {X D : Type*} [MeasurableSpace X] [MeasurableSpace D] {draw : Keys.Key → Tape → D} {nxt : Keys.Key → Keys.Key} {δ : Measure D} [IsProbabilityMeasure δ] {step : X → D → X}

/-- If the chain forgets `f` along the way, the average of `f` tends to 0 in mean square. -/
theorem mean_square_tendsto (hd : Draws draw nxt δ) (hs : Measurable (Function.uncurry step)) {f : X → ℝ} (hf : Measurable f) {B : ℝ} (hB : ∀ x, |f x| ≤ B) (x0 : X) (k : Keys.Key)
    (hmix : ∀ ε > 0, ∃ M, ∀ᶠ l in atTop, (next δ step)^[l] (fun y => |(next δ step)^[M] f y|) x0 ≤ ε) :
    Tendsto (fun n : ℕ => ∫ ω, (pathSum draw nxt step f n k x0 ω / n) ^ 2 ∂ideal) atTop (𝓝 0) := by
  have hB0 : 0 ≤ B := (abs_nonneg _).trans (hB x0)
  have e : ∀ n : ℕ, ∫ ω, (pathSum draw nxt step f n k x0 ω / n) ^ 2 ∂ideal = sum2 δ step f n x0 / n ^ 2 := fun n => by
    simp_rw [div_pow]
    rw [integral_div, (integral_pathSum hd hs hf hB n k x0).2]
  simp_rw [e]
  rw [Metric.tendsto_atTop']
  intro ε hε
  obtain ⟨M, hM⟩ := hmix (ε / (8 * (B + 1))) (by positivity)
  obtain ⟨L, hL⟩ := eventually_atTop.mp hM
  have hw0 : ∀ l, 0 ≤ (next δ step)^[l] (fun y => |(next δ step)^[M] f y|) x0 := fun l =>
    (abs_nonneg _).trans (abs_next_iterate hs (measurable_next_iterate hs hf M) (abs_next_iterate_le hB M) l x0)
  have ha : ∀ y, |(fun y => |(next δ step)^[M] f y|) y| ≤ B := fun y => by simpa using abs_next_iterate_le (δ := δ) (step := step) hB M y
  have hmem : ∀ n, memory δ step f M n x0 ≤ L * B + n * (ε / (8 * (B + 1))) := fun n => by
    calc memory δ step f M n x0 ≤ ∑ l ∈ Finset.range n, ((if l < L then B else 0) + ε / (8 * (B + 1))) := Finset.sum_le_sum fun l _ => by
          split_ifs with hl
          · have := (le_abs_self _).trans (abs_next_iterate_le (δ := δ) (step := step) ha l x0)
            have : 0 < ε / (8 * (B + 1)) := by positivity
            linarith
          · rw [zero_add]; exact hL l (not_lt.mp hl)
      _ = ∑ l ∈ Finset.range n, (if l < L then B else 0) + n * (ε / (8 * (B + 1))) := by
          rw [Finset.sum_add_distrib, Finset.sum_const, Finset.card_range, nsmul_eq_mul]
      _ ≤ _ := by
          gcongr
          calc _ ≤ ∑ l ∈ Finset.range (max n L), (if l < L then B else 0) :=
                Finset.sum_le_sum_of_subset_of_nonneg (Finset.range_subset_range.mpr (le_max_left _ _)) fun l _ _ => by split_ifs <;> [exact hB0; exact le_rfl]
            _ = ∑ l ∈ (Finset.range (max n L)).filter (· < L), B := by rw [Finset.sum_filter]
            _ ≤ L * B := by
                rw [Finset.sum_const, nsmul_eq_mul]
                refine mul_le_mul_of_nonneg_right ?_ hB0
                have : ((Finset.range (max n L)).filter (· < L)).card ≤ (Finset.range L).card := Finset.card_le_card fun l hl => Finset.mem_range.mpr (Finset.mem_filter.mp hl).2
                rw [Finset.card_range] at this
                exact_mod_cast this
  obtain ⟨N, hN⟩ := exists_nat_gt (max 1 ((B ^ 2 + 2 * M * B ^ 2 + 2 * B * (L * B)) / (ε / 2)))
  refine ⟨N, fun n hn => ?_⟩
  have hn1 : (0 : ℝ) < n := lt_of_lt_of_le (by linarith [le_max_left (1 : ℝ) ((B ^ 2 + 2 * M * B ^ 2 + 2 * B * (L * B)) / (ε / 2))]) (by exact_mod_cast hn.le : (N : ℝ) ≤ n)
  have hnb : (B ^ 2 + 2 * M * B ^ 2 + 2 * B * (L * B)) / (ε / 2) < n :=
    lt_of_le_of_lt (le_max_right _ _) (hN.trans_le (by exact_mod_cast hn.le))
  rw [div_lt_iff₀ (by positivity)] at hnb
  rw [Real.dist_eq, sub_zero, abs_of_nonneg (div_nonneg (sum2_nonneg hs hf hB n x0) (by positivity)), div_lt_iff₀ (by positivity)]
  have h1 := sum2_le_memory (δ := δ) hs hf hB M n x0
  have h2 : 2 * B * n * memory δ step f M n x0 ≤ 2 * B * n * (L * B + n * (ε / (8 * (B + 1)))) := mul_le_mul_of_nonneg_left (hmem n) (by positivity)
  have h3 : 2 * B * (ε / (8 * (B + 1))) ≤ ε / 4 := by
    rw [← mul_div_assoc, div_le_div_iff₀ (by positivity) (by norm_num)]
    nlinarith
  have h4 : 2 * B * n * (n * (ε / (8 * (B + 1)))) ≤ n * n * (ε / 4) := by
    have := mul_le_mul_of_nonneg_left h3 (by positivity : (0 : ℝ) ≤ n * n)
    nlinarith
  have h5 : n * (B ^ 2 + 2 * M * B ^ 2 + 2 * B * (L * B)) ≤ n * (n * (ε / 2)) := mul_le_mul_of_nonneg_left hnb.le hn1.le
  have h6 : 0 < n * n * (ε / 4) := by positivity
  nlinarith

/-- In probability. -/
theorem average_mixing (hd : Draws draw nxt δ) (hs : Measurable (Function.uncurry step)) {f : X → ℝ} (hf : Measurable f) {B : ℝ} (hB : ∀ x, |f x| ≤ B) (x0 : X) (k : Keys.Key)
    (hmix : ∀ ε > 0, ∃ M, ∀ᶠ l in atTop, (next δ step)^[l] (fun y => |(next δ step)^[M] f y|) x0 ≤ ε) {ε : ℝ} (hε : 0 < ε) :
    Tendsto (fun n : ℕ => ideal {ω | ε ≤ |pathSum draw nxt step f n k x0 ω / n|}) atTop (𝓝 0) := by
  have h := mean_square_tendsto hd hs hf hB x0 k hmix
  have hb : Tendsto (fun n : ℕ => ENNReal.ofReal ((∫ ω, (pathSum draw nxt step f n k x0 ω / n) ^ 2 ∂ideal) / ε ^ 2)) atTop (𝓝 0) := by
    have := ENNReal.tendsto_ofReal (h.div_const (ε ^ 2))
    rwa [zero_div, ENNReal.ofReal_zero] at this
  refine tendsto_of_tendsto_of_tendsto_of_le_of_le tendsto_const_nhds hb (fun _ => bot_le) fun n => ?_
  have hm : Measurable fun ω => pathSum draw nxt step f n k x0 ω / n := ((measurable_pathSum hd hs hf n k).comp measurable_prodMk_left).div_const _
  have hbd : ∀ ω, ‖(pathSum draw nxt step f n k x0 ω / n) ^ 2‖ ≤ B ^ 2 := fun ω => by
    rw [Real.norm_eq_abs, abs_pow, abs_div, Nat.abs_cast]
    refine pow_le_pow_left₀ (by positivity) ?_ 2
    rcases Nat.eq_zero_or_pos n with rfl | hn
    · simpa using (abs_nonneg _).trans (hB x0)
    · rw [div_le_iff₀ (by exact_mod_cast hn), mul_comm]
      exact abs_pathSum_le hB n k x0 ω
  have hi : Integrable (fun ω => (pathSum draw nxt step f n k x0 ω / n) ^ 2) ideal := Integrable.of_bound (hm.pow_const 2).aestronglyMeasurable _ (.of_forall hbd)
  have hmk := mul_meas_ge_le_lintegral₀ (μ := ideal) (hm.pow_const 2).ennreal_ofReal.aemeasurable (ENNReal.ofReal (ε ^ 2))
  rw [← ofReal_integral_eq_lintegral_ofReal hi (.of_forall fun ω => sq_nonneg _)] at hmk
  rw [ENNReal.ofReal_div_of_pos (by positivity), ENNReal.le_div_iff_mul_le (.inl (by simp [hε.ne'])) (.inl ENNReal.ofReal_ne_top), mul_comm]
  refine le_trans ?_ hmk
  refine mul_le_mul' le_rfl (measure_mono fun ω hω => ?_)
  rw [Set.mem_ofPred_eq] at hω ⊢
  rw [← sq_abs (pathSum draw nxt step f n k x0 ω / n)]
  exact ENNReal.ofReal_le_ofReal (pow_le_pow_left₀ hε.le hω 2)

/-- What happens in the first `m` steps does not matter, as long as averages from wherever they lead tend to `c`. -/
theorem average_after (hd : Draws draw nxt δ) (hs : Measurable (Function.uncurry step)) {f : X → ℝ} (hf : Measurable f) (m : ℕ) (x0 : X) (k : Keys.Key) (c : ℝ) {G : Set X}
    (hG : ∀ ω, tapeIter draw nxt step m k x0 ω ∈ G) (htail : ∀ x ∈ G, ∀ ε > 0, Tendsto (fun n => ideal {ω | ε ≤ |pathSum draw nxt step f n k x ω / n - c|}) atTop (𝓝 0)) {ε : ℝ} (hε : 0 < ε) :
    Tendsto (fun n : ℕ => ideal {ω | ε ≤ |pathSum draw nxt step f n k x0 ω / n - c|}) atTop (𝓝 0) := by
  rw [ENNReal.tendsto_nhds_zero]
  intro η hη
  have hη2 : 0 < η / 2 := ENNReal.div_pos hη.ne' (by norm_num)
  have mI : Measurable fun ω => tapeIter draw nxt step m k x0 ω := (measurable_tapeIter hd hs m k).comp measurable_prodMk_left
  have h0 : Tendsto (fun n : ℕ => ∫⁻ ω, tail draw nxt step f c n (ε / 2) k (tapeIter draw nxt step m k x0 ω) ∂ideal) atTop (𝓝 0) := by
    have := tendsto_lintegral_of_dominated_convergence (μ := ideal) (F := fun (n : ℕ) ω => tail draw nxt step f c n (ε / 2) k (tapeIter draw nxt step m k x0 ω)) (f := fun _ => 0) (fun _ => 1)
      (fun n => (measurable_tail hd hs hf c n (ε / 2) k).comp mI) (fun n => .of_forall fun ω => tail_le_one c n (ε / 2) k _) (by simp)
      (.of_forall fun ω => htail _ (hG ω) (ε / 2) (half_pos hε))
    simpa using this
  have h1 := (ENNReal.tendsto_nhds_zero.mp h0) (η / 2) hη2
  have mS : Measurable fun ω => pathSum draw nxt step f m k x0 ω - m * c := ((measurable_pathSum hd hs hf m k).comp measurable_prodMk_left).sub_const _
  have h2 : Tendsto (fun n : ℕ => ideal {ω | ε / 2 ≤ dist ((pathSum draw nxt step f m k x0 ω - m * c) / ((m + n : ℕ) : ℝ)) 0}) atTop (𝓝 0) := by
    have : TendstoInMeasure ideal (fun (n : ℕ) ω => (pathSum draw nxt step f m k x0 ω - m * c) / ((m + n : ℕ) : ℝ)) atTop fun _ => (0 : ℝ) := by
      refine tendstoInMeasure_of_tendsto_ae (fun n => (mS.div_const _).aestronglyMeasurable) (.of_forall fun ω => ?_)
      refine tendsto_const_nhds.div_atTop ?_
      push_cast
      exact tendsto_atTop_add_const_left _ _ tendsto_natCast_atTop_atTop
    exact tendstoInMeasure_iff_dist.mp this _ (half_pos hε)
  have h3 := (ENNReal.tendsto_nhds_zero.mp h2) (η / 2) hη2
  have h4 : ∀ᶠ n : ℕ in atTop, ideal {ω | ε ≤ |pathSum draw nxt step f (m + n) k x0 ω / ((m + n : ℕ) : ℝ) - c|} ≤ η := by
    filter_upwards [h1, h3, eventually_gt_atTop 0] with n a1 a2 hn
    have hsub : {ω | ε ≤ |pathSum draw nxt step f (m + n) k x0 ω / ((m + n : ℕ) : ℝ) - c|} ⊆ {ω | ε / 2 ≤ dist ((pathSum draw nxt step f m k x0 ω - m * c) / ((m + n : ℕ) : ℝ)) 0}
        ∪ {ω | ε / 2 ≤ |pathSum draw nxt step f n (nxt^[m] k) (tapeIter draw nxt step m k x0 ω) ω / n - c|} := by
      intro ω hω
      by_contra hcon
      simp only [Set.mem_union, Set.mem_ofPred_eq, not_or, not_le, dist_zero_right, Real.norm_eq_abs] at hω hcon
      obtain ⟨b1, b2⟩ := hcon
      set s := pathSum draw nxt step f n (nxt^[m] k) (tapeIter draw nxt step m k x0 ω) ω with hs'
      have hn' : (0 : ℝ) < n := by exact_mod_cast hn
      have hmn : (0 : ℝ) < (m : ℝ) + n := by positivity
      rw [pathSum_add] at hω
      push_cast at hω b1
      have e : (pathSum draw nxt step f m k x0 ω + s) / ((m : ℝ) + n) - c = (pathSum draw nxt step f m k x0 ω - m * c) / ((m : ℝ) + n) + (s / n - c) * (n / ((m : ℝ) + n)) := by
        field_simp; ring
      rw [← hs', e] at hω
      have b3 : |(s / n - c) * (n / ((m : ℝ) + n))| ≤ |s / n - c| := by
        rw [abs_mul, abs_of_pos (by positivity : (0 : ℝ) < n / ((m : ℝ) + n))]
        exact mul_le_of_le_one_right (abs_nonneg _) ((div_le_one hmn).mpr (by linarith [(Nat.cast_nonneg m : (0 : ℝ) ≤ m)]))
      have := abs_add_le ((pathSum draw nxt step f m k x0 ω - m * c) / ((m : ℝ) + n)) ((s / n - c) * (n / ((m : ℝ) + n)))
      linarith
    have hr := tail_restart hd hs hf c n (ε / 2) k m k x0
    rw [← lintegral_tapeIter hd hs m k x0 (measurable_tail hd hs hf c n (ε / 2) k)] at hr
    calc _ ≤ _ := measure_mono hsub
      _ ≤ η / 2 + η / 2 := (measure_union_le _ _).trans (add_le_add a2 (by rw [hr]; exact a1))
      _ = η := ENNReal.add_halves η
  obtain ⟨N, hN⟩ := eventually_atTop.mp h4
  refine eventually_atTop.mpr ⟨m + N, fun n hn => ?_⟩
  obtain ⟨i, rfl⟩ : ∃ i, n = m + i := ⟨n - m, by omega⟩
  exact hN i (by omega)

/-- The mean of a nonnegative function after `l` steps. -/
theorem next_iterate_eq (hd : Draws draw nxt δ) (hs : Measurable (Function.uncurry step)) {g : X → ℝ} (hg : Measurable g) {B : ℝ} (h0 : ∀ x, 0 ≤ g x) (hB : ∀ x, |g x| ≤ B) (l : ℕ) (k : Keys.Key) (x : X) :
    (next δ step)^[l] g x = ∫ ω, g (tapeIter draw nxt step l k x ω) ∂ideal := by
  have hn : ∀ l x, 0 ≤ (next δ step)^[l] g x := fun l => by
    induction l with
    | zero => exact h0
    | succ l ih => intro x; rw [Function.iterate_succ_apply']; exact integral_nonneg fun z => ih _
  have e : ∀ l x, ENNReal.ofReal ((next δ step)^[l] g x) = (stepOp δ step)^[l] (fun y => ENNReal.ofReal (g y)) x := fun l => by
    induction l with
    | zero => intro x; rfl
    | succ l ih =>
      intro x
      rw [Function.iterate_succ_apply', Function.iterate_succ_apply', ← funext ih, next, stepOp,
        ofReal_integral_eq_lintegral_ofReal (integrable_step hs (measurable_next_iterate hs hg l) (abs_next_iterate_le hB l) x) (.of_forall fun z => hn l _)]
  have mI : Measurable fun ω => tapeIter draw nxt step l k x ω := (measurable_tapeIter hd hs l k).comp measurable_prodMk_left
  have hi : Integrable (fun ω => g (tapeIter draw nxt step l k x ω)) ideal := Integrable.of_bound (hg.comp mI).aestronglyMeasurable B (.of_forall fun ω => hB _)
  rw [← ENNReal.ofReal_eq_ofReal_iff (hn l x) (integral_nonneg fun ω => h0 _), e, ofReal_integral_eq_lintegral_ofReal hi (.of_forall fun ω => h0 _),
    lintegral_tapeIter hd hs l k x hg.ennreal_ofReal]

end

end Mocat.Ergodic
