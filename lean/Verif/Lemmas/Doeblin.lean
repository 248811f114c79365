import Verif.Lemmas.Ergodic
/-!
# Chains that restart from their stationary law with a fixed probability (Doeblin)
-/
namespace Mocat.Ergodic
open MeasureTheory ProbabilityTheory Mocat.Ideal Filter
open scoped ENNReal Topology

section
variable {X D : Type*} [MeasurableSpace X] [MeasurableSpace D] {draw : Keys.Key → Tape → D} {nxt : Keys.Key → Keys.Key} {δ : Measure D} [IsProbabilityMeasure δ] {step : X → D → X}
  {π : Measure X} {S : Set X} {e : ℝ}

/-- From `S` the chain stays in `S`, and one step has at least the share `e` of the stationary law `π`. -/
structure Doeblin (δ : Measure D) (step : X → D → X) (π : Measure X) (S : Set X) (e : ℝ) : Prop where
  inv : ∀ f : X → ℝ≥0∞, Measurable f → ∫⁻ x, ∫⁻ w, f (step x w) ∂δ ∂π = ∫⁻ x, f x ∂π
  stay : ∀ x ∈ S, ∀ᵐ z ∂δ, step x z ∈ S
  pos : 0 < e
  le_one : e ≤ 1
  share : ∀ x ∈ S, ∀ f : X → ℝ≥0∞, Measurable f → ENNReal.ofReal e * ∫⁻ y, f y ∂π ≤ stepOp δ step f x

theorem Doeblin.iterate [IsProbabilityMeasure π] (hs : Measurable (Function.uncurry step)) (h : Doeblin δ step π S e) {f : X → ℝ≥0∞} (hf : Measurable f) (hfin : ∫⁻ y, f y ∂π ≠ ∞) (n : ℕ) :
    ∀ x ∈ S, ENNReal.ofReal (1 - (1 - e) ^ n) * ∫⁻ y, f y ∂π ≤ (stepOp δ step)^[n] f x := by
  have hr0 : 0 ≤ 1 - e := by linarith [h.le_one]
  have hr1 : 1 - e ≤ 1 := by linarith [h.pos]
  induction n with
  | zero => intro x _; simp
  | succ n ih =>
    intro x hx
    rw [Function.iterate_succ_apply']
    obtain ⟨g, hg⟩ : ∃ g, g = (stepOp δ step)^[n] f := ⟨_, rfl⟩
    have mg : Measurable g := hg ▸ measurable_stepOp_iterate hs n hf
    have ig : ∫⁻ y, g y ∂π = ∫⁻ y, f y ∂π := by rw [hg]; exact stepOp_invariant hs h.inv n hf
    rw [← hg] at ih ⊢
    obtain ⟨I, hI⟩ : ∃ I, I = ∫⁻ y, f y ∂π := ⟨_, rfl⟩
    rw [← hI] at ih hfin ig ⊢
    have hrn0 : 0 ≤ (1 - e) ^ n := pow_nonneg hr0 n
    have hrn1 : (1 - e) ^ n ≤ 1 := pow_le_one₀ hr0 hr1
    obtain ⟨c, hc⟩ : ∃ c, c = ENNReal.ofReal (1 - (1 - e) ^ n) * I := ⟨_, rfl⟩
    rw [← hc] at ih
    have hcfin : c ≠ ∞ := hc ▸ ENNReal.mul_ne_top ENNReal.ofReal_ne_top hfin
    have hsplit : ENNReal.ofReal ((1 - e) ^ n) * I + c = I := by
      rw [hc, ← add_mul, ← ENNReal.ofReal_add hrn0 (by linarith)]
      simp
    have h1 : ENNReal.ofReal ((1 - e) ^ n) * I ≤ ∫⁻ y, (g y - c) ∂π := by
      have : I ≤ ∫⁻ y, (g y - c) ∂π + c := by
        rw [← ig]
        refine (lintegral_mono fun y => (le_tsub_add : g y ≤ g y - c + c)).trans ?_
        rw [lintegral_add_right _ measurable_const]
        simp
      rw [← hsplit] at this
      exact (ENNReal.add_le_add_iff_right hcfin).1 this
    have h2 : stepOp δ step g x = stepOp δ step (fun y => g y - c) x + c := by
      unfold stepOp
      have : ∫⁻ z, g (step x z) ∂δ = ∫⁻ z, (g (step x z) - c + c) ∂δ := by
        refine lintegral_congr_ae ((h.stay x hx).mono fun z hz => ?_)
        simp only
        rw [tsub_add_cancel_of_le (ih _ hz)]
      rw [this, lintegral_add_right _ measurable_const]
      simp
    rw [h2]
    refine le_trans (le_of_eq ?_) (add_le_add_left ((mul_le_mul_right h1 _).trans (h.share x hx _ (mg.sub_const c))) c)
    rw [← mul_assoc, ← ENNReal.ofReal_mul h.pos.le, hc, ← add_mul, ← ENNReal.ofReal_add (mul_nonneg h.pos.le hrn0) (by linarith)]
    congr 2
    ring

/-- The mean of a bounded quantity after `n` steps. -/
theorem Doeblin.mean [IsProbabilityMeasure π] (hd : Draws draw nxt δ) (hs : Measurable (Function.uncurry step)) (h : Doeblin δ step π S e) {f : X → ℝ} (hf : Measurable f) {lo hi : ℝ}
    (hlo : ∀ x, lo ≤ f x) (hhi : ∀ x, f x ≤ hi) (n : ℕ) (k : Keys.Key) {x : X} (hx : x ∈ S) :
    |∫ ω, f (tapeIter draw nxt step n k x ω) ∂ideal - ∫ y, f y ∂π| ≤ (1 - e) ^ n * (hi - lo) := by
  have hr0 : 0 ≤ 1 - e := by linarith [h.le_one]
  have hr1 : 1 - e ≤ 1 := by linarith [h.pos]
  have hrn0 : 0 ≤ (1 - e) ^ n := pow_nonneg hr0 n
  have hrn1 : (1 - e) ^ n ≤ 1 := pow_le_one₀ hr0 hr1
  have mX : Measurable fun ω => tapeIter draw nxt step n k x ω := (measurable_tapeIter hd hs n k).comp measurable_prodMk_left
  have bd : ∀ y, ‖f y‖ ≤ max |lo| |hi| := fun y => abs_le_max_abs_abs (hlo y) (hhi y)
  have iπ : Integrable f π := Integrable.of_bound hf.aestronglyMeasurable _ (.of_forall bd)
  have iX : Integrable (fun ω => f (tapeIter draw nxt step n k x ω)) ideal := Integrable.of_bound (hf.comp mX).aestronglyMeasurable _ (.of_forall fun ω => bd _)
  -- for nonnegative functions
  have key : ∀ g : X → ℝ, Measurable g → (∀ y, 0 ≤ g y) → Integrable g π → Integrable (fun ω => g (tapeIter draw nxt step n k x ω)) ideal →
      (1 - (1 - e) ^ n) * ∫ y, g y ∂π ≤ ∫ ω, g (tapeIter draw nxt step n k x ω) ∂ideal := by
    intro g mg h0 i1 i2
    have e1 := ofReal_integral_eq_lintegral_ofReal i1 (.of_forall h0)
    have e2 := ofReal_integral_eq_lintegral_ofReal i2 (.of_forall fun ω => h0 _)
    have h3 := h.iterate hs mg.ennreal_ofReal (by rw [← e1]; exact ENNReal.ofReal_ne_top) n x hx
    rw [← lintegral_tapeIter hd hs n k x mg.ennreal_ofReal, ← e1, ← e2, ← ENNReal.ofReal_mul (by linarith)] at h3
    exact (ENNReal.ofReal_le_ofReal_iff (integral_nonneg fun ω => h0 _)).1 h3
  have k1 := key (fun y => f y - lo) (hf.sub_const _) (fun y => sub_nonneg.2 (hlo y)) (iπ.sub (integrable_const _)) (iX.sub (integrable_const _))
  have k2 := key (fun y => hi - f y) (hf.const_sub _) (fun y => sub_nonneg.2 (hhi y)) ((integrable_const _).sub iπ) ((integrable_const _).sub iX)
  rw [integral_sub iπ (integrable_const _), integral_sub iX (integrable_const _)] at k1
  rw [integral_sub (integrable_const _) iπ, integral_sub (integrable_const _) iX] at k2
  simp only [integral_const, probReal_univ, one_smul] at k1 k2
  have l1 : lo ≤ ∫ y, f y ∂π := by simpa using integral_mono (integrable_const lo) iπ hlo
  have l2 : ∫ y, f y ∂π ≤ hi := by simpa using integral_mono iπ (integrable_const hi) hhi
  rw [abs_le]
  constructor <;> nlinarith

/-- The probability of an event after `n` steps. -/
theorem Doeblin.prob [IsProbabilityMeasure π] (hd : Draws draw nxt δ) (hs : Measurable (Function.uncurry step)) (h : Doeblin δ step π S e) {A : Set X} (hA : MeasurableSet A) (n : ℕ)
    (k : Keys.Key) {x : X} (hx : x ∈ S) : |(ideal {ω | tapeIter draw nxt step n k x ω ∈ A}).toReal - (π A).toReal| ≤ (1 - e) ^ n := by
  have mX : Measurable fun ω => tapeIter draw nxt step n k x ω := (measurable_tapeIter hd hs n k).comp measurable_prodMk_left
  have := h.mean hd hs (f := A.indicator 1) (measurable_one.indicator hA) (lo := 0) (hi := 1) (fun y => Set.indicator_nonneg (fun _ _ => zero_le_one) y)
    (fun y => Set.indicator_le_self' (fun _ _ => zero_le_one) y) n k hx
  rw [integral_indicator_one hA] at this
  have e1 : ∫ ω, A.indicator (1 : X → ℝ) (tapeIter draw nxt step n k x ω) ∂ideal = (ideal {ω | tapeIter draw nxt step n k x ω ∈ A}).toReal :=
    integral_indicator_one (mX hA)
  rw [e1] at this
  simpa [Measure.real] using this

theorem geom_sum_le {r : ℝ} (hr0 : 0 ≤ r) (hr1 : r < 1) (n : ℕ) : ∑ j ∈ Finset.range n, r ^ j ≤ 1 / (1 - r) := by
  rw [geom_sum_eq hr1.ne, ← neg_div_neg_eq, neg_sub, neg_sub]
  have := pow_nonneg hr0 n
  exact div_le_div_of_nonneg_right (by linarith) (by linarith)

/-- The mean of sums along a chain, after the first step. -/
theorem Doeblin.sum_mean [IsProbabilityMeasure π] (hd : Draws draw nxt δ) (hs : Measurable (Function.uncurry step)) (h : Doeblin δ step π S e) {f : X → ℝ} (hf : Measurable f) {lo hi : ℝ}
    (hlo : ∀ x, lo ≤ f x) (hhi : ∀ x, f x ≤ hi) (h0 : ∫ y, f y ∂π = 0) (n : ℕ) (k : Keys.Key) {x : X} (hx : x ∈ S) :
    |next δ step (sum1 δ step f n) x| ≤ (hi - lo) * ((1 - e) / e) := by
  have hr0 : 0 ≤ 1 - e := by linarith [h.le_one]
  have hr1 : 1 - e < 1 := by linarith [h.pos]
  have bd : ∀ y, |f y| ≤ max |lo| |hi| := fun y => abs_le_max_abs_abs (hlo y) (hhi y)
  have hM : 0 ≤ hi - lo := by linarith [hlo x, hhi x]
  have hi' : ∀ j, Integrable (fun ω => f (tapeIter draw nxt step j k x ω)) ideal := fun j =>
    Integrable.of_bound (hf.comp ((measurable_tapeIter hd hs j k).comp measurable_prodMk_left)).aestronglyMeasurable _ (.of_forall fun ω => bd _)
  have e1 : next δ step (sum1 δ step f n) x = ∑ j ∈ Finset.range n, ∫ ω, f (tapeIter draw nxt step (j + 1) k x ω) ∂ideal := by
    have e2 := (integral_pathSum hd hs hf bd (n + 1) k x).1
    rw [sum1] at e2
    unfold pathSum at e2
    rw [integral_finsetSum _ fun j _ => hi' j, Finset.sum_range_succ'] at e2
    have e3 : ∫ ω, f (tapeIter draw nxt step 0 k x ω) ∂ideal = f x := by simp [tapeIter]
    rw [e3] at e2
    linarith
  rw [e1]
  refine (Finset.abs_sum_le_sum_abs _ _).trans ?_
  have e4 : ∀ j ∈ Finset.range n, |∫ ω, f (tapeIter draw nxt step (j + 1) k x ω) ∂ideal| ≤ (1 - e) ^ j * ((1 - e) * (hi - lo)) := fun j _ => by
    have := h.mean hd hs hf hlo hhi (j + 1) k hx
    rw [h0, sub_zero, pow_succ, mul_assoc] at this
    exact this
  refine (Finset.sum_le_sum e4).trans ?_
  rw [← Finset.sum_mul]
  have e5 : ∑ j ∈ Finset.range n, (1 - e) ^ j ≤ 1 / e := by
    have := geom_sum_le hr0 hr1 n
    rwa [sub_sub_cancel] at this
  calc _ ≤ 1 / e * ((1 - e) * (hi - lo)) := mul_le_mul_of_nonneg_right e5 (mul_nonneg hr0 hM)
    _ = _ := by ring

/-- The mean square of sums along a chain. -/
theorem Doeblin.sum_sq [IsProbabilityMeasure π] (hd : Draws draw nxt δ) (hs : Measurable (Function.uncurry step)) (h : Doeblin δ step π S e) {f : X → ℝ} (hf : Measurable f) {lo hi : ℝ}
    (hlo : ∀ x, lo ≤ f x) (hhi : ∀ x, f x ≤ hi) (h0 : ∫ y, f y ∂π = 0) (n : ℕ) (k : Keys.Key) : ∀ {x : X}, x ∈ S →
    sum2 δ step f n x ≤ n * ((hi - lo) ^ 2 * (2 / e - 1)) := by
  have bd : ∀ y, |f y| ≤ max |lo| |hi| := fun y => abs_le_max_abs_abs (hlo y) (hhi y)
  induction n with
  | zero => intro x _; simp [sum2]
  | succ n ih =>
    intro x hx
    have iπ : Integrable f π := Integrable.of_bound hf.aestronglyMeasurable _ (.of_forall bd)
    have l1 : lo ≤ 0 := by rw [← h0]; simpa using integral_mono (integrable_const lo) iπ hlo
    have l2 : 0 ≤ hi := by rw [← h0]; simpa using integral_mono iπ (integrable_const hi) hhi
    have hfM : |f x| ≤ hi - lo := abs_le.2 ⟨by linarith [hlo x], by linarith [hhi x]⟩
    have h1 := h.sum_mean hd hs hf hlo hhi h0 n k hx
    have h2 : next δ step (sum2 δ step f n) x ≤ n * ((hi - lo) ^ 2 * (2 / e - 1)) := by
      have m2 : Measurable fun z => sum2 δ step f n (step x z) := (measurable_sum2 hs hf n).comp (hs.comp measurable_prodMk_left)
      have i2 : Integrable (fun z => sum2 δ step f n (step x z)) δ := Integrable.of_bound m2.aestronglyMeasurable _ (.of_forall fun z => abs_sum2_le bd n _)
      have := integral_mono_ae i2 (integrable_const (n * ((hi - lo) ^ 2 * (2 / e - 1)))) ((h.stay x hx).mono fun z hz => ih hz)
      simpa [next] using this
    have h3 : f x ^ 2 ≤ (hi - lo) ^ 2 := by rw [← sq_abs]; exact pow_le_pow_left₀ (abs_nonneg _) hfM 2
    have h4 : f x * next δ step (sum1 δ step f n) x ≤ (hi - lo) * ((hi - lo) * ((1 - e) / e)) := by
      refine (le_abs_self _).trans ?_
      rw [abs_mul]
      exact mul_le_mul hfM h1 (abs_nonneg _) ((abs_nonneg _).trans hfM)
    have he := h.pos.ne'
    have e1 : (2 : ℝ) / e - 1 = 1 + 2 * ((1 - e) / e) := by field_simp; ring
    rw [e1] at h2 ⊢
    rw [sum2]
    push_cast
    nlinarith

/-- The mean squared error of an average along a chain. -/
theorem Doeblin.average [IsProbabilityMeasure π] (hd : Draws draw nxt δ) (hs : Measurable (Function.uncurry step)) (h : Doeblin δ step π S e) {f : X → ℝ} (hf : Measurable f) {lo hi : ℝ}
    (hlo : ∀ x, lo ≤ f x) (hhi : ∀ x, f x ≤ hi) {n : ℕ} (hn : 0 < n) (k : Keys.Key) {x : X} (hx : x ∈ S) :
    ∫⁻ ω, ENNReal.ofReal ((pathSum draw nxt step f n k x ω / n - ∫ y, f y ∂π) ^ 2) ∂ideal ≤ ENNReal.ofReal ((hi - lo) ^ 2 * (2 / e - 1) / n) := by
  obtain ⟨m, hm⟩ : ∃ m, m = ∫ y, f y ∂π := ⟨_, rfl⟩
  have bd : ∀ y, |f y| ≤ max |lo| |hi| := fun y => abs_le_max_abs_abs (hlo y) (hhi y)
  have iπ : Integrable f π := Integrable.of_bound hf.aestronglyMeasurable _ (.of_forall bd)
  have mg : Measurable fun y => f y - m := hf.sub_const m
  have bg : ∀ y, |f y - m| ≤ max |lo - m| |hi - m| := fun y => abs_le_max_abs_abs (by linarith [hlo y]) (by linarith [hhi y])
  have h0 : ∫ y, (f y - m) ∂π = 0 := by rw [integral_sub iπ (integrable_const _)]; simp [hm]
  have h1 := h.sum_sq hd hs mg (lo := lo - m) (hi := hi - m) (fun y => by linarith [hlo y]) (fun y => by linarith [hhi y]) h0 n k hx
  rw [← (integral_pathSum hd hs mg bg n k x).2, sub_sub_sub_cancel_right] at h1
  have hn0 : (0 : ℝ) < n := by exact_mod_cast hn
  rw [← hm]
  have e1 : ∀ ω, (pathSum draw nxt step f n k x ω / n - m) ^ 2 = pathSum draw nxt step (fun y => f y - m) n k x ω ^ 2 / n ^ 2 := fun ω => by
    simp only [pathSum, Finset.sum_sub_distrib, Finset.sum_const, Finset.card_range, nsmul_eq_mul]
    field_simp
  simp_rw [e1]
  have mP : Measurable fun ω => pathSum draw nxt step (fun y => f y - m) n k x ω := (measurable_pathSum hd hs mg n k).comp measurable_prodMk_left
  have iP : Integrable (fun ω => pathSum draw nxt step (fun y => f y - m) n k x ω ^ 2) ideal :=
    Integrable.of_bound (mP.pow_const 2).aestronglyMeasurable _ (.of_forall fun ω => by
      rw [Real.norm_eq_abs, abs_pow]
      exact pow_le_pow_left₀ (abs_nonneg _) (abs_pathSum_le bg n k x ω) 2)
  rw [← ofReal_integral_eq_lintegral_ofReal (iP.div_const _) (.of_forall fun ω => by positivity), integral_div]
  refine ENNReal.ofReal_le_ofReal ?_
  rw [div_le_div_iff₀ (by positivity) hn0]
  nlinarith

/-- A chain started in `S` stays there. -/
theorem Doeblin.stays (hd : Draws draw nxt δ) (hs : Measurable (Function.uncurry step)) (h : Doeblin δ step π S e) (hS : MeasurableSet S) (n : ℕ) (k : Keys.Key) {x : X} (hx : x ∈ S) :
    ∀ᵐ ω ∂ideal, tapeIter draw nxt step n k x ω ∈ S := by
  have key : ∀ n, ∀ x ∈ S, (stepOp δ step)^[n] (Sᶜ.indicator 1) x = 0 := by
    intro n
    induction n with
    | zero => intro x hx; simp [hx]
    | succ n ih =>
      intro x hx
      rw [Function.iterate_succ_apply']
      generalize (stepOp δ step)^[n] (Sᶜ.indicator 1) = g at ih
      unfold stepOp
      rw [lintegral_congr_ae ((h.stay x hx).mono fun z hz => ih _ hz)]
      simp
  have mX : Measurable fun ω => tapeIter draw nxt step n k x ω := (measurable_tapeIter hd hs n k).comp measurable_prodMk_left
  have h1 := lintegral_tapeIter hd hs n k x (h := Sᶜ.indicator 1) (measurable_one.indicator hS.compl)
  rw [key n x hx] at h1
  have h2 : ∫⁻ ω, Sᶜ.indicator (1 : X → ℝ≥0∞) (tapeIter draw nxt step n k x ω) ∂ideal = ideal {ω | tapeIter draw nxt step n k x ω ∈ Sᶜ} := lintegral_indicator_one (mX hS.compl)
  rw [h2] at h1
  exact h1

end

end Mocat.Ergodic
