import Verif.Lemmas.SmcAdaptiveStep
/-! Convergence of the estimates of runs with adaptive temperatures, after any number of updates. -/
namespace Mocat.Smc
open Mocat Mocat.Ideal Mocat.Meas Mocat.Spec MeasureTheory Filter Topology
open scoped ENNReal

theorem exp_diff {a b W : ℝ} (ha : Real.exp a ≤ W) (hb : Real.exp b ≤ W) : |Real.exp a - Real.exp b| ≤ W * min 1 |a - b| := by
  have key : ∀ {a b : ℝ}, b ≤ a → Real.exp a ≤ W → |Real.exp a - Real.exp b| ≤ W * min 1 |a - b| := by
    intro a b hab ha
    have hW : 0 ≤ W := (Real.exp_pos a).le.trans ha
    have h1 : Real.exp b = Real.exp a * Real.exp (b - a) := by rw [← Real.exp_add]; congr 1; ring
    rw [abs_of_nonneg (sub_nonneg.2 (Real.exp_le_exp.2 hab)), abs_of_nonneg (sub_nonneg.2 hab), h1]
    have h2 : 1 - Real.exp (b - a) ≤ min 1 (a - b) := by
      refine le_min ?_ ?_
      · have := Real.exp_pos (b - a); linarith
      · have := Real.add_one_le_exp (b - a); linarith
    have h3 : 0 ≤ min 1 (a - b) := le_min zero_le_one (sub_nonneg.2 hab)
    calc Real.exp a - Real.exp a * Real.exp (b - a) = Real.exp a * (1 - Real.exp (b - a)) := by ring
      _ ≤ Real.exp a * min 1 (a - b) := mul_le_mul_of_nonneg_left h2 (Real.exp_pos _).le
      _ ≤ W * min 1 (a - b) := mul_le_mul_of_nonneg_right ha h3
  rcases le_total b a with h | h
  · exact key h ha
  · rw [abs_sub_comm, abs_sub_comm a b]; exact key h hb

variable {X : Type*} [MeasurableSpace X]

/-- Reweighting a bounded function. -/
theorem reweight_family {μ0 : Measure X} [IsProbabilityMeasure μ0] {lik : X → ℝ} (hlik : Measurable lik) {M W : ℝ} (hW0 : 0 ≤ W) (hW : ∀ T ∈ Set.Icc 0 M, ∀ x, Real.exp (-(T * lik x)) ≤ W)
    {f : X → ℝ} (hf : Measurable f) (hf0 : ∀ x, 0 ≤ f x) {B : ℝ} (hB0 : 0 ≤ B) (hB : ∀ x, f x ≤ B) : Family μ0 M fun u x => Real.exp (-(u * lik x)) * f x := by
  have hDm : ∀ j : ℕ, Measurable fun x => W * min 1 (|lik x| / ((j : ℝ) + 1)) * B := fun j =>
    (measurable_const.mul (measurable_const.min (hlik.abs.div_const _))).mul_const B
  have hmin0 : ∀ (j : ℕ) x, 0 ≤ min 1 (|lik x| / ((j : ℝ) + 1)) := fun j x => le_min zero_le_one (by positivity)
  have hle : ∀ (j : ℕ) x, W * min 1 (|lik x| / ((j : ℝ) + 1)) * B ≤ W * B := fun j x =>
    mul_le_mul_of_nonneg_right (mul_le_of_le_one_right hW0 (min_le_left _ _)) hB0
  refine ⟨fun u => (Real.measurable_exp.comp (measurable_const.mul hlik).neg).mul hf, fun u x => mul_nonneg (Real.exp_pos _).le (hf0 x),
    ⟨W * B, fun u hu x => mul_le_mul (hW u hu x) (hB x) (hf0 x) hW0⟩,
    fun j x => W * min 1 (|lik x| / ((j : ℝ) + 1)) * B, W * B, hDm, fun j x => by have := hmin0 j x; positivity, hle, fun j u hu u' hu' huu x => ?_, ?_⟩
  · rw [← sub_mul, abs_mul, abs_of_nonneg (hf0 x)]
    refine mul_le_mul ((exp_diff (hW u hu x) (hW u' hu' x)).trans ?_) (hB x) (hf0 x) (by have := hmin0 j x; positivity)
    refine mul_le_mul_of_nonneg_left (min_le_min le_rfl ?_) hW0
    have e : -(u * lik x) - -(u' * lik x) = -(u - u') * lik x := by ring
    rw [e, abs_mul, abs_neg, div_eq_inv_mul]
    refine mul_le_mul_of_nonneg_right ?_ (abs_nonneg _)
    rwa [one_div] at huu
  · have h := tendsto_integral_of_dominated_convergence (μ := μ0) (F := fun (j : ℕ) x => W * min 1 (|lik x| / ((j : ℝ) + 1)) * B) (f := fun _ => 0) (fun _ => W * B)
      (fun j => (hDm j).aestronglyMeasurable) (integrable_const _) (fun j => Filter.Eventually.of_forall fun x => by
        have := hmin0 j x
        rw [Real.norm_eq_abs, abs_of_nonneg (by positivity)]; exact hle j x) (Filter.Eventually.of_forall fun x => by
        have h1 : Tendsto (fun j : ℕ => |lik x| / ((j : ℝ) + 1)) atTop (𝓝 0) := tendsto_const_nhds.div_atTop (tendsto_atTop_add_const_right _ _ tendsto_natCast_atTop_atTop)
        have h2 : Tendsto (fun j : ℕ => min 1 (|lik x| / ((j : ℝ) + 1))) atTop (𝓝 (min 1 0)) := tendsto_const_nhds.min h1
        rw [min_eq_right zero_le_one] at h2
        have h3 := (h2.const_mul W).mul_const B
        rwa [mul_zero, zero_mul] at h3)
    rwa [integral_zero] at h

theorem gam_reweight (μ0 : Measure X) (lik : X → ℝ) (T u : ℝ) (f : X → ℝ) : gam μ0 lik T (fun x => Real.exp (-(u * lik x)) * f x) = gam μ0 lik (T + u) f := by
  unfold gam
  refine integral_congr_ae (Filter.Eventually.of_forall fun x => ?_)
  simp only
  rw [← mul_assoc, ← Real.exp_add]
  congr 2
  ring

/-- What is kept along a run. -/
structure RunOK (μ0 : Measure X) (lik : X → ℝ) (M : ℝ) (κ : ℕ → Keys.Key) (A : ℝ) (s : ∀ n, (Fin (n + 1) → X) × Tape → ℝ × Red (n + 1) X) : Prop where
  measurable : ∀ n, Measurable (s n)
  dependsOn : ∀ n x, DependsOn (fun ω => s n (x, ω)) (below (κ n))ᶜ
  spread : ∀ n z, Spread A (s n z).2
  temp : ∀ n z, (s n z).1 ∈ Set.Icc 0 M
  good : Good (fun n => (Measure.pi fun _ : Fin (n + 1) => μ0).prod ideal) μ0 lik s

section
variable {μ0 : Measure X} [IsProbabilityMeasure μ0] {lik : X → ℝ} (hlik : Measurable lik) {M W : ℝ} (hW0 : 0 ≤ W) (hW : ∀ T ∈ Set.Icc 0 M, ∀ x, Real.exp (-(T * lik x)) ≤ W)
  {κ : ℕ → Keys.Key} {A : ℝ} (hA : 0 ≤ A) {s : ∀ n, (Fin (n + 1) → X) × Tape → ℝ × Red (n + 1) X}

include hlik hW0 hW hA in
theorem RunOK.reweight (hs : RunOK μ0 lik M κ A s) {nxt : ∀ n, ℝ → (Fin (n + 1) → ℝ) → (Fin (n + 1) → ℝ) → ℝ}
    (hn : ∀ n, Measurable fun z : ℝ × (Fin (n + 1) → ℝ) × (Fin (n + 1) → ℝ) => nxt n z.1 z.2.1 z.2.2) (hnM : ∀ n T lw l, T ≤ M → nxt n T lw l ∈ Set.Icc T M) :
    RunOK μ0 lik M κ (A * W) fun n z => bStep lik (nxt n) (s n z) := by
  have hT' : ∀ n z, (bStep lik (nxt n) (s n z)).1 ∈ Set.Icc (s n z).1 M := fun n z => hnM n _ _ _ (hs.temp n z).2
  have hu : ∀ n z, (bStep lik (nxt n) (s n z)).1 - (s n z).1 ∈ Set.Icc 0 M := fun n z => ⟨sub_nonneg.2 (hT' n z).1, by have := (hT' n z).2; have := (hs.temp n z).1; linarith⟩
  refine ⟨fun n => (measurable_bStep hlik (hn n)).comp (hs.measurable n), fun n x ω ω' h => ?_, fun n z => spread_bStep hA (hs.spread n z) (hW _ (hu n z)), fun n z => ⟨(hs.temp n z).1.trans (hT' n z).1, (hT' n z).2⟩,
    fun f B hf hf0 hB => ?_⟩
  · have := hs.dependsOn n x h
    simp only at this ⊢
    rw [this]
  · have hB0 : 0 ≤ max B 0 := le_max_right _ _
    have hfam := reweight_family (μ0 := μ0) hlik hW0 hW hf hf0 hB0 fun x => (hB x).trans (le_max_left _ _)
    have h := hs.good.family hlik hW hs.temp hfam hu
    simp only [Qr_bStep, gam_reweight] at h ⊢
    refine h.congr (Filter.Eventually.of_forall fun n ω => ?_)
    congr 2
    ring

include hlik hW hA in
theorem RunOK.move (hs : RunOK μ0 lik M κ A s) {cat : ∀ n, (Fin (n + 1) → ℝ) → ℝ → Fin (n + 1)} (hcat : ∀ n, IsCategoricalReal (cat n)) (thr : ℝ)
    {mv : ℝ → Keys.Key → X → Tape → X} {P : ℝ → (X → ℝ≥0∞) → X → ℝ≥0∞} (hM : MoveLaw mv P)
    (hfam : ∀ (f : X → ℝ) (B : ℝ), Measurable f → (∀ x, 0 ≤ f x) → (∀ x, f x ≤ B) → Family μ0 M fun T => PR P T f)
    (hinv : ∀ T {h : X → ℝ≥0∞}, Measurable h → ∫⁻ x, ENNReal.ofReal (Real.exp (-(T * lik x))) * P T h x ∂μ0 = ∫⁻ x, ENNReal.ofReal (Real.exp (-(T * lik x))) * h x ∂μ0) :
    RunOK μ0 lik M (fun n => (n + 1 + 1) :: κ n) A fun n z => aStep (cat n) thr mv (κ n) (s n z) z.2 := by
  refine ⟨fun n => (measurable_aStep (hcat n) thr hM (κ n)).comp ((hs.measurable n).prodMk measurable_snd), fun n x ω ω' h => ?_, fun n z => spread_aStep hA (hs.spread n z) _, hs.temp, fun f B hf hf0 hB => ?_⟩
  · have h1 := hs.dependsOn n x (fun t ht => h t fun h2 => ht (mem_below_cons h2) : ∀ t ∈ (below (κ n))ᶜ, ω t = ω' t)
    simp only at h1 ⊢
    rw [h1]
    exact aStep_dependsOn thr hM (κ n) _ fun t ht => h t ht.2
  · have h1 := aStep_inProb (μ0 := μ0) hcat thr hM κ hs.measurable hs.dependsOn hs.spread hf hf0 hB
    have h2 := hs.good.family hlik hW hs.temp (hfam f B hf hf0 hB) hs.temp
    have h3 := h1.add h2
    rw [add_zero] at h3
    refine h3.congr (Filter.Eventually.of_forall fun n z => ?_)
    have e : gam μ0 lik (s n z).1 (PR P (s n z).1 f) = gam μ0 lik (s n z).1 f := by
      have hg : Measurable fun x => ENNReal.ofReal (f x) := ENNReal.measurable_ofReal.comp hf
      have hex : ∀ T : ℝ, Measurable fun x => Real.exp (-(T * lik x)) := fun T => Real.measurable_exp.comp (measurable_const.mul hlik).neg
      have hPf : ∀ T x, P T (fun x => ENNReal.ofReal (f x)) x = ENNReal.ofReal (PR P T f x) := fun T x =>
        (ENNReal.ofReal_toReal (ne_top_of_le_ne_top ENNReal.ofReal_ne_top (hM.le hg (fun x => ENNReal.ofReal_le_ofReal (hB x)) T x))).symm
      have h := hinv (s n z).1 hg
      simp only [hPf, ← ENNReal.ofReal_mul (Real.exp_pos _).le] at h
      unfold gam
      rw [integral_eq_lintegral_of_nonneg_ae (Filter.Eventually.of_forall fun x => mul_nonneg (Real.exp_pos _).le ((hfam f B hf hf0 hB).nonneg _ x)) ((hex _).mul ((hfam f B hf hf0 hB).measurable _)).aestronglyMeasurable,
        integral_eq_lintegral_of_nonneg_ae (Filter.Eventually.of_forall fun x => mul_nonneg (Real.exp_pos _).le (hf0 x)) ((hex _).mul hf).aestronglyMeasurable]
      exact congrArg ENNReal.toReal h
    simp only [aStep, e]
    ring

/-- The independent draws a run starts from. -/
theorem start_ok (μ0 : Measure X) [IsProbabilityMeasure μ0] (lik : X → ℝ) {M : ℝ} (hM0 : 0 ≤ M) (κ : ℕ → Keys.Key) : RunOK μ0 lik M κ 1 fun _ z => ((0 : ℝ), startAt (fun _ => 0) z.1) := by
  refine ⟨fun n => measurable_const.prodMk ((measurable_startAt measurable_const).comp measurable_fst), fun n x ω ω' h => rfl, fun n z => spread_startAt (fun _ => by simp) _, fun n z => ⟨le_rfl, hM0⟩, fun f B hf hf0 hB => ?_⟩
  have hg : Measurable fun x => ENNReal.ofReal (f x) := ENNReal.measurable_ofReal.comp hf
  have hgB : ∀ x, ENNReal.ofReal (f x) ≤ ENNReal.ofReal B := fun x => ENNReal.ofReal_le_ofReal (hB x)
  have h1 : InProb (fun n => Measure.pi fun _ : Fin (n + 1) => μ0) (fun n x => Qr f (startAt (fun _ => 0) x) - gam μ0 lik 0 f) 0 := by
    rw [inProb_real]
    intro ε hε
    simp only [sub_zero]
    set v : ℝ≥0∞ := (ENNReal.ofReal 1 * ENNReal.ofReal B) ^ 2 with hv
    have hv' : v ≠ ∞ := ENNReal.pow_ne_top (ENNReal.mul_ne_top ENNReal.ofReal_ne_top ENNReal.ofReal_ne_top)
    have hlim : Tendsto (fun n : ℕ => v / ((n + 1 : ℕ) : ℝ≥0∞) / ENNReal.ofReal (ε ^ 2)) atTop (𝓝 0) := by
      have h1 : Tendsto (fun n : ℕ => (((n + 1 : ℕ) : ℝ≥0∞))⁻¹) atTop (𝓝 0) := (tendsto_add_atTop_iff_nat 1).2 ENNReal.tendsto_inv_nat_nhds_zero
      have h2 : Tendsto (fun n : ℕ => v * (((n + 1 : ℕ) : ℝ≥0∞))⁻¹ * (ENNReal.ofReal (ε ^ 2))⁻¹) atTop (𝓝 (v * 0 * (ENNReal.ofReal (ε ^ 2))⁻¹)) :=
        ENNReal.Tendsto.mul_const (ENNReal.Tendsto.const_mul h1 (Or.inr hv')) (Or.inr (ENNReal.inv_ne_top.2 (ENNReal.ofReal_pos.2 (by positivity)).ne'))
      rw [mul_zero, zero_mul] at h2
      exact h2
    refine tendsto_of_tendsto_of_tendsto_of_le_of_le tendsto_const_nhds hlim (fun n => bot_le) fun n => ?_
    have hm : ∀ i : Fin (n + 1), ∫⁻ x : Fin (n + 1) → X, ENNReal.ofReal (f (x i)) ∂(Measure.pi fun _ : Fin (n + 1) => μ0) = ∫⁻ x, ENNReal.ofReal (f x) ∂μ0 := fun i => by
      have h1 := lintegral_map (μ := Measure.pi fun _ : Fin (n + 1) => μ0) hg (measurable_pi_apply i)
      rw [pi_marginal μ0 i] at h1
      exact h1.symm
    have hQ : ∀ x : Fin (n + 1) → X, Q (fun x => ENNReal.ofReal (f x)) (startAt (fun _ => 0) x) = ∑ i, ENNReal.ofReal (1 / (n + 1 : ℕ)) * ENNReal.ofReal (f (x i)) := fun x => by
      rw [Q_eq_share]
      simp only [share_startAt, Real.exp_zero, mul_one]
      rfl
    have h2 := lintegral_sq_start (n := n + 1) (Measure.pi fun _ : Fin (n + 1) => μ0) (x := fun x => x) (fun i => measurable_pi_apply i) (fun hh i j hij => pi_uncorrelated μ0 hh i j hij)
      (g := fun _ => 0) measurable_const (W := 1) (fun _ => by simp) hg hgB (m := ∫⁻ x, ENNReal.ofReal (f x) ∂μ0) (fun i => by
        simp only [Real.exp_zero, ENNReal.ofReal_one, one_mul]; exact hm i)
    have h3 : ∫⁻ x : Fin (n + 1) → X, Q (fun x => ENNReal.ofReal (f x)) (startAt (fun _ => 0) x) ∂(Measure.pi fun _ : Fin (n + 1) => μ0) = ∫⁻ x, ENNReal.ofReal (f x) ∂μ0 := by
      have hmi : ∀ i : Fin (n + 1), Measurable fun x : Fin (n + 1) → X => ENNReal.ofReal (f (x i)) := fun i => hg.comp (measurable_pi_apply i)
      rw [lintegral_congr hQ, lintegral_finsetSum _ fun i _ => (hmi i).const_mul _]
      have h4 : ∀ i : Fin (n + 1), ∫⁻ x : Fin (n + 1) → X, ENNReal.ofReal (1 / (n + 1 : ℕ)) * ENNReal.ofReal (f (x i)) ∂(Measure.pi fun _ : Fin (n + 1) => μ0)
          = ENNReal.ofReal (1 / (n + 1 : ℕ)) * ∫⁻ x, ENNReal.ofReal (f x) ∂μ0 := fun i => by
        rw [lintegral_const_mul _ (hmi i), hm i]
      rw [Finset.sum_congr rfl fun i _ => h4 i, Finset.sum_const, Finset.card_univ, Fintype.card_fin, nsmul_eq_mul, ← mul_assoc, ← ENNReal.ofReal_natCast,
        ← ENNReal.ofReal_mul (by positivity), mul_one_div_cancel (by positivity), ENNReal.ofReal_one, one_mul]
    have hfin : ∫⁻ x, ENNReal.ofReal (f x) ∂μ0 ≠ ∞ := by
      refine ne_top_of_le_ne_top ?_ (lintegral_mono hgB)
      rw [lintegral_const, measure_univ, mul_one]
      exact ENNReal.ofReal_ne_top
    have h5 := chebyshev (Measure.pi fun _ : Fin (n + 1) => μ0) ((measurable_Q hg).comp (measurable_startAt measurable_const)) hfin (v := v / ((n + 1 : ℕ) : ℝ≥0∞))
      (ENNReal.div_ne_top hv' (by simp)) h3 h2 hε
    refine le_trans (le_of_eq ?_) h5
    congr 1
    ext x
    simp only [Set.mem_ofPred_eq, Function.comp]
    rw [Qr_eq hf0]
    have h6 : gam μ0 lik 0 f = (∫⁻ x, ENNReal.ofReal (f x) ∂μ0).toReal := by
      simp only [gam, zero_mul, neg_zero, Real.exp_zero, one_mul]
      exact integral_eq_lintegral_of_nonneg_ae (Filter.Eventually.of_forall hf0) hf.aestronglyMeasurable
    rw [h6]
  exact h1.fst

include hlik hW0 hW in
/-- The estimates after any number of updates. -/
theorem aRun_ok {cat : ∀ n, (Fin (n + 1) → ℝ) → ℝ → Fin (n + 1)} (hcat : ∀ n, IsCategoricalReal (cat n)) (thr : ℝ)
    {mv : ℝ → Keys.Key → X → Tape → X} {P : ℝ → (X → ℝ≥0∞) → X → ℝ≥0∞} (hM : MoveLaw mv P) (hM0 : 0 ≤ M)
    (hfam : ∀ (f : X → ℝ) (B : ℝ), Measurable f → (∀ x, 0 ≤ f x) → (∀ x, f x ≤ B) → Family μ0 M fun T => PR P T f)
    (hinv : ∀ T {h : X → ℝ≥0∞}, Measurable h → ∫⁻ x, ENNReal.ofReal (Real.exp (-(T * lik x))) * P T h x ∂μ0 = ∫⁻ x, ENNReal.ofReal (Real.exp (-(T * lik x))) * h x ∂μ0)
    {nxt : ∀ n, ℝ → (Fin (n + 1) → ℝ) → (Fin (n + 1) → ℝ) → ℝ}
    (hn : ∀ n, Measurable fun z : ℝ × (Fin (n + 1) → ℝ) × (Fin (n + 1) → ℝ) => nxt n z.1 z.2.1 z.2.2) (hnM : ∀ n T lw l, T ≤ M → nxt n T lw l ∈ Set.Icc T M) (key : Keys.Key) (k : ℕ) :
    RunOK μ0 lik M (fun n => keyAt (n + 1) key k) (W ^ (k + 1)) fun n z => aRun (cat n) thr mv lik (nxt n) key z.1 k z.2 := by
  induction k with
  | zero =>
    have h := (start_ok μ0 lik hM0 (fun _ => key)).reweight hlik hW0 hW zero_le_one hn hnM
    rw [one_mul] at h
    rw [zero_add, pow_one]
    exact h
  | succ k ih =>
    have h := (ih.move hlik hW (by positivity) hcat thr hM hfam hinv).reweight hlik hW0 hW (by positivity) hn hnM
    rw [← pow_succ] at h
    exact h

end

end Mocat.Smc
