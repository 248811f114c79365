import Verif.Lemmas.AliveAdaptiveStep
/-! Convergence of the estimates of runs with thresholds chosen from the particles, after any number of updates. -/
namespace Mocat.Alive
open Mocat Mocat.Ideal Mocat.Meas Mocat.Spec Mocat.Smc MeasureTheory Filter Topology
open scoped ENNReal

theorem congr_limit {Ω : ℕ → Type*} [∀ n, MeasurableSpace (Ω n)] {Pr : ∀ n, Measure (Ω n)} {f : ∀ n, Ω n → ℝ} {a b : ℝ} (h : InProb Pr f a) (e : a = b) : InProb Pr f b := e ▸ h

variable {n : ℕ} {Z : Type*}

/-- Estimates of masses count particles. -/
theorem er_card (A : Set Z) (R : St n Z) : er A (fun _ => 1) R = R.2.toReal * ((n : ℝ)⁻¹ * (pat A R.1).card) := by
  classical
  unfold er pat
  rw [Finset.card_filter]
  push_cast
  refine congrArg (fun x => R.2.toReal * ((n : ℝ)⁻¹ * x)) (Finset.sum_congr rfl fun i _ => ?_)
  simp only [Set.indicator]

/-- How the next threshold is chosen: from all particles at the start, then from the particles and the previous threshold; about the share `ρ` of the particles with weight keeps weight. -/
structure NextLaw [MeasurableSpace Z] (dist : Z → ℝ) (ρ : ℝ) (nx0 : (Fin n → Z) → ℝ) (nx : ℝ → (Fin n → Z) → ℝ) : Prop where
  measurable0 : Measurable nx0
  measurable : Measurable fun w : ℝ × (Fin n → Z) => nx w.1 w.2
  le : ∀ t z, nx t z ≤ t
  lower0 : ∀ z, ρ * n - 1 ≤ (pat (upTo dist (nx0 z)) z).card
  upper0 : ∀ z, ((pat {x | dist x < nx0 z} z).card : ℝ) ≤ ρ * n + 1
  lower : ∀ t z, ρ * (pat (upTo dist t) z).card - 1 ≤ (pat (upTo dist (nx t z)) z).card
  upper : ∀ t z, ((pat {x | dist x < nx t z} z).card : ℝ) ≤ ρ * (pat (upTo dist t) z).card + 1

/-- The states of a run. -/
noncomputable def thrRun (dist : Z → ℝ) (cat : Finset (Fin n) → ℝ → Fin n) (C : Set (Finset (Fin n))) (mv : ℝ → Keys.Key → Z → Tape → Z) (nx0 : (Fin n → Z) → ℝ) (nx : ℝ → (Fin n → Z) → ℝ) (κ : Keys.Key)
    (z : Fin n → Z) : ℕ → Tape → ℝ × St n Z
  | 0, _ => (nx0 z, (z, 1))
  | k + 1, ω =>
    let s := moveAt dist cat C mv (keyAt n κ k) (thrRun dist cat C mv nx0 nx κ z k ω) ω
    (nx s.1 s.2.1, s.2)

variable [MeasurableSpace Z]

/-- The uncorrelated draws a run starts from. -/
theorem start_good (P0 : ∀ n, Measure (Fin (n + 1) → Z)) [∀ n, IsProbabilityMeasure (P0 n)] (μ : Measure Z) [IsProbabilityMeasure μ] (hP0 : ∀ n i, (P0 n).map (fun z => z i) = μ)
    (hind : ∀ n {h : Z → ℝ≥0∞}, Measurable h → ∀ i j, i ≠ j → ∫⁻ w, h (w i) * h (w j) ∂(P0 n) = (∫⁻ w, h (w i) ∂(P0 n)) * ∫⁻ w, h (w j) ∂(P0 n)) :
    Good (fun n => (P0 n).prod ideal) μ (fun _ : Unit => Set.univ) fun _ z => ((), (z.1, 1)) := by
  intro f B hf hf0 hB
  have hg : Measurable fun x => ENNReal.ofReal (f x) := ENNReal.measurable_ofReal.comp hf
  have hgB : ∀ x, ENNReal.ofReal (f x) ≤ ENNReal.ofReal B := fun x => ENNReal.ofReal_le_ofReal (hB x)
  have h1 : InProb P0 (fun n x => er Set.univ f ((x, 1) : St (n + 1) Z) - ∫ z in Set.univ, f z ∂μ) 0 := by
    rw [inProb_real]
    intro ε hε
    simp only [sub_zero]
    set v : ℝ≥0∞ := ENNReal.ofReal B ^ 2 with hv
    have hv' : v ≠ ∞ := ENNReal.pow_ne_top ENNReal.ofReal_ne_top
    have hlim : Tendsto (fun n : ℕ => v / ((n + 1 : ℕ) : ℝ≥0∞) / ENNReal.ofReal (ε ^ 2)) atTop (𝓝 0) := by
      have h1 : Tendsto (fun n : ℕ => (((n + 1 : ℕ) : ℝ≥0∞))⁻¹) atTop (𝓝 0) := (tendsto_add_atTop_iff_nat 1).2 ENNReal.tendsto_inv_nat_nhds_zero
      have h2 : Tendsto (fun n : ℕ => v * (((n + 1 : ℕ) : ℝ≥0∞))⁻¹ * (ENNReal.ofReal (ε ^ 2))⁻¹) atTop (𝓝 (v * 0 * (ENNReal.ofReal (ε ^ 2))⁻¹)) :=
        ENNReal.Tendsto.mul_const (ENNReal.Tendsto.const_mul h1 (Or.inr hv')) (Or.inr (ENNReal.inv_ne_top.2 (ENNReal.ofReal_pos.2 (by positivity)).ne'))
      rw [mul_zero, zero_mul] at h2
      exact h2
    refine tendsto_of_tendsto_of_tendsto_of_le_of_le tendsto_const_nhds hlim (fun n => bot_le) fun n => ?_
    have hm : Measurable fun x : Fin (n + 1) → Z => est Set.univ (fun z => ENNReal.ofReal (f z)) ((x, 1) : St (n + 1) Z) := (measurable_est MeasurableSet.univ hg).comp (measurable_id.prodMk measurable_const)
    have hA : ∀ k : ℕ, MeasurableSet ((fun _ => Set.univ : ℕ → Set Z) k) := fun _ => MeasurableSet.univ
    have e1 : ∫⁻ x, est Set.univ (fun z => ENNReal.ofReal (f z)) ((x, 1) : St (n + 1) Z) ∂(P0 n) = ∫⁻ z in Set.univ, ENNReal.ofReal (f z) ∂μ := by
      have := lintegral_est_zero (A := fun _ : ℕ => (Set.univ : Set Z)) (cat := fun _ _ => 0) (C := ∅) (mv := fun _ _ z _ => z) hA [] μ (P0 n) (hP0 n) hg
      simp only [iter, lintegral_const, measure_univ, mul_one] at this
      exact this
    have e2 := lintegral_sq_zero (A := fun _ : ℕ => (Set.univ : Set Z)) hA μ (P0 n) (x := fun w => w) (fun i => measurable_pi_apply i) (hP0 n) (fun hh i j hij => hind n hh i j hij) hg hgB
    have hfin : ∫⁻ z in Set.univ, ENNReal.ofReal (f z) ∂μ ≠ ∞ :=
      ne_top_of_le_ne_top (ENNReal.ofReal_ne_top (r := B)) ((lintegral_mono hgB).trans (by rw [lintegral_const, Measure.restrict_univ, measure_univ, mul_one]))
    have main := chebyshev (P0 n) hm hfin (ENNReal.div_ne_top hv' (by simp)) e1 e2 hε
    have e3 : (∫⁻ z in Set.univ, ENNReal.ofReal (f z) ∂μ).toReal = ∫ z in Set.univ, f z ∂μ :=
      (integral_eq_lintegral_of_nonneg_ae (Filter.Eventually.of_forall hf0) hf.aestronglyMeasurable).symm
    rw [e3] at main
    refine le_trans (le_of_eq ?_) main
    congr 1
    ext x
    simp only [Set.mem_ofPred_eq]
    rw [er_eq hf0]
  exact h1.fst

section
variable (P0 : ∀ n, Measure (Fin (n + 1) → Z)) [∀ n, IsProbabilityMeasure (P0 n)] (μ : Measure Z) [IsProbabilityMeasure μ] (hP0 : ∀ n i, (P0 n).map (fun z => z i) = μ)
    (hind : ∀ n {h : Z → ℝ≥0∞}, Measurable h → ∀ i j, i ≠ j → ∫⁻ w, h (w i) * h (w j) ∂(P0 n) = (∫⁻ w, h (w i) ∂(P0 n)) * ∫⁻ w, h (w j) ∂(P0 n))
    {dist : Z → ℝ} (hdist : Measurable dist) (h0 : ∀ t, μ {z | dist z = t} = 0)
    {cat : ∀ n, Finset (Fin (n + 1)) → ℝ → Fin (n + 1)} {C : ∀ n, Set (Finset (Fin (n + 1)))} (hc : ∀ n, CatLaw (cat n) (C n))
    {mv : ℝ → Keys.Key → Z → Tape → Z} {P : ℝ → (Z → ℝ≥0∞) → Z → ℝ≥0∞} (hM : MoveLaw mv P)
    (hnet : ∀ (f : Z → ℝ) (B : ℝ), Measurable f → (∀ x, 0 ≤ f x) → (∀ x, f x ≤ B) → Net μ (PC dist P f))
    (hinv : ∀ t {h : Z → ℝ≥0∞}, Measurable h → ∫⁻ z in upTo dist t, P t h z ∂μ = ∫⁻ z in upTo dist t, h z ∂μ)
    {ρ : ℝ} {nx0 : ∀ n, (Fin (n + 1) → Z) → ℝ} {nx : ∀ n, ℝ → (Fin (n + 1) → Z) → ℝ} (hn : ∀ n, NextLaw dist ρ (nx0 n) (nx n)) (κ : ℕ → Keys.Key)
include hP0 hind hdist h0 hc hM hnet hinv hn

/-- The estimates converge and the mass below the thresholds tends to the powers of `ρ`. -/
theorem thrRun_ok (k : ℕ) :
    RunOK P0 μ dist (fun n => keyAt (n + 1) (κ n) k) (fun n z => thrRun dist (cat n) (C n) mv (nx0 n) (nx n) (κ n) z.1 k z.2) ∧
    InProb (fun n => (P0 n).prod ideal) (fun n z => μ.real (upTo dist (thrRun dist (cat n) (C n) mv (nx0 n) (nx n) (κ n) z.1 k z.2).1)) (ρ ^ (k + 1)) := by
  have hfac : ∀ {n : ℕ} (R : St (n + 1) Z), R.2 ≤ 1 → R.2.toReal * (((n + 1 : ℕ) : ℝ)⁻¹ * 1) ≤ 1 / ((n : ℝ) + 1) := fun {n} R hR => by
    have h1 : R.2.toReal ≤ 1 := by
      have := ENNReal.toReal_mono ENNReal.one_ne_top hR
      rwa [ENNReal.toReal_one] at this
    push_cast
    rw [mul_one, one_div]
    exact mul_le_of_le_one_left (by positivity) h1
  -- from counts to estimates
  have hest : ∀ {n : ℕ} (R : St (n + 1) Z), R.2 ≤ 1 → ∀ a b : ℝ, a ≤ b + 1 → R.2.toReal * (((n + 1 : ℕ) : ℝ)⁻¹ * a) ≤ R.2.toReal * (((n + 1 : ℕ) : ℝ)⁻¹ * b) + 1 / ((n : ℝ) + 1) := fun {n} R hR a b hab => by
    have h1 : R.2.toReal * (((n + 1 : ℕ) : ℝ)⁻¹ * a) ≤ R.2.toReal * (((n + 1 : ℕ) : ℝ)⁻¹ * (b + 1)) :=
      mul_le_mul_of_nonneg_left (mul_le_mul_of_nonneg_left hab (by positivity)) ENNReal.toReal_nonneg
    have := hfac R hR
    rw [mul_add, mul_add] at h1
    linarith
  induction k with
  | zero =>
    have hst := start_good P0 μ hP0 hind
    have hsub : ∀ n (w : (Fin (n + 1) → Z) × Tape), upTo dist (nx0 n w.1) ⊆ Set.univ := fun n w => Set.subset_univ _
    have hu : ∀ {n : ℕ} (x : Fin (n + 1) → Z), ((pat Set.univ x).card : ℝ) = ((n + 1 : ℕ) : ℝ) := fun {n} x => by
      have : pat Set.univ x = Finset.univ := Finset.ext fun i => by simp [mem_pat]
      rw [this, Finset.card_univ, Fintype.card_fin]
    refine ⟨⟨fun n => ?_, fun n x ω ω' _ => rfl, fun n z => le_rfl, hst.lower hdist h0 (fun n z => nx0 n z.1) hsub⟩, ?_⟩
    · exact ((hn n).measurable0.comp measurable_fst).prodMk (measurable_fst.prodMk measurable_const)
    · have h := hst.mass hdist h0 (fun n z => nx0 n z.1) hsub ρ (fun n w => ?_) (fun n w => ?_)
      · have h2 := h.add (inProb_const (ρ * μ.real Set.univ))
        refine congr_limit (h2.congr (Filter.Eventually.of_forall fun n z => ?_)) ?_
        · change μ.real (upTo dist (nx0 n z.1)) - ρ * μ.real Set.univ + ρ * μ.real Set.univ = μ.real (upTo dist (nx0 n z.1))
          ring
        · simp
      · have h1 := hest ((w.1, 1) : St (n + 1) Z) le_rfl (ρ * (pat Set.univ w.1).card) (pat (upTo dist (nx0 n w.1)) w.1).card (by have := (hn n).lower0 w.1; rw [hu]; linarith)
        simp only
        rw [er_subset (Set.subset_univ _), er_card, er_card]
        have e : ρ * ((1 : ℝ≥0∞).toReal * (((n + 1 : ℕ) : ℝ)⁻¹ * (pat Set.univ w.1).card)) = (1 : ℝ≥0∞).toReal * (((n + 1 : ℕ) : ℝ)⁻¹ * (ρ * (pat Set.univ w.1).card)) := by ring
        simp only at h1 ⊢
        rw [e]
        linarith
      · have h1 := hest ((w.1, 1) : St (n + 1) Z) le_rfl (pat {x | dist x < nx0 n w.1} w.1).card (ρ * (pat Set.univ w.1).card) (by have := (hn n).upper0 w.1; rw [hu]; exact this)
        simp only
        rw [er_subset (Set.subset_univ _), er_card, er_card]
        have e : ρ * ((1 : ℝ≥0∞).toReal * (((n + 1 : ℕ) : ℝ)⁻¹ * (pat Set.univ w.1).card)) = (1 : ℝ≥0∞).toReal * (((n + 1 : ℕ) : ℝ)⁻¹ * (ρ * (pat Set.univ w.1).card)) := by ring
        simp only at h1 ⊢
        rw [e]
        exact h1
  | succ k ih =>
    obtain ⟨hok, hmass⟩ := ih
    have hmv := hok.move hdist hc hM hnet hinv
    have hst := hmv.good
    obtain ⟨s, hs⟩ : ∃ s : ∀ n, (Fin (n + 1) → Z) × Tape → ℝ × St (n + 1) Z,
        s = fun n z => moveAt dist (cat n) (C n) mv (keyAt (n + 1) (κ n) k) (thrRun dist (cat n) (C n) mv (nx0 n) (nx n) (κ n) z.1 k z.2) z.2 := ⟨_, rfl⟩
    have hrun : ∀ n (z : (Fin (n + 1) → Z) × Tape), thrRun dist (cat n) (C n) mv (nx0 n) (nx n) (κ n) z.1 (k + 1) z.2 = (nx n (s n z).1 (s n z).2.1, (s n z).2) := fun n z => by rw [hs]; rfl
    have hs1 : ∀ n (z : (Fin (n + 1) → Z) × Tape), (s n z).1 = (thrRun dist (cat n) (C n) mv (nx0 n) (nx n) (κ n) z.1 k z.2).1 := fun n z => by rw [hs]; rfl
    rw [← hs] at hmv hst
    have hsub : ∀ n (w : (Fin (n + 1) → Z) × Tape), upTo dist (nx n (s n w).1 (s n w).2.1) ⊆ upTo dist (s n w).1 := fun n w z hz => le_trans (show dist z ≤ _ from hz) ((hn n).le _ _)
    simp only [hrun]
    refine ⟨⟨fun n => ?_, fun n x ω ω' h => ?_, fun n z => hmv.le_one n z, hst.lower hdist h0 (fun n z => nx n (s n z).1 (s n z).2.1) hsub⟩, ?_⟩
    · have h1 : Measurable fun z => nx n (s n z).1 (s n z).2.1 := (hn n).measurable.comp ((measurable_fst.comp (hmv.measurable n)).prodMk (measurable_fst.comp (measurable_snd.comp (hmv.measurable n))))
      exact h1.prodMk (measurable_snd.comp (hmv.measurable n))
    · have h1 := hmv.dependsOn n x h
      simp only at h1 ⊢
      rw [h1]
    · have h := hst.mass hdist h0 (fun n z => nx n (s n z).1 (s n z).2.1) hsub ρ (fun n w => ?_) (fun n w => ?_)
      · have h2 := h.add ((inProb_const ρ).mul hmass)
        refine congr_limit (h2.congr (Filter.Eventually.of_forall fun n z => ?_)) ?_
        · rw [hs1]
          ring
        · rw [zero_add, pow_succ' ρ (k + 1)]
      · have h1 := hest (s n w).2 (hmv.le_one n w) (ρ * (pat (upTo dist (s n w).1) (s n w).2.1).card) (pat (upTo dist (nx n (s n w).1 (s n w).2.1)) (s n w).2.1).card (by have := (hn n).lower (s n w).1 (s n w).2.1; linarith)
        rw [er_subset (hsub n w), er_card, er_card]
        have e : ρ * ((s n w).2.2.toReal * (((n + 1 : ℕ) : ℝ)⁻¹ * (pat (upTo dist (s n w).1) (s n w).2.1).card))
          = (s n w).2.2.toReal * (((n + 1 : ℕ) : ℝ)⁻¹ * (ρ * (pat (upTo dist (s n w).1) (s n w).2.1).card)) := by ring
        rw [e]
        linarith
      · have hsub' : {x | dist x < nx n (s n w).1 (s n w).2.1} ⊆ upTo dist (s n w).1 := fun z hz => hsub n w (show dist z ≤ _ from le_of_lt hz)
        have h1 := hest (s n w).2 (hmv.le_one n w) _ (ρ * (pat (upTo dist (s n w).1) (s n w).2.1).card) ((hn n).upper (s n w).1 (s n w).2.1)
        rw [er_subset hsub', er_card, er_card]
        have e : ρ * ((s n w).2.2.toReal * (((n + 1 : ℕ) : ℝ)⁻¹ * (pat (upTo dist (s n w).1) (s n w).2.1).card))
          = (s n w).2.2.toReal * (((n + 1 : ℕ) : ℝ)⁻¹ * (ρ * (pat (upTo dist (s n w).1) (s n w).2.1).card)) := by ring
        rw [e]
        exact h1

end

end Mocat.Alive
