import Verif.Lemmas.SmcVariance
import Verif.Props.SmcLaw
/-!
# C108: tempered SMC converges as the ensemble grows

The draws come from an ideal generator (`Verif.Spec.Tape`); the initial values are independent draws from the prior.
-/
namespace Mocat.Props
open Mocat Mocat.Smc Mocat.Ideal Mocat.Meas MeasureTheory
open scoped ENNReal

variable {n d : ℕ} {X ρ π : Type*}

/-- Specification: the self-normalised weighted mean of `f` over an ensemble. -/
noncomputable def smcMean (f : X → ℝ) (ens : Ensemble n X ρ) : ℝ := (∑ i, Real.exp (ens i).logWeight * f (ens i).mc.value) / ∑ i, Real.exp (ens i).logWeight

/-- Specification: the expectation of `f` under the law with density proportional to `exp (-T lik)` with respect to `μ0`. -/
noncomputable def temperedMean [MeasurableSpace X] (μ0 : Measure X) (lik : X → ℝ) (T : ℝ) (f : X → ℝ) : ℝ :=
  (∫ x, Real.exp (-(T * lik x)) * f x ∂μ0) / ∫ x, Real.exp (-(T * lik x)) ∂μ0

/-- The constant of the bound. -/
noncomputable def spreadConst (k : ℕ) (W B z ε : ℝ) : ℝ := 2 * ((k + 1) * (W ^ (k + 1) * (2 * B + 1)) ^ 2) / (min (z / 2) (ε * z / (2 * (1 + 2 * B)))) ^ 2

theorem Q_toReal {g : X → ℝ} (hg : ∀ x, 0 ≤ g x) (R : Red n X) : (Q (fun x => ENNReal.ofReal (g x)) R).toReal = ∑ i, share R i * g (R.1 i) := by
  have hs : ∀ i, 0 ≤ share R i := fun i => by unfold share; positivity
  rw [Q_eq_share, ENNReal.toReal_sum fun i _ => ENNReal.mul_ne_top ENNReal.ofReal_ne_top ENNReal.ofReal_ne_top]
  exact Finset.sum_congr rfl fun i _ => by rw [ENNReal.toReal_mul, ENNReal.toReal_ofReal (hs i), ENNReal.toReal_ofReal (hg _)]

/-- The weighted mean as a ratio of estimates. -/
theorem mean_ratio [NeZero n] {f : X → ℝ} {B : ℝ} (hB : ∀ x, |f x| ≤ B) (R : Red n X) :
    (Q (fun x => ENNReal.ofReal (f x + B)) R).toReal / (Q (fun _ => ENNReal.ofReal 1) R).toReal = (∑ i, Real.exp (R.2.1 i) * f (R.1 i)) / (∑ i, Real.exp (R.2.1 i)) + B := by
  have hpos : (0 : ℝ) < ∑ j, Real.exp (R.2.1 j) := Finset.sum_pos (fun i _ => Real.exp_pos _) ⟨0, Finset.mem_univ _⟩
  rw [Q_toReal (fun x => by have := (abs_le.mp (hB x)).1; linarith), Q_toReal fun _ => zero_le_one]
  simp only [mul_one, share_sum]
  rw [div_eq_iff (Real.exp_pos _).ne']
  have : ∀ i, share R i * (f (R.1 i) + B) = Real.exp R.2.2 * ((Real.exp (R.2.1 i) * f (R.1 i)) / ∑ j, Real.exp (R.2.1 j)) + B * share R i := fun i => by
    unfold share; ring
  rw [Finset.sum_congr rfl fun i _ => this i, Finset.sum_add_distrib, ← Finset.mul_sum, ← Finset.mul_sum, share_sum, Finset.sum_div]
  ring

/-- From second moments of the estimates to the weighted mean. -/
theorem mean_concentrates [NeZero n] {Ω : Type*} [MeasurableSpace Ω] (μ : Measure Ω) [IsProbabilityMeasure μ] {R : Ω → Red n X} [MeasurableSpace X] (hR : Measurable R) (Γ : Measure X)
    [IsFiniteMeasure Γ] (k : ℕ) {W : ℝ} (hW : 0 ≤ W)
    (h1 : ∀ g : X → ℝ≥0∞, Measurable g → ∫⁻ ω, Q g (R ω) ∂μ = ∫⁻ x, g x ∂Γ)
    (h2 : ∀ g : X → ℝ≥0∞, Measurable g → ∀ B, (∀ x, g x ≤ B) → ∫⁻ ω, Q g (R ω) ^ 2 ∂μ ≤ (∫⁻ x, g x ∂Γ) ^ 2 + (k + 1) * (ENNReal.ofReal (W ^ (k + 1)) * B) ^ 2 / n)
    {f : X → ℝ} (hf : Measurable f) {B : ℝ} (hB0 : 0 ≤ B) (hB : ∀ x, |f x| ≤ B) {ε : ℝ} (hε : 0 < ε) :
    μ {ω | ε ≤ |(∑ i, Real.exp ((R ω).2.1 i) * f ((R ω).1 i)) / (∑ i, Real.exp ((R ω).2.1 i)) - (∫ x, f x ∂Γ) / Γ.real Set.univ|}
      ≤ ENNReal.ofReal (spreadConst k W B (Γ.real Set.univ) ε / n) ∧
    μ {ω | ε ≤ |Real.exp (R ω).2.2 - Γ.real Set.univ|} ≤ ENNReal.ofReal ((k + 1) * (W ^ (k + 1)) ^ 2 / ε ^ 2 / n) := by
  have hn : (0 : ℝ) < n := by exact_mod_cast Nat.pos_of_ne_zero (NeZero.ne n)
  have hmass : 0 < Γ.real Set.univ := by
    rw [Measure.real, ENNReal.toReal_pos_iff]
    refine ⟨?_, measure_lt_top _ _⟩
    have e1 := h1 (fun _ => 1) measurable_const
    rw [lintegral_const, one_mul] at e1
    have hm1 : Measurable fun ω => Q (fun _ => 1) (R ω) := (measurable_Q measurable_const).comp hR
    rw [← e1, lintegral_pos_iff_support hm1]
    have e2 : (Function.support fun ω => Q (fun _ => 1) (R ω)) = Set.univ := Set.eq_univ_of_forall fun ω => by
      have : Q (fun _ => 1) (R ω) = ENNReal.ofReal (Real.exp (R ω).2.2) := by
        rw [← share_sum (R ω), ENNReal.ofReal_sum_of_nonneg fun i _ => by unfold share; positivity, Q_eq_share]
        simp
      rw [Function.mem_support, this]
      exact (ENNReal.ofReal_pos.mpr (Real.exp_pos _)).ne'
    rw [e2, measure_univ]
    exact one_pos
  -- Chebyshev for a bounded real test function
  have key : ∀ (g : X → ℝ) (b : ℝ), Measurable g → 0 ≤ b → (∀ x, 0 ≤ g x) → (∀ x, g x ≤ b) → ∀ δ, 0 < δ →
      μ {ω | δ ≤ |(Q (fun x => ENNReal.ofReal (g x)) (R ω)).toReal - ∫ x, g x ∂Γ|} ≤ ENNReal.ofReal ((k + 1) * (W ^ (k + 1) * b) ^ 2 / n / δ ^ 2) := by
    intro g b hg hb hg0 hgb δ hδ
    have hgm : Measurable fun x => ENNReal.ofReal (g x) := ENNReal.measurable_ofReal.comp hg
    have hle : ∀ x, ENNReal.ofReal (g x) ≤ ENNReal.ofReal b := fun x => ENNReal.ofReal_le_ofReal (hgb x)
    have hfin : ∫⁻ x, ENNReal.ofReal (g x) ∂Γ ≠ ∞ := by
      refine ne_top_of_le_ne_top ?_ (lintegral_mono hle)
      rw [lintegral_const]
      exact ENNReal.mul_ne_top ENNReal.ofReal_ne_top (measure_ne_top _ _)
    have hv : (k + 1) * (ENNReal.ofReal (W ^ (k + 1)) * ENNReal.ofReal b) ^ 2 / n = ENNReal.ofReal ((k + 1) * (W ^ (k + 1) * b) ^ 2 / n) := by
      rw [ENNReal.ofReal_div_of_pos hn, ENNReal.ofReal_mul (by positivity), ENNReal.ofReal_pow (p := W ^ (k + 1) * b) (by positivity), ENNReal.ofReal_mul (p := W ^ (k + 1)) (by positivity),
        ENNReal.ofReal_natCast]
      congr 2
      rw [ENNReal.ofReal_add (by positivity) zero_le_one, ENNReal.ofReal_natCast, ENNReal.ofReal_one]
    have h := chebyshev μ ((measurable_Q hgm).comp hR) hfin (v := ENNReal.ofReal ((k + 1) * (W ^ (k + 1) * b) ^ 2 / n)) ENNReal.ofReal_ne_top (h1 _ hgm)
      (by rw [← hv]; exact h2 _ hgm _ hle) hδ
    rw [← ENNReal.ofReal_div_of_pos (by positivity)] at h
    rw [integral_eq_lintegral_of_nonneg_ae (Filter.Eventually.of_forall hg0) hg.aestronglyMeasurable]
    exact h
  have hZ : ∀ ω, (Q (fun _ => ENNReal.ofReal 1) (R ω)).toReal = Real.exp (R ω).2.2 := fun ω => by
    rw [Q_toReal fun _ => zero_le_one]
    simp only [mul_one, share_sum]
  have hone : ∫ _x, (1 : ℝ) ∂Γ = Γ.real Set.univ := by simp
  constructor
  · set b := 2 * B + 1 with hb
    have hbpos : 0 ≤ b := by positivity
    have hint : Integrable f Γ := Integrable.of_bound hf.aestronglyMeasurable B (Filter.Eventually.of_forall fun x => by rw [Real.norm_eq_abs]; exact hB x)
    have hlow : ∀ x, 0 ≤ f x + B := fun x => by have := (abs_le.mp (hB x)).1; linarith
    have hup : ∀ x, f x + B ≤ 2 * B := fun x => by have := (abs_le.mp (hB x)).2; linarith
    have hY := key (fun x => f x + B) b (hf.add_const B) hbpos hlow (fun x => (hup x).trans (by linarith))
    have hZ' := key (fun _ => 1) b measurable_const hbpos (fun _ => zero_le_one) (fun _ => by linarith)
    rw [hone] at hZ'
    have hsum : ∫ x, (f x + B) ∂Γ = (∫ x, f x ∂Γ) + B * Γ.real Set.univ := by
      rw [integral_add hint (integrable_const B), integral_const, smul_eq_mul, mul_comm]
    have hyz : |∫ x, (f x + B) ∂Γ| ≤ 2 * B * Γ.real Set.univ := by
      rw [abs_of_nonneg (integral_nonneg hlow)]
      refine (integral_mono (hint.add (integrable_const B)) (integrable_const (2 * B)) hup).trans (le_of_eq ?_)
      rw [integral_const, smul_eq_mul, mul_comm]
    have hr := ratio_bound μ (Y := fun ω => (Q (fun x => ENNReal.ofReal (f x + B)) (R ω)).toReal) (Z := fun ω => (Q (fun _ => ENNReal.ofReal 1) (R ω)).toReal) hmass (by positivity) hyz hY hZ' hε (by positivity)
    have he : {ω | ε ≤ |(∑ i, Real.exp ((R ω).2.1 i) * f ((R ω).1 i)) / (∑ i, Real.exp ((R ω).2.1 i)) - (∫ x, f x ∂Γ) / Γ.real Set.univ|}
        = {ω | ε ≤ |(Q (fun x => ENNReal.ofReal (f x + B)) (R ω)).toReal / (Q (fun _ => ENNReal.ofReal 1) (R ω)).toReal - (∫ x, (f x + B) ∂Γ) / Γ.real Set.univ|} := by
      ext ω
      simp only [Set.mem_ofPred_eq]
      rw [mean_ratio hB, hsum, add_div, mul_div_cancel_right₀ _ hmass.ne', add_sub_add_right_eq_sub]
    rw [he]
    refine hr.trans (le_of_eq ?_)
    rw [spreadConst]
    congr 1
    ring
  · have h := key (fun _ => 1) 1 measurable_const zero_le_one (fun _ => zero_le_one) (fun _ => le_rfl) ε hε
    simp only [hZ, hone, mul_one] at h
    refine h.trans (le_of_eq ?_)
    congr 1
    field_simp

section
variable [MeasurableSpace X] [NeZero n] {kern : Tape → Kernel Keys.Key π X ρ} {prior lik : X → ℝ} {p : Params} {par : π} {mv : ℝ → Keys.Key → X → Tape → X}
  {P : ℝ → (X → ℝ≥0∞) → X → ℝ≥0∞} (hI : InnerLaw kern prior lik p par mv P)
  (c : Config) (alpha0 : ℝ) (rest0 : ρ) (key : Keys.Key)
include hI

/-- The second moment of the estimates. -/
theorem smc_second_moment {cat : (Fin n → ℝ) → ℝ → Fin n} (hcat : IsCategoricalReal cat) (hlik : Measurable lik) (l : List ℝ)
    (μ0 : Measure X) [IsProbabilityMeasure μ0] (hinv : ∀ T {h : X → ℝ≥0∞}, Measurable h →
      ∫⁻ x, ENNReal.ofReal (Real.exp (-(T * lik x))) * P T h x ∂μ0 = ∫⁻ x, ENNReal.ofReal (Real.exp (-(T * lik x))) * h x ∂μ0)
    {W : ℝ} (hW0 : 0 ≤ W) (hW : ∀ x, Real.exp (-scheduleAt l 0 * lik x) ≤ W) (k : ℕ) (hWk : ∀ j < k, ∀ x, Real.exp (-(scheduleAt l (j + 1) - scheduleAt l j) * lik x) ≤ W)
    {f : X → ℝ≥0∞} (hf : Measurable f) {B : ℝ≥0∞} (hB : ∀ x, f x ≤ B) :
    ∫⁻ x0, ∫⁻ ω, Q f (redIter cat p.essThresholdResample lik (fun k => scheduleAt l (k + 1) - scheduleAt l k) (fun k => mv (scheduleAt l k)) key
        (startAt (fun x => -scheduleAt l 0 * lik x) x0) k ω) ^ 2 ∂ideal ∂(Measure.pi fun _ : Fin n => μ0)
      ≤ (∫⁻ x, ENNReal.ofReal (Real.exp (-(scheduleAt l k * lik x))) * f x ∂μ0) ^ 2 + (k + 1) * (ENNReal.ofReal (W ^ (k + 1)) * B) ^ 2 / n := by
  have hexp' : ∀ T : ℝ, Measurable fun x => ENNReal.ofReal (Real.exp (-T * lik x)) := fun T =>
    ENNReal.measurable_ofReal.comp (Real.measurable_exp.comp (measurable_const.mul hlik))
  induction k generalizing f B with
  | zero =>
    have h := lintegral_sq_start (n := n) (Measure.pi fun _ : Fin n => μ0) (x := fun x => x) (fun i => measurable_pi_apply i) (fun hh i j hij => pi_uncorrelated μ0 hh i j hij)
      (g := fun x => -scheduleAt l 0 * lik x) (measurable_const.mul hlik) hW hf hB (m := ∫⁻ x, ENNReal.ofReal (Real.exp (-(scheduleAt l 0 * lik x))) * f x ∂μ0) (fun i => by
        have hm : Measurable fun x => ENNReal.ofReal (Real.exp (-scheduleAt l 0 * lik x)) * f x := (hexp' _).mul hf
        have h1 := lintegral_map (μ := Measure.pi fun _ : Fin n => μ0) hm (measurable_pi_apply i)
        rw [pi_marginal μ0 i] at h1
        rw [← h1]
        simp only [neg_mul])
    simp only [redIter, lintegral_const, measure_univ, mul_one]
    simpa using h
  | succ k ih =>
    set T := scheduleAt l k
    set T' := scheduleAt l (k + 1)
    set g : X → ℝ≥0∞ := fun x => ENNReal.ofReal (Real.exp (-(T' - T) * lik x)) * f x with hg
    have hgm : Measurable g := (hexp' _).mul hf
    have hgB : ∀ x, P T g x ≤ ENNReal.ofReal W * B := fun x => by
      rw [← hI.law T [] x hgm]
      refine (lintegral_mono fun ω => mul_le_mul' (ENNReal.ofReal_le_ofReal (hWk k (by omega) _)) (hB _)).trans (le_of_eq ?_)
      rw [lintegral_const, measure_univ, mul_one]
    have hstep : ∀ x0 : Fin n → X, _ ≤ _ := fun x0 =>
      lintegral_sq_succ hcat p.essThresholdResample hlik (fun k => scheduleAt l (k + 1) - scheduleAt l k) (mv := fun k => mv (scheduleAt l k))
        (fun t κ => hI.measurable _ κ) (fun t κ x => hI.dependsOn _ κ x) (P := fun t => P (scheduleAt l t)) (fun t κ x _ hh => hI.law _ κ x hh)
        (fun t _ hh => hI.op _ hh) key (startAt (fun x => -scheduleAt l 0 * lik x) x0) hW0 hW0 (spread_startAt hW x0) k (fun j hj => hWk j hj) hf hB
    refine (lintegral_mono hstep).trans ?_
    rw [lintegral_add_right _ measurable_const, lintegral_const, measure_univ, mul_one]
    refine (add_le_add_left (ih (fun j hj => hWk j (by omega)) (hI.op T hgm) hgB) _).trans (le_of_eq ?_)
    rw [hinv T hgm, add_assoc]
    congr 1
    · congr 1
      refine lintegral_congr fun x => ?_
      rw [hg, ← mul_assoc, ← ENNReal.ofReal_mul (Real.exp_pos _).le, ← Real.exp_add]
      congr 3
      ring
    · rw [ENNReal.div_eq_inv_mul, ENNReal.div_eq_inv_mul, ENNReal.div_eq_inv_mul, ← mul_add]
      congr 1
      rw [← mul_assoc (ENNReal.ofReal (W ^ (k + 1))), ← ENNReal.ofReal_mul (by positivity), ← ENNReal.ofReal_mul (by positivity), ← pow_succ, ← pow_succ', ← pow_succ]
      push_cast
      ring

/-- Convergence, for any inner sampler that leaves the tempered laws invariant. -/
theorem smc_consistent {cat : (Fin n → ℝ) → ℝ → Fin n} (hcat : IsCategoricalReal cat) (hlik : Measurable lik) (l : List ℝ) (hl : c.schedule = some l) (hpos : ∀ j, 0 < scheduleAt l j)
    (hmono : Monotone (scheduleAt l)) {w : ℝ} (hw : ∀ x, w ≤ lik x)
    (μ0 : Measure X) [IsProbabilityMeasure μ0] (hinv : ∀ T {h : X → ℝ≥0∞}, Measurable h →
      ∫⁻ x, ENNReal.ofReal (Real.exp (-(T * lik x))) * P T h x ∂μ0 = ∫⁻ x, ENNReal.ofReal (Real.exp (-(T * lik x))) * h x ∂μ0)
    (k : ℕ) {f : X → ℝ} (hf : Measurable f) {B : ℝ} (hB0 : 0 ≤ B) (hB : ∀ x, |f x| ≤ B) {ε : ℝ} (hε : 0 < ε) :
    ((Measure.pi fun _ : Fin n => μ0).prod ideal)
        {z | ε ≤ |smcMean f ((tapeSmc cat kern prior lik c p par alpha0 rest0 key z.1 z.2).state k).1 - temperedMean μ0 lik (scheduleAt l k) f|}
      ≤ ENNReal.ofReal (spreadConst k (Real.exp (scheduleAt l k * |w|)) B (∫ x, Real.exp (-(scheduleAt l k * lik x)) ∂μ0) ε / n) ∧
    ((Measure.pi fun _ : Fin n => μ0).prod ideal)
        {z | ε ≤ |Real.exp (((tapeSmc cat kern prior lik c p par alpha0 rest0 key z.1 z.2).state k).1 0).logNorm - ∫ x, Real.exp (-(scheduleAt l k * lik x)) ∂μ0|}
      ≤ ENNReal.ofReal ((k + 1) * (Real.exp (scheduleAt l k * |w|) ^ (k + 1)) ^ 2 / ε ^ 2 / n) := by
  have hne : ∀ j, scheduleAt l j ≠ 0 := fun j => (hpos j).ne'
  have hexpR : ∀ T : ℝ, Measurable fun x => Real.exp (-(T * lik x)) := fun T => Real.measurable_exp.comp (measurable_const.mul hlik).neg
  have hexp : ∀ T : ℝ, Measurable fun x => ENNReal.ofReal (Real.exp (-(T * lik x))) := fun T => ENNReal.measurable_ofReal.comp (hexpR T)
  set W := Real.exp (scheduleAt l k * |w|) with hWdef
  have hbound : ∀ (t : ℝ) x, 0 ≤ t → t ≤ scheduleAt l k → Real.exp (-t * lik x) ≤ W := fun t x h0 h1 => by
    rw [hWdef, Real.exp_le_exp]
    have h2 : -lik x ≤ |w| := by have := hw x; have := neg_abs_le w; linarith
    have h3 := mul_le_mul_of_nonneg_left h2 h0
    have h4 := mul_le_mul_of_nonneg_right h1 (abs_nonneg w)
    linarith
  set R : (Fin n → X) × Tape → Red n X := fun z => redIter cat p.essThresholdResample lik (fun k => scheduleAt l (k + 1) - scheduleAt l k) (fun k => mv (scheduleAt l k)) (0 :: key)
        (startAt (fun x => -scheduleAt l 0 * lik x) z.1) k z.2 with hR
  have hRm : Measurable R := by
    have h := (measurable_redIter_joint hcat p.essThresholdResample hlik (fun k => scheduleAt l (k + 1) - scheduleAt l k) (mv := fun k => mv (scheduleAt l k))
        (fun t κ => hI.measurable _ κ) (fun t κ x => hI.dependsOn _ κ x) (P := fun t => P (scheduleAt l t)) (fun t κ x _ hh => hI.law _ κ x hh)
        (fun t _ hh => hI.op _ hh) (0 :: key) k).comp ((((measurable_startAt (n := n) (g := fun x => -scheduleAt l 0 * lik x) (measurable_const.mul hlik)).comp measurable_fst).prodMk
          (measurable_snd (α := Fin n → X) (β := Tape))))
    exact h
  have hred : ∀ z : (Fin n → X) × Tape, redOf ((tapeSmc cat kern prior lik c p par alpha0 rest0 key z.1 z.2).state k).1 = R z := fun z =>
    tapeSmc_iter hI cat c alpha0 rest0 key z.1 z.2 l hl hne k
  set Γ : Measure X := μ0.withDensity fun x => ENNReal.ofReal (Real.exp (-(scheduleAt l k * lik x))) with hΓ
  have hint : Integrable (fun x => Real.exp (-(scheduleAt l k * lik x))) μ0 :=
    Integrable.of_bound (hexpR _).aestronglyMeasurable W (Filter.Eventually.of_forall fun x => by
      rw [Real.norm_eq_abs, abs_of_pos (Real.exp_pos _), ← neg_mul]; exact hbound _ x (hpos k).le le_rfl)
  have hfinΓ : IsFiniteMeasure Γ := isFiniteMeasure_withDensity_ofReal hint.2
  have hreal : Γ.real Set.univ = ∫ x, Real.exp (-(scheduleAt l k * lik x)) ∂μ0 := by
    rw [Measure.real, hΓ, withDensity_apply _ MeasurableSet.univ, Measure.restrict_univ, integral_eq_lintegral_of_nonneg_ae (Filter.Eventually.of_forall fun x => (Real.exp_pos _).le)
      (hexpR _).aestronglyMeasurable]
  have hΓint : ∀ g : X → ℝ≥0∞, Measurable g → ∫⁻ x, g x ∂Γ = ∫⁻ x, ENNReal.ofReal (Real.exp (-(scheduleAt l k * lik x))) * g x ∂μ0 := fun g hg => by
    rw [hΓ, lintegral_withDensity_eq_lintegral_mul _ (hexp _) hg]
    rfl
  have hΓf : ∫ x, f x ∂Γ = ∫ x, Real.exp (-(scheduleAt l k * lik x)) * f x ∂μ0 := by
    rw [hΓ, integral_withDensity_eq_integral_toReal_smul (hexp _) (Filter.Eventually.of_forall fun x => ENNReal.ofReal_lt_top)]
    refine integral_congr_ae (Filter.Eventually.of_forall fun x => ?_)
    simp only [smul_eq_mul, ENNReal.toReal_ofReal (Real.exp_pos _).le]
  have main := mean_concentrates ((Measure.pi fun _ : Fin n => μ0).prod ideal) hRm Γ k (W := W) (Real.exp_pos _).le
    (fun g hg => by
      have hm : Measurable fun z => Q g (R z) := (measurable_Q hg).comp hRm
      rw [lintegral_prod _ hm.aemeasurable, hΓint g hg]
      have h := smc_unbiased hI c alpha0 rest0 key hcat hlik l hl hne μ0 hinv (Measure.pi fun _ : Fin n => μ0) (pi_marginal μ0) k g hg
      rw [← h]
      refine lintegral_congr fun x0 => lintegral_congr fun ω => ?_
      rw [smcEstimate_eq, hred (x0, ω)])
    (fun g hg b hb => by
      have hm : Measurable fun z => Q g (R z) ^ 2 := ((measurable_Q hg).comp hRm).pow_const 2
      rw [lintegral_prod _ hm.aemeasurable, hΓint g hg]
      exact smc_second_moment hI (0 :: key) hcat hlik l μ0 hinv (Real.exp_pos _).le (fun x => hbound _ x (hpos 0).le (hmono (Nat.zero_le k))) k
        (fun j hj x => hbound _ x (sub_nonneg.mpr (hmono (Nat.le_succ j))) (by have h1 := hmono (show j + 1 ≤ k from hj); have h2 := (hpos j).le; linarith)) hg hb)
    hf hB0 hB hε
  rw [hreal, hΓf] at main
  have hmean : ∀ z : (Fin n → X) × Tape, smcMean f ((tapeSmc cat kern prior lik c p par alpha0 rest0 key z.1 z.2).state k).1
      = (∑ i, Real.exp ((R z).2.1 i) * f ((R z).1 i)) / ∑ i, Real.exp ((R z).2.1 i) := fun z => by
    rw [← hred z]
    rfl
  have hnorm : ∀ z : (Fin n → X) × Tape, (((tapeSmc cat kern prior lik c p par alpha0 rest0 key z.1 z.2).state k).1 0).logNorm = (R z).2.2 := fun z => by
    rw [← hred z]
    rfl
  simp only [hmean, hnorm, temperedMean]
  exact main

end

theorem rw_tempered_invariant {prior lik : (Fin d → ℝ) → ℝ} (hprior : Measurable prior) (hlik : Measurable lik) (p : Params) (step : ℝ) {μ0 : Measure (Fin d → ℝ)} {a : ℝ≥0∞}
    (hμ : μ0 = a • volume.withDensity fun x => ENNReal.ofReal (Real.exp (-prior x))) (T : ℝ) {h : (Fin d → ℝ) → ℝ≥0∞} (hh : Measurable h) :
    ∫⁻ x, ENNReal.ofReal (Real.exp (-(T * lik x))) * (stepOp ((stdNormal d).prod unif) (rwMove Set.univ (fun x => prior x + T * lik x) step))^[p.mcmcSteps] h x ∂μ0
      = ∫⁻ x, ENNReal.ofReal (Real.exp (-(T * lik x))) * h x ∂μ0 := by
  have hV : Measurable fun x => prior x + T * lik x := hprior.add (measurable_const.mul hlik)
  have hs := measurable_rwMove MeasurableSet.univ hV step
  have htg : target Set.univ (fun x => prior x + T * lik x) = volume.withDensity fun x => ENNReal.ofReal (Real.exp (-(prior x + T * lik x))) := by
    unfold target; simp
  rw [hμ, tempered_eq hprior hlik a T (measurable_stepOp_iterate hs _ hh), tempered_eq hprior hlik a T hh, ← htg]
  congr 1
  exact stepOp_invariant hs (fun f hf => rwMove_invariant MeasurableSet.univ hV step f hf) _ hh

/-- C108: fix a prior that is a probability law, a likelihood potential that is bounded below, an increasing schedule of positive temperatures, a number of updates, a bounded measurable `f` and a tolerance `ε`. There is a
constant `C` such that for every number of particles `n` and every configuration of the sampler, from independent initial draws of the prior, the probability that the weighted mean of `f` after those updates is
`ε` or more away from its expectation under the tempered posterior is at most `C / n`. Inner sampler: `RandomWalk`. -/
theorem C108_mean {q : ℝ → ℝ} (hq : IsNormalDraw q) {prior lik : (Fin d → ℝ) → ℝ} (hprior : Measurable prior) (hlik : Measurable lik) (w : ℝ) (hw : ∀ x, w ≤ lik x)
    (l : List ℝ) (hpos : ∀ j, 0 < scheduleAt l j) (hmono : Monotone (scheduleAt l)) (μ0 : Measure (Fin d → ℝ)) [IsProbabilityMeasure μ0] (a : ℝ≥0∞)
    (hμ : μ0 = a • volume.withDensity fun x => ENNReal.ofReal (Real.exp (-prior x))) (k : ℕ) (f : (Fin d → ℝ) → ℝ) (hf : Measurable f) (B : ℝ) (hB : ∀ x, |f x| ≤ B) (ε : ℝ) (hε : 0 < ε) :
    ∃ C : ℝ, ∀ (n : ℕ) [NeZero n] (cat : (Fin n → ℝ) → ℝ → Fin n), IsCategoricalReal cat → ∀ c : Config, c.schedule = some l → ∀ (p : Params) (step alpha0 rest0 : ℝ) (key : Keys.Key),
      ((Measure.pi fun _ : Fin n => μ0).prod ideal)
          {z | ε ≤ |smcMean f ((tapeSmc cat (rwTape q prior lik) prior lik c p step alpha0 rest0 key z.1 z.2).state k).1 - temperedMean μ0 lik (scheduleAt l k) f|}
        ≤ ENNReal.ofReal (C / n) :=
  ⟨_, fun _ _ _ hcat c hl p step alpha0 rest0 key => (smc_consistent (rwTape_inner q prior lik p step hq hprior hlik) c alpha0 rest0 key hcat hlik l hl hpos hmono hw μ0
    (fun T _ hh => rw_tempered_invariant hprior hlik p step hμ T hh) k hf ((abs_nonneg _).trans (hB 0)) hB hε).1⟩

/-- C108: likewise for the estimate `exp (log_norm_constant)` of the normalising constant. -/
theorem C108_norm {q : ℝ → ℝ} (hq : IsNormalDraw q) {prior lik : (Fin d → ℝ) → ℝ} (hprior : Measurable prior) (hlik : Measurable lik) (w : ℝ) (hw : ∀ x, w ≤ lik x)
    (l : List ℝ) (hpos : ∀ j, 0 < scheduleAt l j) (hmono : Monotone (scheduleAt l)) (μ0 : Measure (Fin d → ℝ)) [IsProbabilityMeasure μ0] (a : ℝ≥0∞)
    (hμ : μ0 = a • volume.withDensity fun x => ENNReal.ofReal (Real.exp (-prior x))) (k : ℕ) (ε : ℝ) (hε : 0 < ε) :
    ∃ C : ℝ, ∀ (n : ℕ) [NeZero n] (cat : (Fin n → ℝ) → ℝ → Fin n), IsCategoricalReal cat → ∀ c : Config, c.schedule = some l → ∀ (p : Params) (step alpha0 rest0 : ℝ) (key : Keys.Key) (i : Fin n),
      ((Measure.pi fun _ : Fin n => μ0).prod ideal)
          {z | ε ≤ |Real.exp (((tapeSmc cat (rwTape q prior lik) prior lik c p step alpha0 rest0 key z.1 z.2).state k).1 i).logNorm - ∫ x, Real.exp (-(scheduleAt l k * lik x)) ∂μ0|}
        ≤ ENNReal.ofReal (C / n) :=
  ⟨_, fun _ _ _ hcat c hl p step alpha0 rest0 key i => by
    have h := (smc_consistent (rwTape_inner q prior lik p step hq hprior hlik) c alpha0 rest0 key hcat hlik l hl hpos hmono hw μ0
      (fun T _ hh => rw_tempered_invariant hprior hlik p step hμ T hh) k (measurable_const (a := (0 : ℝ))) (le_refl (0 : ℝ)) (fun _ => by simp) hε).2
    refine le_trans (le_of_eq ?_) h
    congr 1
    ext z
    simp only [Set.mem_ofPred_eq]
    rw [(SmcSetup.shared _ k).logNorm i]⟩

/-- C108 for the inner sampler `Underdamped` with infinite friction (its default). With finite friction the estimates are biased (`C85_fails_finite_friction`). -/
theorem C108_underdamped {q : ℝ → ℝ} (hq : IsNormalDraw q) {prior lik : (Fin d → ℝ) → ℝ × (Fin d → ℝ)} (hprior : Measurable prior) (hlik : Measurable lik) (w : ℝ) (hw : ∀ x, w ≤ (lik x).1)
    (l : List ℝ) (hpos : ∀ j, 0 < scheduleAt l j) (hmono : Monotone (scheduleAt l)) (μ0 : Measure (Fin d → ℝ)) [IsProbabilityMeasure μ0] (a : ℝ≥0∞)
    (hμ : μ0 = a • volume.withDensity fun x => ENNReal.ofReal (Real.exp (-(prior x).1))) (k : ℕ) (f : (Fin d → ℝ) → ℝ) (hf : Measurable f) (B : ℝ) (hB : ∀ x, |f x| ≤ B) (ε : ℝ) (hε : 0 < ε) :
    ∃ C : ℝ, ∀ (n : ℕ) [NeZero n] (cat : (Fin n → ℝ) → ℝ → Fin n), IsCategoricalReal cat → ∀ c : Config, c.schedule = some l →
      ∀ (p : Params) (L : ℕ) (stepsize : ℝ), 0 < stepsize → ∀ (alpha0 : ℝ) (rest0 : Mcmc.LfState d × ℝ) (key : Keys.Key),
      ((Measure.pi fun _ : Fin n => μ0).prod ideal)
          {z | ε ≤ |smcMean f ((tapeSmc cat (udTape q prior lik L) (fun x => (prior x).1) (fun x => (lik x).1) c p ⟨stepsize, none⟩ alpha0 rest0 key z.1 z.2).state k).1
            - temperedMean μ0 (fun x => (lik x).1) (scheduleAt l k) f|}
        ≤ ENNReal.ofReal (C / n) :=
  ⟨_, fun _ _ _ hcat c hl p L stepsize hstep alpha0 rest0 key => (smc_consistent (udTape_inner q prior lik L p ⟨stepsize, none⟩ hq hprior hlik rfl) c alpha0 rest0 key hcat
    (measurable_fst.comp hlik) l hl hpos hmono hw μ0 (fun T h hh => by
      have hg : Measurable (gradField prior lik T) := by unfold gradField; fun_prop
      have hU : Measurable (potAt prior lik T) := by unfold potAt; fun_prop
      have hs := measurable_udMove hg hU L ⟨stepsize, none⟩
      have hp1 : Measurable fun x => (prior x).1 := measurable_fst.comp hprior
      have hl1 : Measurable fun x => (lik x).1 := measurable_fst.comp hlik
      rw [hμ, tempered_eq hp1 hl1 a T (measurable_stepOp_iterate hs _ hh), tempered_eq hp1 hl1 a T hh]
      congr 1
      exact stepOp_invariant hs (fun f hf => udMove_invariant hg hU L ⟨stepsize, none⟩ rfl hstep f hf) _ hh)
    k hf ((abs_nonneg _).trans (hB 0)) hB hε).1⟩

/-- The hypotheses are met: standard normal prior, Gaussian likelihood, temperatures 1/2 and 1; the probability of a positive coordinate. -/
example : ∃ q : ℝ → ℝ, IsNormalDraw q ∧ ∀ ε > 0, ∃ C : ℝ, ∀ (n : ℕ) [NeZero n] (cat : (Fin n → ℝ) → ℝ → Fin n), IsCategoricalReal cat → ∀ key : Keys.Key,
    ((Measure.pi fun _ : Fin n => stdNormal 1).prod ideal)
        {z | ε ≤ |smcMean (Set.indicator {x | 0 < x 0} 1) ((tapeSmc cat (rwTape (d := 1) q (fun x => x 0 ^ 2 / 2) (fun x => (x 0 - 1) ^ 2 / 2)) (fun x => x 0 ^ 2 / 2) (fun x => (x 0 - 1) ^ 2 / 2)
          ⟨some [1 / 2, 1], 1, 2⟩ ⟨3, 0.9, 0.5, 0.00001, 1000⟩ 1 1 0 key z.1 z.2).state 1).1
          - temperedMean (stdNormal 1) (fun x => (x 0 - 1) ^ 2 / 2) 1 (Set.indicator {x | 0 < x 0} 1)|}
      ≤ ENNReal.ofReal (C / n) := by
  obtain ⟨q, hq⟩ := exists_isNormalDraw
  refine ⟨q, hq, fun ε hε => ?_⟩
  have h0 : ∀ j, scheduleAt [1 / 2, 1] j = if j = 0 then 1 / 2 else 1 := by
    intro j
    rcases j with _ | j <;> simp [scheduleAt]
  have hS : MeasurableSet {x : Fin 1 → ℝ | 0 < x 0} := measurableSet_lt measurable_const (measurable_pi_apply 0)
  obtain ⟨C, hC⟩ := C108_mean (d := 1) hq (prior := fun x => x 0 ^ 2 / 2) (lik := fun x => (x 0 - 1) ^ 2 / 2) (by fun_prop) (by fun_prop) 0 (fun x => by positivity) [1 / 2, 1]
    (fun j => by rw [h0]; split <;> norm_num) (fun i j hij => by rw [h0, h0]; split <;> split <;> first | omega | norm_num) (stdNormal 1) (ENNReal.ofReal (Real.sqrt (2 * Real.pi))⁻¹) (by
      rw [stdNormal_eq_withDensity, ← withDensity_smul _ (by fun_prop)]
      congr 1
      funext x
      simp only [Finset.univ_unique, Finset.prod_singleton, Pi.smul_apply, smul_eq_mul]
      rw [← ENNReal.ofReal_mul (by positivity), ProbabilityTheory.gaussianPDFReal]
      congr 1
      simp
      exact Or.inl (by ring)) 1 (Set.indicator {x | 0 < x 0} 1) (measurable_one.indicator hS) 1 (fun x => by
      by_cases hx : x ∈ {x : Fin 1 → ℝ | 0 < x 0}
      · rw [Set.indicator_of_mem hx]; simp
      · rw [Set.indicator_of_notMem hx]; simp) ε hε
  refine ⟨C, fun n _ cat hcat key => ?_⟩
  have h1 := hC n cat hcat ⟨some [1 / 2, 1], 1, 2⟩ rfl ⟨3, 0.9, 0.5, 0.00001, 1000⟩ 1 1 0 key
  rw [h0] at h1
  exact h1

end Mocat.Props
