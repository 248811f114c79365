import Verif.Props.MixingRate
import Verif.Props.AbcErgodic
/-!
# C154: with a bounded prior an ABC-MCMC run forgets its start at a known rate
-/
namespace Mocat.Props
open Mocat Mocat.Mcmc Mocat.Abc Mocat.Ideal Mocat.Meas Mocat.Ergodic MeasureTheory ProbabilityTheory Filter
open scoped ENNReal Topology

variable {d : ℕ} {D : Type*}

/-! ## Specification -/

/-- The support of the prior has width at most `R i` in coordinate `i`, and the prior potential is at least `m` on it. -/
structure BoundedPrior (S : Set (Fin d → ℝ)) (V : (Fin d → ℝ) → ℝ) (R : Fin d → ℝ) (m : ℝ) : Prop where
  width : ∀ x ∈ S, ∀ y ∈ S, ∀ i, |x i - y i| ≤ R i
  low : ∀ x ∈ S, m ≤ V x

/-- The share of the ABC posterior in every update: its mass relative to the largest possible value of the prior density, times the smallest proposal density between points of the support. -/
noncomputable def abcShare (mass : ℝ) (stepsize R : Fin d → ℝ) (m : ℝ) : ℝ :=
  mass / Real.exp (-m) * ∏ i, Real.exp (-R i ^ 2 / (2 * stepsize i)) / Real.sqrt (2 * Real.pi * stepsize i)

/-- Parameter and data in the rows of a run of `RandomWalkABC` with `Metropolis`. -/
noncomputable def abcRows (S : Set (Fin d → ℝ)) (V : (Fin d → ℝ) → ℝ) (pri : Tape → Fin d → ℝ) (sim : (Fin d → ℝ) → Tape → D) (dist : D → Fl) (q : ℝ → ℝ) (p : Params d) (n : ℕ)
    (z0 : (Fin d → ℝ) × D) (stp : Fin d → ℝ) (al : Fl) (t : ℝ) (key : Keys.Key) (ω : Tape) : List ((Fin d → ℝ) × D) :=
  (runFrom (randomWalkABC Keys.split Keys.split4 (normalAt q d ω) (tapeScenario S V pri sim dist ω)) (metropolis Keys.split fun k => ω (k, 0)) n (abcState S V dist z0 stp al t) ⟨key, 0, p⟩).map
    fun s => (s.payload.value, s.payload.data)

/-! ## Lemmas -/

theorem lintegral_diag {F : (Fin d → ℝ) → ℝ≥0∞} (hF : Measurable F) {s : Fin d → ℝ} (hs : ∀ i, 0 < s i) : ∫⁻ v, F v = ENNReal.ofReal (∏ i, s i) * ∫⁻ z : Fin d → ℝ, F (fun i => s i * z i) := by
  have hp : 0 < ∏ i, s i := Finset.prod_pos fun i _ => hs i
  have h := Real.smul_map_diagonal_volume_pi (D := s) (by rw [Matrix.det_diagonal]; exact hp.ne')
  have hm : Measurable (Matrix.toLin' (Matrix.diagonal s)) := (LinearMap.continuous_of_finiteDimensional _).measurable
  conv_lhs => rw [← h]
  rw [lintegral_smul_measure, lintegral_map hF hm, Matrix.det_diagonal, abs_of_pos hp, smul_eq_mul]
  congr 1
  refine lintegral_congr fun z => ?_
  congr 1
  funext i
  simp [Matrix.toLin'_apply, Matrix.mulVec_diagonal]

/-- Normal draws with one scale per coordinate, as an integral over space. -/
theorem lintegral_diag_normal {H : (Fin d → ℝ) → ℝ≥0∞} (hH : Measurable H) {s : Fin d → ℝ} (hs : ∀ i, 0 < s i) :
    ∫⁻ z, H (fun i => s i * z i) ∂(stdNormal d) = ∫⁻ v, ENNReal.ofReal (∏ i, gaussianPDFReal 0 1 (v i / s i) / s i) * H v := by
  have mN : Measurable fun v : Fin d → ℝ => ENNReal.ofReal (∏ i, gaussianPDFReal 0 1 (v i / s i) / s i) :=
    (Finset.measurable_fun_prod _ fun i _ => ((measurable_gaussianPDFReal 0 1).comp ((measurable_pi_apply i).div_const _)).div_const _).ennreal_ofReal
  have mNH : Measurable fun v : Fin d → ℝ => ENNReal.ofReal (∏ i, gaussianPDFReal 0 1 (v i / s i) / s i) * H v := mN.mul hH
  have mH : Measurable fun z : Fin d → ℝ => H fun i => s i * z i := hH.comp (by fun_prop)
  have mD : Measurable fun x : Fin d → ℝ => ENNReal.ofReal (normDens x) := measurable_normDens.ennreal_ofReal
  have hsd : stdNormal d = volume.withDensity fun x => ENNReal.ofReal (normDens x) := stdNormal_eq_withDensity d
  have hp : 0 < ∏ i, s i := Finset.prod_pos fun i _ => hs i
  rw [lintegral_diag mNH hs, hsd, lintegral_withDensity_eq_lintegral_mul (volume : Measure (Fin d → ℝ)) mD mH]
  have mz : Measurable fun z : Fin d → ℝ => ENNReal.ofReal (∏ i, gaussianPDFReal 0 1 (s i * z i / s i) / s i) * H (fun i => s i * z i) := mNH.comp (by fun_prop)
  rw [← lintegral_const_mul _ mz]
  refine lintegral_congr fun z => ?_
  simp only [Pi.mul_apply]
  rw [← mul_assoc, ← ENNReal.ofReal_mul hp.le]
  congr 2
  rw [normDens, Finset.prod_div_distrib, mul_div_cancel₀ _ hp.ne']
  exact Finset.prod_congr rfl fun i _ => by rw [mul_div_cancel_left₀ _ (hs i).ne']

theorem normal_share {S : Set (Fin d → ℝ)} (hS : MeasurableSet S) {V : (Fin d → ℝ) → ℝ} (hV : Measurable V) {R : Fin d → ℝ} {m : ℝ} (hB : BoundedPrior S V R m) {step : Fin d → ℝ} (hstep : ∀ i, 0 < step i)
    {x : Fin d → ℝ} (hx : x ∈ S) {F : (Fin d → ℝ) → ℝ≥0∞} (hF : Measurable F) :
    ENNReal.ofReal (Real.exp m * ∏ i, Real.exp (-R i ^ 2 / (2 * step i)) / Real.sqrt (2 * Real.pi * step i)) * ∫⁻ y, densOn S V y * F y
      ≤ ∫⁻ ξ, ENNReal.ofReal (accOn S V x (walk (fun i => Real.sqrt (step i)) (x, ξ))) * F (walk (fun i => Real.sqrt (step i)) (x, ξ)) ∂(stdNormal d) := by
  have hs : ∀ i, 0 < Real.sqrt (step i) := fun i => Real.sqrt_pos.2 (hstep i)
  have ma : Measurable fun y => accOn S V x y := (measurable_accOn hS hV).comp measurable_prodMk_left
  have mH : Measurable fun v : Fin d → ℝ => ENNReal.ofReal (accOn S V x (x + v)) * F (x + v) := (ma.comp (measurable_const_add x)).ennreal_ofReal.mul (hF.comp (measurable_const_add x))
  have h := lintegral_diag_normal mH hs
  refine le_trans ?_ (le_of_eq h.symm)
  have hd := measurable_densOn hS hV
  rw [← lintegral_add_left_eq_self (μ := volume) (fun y => densOn S V y * F y) x]
  have mD : Measurable fun v : Fin d → ℝ => densOn S V (x + v) * F (x + v) := (hd.mul hF).comp (measurable_const_add x)
  rw [← lintegral_const_mul _ mD]
  refine lintegral_mono fun v => ?_
  simp only
  rw [← mul_assoc, ← mul_assoc]
  refine mul_le_mul_left ?_ _
  have hpdf : ∀ i, gaussianPDFReal 0 1 (v i / Real.sqrt (step i)) / Real.sqrt (step i) = Real.exp (-(v i) ^ 2 / (2 * step i)) / Real.sqrt (2 * Real.pi * step i) := fun i => by
    rw [gaussianPDFReal_def, Real.sqrt_mul (by positivity : 0 ≤ 2 * Real.pi) (step i)]
    simp only [NNReal.coe_one, mul_one, sub_zero, div_pow, Real.sq_sqrt (hstep i).le]
    have e : -(v i ^ 2 / step i) / 2 = -(v i) ^ 2 / (2 * step i) := by
      have := (hstep i).ne'
      field_simp
    rw [e]
    have := (hs i).ne'
    have := (Real.sqrt_pos.2 (by positivity : 0 < 2 * Real.pi)).ne'
    field_simp
  simp only [hpdf]
  have hfac : ∀ (w : ℝ) i, 0 ≤ Real.exp (-w ^ 2 / (2 * step i)) / Real.sqrt (2 * Real.pi * step i) := fun w i => by positivity
  by_cases hy : x + v ∈ S
  · rw [densOn, Set.indicator_of_mem hy, ← ENNReal.ofReal_mul (mul_nonneg (Real.exp_pos m).le (Finset.prod_nonneg fun i _ => hfac (R i) i)), ← ENNReal.ofReal_mul (Finset.prod_nonneg fun i _ => hfac (v i) i)]
    refine ENNReal.ofReal_le_ofReal ?_
    rw [mul_comm (Real.exp m), mul_assoc, ← Real.exp_add]
    refine mul_le_mul ?_ ?_ (Real.exp_pos _).le (Finset.prod_nonneg fun i _ => hfac (v i) i)
    · refine Finset.prod_le_prod (fun i _ => hfac (R i) i) fun i _ => ?_
      have h1 := hB.width _ hy x hx i
      have h2 : v i ^ 2 ≤ R i ^ 2 := by
        rw [← sq_abs (v i)]
        refine pow_le_pow_left₀ (abs_nonneg _) ?_ 2
        simpa using h1
      have h3 := hstep i
      refine div_le_div_of_nonneg_right (Real.exp_le_exp.2 (div_le_div_of_nonneg_right (neg_le_neg h2) (by positivity))) (Real.sqrt_nonneg _)
    · simp only [accOn, hy, hx, if_true]
      refine le_min (Real.exp_le_one_iff.2 ?_) (Real.exp_le_exp.2 ?_)
      · linarith [hB.low _ hy]
      · linarith [hB.low _ hx]
  · simp [densOn, hy]

theorem chebyshev {r : Tape → ℝ} (hr : Measurable r) {c K ε : ℝ} {n : ℕ} (hn : 0 < n) (hε : 0 < ε) (hK : 0 ≤ K) (h : ∫⁻ ω, ENNReal.ofReal ((r ω - c) ^ 2) ∂ideal ≤ ENNReal.ofReal (K / n)) :
    (ideal {ω | ε ≤ |r ω - c|}).toReal ≤ K / (n * ε ^ 2) := by
  have hm := mul_meas_ge_le_lintegral₀ (μ := ideal) (f := fun ω => ENNReal.ofReal ((r ω - c) ^ 2)) (((hr.sub_const _).pow_const 2).ennreal_ofReal.aemeasurable) (ENNReal.ofReal (ε ^ 2))
  have hset : {ω | ENNReal.ofReal (ε ^ 2) ≤ ENNReal.ofReal ((r ω - c) ^ 2)} = {ω | ε ≤ |r ω - c|} := by
    ext ω
    simp only [Set.mem_ofPred_eq]
    rw [ENNReal.ofReal_le_ofReal_iff (sq_nonneg _), sq_le_sq, abs_of_pos hε]
  rw [hset] at hm
  have h3 := hm.trans h
  rw [← ENNReal.ofReal_toReal (measure_ne_top ideal {ω | ε ≤ |r ω - c|}), ← ENNReal.ofReal_mul (by positivity), ENNReal.ofReal_le_ofReal_iff (by positivity)] at h3
  have hn0 : (0 : ℝ) < n := by exact_mod_cast hn
  rw [le_div_iff₀ (by positivity)]
  rw [le_div_iff₀ hn0] at h3
  linarith

section
variable [MeasurableSpace D] {S : Set (Fin d → ℝ)} {V : (Fin d → ℝ) → ℝ} {sim : (Fin d → ℝ) → Tape → D} {B : Set D}

theorem stepOp_abc_ge (hS : MeasurableSet S) (hV : Measurable V) (hB : MeasurableSet B) (hsim : Measurable fun z : (Fin d → ℝ) × Tape => sim z.1 z.2) (s : Fin d → ℝ)
    {f : (Fin d → ℝ) × D → ℝ≥0∞} (hf : Measurable f) (z : (Fin d → ℝ) × D) :
    ∫⁻ ξ, ENNReal.ofReal (accOn S V z.1 (walk s (z.1, ξ))) * (∫⁻ τ, B.indicator (fun y => f (walk s (z.1, ξ), y)) (sim (walk s (z.1, ξ)) τ) ∂ideal) ∂(stdNormal d)
      ≤ stepOp (((stdNormal d).prod ideal).prod unif) (abcMove S V sim B s) f z := by
  have mx : Measurable fun w => f (abcMove S V sim B s z w) := hf.comp ((measurable_abcMove hS hV hB hsim s).comp measurable_prodMk_left)
  have mP : Measurable fun w => abcProp sim s (z, w) := (measurable_abcProp hsim s).comp measurable_prodMk_left
  have ma : Measurable fun w => ENNReal.ofReal (abcAcc S V B z.1 (abcProp sim s (z, w))) := ((measurable_abcAcc hS hV hB).comp (measurable_const.prodMk mP)).ennreal_ofReal
  have mi : Measurable fun w => ENNReal.ofReal (abcAcc S V B z.1 (abcProp sim s (z, w))) * f (abcProp sim s (z, w)) := ma.mul (hf.comp mP)
  have ha : ∀ w, 0 ≤ abcAcc S V B z.1 w ∧ abcAcc S V B z.1 w ≤ 1 := by
    intro w
    unfold abcAcc
    split_ifs
    · exact ⟨accOn_nonneg _ _ _ _, accOn_le_one _ _ _ _⟩
    · exact ⟨le_rfl, zero_le_one⟩
  unfold stepOp
  rw [lintegral_prod _ mx.aemeasurable]
  have h1 : ∫⁻ w, ENNReal.ofReal (abcAcc S V B z.1 (abcProp sim s (z, w))) * f (abcProp sim s (z, w)) ∂((stdNormal d).prod ideal)
      ≤ ∫⁻ w, ∫⁻ u, f (abcMove S V sim B s z (w, u)) ∂unif ∂((stdNormal d).prod ideal) := by
    refine lintegral_mono fun w => ?_
    have e : ∀ u, f (abcMove S V sim B s z (w, u)) = if u < abcAcc S V B z.1 (abcProp sim s (z, w)) then f (abcProp sim s (z, w)) else f z := fun u => by
      simp only [abcMove, abcProp]
      exact apply_ite f _ _ _
    simp only [e]
    rw [accept_lintegral _ (ha _).1 (ha _).2]
    exact le_self_add
  refine le_trans (le_of_eq ?_) h1
  rw [lintegral_prod _ mi.aemeasurable]
  refine lintegral_congr fun ξ => ?_
  have mτ : Measurable fun τ => B.indicator (fun y => f (walk s (z.1, ξ), y)) (sim (walk s (z.1, ξ)) τ) :=
    ((hf.comp measurable_prodMk_left).indicator hB).comp (hsim.comp measurable_prodMk_left)
  rw [← lintegral_const_mul _ mτ]
  refine lintegral_congr fun τ => ?_
  by_cases hb : sim (walk s (z.1, ξ)) τ ∈ B
  · simp [abcProp, abcAcc, hb]
  · simp [abcProp, abcAcc, hb]

theorem abc_share_le (hS : MeasurableSet S) (hV : Measurable V) (hB : MeasurableSet B) (hsim : Measurable fun z : (Fin d → ℝ) × Tape => sim z.1 z.2) {R : Fin d → ℝ} {m : ℝ}
    (hP : BoundedPrior S V R m) {step : Fin d → ℝ} (hstep : ∀ i, 0 < step i) {z : (Fin d → ℝ) × D} (hz : z.1 ∈ S) {f : (Fin d → ℝ) × D → ℝ≥0∞} (hf : Measurable f) :
    ENNReal.ofReal (Real.exp m * ∏ i, Real.exp (-R i ^ 2 / (2 * step i)) / Real.sqrt (2 * Real.pi * step i)) * ∫⁻ y, f y ∂(abcTarget S V sim B)
      ≤ stepOp (((stdNormal d).prod ideal).prod unif) (abcMove S V sim B fun i => Real.sqrt (step i)) f z := by
  refine le_trans ?_ (stepOp_abc_ge hS hV hB hsim _ hf z)
  rw [lintegral_abcTarget hS hV hB hsim hf]
  have mF : Measurable fun x => ∫⁻ τ, B.indicator (fun y => f (x, y)) (sim x τ) ∂ideal := by
    refine Measurable.lintegral_prod_right' (f := fun p : (Fin d → ℝ) × Tape => B.indicator (fun y => f (p.1, y)) (sim p.1 p.2)) ?_
    have : (fun p : (Fin d → ℝ) × Tape => B.indicator (fun y => f (p.1, y)) (sim p.1 p.2)) = fun p => ({z : (Fin d → ℝ) × D | z.2 ∈ B}.indicator f) (p.1, sim p.1 p.2) := by
      funext p
      by_cases hb : sim p.1 p.2 ∈ B <;> simp [hb]
    rw [this]
    exact (hf.indicator (measurable_snd hB)).comp (measurable_fst.prodMk hsim)
  exact normal_share hS hV hP hstep hz mF

theorem abcTarget_compl (hS : MeasurableSet S) (hV : Measurable V) (hB : MeasurableSet B) (hsim : Measurable fun z : (Fin d → ℝ) × Tape => sim z.1 z.2) :
    abcTarget S V sim B {z | z.1 ∈ S}ᶜ = 0 := by
  have hms : MeasurableSet {z : (Fin d → ℝ) × D | z.1 ∈ S} := measurable_fst hS
  rw [← lintegral_indicator_one hms.compl, lintegral_abcTarget hS hV hB hsim (measurable_one.indicator hms.compl)]
  rw [lintegral_congr (g := fun _ => 0)]
  · simp
  · intro x
    by_cases hx : x ∈ S
    · have : ∀ τ, B.indicator (fun y => ({z : (Fin d → ℝ) × D | z.1 ∈ S}ᶜ.indicator (1 : (Fin d → ℝ) × D → ℝ≥0∞)) (x, y)) (sim x τ) = 0 := fun τ => by
        by_cases hb : sim x τ ∈ B <;> simp [hb, hx]
      simp [this]
    · simp [densOn, hx]

theorem abcTarget_finite (hS : MeasurableSet S) (hV : Measurable V) (hB : MeasurableSet B) (hsim : Measurable fun z : (Fin d → ℝ) × Tape => sim z.1 z.2) {R : Fin d → ℝ} {m : ℝ}
    (hP : BoundedPrior S V R m) {step : Fin d → ℝ} (hstep : ∀ i, 0 < step i) {z : (Fin d → ℝ) × D} (hz : z.1 ∈ S) : abcTarget S V sim B Set.univ ≠ ∞ := by
  have h := abc_share_le hS hV hB hsim hP hstep hz (f := 1) measurable_one
  simp only [Pi.one_apply, lintegral_one, stepOp, measure_univ] at h
  intro he
  rw [he, ENNReal.mul_top] at h
  · exact absurd h (by simp)
  · have hp : 0 < Real.exp m * ∏ i, Real.exp (-R i ^ 2 / (2 * step i)) / Real.sqrt (2 * Real.pi * step i) :=
      mul_pos (Real.exp_pos m) (Finset.prod_pos fun i _ => div_pos (Real.exp_pos _) (Real.sqrt_pos.2 (by have := hstep i; positivity)))
    simpa using hp

theorem abc_doeblin (hS : MeasurableSet S) (hV : Measurable V) (hB : MeasurableSet B) (hsim : Measurable fun z : (Fin d → ℝ) × Tape => sim z.1 z.2) {R : Fin d → ℝ} {m : ℝ}
    (hP : BoundedPrior S V R m) {step : Fin d → ℝ} (hstep : ∀ i, 0 < step i) (h0 : abcTarget S V sim B Set.univ ≠ 0) {z0 : (Fin d → ℝ) × D} (hz0 : z0.1 ∈ S) :
    Doeblin (((stdNormal d).prod ideal).prod unif) (abcMove S V sim B fun i => Real.sqrt (step i)) (normalised (abcTarget S V sim B)) {z | z.1 ∈ S}
      (abcShare (abcTarget S V sim B Set.univ).toReal step R m) := by
  have hT := abcTarget_finite hS hV hB hsim hP hstep hz0
  have hZ : 0 < (abcTarget S V sim B Set.univ).toReal := ENNReal.toReal_pos h0 hT
  have hπ := normalised_prob h0 hT
  have hpos : 0 < abcShare (abcTarget S V sim B Set.univ).toReal step R m :=
    mul_pos (div_pos hZ (Real.exp_pos _)) (Finset.prod_pos fun i _ => div_pos (Real.exp_pos _) (Real.sqrt_pos.2 (by have := hstep i; positivity)))
  have hsh : ∀ z : (Fin d → ℝ) × D, z.1 ∈ S → ∀ f : (Fin d → ℝ) × D → ℝ≥0∞, Measurable f → ENNReal.ofReal (abcShare (abcTarget S V sim B Set.univ).toReal step R m) * ∫⁻ y, f y ∂(normalised (abcTarget S V sim B))
      ≤ stepOp (((stdNormal d).prod ideal).prod unif) (abcMove S V sim B fun i => Real.sqrt (step i)) f z := by
    intro z hz f hf
    refine le_trans (le_of_eq ?_) (abc_share_le hS hV hB hsim hP hstep hz hf)
    rw [normalised, lintegral_smul_measure, smul_eq_mul, ← mul_assoc]
    congr 1
    have hinv : (abcTarget S V sim B Set.univ)⁻¹ = ENNReal.ofReal ((abcTarget S V sim B Set.univ).toReal)⁻¹ := by rw [ENNReal.ofReal_inv_of_pos hZ, ENNReal.ofReal_toReal hT]
    rw [hinv, ← ENNReal.ofReal_mul hpos.le]
    congr 1
    rw [abcShare, Real.exp_neg, div_inv_eq_mul]
    generalize (∏ i, Real.exp (-R i ^ 2 / (2 * step i)) / Real.sqrt (2 * Real.pi * step i)) = P
    field_simp
  refine ⟨fun f hf => normalised_invariant (F := fun g z => ∫⁻ w, g (abcMove S V sim B (fun i => Real.sqrt (step i)) z w) ∂(((stdNormal d).prod ideal).prod unif)) (abcMove_invariant hS hV hB hsim _ f hf),
    fun z hz => ?_, hpos, ?_, fun z hz => hsh z hz⟩
  · have : ∀ᵐ w ∂(((stdNormal d).prod ideal).prod unif), 0 ≤ w.2 := Measure.quasiMeasurePreserving_snd.ae unif_nonneg
    refine this.mono fun w hw => ?_
    simp only [abcMove]
    split_ifs with hlt
    · exact ((abcAcc_pos S V B z.1 _).1 (hw.trans_lt hlt)).2
    · exact hz
  · have := hsh z0 hz0 1 measurable_one
    simp only [Pi.one_apply, lintegral_one, measure_univ, mul_one, stepOp] at this
    rwa [ENNReal.ofReal_le_one] at this

/-! ## Properties -/

/-- C154: after `j` updates from a parameter in the support of the prior and any data, the probability of every event for parameter and data differs from its probability under the ABC posterior by at
most `(1 - share) ^ j`. -/
theorem C154_forgets {q : ℝ → ℝ} (hq : IsNormalDraw q) (hS : MeasurableSet S) (hV : Measurable V) (pri : Tape → Fin d → ℝ) (hsim : Measurable fun z : (Fin d → ℝ) × Tape => sim z.1 z.2)
    (dist : D → Fl) (p : Params d) (hB : MeasurableSet (ball dist p.threshold)) (hstep : ∀ i, 0 < p.stepsize i) {R : Fin d → ℝ} {m : ℝ} (hP : BoundedPrior S V R m)
    (h0 : abcTarget S V sim (ball dist p.threshold) Set.univ ≠ 0) {z0 : (Fin d → ℝ) × D} (hz0 : z0.1 ∈ S) :
    (0 < abcShare (abcTarget S V sim (ball dist p.threshold) Set.univ).toReal p.stepsize R m ∧ abcShare (abcTarget S V sim (ball dist p.threshold) Set.univ).toReal p.stepsize R m ≤ 1) ∧
    ∀ (stp : Fin d → ℝ) (al : Fl) (t : ℝ) (key : Keys.Key) (n j : ℕ), j < n → ∀ A : Set ((Fin d → ℝ) × D), MeasurableSet A →
      |rowProb (abcRows S V pri sim dist q p n z0 stp al t key) j A - probUnder (abcTarget S V sim (ball dist p.threshold)) A|
        ≤ (1 - abcShare (abcTarget S V sim (ball dist p.threshold) Set.univ).toReal p.stepsize R m) ^ j := by
  have hD := abc_doeblin hS hV hB hsim hP hstep h0 hz0
  refine ⟨⟨hD.pos, hD.le_one⟩, fun stp al t key n j hj A hA => ?_⟩
  have hπ := normalised_prob h0 (abcTarget_finite hS hV hB hsim hP hstep hz0)
  have h := hD.prob (abcDraws_draws hq) (measurable_abcMove hS hV hB hsim _) hA j key hz0
  rw [normalised_apply] at h
  have e : abcRows S V pri sim dist q p n z0 stp al t key
      = fun ω => (List.range n).map fun i => tapeIter (abcDraws q d) Keys.abcNext (abcMove S V sim (ball dist p.threshold) fun i => Real.sqrt (p.stepsize i)) i key z0 ω :=
    funext fun ω => abc_run S V pri sim dist q p z0 stp al t key (by omega) ω
  rw [e, rowProb_range _ hj]
  exact h

/-- C154: the mean over `n` rows of a quantity between `lo` and `hi` has mean squared error at most `(hi - lo)² (2 / share - 1) / n`. -/
theorem C154_error {q : ℝ → ℝ} (hq : IsNormalDraw q) (hS : MeasurableSet S) (hV : Measurable V) (pri : Tape → Fin d → ℝ) (hsim : Measurable fun z : (Fin d → ℝ) × Tape => sim z.1 z.2)
    (dist : D → Fl) (p : Params d) (hB : MeasurableSet (ball dist p.threshold)) (hstep : ∀ i, 0 < p.stepsize i) {R : Fin d → ℝ} {m : ℝ} (hP : BoundedPrior S V R m)
    (h0 : abcTarget S V sim (ball dist p.threshold) Set.univ ≠ 0) {z0 : (Fin d → ℝ) × D} (hz0 : z0.1 ∈ S) (stp : Fin d → ℝ) (al : Fl) (t : ℝ) (key : Keys.Key) {n : ℕ} (hn : 0 < n)
    {f : (Fin d → ℝ) × D → ℝ} (hf : Measurable f) {lo hi : ℝ} (hlo : ∀ z, z.1 ∈ S → lo ≤ f z) (hhi : ∀ z, z.1 ∈ S → f z ≤ hi) :
    ∫⁻ ω, ENNReal.ofReal ((rowMean f (abcRows S V pri sim dist q p n z0 stp al t key ω) - meanUnder (abcTarget S V sim (ball dist p.threshold)) f) ^ 2) ∂ideal
      ≤ ENNReal.ofReal ((hi - lo) ^ 2 * (2 / abcShare (abcTarget S V sim (ball dist p.threshold) Set.univ).toReal p.stepsize R m - 1) / n) := by
  have hT := abcTarget_finite hS hV hB hsim hP hstep hz0
  have hπ := normalised_prob h0 hT
  have hD := abc_doeblin hS hV hB hsim hP hstep h0 hz0
  have hle : lo ≤ hi := (hlo z0 hz0).trans (hhi z0 hz0)
  have hg : Measurable fun x => max lo (min hi (f x)) := measurable_const.max (measurable_const.min hf)
  have heq : ∀ z, z.1 ∈ S → max lo (min hi (f z)) = f z := fun z hz => by rw [min_eq_right (hhi z hz), max_eq_right (hlo z hz)]
  have h := hD.average (abcDraws_draws hq) (measurable_abcMove hS hV hB hsim _) hg (lo := lo) (hi := hi) (fun x => le_max_left _ _) (fun x => max_le hle (min_le_left _ _)) hn key hz0
  have hmean : ∫ y, max lo (min hi (f y)) ∂(normalised (abcTarget S V sim (ball dist p.threshold))) = meanUnder (abcTarget S V sim (ball dist p.threshold)) f := by
    rw [← integral_normalised]
    refine integral_congr_ae ?_
    have : ∀ᵐ y ∂(normalised (abcTarget S V sim (ball dist p.threshold))), y.1 ∈ S := by
      rw [ae_iff, normalised_null hT]
      exact abcTarget_compl hS hV hB hsim
    exact this.mono fun y hy => heq y hy
  rw [hmean] at h
  refine le_trans (le_of_eq (lintegral_congr_ae ?_)) h
  have hall : ∀ᵐ ω ∂ideal, ∀ j, tapeIter (abcDraws q d) Keys.abcNext (abcMove S V sim (ball dist p.threshold) fun i => Real.sqrt (p.stepsize i)) j key z0 ω ∈ {z : (Fin d → ℝ) × D | z.1 ∈ S} :=
    ae_all_iff.2 fun j => hD.stays (abcDraws_draws hq) (measurable_abcMove hS hV hB hsim _) (measurable_fst hS) j key hz0
  refine hall.mono fun ω hω => ?_
  have e : abcRows S V pri sim dist q p n z0 stp al t key ω
      = (List.range n).map fun i => tapeIter (abcDraws q d) Keys.abcNext (abcMove S V sim (ball dist p.threshold) fun i => Real.sqrt (p.stepsize i)) i key z0 ω :=
    abc_run S V pri sim dist q p z0 stp al t key hn ω
  simp only
  rw [e, rowMean_range, pathSum]
  simp_rw [heq _ (hω _)]

/-- C154: the mean over `n` rows is wrong by `ε` or more with probability at most `(hi - lo)² (2 / share - 1) / (n ε²)`. -/
theorem C154_confidence {q : ℝ → ℝ} (hq : IsNormalDraw q) (hS : MeasurableSet S) (hV : Measurable V) (pri : Tape → Fin d → ℝ) (hsim : Measurable fun z : (Fin d → ℝ) × Tape => sim z.1 z.2)
    (dist : D → Fl) (p : Params d) (hB : MeasurableSet (ball dist p.threshold)) (hstep : ∀ i, 0 < p.stepsize i) {R : Fin d → ℝ} {m : ℝ} (hP : BoundedPrior S V R m)
    (h0 : abcTarget S V sim (ball dist p.threshold) Set.univ ≠ 0) {z0 : (Fin d → ℝ) × D} (hz0 : z0.1 ∈ S) (stp : Fin d → ℝ) (al : Fl) (t : ℝ) (key : Keys.Key) {n : ℕ} (hn : 0 < n)
    {f : (Fin d → ℝ) × D → ℝ} (hf : Measurable f) {lo hi : ℝ} (hlo : ∀ z, z.1 ∈ S → lo ≤ f z) (hhi : ∀ z, z.1 ∈ S → f z ≤ hi) {ε : ℝ} (hε : 0 < ε) :
    (ideal {ω | ε ≤ |rowMean f (abcRows S V pri sim dist q p n z0 stp al t key ω) - meanUnder (abcTarget S V sim (ball dist p.threshold)) f|}).toReal
      ≤ (hi - lo) ^ 2 * (2 / abcShare (abcTarget S V sim (ball dist p.threshold) Set.univ).toReal p.stepsize R m - 1) / (n * ε ^ 2) := by
  have h := C154_error hq hS hV pri hsim dist p hB hstep hP h0 hz0 stp al t key hn hf hlo hhi
  have hD := abc_doeblin hS hV hB hsim hP hstep h0 hz0
  generalize abcShare (abcTarget S V sim (ball dist p.threshold) Set.univ).toReal p.stepsize R m = e at h hD
  have hsh : 0 ≤ 2 / e - 1 := by
    have : 1 ≤ 2 / e := (one_le_div hD.pos).2 (by linarith [hD.le_one])
    linarith
  have mrow : Measurable fun ω => rowMean f (abcRows S V pri sim dist q p n z0 stp al t key ω) := by
    have e : ∀ ω, abcRows S V pri sim dist q p n z0 stp al t key ω
        = (List.range n).map fun i => tapeIter (abcDraws q d) Keys.abcNext (abcMove S V sim (ball dist p.threshold) fun i => Real.sqrt (p.stepsize i)) i key z0 ω :=
      fun ω => abc_run S V pri sim dist q p z0 stp al t key hn ω
    simp_rw [e, rowMean_range]
    exact (Finset.measurable_fun_sum _ fun j _ => hf.comp ((measurable_tapeIter (abcDraws_draws hq) (measurable_abcMove hS hV hB hsim _) j key).comp measurable_prodMk_left)).div_const _
  exact chebyshev mrow hn hε (mul_nonneg (sq_nonneg _) hsh) h

end

/-! ## The hypotheses are met -/

theorem measurable_ball_some : MeasurableSet (ball (fun y : ℝ => Fl.fin |y|) (Fl.fin (3 / 2))) := by
  change MeasurableSet {y : ℝ | |y| < 3 / 2}
  exact measurableSet_lt (by fun_prop) measurable_const

/-- Parameters uniform on the unit interval, data with an error between -1 and 1, and data below `3 / 2` accepted: at least half of the prior mass. -/
theorem half_mass : 1 / 2 ≤ abcTarget {x : Fin 1 → ℝ | x 0 ∈ Set.Icc (0 : ℝ) 1} (fun _ => 0) noisy (ball (fun y : ℝ => Fl.fin |y|) (Fl.fin (3 / 2))) Set.univ := by
  have hS : MeasurableSet {x : Fin 1 → ℝ | x 0 ∈ Set.Icc (0 : ℝ) 1} := (measurable_pi_apply 0) measurableSet_Icc
  have hH : MeasurableSet {x : Fin 1 → ℝ | x 0 ∈ Set.Ico (0 : ℝ) (1 / 2)} := (measurable_pi_apply 0) measurableSet_Ico
  have hmass := lintegral_abcTarget (sim := noisy) hS (V := fun _ => 0) measurable_const measurable_ball_some measurable_noisy (f := 1) measurable_one
  simp only [Pi.one_apply, lintegral_one] at hmass
  rw [hmass]
  refine le_trans ?_ (setLIntegral_le_lintegral {x : Fin 1 → ℝ | x 0 ∈ Set.Ico (0 : ℝ) (1 / 2)} _)
  have hval : ∀ x ∈ {x : Fin 1 → ℝ | x 0 ∈ Set.Ico (0 : ℝ) (1 / 2)}, (1 : ℝ≥0∞) ≤ densOn {x : Fin 1 → ℝ | x 0 ∈ Set.Icc (0 : ℝ) 1} (fun _ => 0) x
      * ∫⁻ τ : Tape, (ball (fun y : ℝ => Fl.fin |y|) (Fl.fin (3 / 2))).indicator (fun _ => (1 : ℝ≥0∞)) (noisy x τ) ∂ideal := by
    intro x hx
    have hx' : 0 ≤ x 0 ∧ x 0 < 1 / 2 := hx
    have hxS : x ∈ {x : Fin 1 → ℝ | x 0 ∈ Set.Icc (0 : ℝ) 1} := ⟨hx'.1, by linarith [hx'.2]⟩
    have hin : ∀ τ : Tape, noisy x τ ∈ ball (fun y : ℝ => Fl.fin |y|) (Fl.fin (3 / 2)) := fun τ => by
      change |x 0 + Real.sin (τ ([], 0))| < 3 / 2
      have h1 := abs_add_le (x 0) (Real.sin (τ ([], 0)))
      have h2 := Real.abs_sin_le_one (τ ([], 0))
      rw [abs_of_nonneg hx'.1] at h1
      linarith
    have : ∀ τ : Tape, (ball (fun y : ℝ => Fl.fin |y|) (Fl.fin (3 / 2))).indicator (fun _ => (1 : ℝ≥0∞)) (noisy x τ) = 1 := fun τ => by simp [hin τ]
    rw [densOn, Set.indicator_of_mem hxS]
    simp [this]
  refine le_trans ?_ (setLIntegral_mono' hH hval)
  have e : {x : Fin 1 → ℝ | x 0 ∈ Set.Ico (0 : ℝ) (1 / 2)} = Set.pi Set.univ fun _ => Set.Ico 0 (1 / 2) := by
    ext x
    simp only [Set.mem_ofPred_eq, Set.mem_univ_pi, Fin.forall_fin_one]
  rw [setLIntegral_one, e, volume_pi_pi]
  simp

/-- The share of that posterior with stepsize 1 is at least one twelfth, so that two hundred updates leave less than `10⁻⁷`, wherever the run starts. -/
example {q : ℝ → ℝ} (hq : IsNormalDraw q) (x0 : Fin 1 → ℝ) (hx0 : x0 0 ∈ Set.Icc (0 : ℝ) 1) (y0 : ℝ) (key : Keys.Key) (A : Set ((Fin 1 → ℝ) × ℝ)) (hA : MeasurableSet A) :
    |rowProb (abcRows {x : Fin 1 → ℝ | x 0 ∈ Set.Icc (0 : ℝ) 1} (fun _ => 0) (fun _ _ => 1) noisy (fun y => Fl.fin |y|) q ⟨Fl.fin (3 / 2), fun _ => 1, 0, 0⟩ 201 (x0, y0) (fun _ => 1) (Fl.fin 1) 0 key) 200 A
      - probUnder (abcTarget {x : Fin 1 → ℝ | x 0 ∈ Set.Icc (0 : ℝ) 1} (fun _ => 0) noisy (ball (fun y : ℝ => Fl.fin |y|) (Fl.fin (3 / 2)))) A| ≤ 1 / 10 ^ 7 := by
  have hS : MeasurableSet {x : Fin 1 → ℝ | x 0 ∈ Set.Icc (0 : ℝ) 1} := (measurable_pi_apply 0) measurableSet_Icc
  have hP : BoundedPrior {x : Fin 1 → ℝ | x 0 ∈ Set.Icc (0 : ℝ) 1} (fun _ => 0) (fun _ => 1) 0 := by
    refine ⟨fun x hx y hy i => ?_, fun _ _ => le_rfl⟩
    have hx' : 0 ≤ x 0 ∧ x 0 ≤ 1 := hx
    have hy' : 0 ≤ y 0 ∧ y 0 ≤ 1 := hy
    rw [Subsingleton.elim i 0, abs_le]
    exact ⟨by linarith [hx'.1, hy'.2], by linarith [hx'.2, hy'.1]⟩
  have hmass := half_mass
  have hne : abcTarget {x : Fin 1 → ℝ | x 0 ∈ Set.Icc (0 : ℝ) 1} (fun _ => 0) noisy (ball (fun y : ℝ => Fl.fin |y|) (Fl.fin (3 / 2))) Set.univ ≠ 0 :=
    (lt_of_lt_of_le (by simp) hmass).ne'
  have hz : ((x0, y0) : (Fin 1 → ℝ) × ℝ).1 ∈ {x : Fin 1 → ℝ | x 0 ∈ Set.Icc (0 : ℝ) 1} := hx0
  have hfin := abcTarget_finite hS (V := fun _ => 0) measurable_const measurable_ball_some measurable_noisy hP (step := fun _ => 1) (fun _ => one_pos) hz
  obtain ⟨⟨h1, h2⟩, h3⟩ := C154_forgets hq hS (V := fun _ => 0) measurable_const (fun _ _ => 1) measurable_noisy (fun y => Fl.fin |y|) ⟨Fl.fin (3 / 2), fun _ => 1, 0, 0⟩ measurable_ball_some (fun _ => one_pos) hP hne hz
  refine (h3 (fun _ => 1) (Fl.fin 1) 0 key 201 200 (by norm_num) A hA).trans ?_
  have hr := ENNReal.toReal_mono hfin hmass
  rw [ENNReal.toReal_div, ENNReal.toReal_one, ENNReal.toReal_ofNat] at hr
  have hsh : (1 : ℝ) / 12 ≤ abcShare (abcTarget {x : Fin 1 → ℝ | x 0 ∈ Set.Icc (0 : ℝ) 1} (fun _ => 0) noisy (ball (fun y : ℝ => Fl.fin |y|) (Fl.fin (3 / 2))) Set.univ).toReal (fun _ : Fin 1 => (1 : ℝ)) (fun _ => 1) 0 := by
    have e1 : (1 : ℝ) / 2 ≤ Real.exp (-(1 : ℝ) / 2) := by
      have := Real.add_one_le_exp (-(1 : ℝ) / 2)
      linarith
    have e2 : Real.sqrt (2 * Real.pi) ≤ 3 := by
      rw [Real.sqrt_le_left (by norm_num)]
      have := Real.pi_lt_d2
      linarith
    have e3 : 0 < Real.sqrt (2 * Real.pi) := Real.sqrt_pos.2 (by positivity)
    have e4 : (1 : ℝ) / 6 ≤ Real.exp (-(1 : ℝ) / 2) / Real.sqrt (2 * Real.pi) := by
      rw [div_le_div_iff₀ (by norm_num) e3]
      linarith
    simp only [abcShare, neg_zero, Real.exp_zero, div_one, Finset.univ_unique, Finset.prod_const, Finset.card_singleton, pow_one, one_pow, mul_one]
    calc (1 : ℝ) / 12 = 1 / 2 * (1 / 6) := by norm_num
      _ ≤ _ := mul_le_mul hr e4 (by norm_num) ENNReal.toReal_nonneg
  exact (pow_le_pow_left₀ (sub_nonneg.2 h2) ((sub_le_sub_left hsh 1).trans (by norm_num) : _ ≤ (11 : ℝ) / 12) 200).trans (by norm_num)

end Mocat.Props
