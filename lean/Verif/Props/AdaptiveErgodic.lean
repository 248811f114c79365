import Verif.Lemmas.ErgodicMixing
import Verif.Lemmas.GaussScale
import Verif.Props.AdaptiveAverage
/-!
# C144: averages over adaptive runs tend to posterior means

The stepsize of a run with `RMMetropolis` changes with its past, so the positions are not a Markov chain and no law of theirs is invariant. `C110` is about fixed stepsizes.
-/
namespace Mocat.Props
open Mocat Mocat.Mcmc Mocat.Ideal Mocat.Meas Mocat.Adaptation Mocat.Ergodic MeasureTheory ProbabilityTheory Filter
open scoped ENNReal Topology

variable {d : ℕ}

/-! ## One update at a fixed stepsize -/

theorem integral_accept {a : ℝ} (h0 : 0 ≤ a) (h1 : a ≤ 1) (p r : ℝ) : ∫ u, (if u < a then p else r) ∂unif = a * p + (1 - a) * r := by
  have hms : MeasurableSet (Set.Iio a) := measurableSet_Iio
  have e : (fun u : ℝ => if u < a then p else r) = fun u => (Set.Iio a).indicator (fun _ => p - r) u + r := by
    funext u
    by_cases h : u < a
    · rw [if_pos h, Set.indicator_of_mem (by exact h)]; ring
    · rw [if_neg h, Set.indicator_of_notMem (by exact h)]; ring
  have hu : unif.real (Set.Iio a) = a := by
    rw [measureReal_def, unif, Measure.restrict_apply hms]
    have : Set.Iio a ∩ Set.Ico 0 1 = Set.Ico 0 a := by
      ext u
      simp only [Set.mem_inter_iff, Set.mem_Iio, Set.mem_Ico]
      constructor
      · rintro ⟨h, h2, _⟩; exact ⟨h2, h⟩
      · rintro ⟨h, h2⟩; exact ⟨h2, h, h2.trans_le h1⟩
    rw [this, Real.volume_Ico, sub_zero, ENNReal.toReal_ofReal h0]
  rw [e, integral_add ((integrable_const _).indicator hms) (integrable_const _), integral_indicator_const _ hms, hu]
  simp
  ring

/-- The mean of `h` over accepting and rejecting the move `v` from `x`. -/
noncomputable def blend (S : Set (Fin d → ℝ)) (V h : (Fin d → ℝ) → ℝ) (x v : Fin d → ℝ) : ℝ :=
  accOn S V x (fun i => x i + v i) * h (fun i => x i + v i) + (1 - accOn S V x (fun i => x i + v i)) * h x

section
variable {S : Set (Fin d → ℝ)} (hS : MeasurableSet S) {V : (Fin d → ℝ) → ℝ} (hV : Measurable V) {h : (Fin d → ℝ) → ℝ} (hh : Measurable h) {B : ℝ} (hB : ∀ x, |h x| ≤ B)

include hS hV hh in
theorem measurable_blend (x : Fin d → ℝ) : Measurable (blend S V h x) := by
  have m1 : Measurable fun v : Fin d → ℝ => fun i => x i + v i := by fun_prop
  have m2 : Measurable fun v : Fin d → ℝ => accOn S V x (fun i => x i + v i) := (measurable_accOn hS hV).comp (measurable_const.prodMk m1)
  exact (m2.mul (hh.comp m1)).add ((measurable_const.sub m2).mul_const _)

include hB in
theorem abs_blend_le (x v : Fin d → ℝ) : |blend S V h x v| ≤ B := by
  have h0 := accOn_nonneg S V x (fun i => x i + v i)
  have h1 := accOn_le_one S V x (fun i => x i + v i)
  refine (abs_add_le _ _).trans ?_
  rw [abs_mul, abs_mul, abs_of_nonneg h0, abs_of_nonneg (sub_nonneg.mpr h1)]
  have := mul_le_mul_of_nonneg_left (hB fun i => x i + v i) h0
  have := mul_le_mul_of_nonneg_left (hB x) (sub_nonneg.mpr h1)
  linarith

include hS hV hh hB in
theorem next_rwMove (s : ℝ) (x : Fin d → ℝ) : next ((stdNormal d).prod unif) (rwMove S V s) h x = ∫ z, blend S V h x (fun i => Real.sqrt s * z i) ∂(stdNormal d) := by
  have hi := integrable_step (δ := (stdNormal d).prod unif) (measurable_rwMove hS hV s) hh hB x
  rw [next, integral_prod _ hi]
  refine integral_congr_ae (.of_forall fun z => ?_)
  simp only [rwMove]
  have e : ∀ u : ℝ, h (if u < accOn S V x (rwProp (Real.sqrt s) (x, z)) then rwProp (Real.sqrt s) (x, z) else x)
      = if u < accOn S V x (rwProp (Real.sqrt s) (x, z)) then h (rwProp (Real.sqrt s) (x, z)) else h x := fun u => by split_ifs <;> rfl
  simp_rw [e]
  rw [integral_accept (accOn_nonneg _ _ _ _) (accOn_le_one _ _ _ _)]
  rfl

include hS hV hh hB in
/-- Updates at two stepsizes differ little if the stepsizes do. -/
theorem next_rwMove_sub {s t : ℝ} (hs : 0 < s) (ht : 0 < t) (x : Fin d → ℝ) :
    |next ((stdNormal d).prod unif) (rwMove S V s) h x - next ((stdNormal d).prod unif) (rwMove S V t) h x| ≤ B * d * |Real.log s - Real.log t| := by
  rw [next_rwMove hS hV hh hB, next_rwMove hS hV hh hB]
  exact abs_sqrt_scaled_sub_le (measurable_blend hS hV hh x) (abs_blend_le hB x) hs ht

end

/-! ## Forgetting, at stepsizes in a range -/

theorem pdf_lower {w r : ℝ} (hw : |w| ≤ r) : gaussianPDFReal 0 1 r ≤ gaussianPDFReal 0 1 w := by
  simp only [gaussianPDFReal]
  refine mul_le_mul_of_nonneg_left (Real.exp_le_exp.mpr ?_) (by positivity)
  have h : w ^ 2 ≤ r ^ 2 := by rw [← sq_abs]; exact pow_le_pow_left₀ (abs_nonneg _) hw 2
  simp only [sub_zero, NNReal.coe_one, mul_one]
  linarith

section
variable {S : Set (Fin d → ℝ)} (hS : MeasurableSet S) {V : (Fin d → ℝ) → ℝ} (hV : Measurable V)

/-- The support is bounded and so is the potential on it. -/
structure Bounded (S : Set (Fin d → ℝ)) (V : (Fin d → ℝ) → ℝ) (D b : ℝ) : Prop where
  support : ∀ x ∈ S, ∀ y ∈ S, ∀ i, |y i - x i| ≤ D
  potential : ∀ x ∈ S, |V x| ≤ b

/-- The density of proposals is at least this. -/
noncomputable def densLow (d : ℕ) (D lo hi : ℝ) : ℝ := (Real.sqrt hi ^ d)⁻¹ * gaussianPDFReal 0 1 (D / Real.sqrt lo) ^ d

theorem densLow_pos {D lo hi : ℝ} (hlo : 0 < lo) (hle : lo ≤ hi) : 0 < densLow d D lo hi :=
  mul_pos (inv_pos.mpr (pow_pos (Real.sqrt_pos.mpr (hlo.trans_le hle)) _)) (pow_pos (gaussianPDFReal_pos 0 1 _ one_ne_zero) _)

theorem densLow_le {D lo hi s : ℝ} (hlo : 0 < lo) (h1 : lo ≤ s) (h2 : s ≤ hi) {v : Fin d → ℝ} (hv : ∀ i, |v i| ≤ D) : densLow d D lo hi ≤ (Real.sqrt s ^ d)⁻¹ * normDens fun i => v i / Real.sqrt s := by
  have hs : 0 < s := hlo.trans_le h1
  have hsq := Real.sqrt_pos.mpr hs
  have hsl := Real.sqrt_pos.mpr hlo
  refine mul_le_mul ?_ ?_ (pow_nonneg (gaussianPDFReal_nonneg 0 1 _) _) (by positivity)
  · exact inv_anti₀ (pow_pos hsq _) (pow_le_pow_left₀ hsq.le (Real.sqrt_le_sqrt h2) _)
  · unfold normDens
    have : gaussianPDFReal 0 1 (D / Real.sqrt lo) ^ d = ∏ _i : Fin d, gaussianPDFReal 0 1 (D / Real.sqrt lo) := by simp
    rw [this]
    refine Finset.prod_le_prod (fun i _ => gaussianPDFReal_nonneg 0 1 _) fun i _ => pdf_lower ?_
    rw [abs_div, abs_of_pos hsq]
    have hD0 : 0 ≤ D := (abs_nonneg _).trans (hv i)
    exact (div_le_div_of_nonneg_right (hv i) hsq.le).trans (div_le_div_of_nonneg_left hD0 hsl (Real.sqrt_le_sqrt h1))

theorem accOn_lower {D b : ℝ} (hbd : Bounded S V D b) {x y : Fin d → ℝ} (hx : x ∈ S) (hy : y ∈ S) : Real.exp (-(2 * b)) ≤ accOn S V x y := by
  have h1 := abs_le.mp (hbd.potential x hx)
  have h2 := abs_le.mp (hbd.potential y hy)
  have hb : 0 ≤ b := (abs_nonneg _).trans (hbd.potential x hx)
  rw [accOn, if_pos hy, if_pos hx]
  exact le_min (Real.exp_le_one_iff.mpr (by linarith)) (Real.exp_le_exp.mpr (by linarith))

include hS hV in
/-- Wherever it starts in the support, an update reaches every part of it. -/
theorem reach {D b lo hi s : ℝ} (hbd : Bounded S V D b) (hlo : 0 < lo) (h1 : lo ≤ s) (h2 : s ≤ hi) {h : (Fin d → ℝ) → ℝ} (hh : Measurable h) {B : ℝ} (hB : ∀ x, |h x| ≤ B) (hpos : ∀ y ∈ S, 0 ≤ h y)
    {x : Fin d → ℝ} (hx : x ∈ S) :
    ENNReal.ofReal (densLow d D lo hi * Real.exp (-(3 * b))) * ∫⁻ y, ENNReal.ofReal (h y) ∂(target S V) ≤ ENNReal.ofReal (next ((stdNormal d).prod unif) (rwMove S V s) h x) := by
  have hs : 0 < s := hlo.trans_le h1
  have hbl : ∀ v : Fin d → ℝ, 0 ≤ accOn S V x (fun i => x i + v i) * h (fun i => x i + v i) := fun v => by
    by_cases hy : (fun i => x i + v i) ∈ S
    · exact mul_nonneg (accOn_nonneg _ _ _ _) (hpos _ hy)
    · have : accOn S V x (fun i => x i + v i) = 0 := by rw [accOn, if_neg hy]
      rw [this, zero_mul]
  have hbl2 : ∀ v : Fin d → ℝ, 0 ≤ (1 - accOn S V x (fun i => x i + v i)) * h x := fun v => mul_nonneg (sub_nonneg.mpr (accOn_le_one _ _ _ _)) (hpos x hx)
  have hbl0 : ∀ v, 0 ≤ blend S V h x v := fun v => add_nonneg (hbl v) (hbl2 v)
  have mb := measurable_blend hS hV hh x
  have hi' : Integrable (fun z : Fin d → ℝ => blend S V h x fun i => Real.sqrt s * z i) (stdNormal d) :=
    Integrable.of_bound (mb.comp (by fun_prop)).aestronglyMeasurable B (.of_forall fun z => abs_blend_le hB x _)
  rw [next_rwMove hS hV hh hB, ofReal_integral_eq_lintegral_ofReal hi' (.of_forall fun z => hbl0 _)]
  have e := lintegral_scaled (d := d) mb.ennreal_ofReal (Real.sqrt_pos.mpr hs)
  rw [e]
  have mN : Measurable fun v : Fin d → ℝ => ENNReal.ofReal (normDens fun i => v i / Real.sqrt s) := (measurable_normDens.comp (by fun_prop)).ennreal_ofReal
  have mP : Measurable fun v : Fin d → ℝ => ENNReal.ofReal (normDens fun i => v i / Real.sqrt s) * ENNReal.ofReal (blend S V h x v) := mN.mul mb.ennreal_ofReal
  rw [← lintegral_const_mul _ mP]
  have mD : Measurable (S.indicator fun x => ENNReal.ofReal (Real.exp (-V x))) := (Real.measurable_exp.comp hV.neg).ennreal_ofReal.indicator hS
  have e2 := lintegral_withDensity_eq_lintegral_mul (volume : Measure (Fin d → ℝ)) mD hh.ennreal_ofReal
  rw [target, e2, ← lintegral_const_mul _ (mD.mul hh.ennreal_ofReal)]
  rw [← lintegral_add_left_eq_self _ x]
  refine lintegral_mono fun v => ?_
  simp only [Pi.mul_apply]
  by_cases hy : x + v ∈ S
  · rw [Set.indicator_of_mem hy, ← ENNReal.ofReal_mul (Real.exp_pos _).le, ← ENNReal.ofReal_mul (mul_nonneg (densLow_pos hlo (h1.trans h2)).le (Real.exp_pos _).le),
      ← ENNReal.ofReal_mul (normDens_nonneg _), ← ENNReal.ofReal_mul (by positivity)]
    refine ENNReal.ofReal_le_ofReal ?_
    have a1 : densLow d D lo hi ≤ (Real.sqrt s ^ d)⁻¹ * normDens fun i => v i / Real.sqrt s := densLow_le hlo h1 h2 fun i => by
      have := hbd.support x hx _ hy i
      simpa using this
    have a2 : Real.exp (-(2 * b)) * h (x + v) ≤ blend S V h x v := by
      have := mul_le_mul_of_nonneg_right (accOn_lower hbd hx hy) (hpos _ hy)
      have := hbl2 v
      unfold blend
      change _ ≤ accOn S V x (x + v) * h (x + v) + _
      linarith
    have a3 : Real.exp (-V (x + v)) ≤ Real.exp b := Real.exp_le_exp.mpr (by linarith [(abs_le.mp (hbd.potential _ hy)).1])
    have hh0 := hpos _ hy
    calc densLow d D lo hi * Real.exp (-(3 * b)) * (Real.exp (-V (x + v)) * h (x + v)) ≤ densLow d D lo hi * Real.exp (-(3 * b)) * (Real.exp b * h (x + v)) := by
          refine mul_le_mul_of_nonneg_left (mul_le_mul_of_nonneg_right a3 hh0) (mul_nonneg (densLow_pos hlo (h1.trans h2)).le (Real.exp_pos _).le)
      _ = densLow d D lo hi * (Real.exp (-(2 * b)) * h (x + v)) := by
          have : Real.exp (-(3 * b)) * Real.exp b = Real.exp (-(2 * b)) := by rw [← Real.exp_add]; congr 1; ring
          rw [← this]; ring
      _ ≤ (Real.sqrt s ^ d)⁻¹ * (normDens fun i => v i / Real.sqrt s) * blend S V h x v :=
          mul_le_mul a1 a2 (mul_nonneg (Real.exp_pos _).le hh0) (mul_nonneg (by positivity) (normDens_nonneg _))
      _ = _ := by ring
  · rw [Set.indicator_of_notMem hy]
    simp

end

/-! ## Adaptation that ends -/

theorem gain_past {rm : RM ℝ} {c : ℕ} (hc : rm.adaptCutOff = some c) {i : ℕ} (hi : c ≤ i) : gain rm i = 0 := by
  rw [gain, if_neg]
  intro h
  have := h c hc
  omega

theorem frozen_iter {rm : RM ℝ} {c : ℕ} (hc : rm.adaptCutOff = some c) {q : ℝ → ℝ} {S : Set (Fin d → ℝ)} {V : (Fin d → ℝ) → ℝ} (ω : Tape) (n : ℕ) : ∀ (k : Keys.Key) (x : Fin d → ℝ) (s : ℝ) (i : ℕ), 0 < s → c ≤ i →
    tapeIter (rwDraws q d) Keys.rwNext (adaptMove rm S V) n k (x, s, i) ω = (tapeIter (rwDraws q d) Keys.rwNext (rwMove S V s) n k x ω, s, i + n) := by
  induction n with
  | zero => intro k x s i _ _; rfl
  | succ n ih =>
    intro k x s i hs hi
    have e : adaptMove rm S V (x, s, i) (rwDraws q d k ω) = (rwMove S V s x (rwDraws q d k ω), s, i + 1) := by
      simp only [adaptMove, gain_past hc hi, zero_mul, add_zero, Real.exp_log hs]
    rw [tapeIter, e, ih _ _ _ _ hs (by omega), tapeIter]
    congr 2
    omega

theorem adapt_counter {rm : RM ℝ} {q : ℝ → ℝ} {S : Set (Fin d → ℝ)} {V : (Fin d → ℝ) → ℝ} (ω : Tape) (n : ℕ) : ∀ (k : Keys.Key) (c : (Fin d → ℝ) × ℝ × ℕ), 0 < c.2.1 →
    (tapeIter (rwDraws q d) Keys.rwNext (adaptMove rm S V) n k c ω).2.2 = c.2.2 + n ∧ 0 < (tapeIter (rwDraws q d) Keys.rwNext (adaptMove rm S V) n k c ω).2.1 := by
  induction n with
  | zero => intro k c hc; exact ⟨rfl, hc⟩
  | succ n ih =>
    intro k c _
    rw [tapeIter]
    have := ih (Keys.rwNext k) (adaptMove rm S V c (rwDraws q d k ω)) (adaptMove_pos _ _ _ _ _)
    refine ⟨this.1.trans ?_, this.2⟩
    change c.2.2 + 1 + n = c.2.2 + (n + 1)
    omega

/-- Random walk averages, along the chain of positions. -/
theorem rw_average {q : ℝ → ℝ} (hq : IsNormalDraw q) {S : Set (Fin d → ℝ)} (hS : MeasurableSet S) {V : (Fin d → ℝ) → ℝ} (hV : Measurable V)
    (h0 : target S V Set.univ ≠ 0) (hT : target S V Set.univ ≠ ∞) {step : ℝ} (hstep : 0 < step) (x0 : Fin d → ℝ) (key : Keys.Key)
    {f : (Fin d → ℝ) → ℝ} (hf : Measurable f) (hfi : Integrable f (target S V)) {ε : ℝ} (hε : 0 < ε) :
    Tendsto (fun n : ℕ => ideal {ω | ε ≤ |pathSum (rwDraws q d) Keys.rwNext (rwMove S V step) f n key x0 ω / n - meanUnder (target S V) f|}) atTop (𝓝 0) := by
  have hπ := normalised_prob h0 hT
  have mT : Measurable (Function.uncurry fun x z : Fin d → ℝ => rwProp (Real.sqrt step) (x, z)) := measurable_rwProp (d := d) (Real.sqrt step)
  have ma : Measurable (Function.uncurry fun x z : Fin d → ℝ => accOn S V x (rwProp (Real.sqrt step) (x, z))) := (measurable_accOn hS hV).comp (measurable_fst.prodMk mT)
  have hmain := metropolis_average (rwDraws_draws hq) mT ma (fun _ _ => accOn_nonneg _ _ _ _) (fun _ _ => accOn_le_one _ _ _ _)
    (fun g hg => normalised_invariant (F := fun g x => ∫⁻ w, g (rwMove S V step x w) ∂((stdNormal d).prod unif)) (rwMove_invariant hS hV step g hg))
    (fun x => (rw_ac hS hV hT hstep x).1) (fun x => (rw_ac hS hV hT hstep x).2) hf (hfi.smul_measure (ENNReal.inv_ne_top.mpr h0)) x0 hε key
  rw [integral_normalised] at hmain
  exact hmain

theorem adapt_rows {rm : RM ℝ} (hrm : TunesStepsize rm) {q : ℝ → ℝ} {S : Set (Fin d → ℝ)} {V : (Fin d → ℝ) → ℝ} (f : (Fin d → ℝ) → ℝ) (ω : Tape) {n : ℕ} (hn : 1 ≤ n) (x0 : Fin d → ℝ) (al : Fl) (t : ℝ) (key : Keys.Key)
    (step : ℝ) (hstep : 0 < step) :
    rowMean f ((runFrom (randomWalk Keys.split3 (normalAt q d ω) fun x _ => potOn S V x) (rm.correct (metropolis Keys.split fun k => ω (k, 0))) n
        (rwState S V x0 al t) ⟨key, 0, step⟩).map fun s => s.payload.value)
      = pathSum (rwDraws q d) Keys.rwNext (adaptMove rm S V) (fun c => f c.1) n key (x0, step, 0) ω / n := by
  rw [C12_mcmc _ _ (keepsIter_randomWalk _ _ _) (corrKeepsIter_rm _ _ (corrKeepsIter_metropolis _ _)), List.map_map]
  have hlen : ((n : ℤ) - 1 - ((0 : ℕ) : ℤ)).toNat + 1 = n := by omega
  simp only [hlen]
  rw [rowMean_range]
  simp only [Function.comp]
  have := fun j => congrArg Prod.fst (rm_values hrm (q := q) (S := S) (V := V) ω j x0 key al t 0 step hstep)
  unfold rmUpdateOn at this
  simp only at this
  simp only [this]
  rfl

/-- C144: `RandomWalk` with `RMMetropolis(Metropolis)` and an `adapt_cut_off`: for every posterior of finite positive mass, every start and initial stepsize, and every integrable quantity, the mean over the
rows of a run tends in probability to the posterior mean, whatever stepsize adaptation ends with. -/
theorem C144_cut_off {rm : RM ℝ} (hrm : TunesStepsize rm) {c : ℕ} (hc : rm.adaptCutOff = some c) {q : ℝ → ℝ} (hq : IsNormalDraw q) {S : Set (Fin d → ℝ)} (hS : MeasurableSet S)
    {V : (Fin d → ℝ) → ℝ} (hV : Measurable V) (h0 : target S V Set.univ ≠ 0) (hT : target S V Set.univ ≠ ∞) {step : ℝ} (hstep : 0 < step) (x0 : Fin d → ℝ) (al : Fl) (t : ℝ) (key : Keys.Key)
    {f : (Fin d → ℝ) → ℝ} (hf : Measurable f) (hfi : Integrable f (target S V)) {ε : ℝ} (hε : 0 < ε) :
    Tendsto (fun n : ℕ => ideal {ω | ε ≤ |rowMean f ((runFrom (randomWalk Keys.split3 (normalAt q d ω) fun x _ => potOn S V x) (rm.correct (metropolis Keys.split fun k => ω (k, 0))) n
        (rwState S V x0 al t) ⟨key, 0, step⟩).map fun s => s.payload.value) - meanUnder (target S V) f|}) atTop (𝓝 0) := by
  have hmain := average_after (rwDraws_draws hq (d := d)) (measurable_adaptMove rm hS hV) (f := fun c => f c.1) (hf.comp measurable_fst) c (x0, step, 0) key (meanUnder (target S V) f)
    (G := {z | 0 < z.2.1 ∧ c ≤ z.2.2}) (fun ω => ?_) (fun z hz ε' hε' => ?_) hε
  · refine hmain.congr' ?_
    filter_upwards [eventually_ge_atTop 1] with n hn
    simp only [adapt_rows hrm f _ hn x0 al t key step hstep]
  · have := adapt_counter (rm := rm) (q := q) (S := S) (V := V) ω c key (x0, step, 0) hstep
    exact ⟨this.2, by rw [this.1]; simp⟩
  · obtain ⟨x, s, i⟩ := z
    have := rw_average hq hS hV h0 hT hz.1 x key hf hfi hε'
    refine this.congr fun n => ?_
    congr 1
    ext ω
    simp only [Set.mem_ofPred_eq, pathSum, frozen_iter hc ω _ key x s i hz.1 hz.2]

/-! ## Adaptation that goes on -/

section
variable {S : Set (Fin d → ℝ)} (hS : MeasurableSet S) {V : (Fin d → ℝ) → ℝ} (hV : Measurable V)

theorem ae_support (hS : MeasurableSet S) (hV : Measurable V) : ∀ᵐ x ∂(normalised (target S V)), x ∈ S := by
  refine Measure.ae_smul_measure ?_ _
  have mD : Measurable (S.indicator fun x => ENNReal.ofReal (Real.exp (-V x))) := (Real.measurable_exp.comp hV.neg).ennreal_ofReal.indicator hS
  have h : ∀ᵐ x ∂(volume.withDensity (S.indicator fun x => ENNReal.ofReal (Real.exp (-V x)))), x ∈ S := by
    rw [ae_withDensity_iff mD]
    refine .of_forall fun x hx => ?_
    by_contra h
    exact hx (Set.indicator_of_notMem h _)
  exact h

/-- How much of the posterior one update at a stepsize in `[lo, hi]` reaches from anywhere in the support. -/
noncomputable def reachMass (S : Set (Fin d → ℝ)) (V : (Fin d → ℝ) → ℝ) (D b lo hi : ℝ) : ℝ := densLow d D lo hi * Real.exp (-(3 * b)) * (target S V Set.univ).toReal

theorem reachMass_pos (h0 : target S V Set.univ ≠ 0) (hT : target S V Set.univ ≠ ∞) {D b lo hi : ℝ} (hlo : 0 < lo) (hle : lo ≤ hi) : 0 < reachMass S V D b lo hi :=
  mul_pos (mul_pos (densLow_pos hlo hle) (Real.exp_pos _)) (ENNReal.toReal_pos h0 hT)

include hS hV in
theorem reach_mean (h0 : target S V Set.univ ≠ 0) (hT : target S V Set.univ ≠ ∞) {D b lo hi s : ℝ} (hbd : Bounded S V D b) (hlo : 0 < lo) (h1 : lo ≤ s) (h2 : s ≤ hi) {h : (Fin d → ℝ) → ℝ} (hh : Measurable h) {B : ℝ}
    (hB : ∀ x, |h x| ≤ B) (hpos : ∀ y ∈ S, 0 ≤ h y) {x : Fin d → ℝ} (hx : x ∈ S) :
    reachMass S V D b lo hi * ∫ y, h y ∂(normalised (target S V)) ≤ next ((stdNormal d).prod unif) (rwMove S V s) h x := by
  have hπ := normalised_prob h0 hT
  have hr := reach hS hV hbd hlo h1 h2 hh hB hpos hx
  have hae := (ae_support hS hV).mono hpos
  have hn : 0 ≤ next ((stdNormal d).prod unif) (rwMove S V s) h x := by
    rw [next_rwMove hS hV hh hB]
    refine integral_nonneg fun z => ?_
    refine add_nonneg ?_ (mul_nonneg (sub_nonneg.mpr (accOn_le_one _ _ _ _)) (hpos x hx))
    by_cases hy : (fun i => x i + Real.sqrt s * z i) ∈ S
    · exact mul_nonneg (accOn_nonneg _ _ _ _) (hpos _ hy)
    · have : accOn S V x (fun i => x i + Real.sqrt s * z i) = 0 := by rw [accOn, if_neg hy]
      rw [this, zero_mul]
  have hi' : Integrable h (normalised (target S V)) := Integrable.of_bound hh.aestronglyMeasurable B (.of_forall hB)
  have e : ∫⁻ y, ENNReal.ofReal (h y) ∂(target S V) = target S V Set.univ * ENNReal.ofReal (∫ y, h y ∂(normalised (target S V))) := by
    rw [ofReal_integral_eq_lintegral_ofReal hi' hae, normalised, lintegral_smul_measure, smul_eq_mul, ← mul_assoc, ENNReal.mul_inv_cancel h0 hT, one_mul]
  have hd0 : 0 ≤ densLow d D lo hi * Real.exp (-(3 * b)) := (mul_pos (densLow_pos hlo (h1.trans h2)) (Real.exp_pos _)).le
  rw [e, ← ENNReal.ofReal_toReal hT, ← ENNReal.ofReal_mul ENNReal.toReal_nonneg, ← ENNReal.ofReal_mul hd0, ENNReal.ofReal_le_ofReal_iff hn] at hr
  rw [reachMass]
  linarith

include hS hV in
/-- One update brings means closer together. -/
theorem contract (h0 : target S V Set.univ ≠ 0) (hT : target S V Set.univ ≠ ∞) {D b lo hi s : ℝ} (hbd : Bounded S V D b) (hlo : 0 < lo) (h1 : lo ≤ s) (h2 : s ≤ hi) {g : (Fin d → ℝ) → ℝ} (hg : Measurable g) {B : ℝ}
    (hB : ∀ x, |g x| ≤ B) (hmean : ∫ y, g y ∂(normalised (target S V)) = 0) {c : ℝ} (hc : ∀ y ∈ S, |g y| ≤ c) {x : Fin d → ℝ} (hx : x ∈ S) :
    |next ((stdNormal d).prod unif) (rwMove S V s) g x| ≤ (1 - reachMass S V D b lo hi) * c := by
  have hπ := normalised_prob h0 hT
  have hi' : Integrable g (normalised (target S V)) := Integrable.of_bound hg.aestronglyMeasurable B (.of_forall hB)
  have hig := integrable_step (δ := (stdNormal d).prod unif) (measurable_rwMove hS hV s) hg hB x
  have a1 := reach_mean hS hV h0 hT hbd hlo h1 h2 (h := fun y => c + g y) (measurable_const.add hg) (B := |c| + B) (fun y => (abs_add_le _ _).trans (add_le_add le_rfl (hB y)))
    (fun y hy => by have := (abs_le.mp (hc y hy)).1; linarith) hx
  have a2 := reach_mean hS hV h0 hT hbd hlo h1 h2 (h := fun y => c - g y) (measurable_const.sub hg) (B := |c| + B) (fun y => (abs_sub _ _).trans (add_le_add le_rfl (hB y)))
    (fun y hy => by have := (abs_le.mp (hc y hy)).2; linarith) hx
  rw [next, integral_add (integrable_const _) hig, integral_add (integrable_const _) hi', hmean] at a1
  rw [next, integral_sub (integrable_const _) hig, integral_sub (integrable_const _) hi', hmean] at a2
  simp only [integral_const, probReal_univ, one_smul, add_zero, sub_zero] at a1 a2
  rw [abs_le, next]
  constructor <;> linarith

include hS hV in
/-- Updates at one stepsize forget at a geometric rate, the same for all stepsizes in `[lo, hi]`. -/
theorem forget (h0 : target S V Set.univ ≠ 0) (hT : target S V Set.univ ≠ ∞) {D b lo hi s : ℝ} (hbd : Bounded S V D b) (hlo : 0 < lo) (h1 : lo ≤ s) (h2 : s ≤ hi) {g : (Fin d → ℝ) → ℝ} (hg : Measurable g) {B : ℝ}
    (hB : ∀ x, |g x| ≤ B) (hmean : ∫ y, g y ∂(normalised (target S V)) = 0) (M : ℕ) {x : Fin d → ℝ} (hx : x ∈ S) :
    |(next ((stdNormal d).prod unif) (rwMove S V s))^[M] g x| ≤ (1 - reachMass S V D b lo hi) ^ M * B := by
  have hπ := normalised_prob h0 hT
  have hinv := fun (g : (Fin d → ℝ) → ℝ≥0∞) (hg : Measurable g) => normalised_invariant (F := fun g x => ∫⁻ w, g (rwMove S V s x w) ∂((stdNormal d).prod unif)) (rwMove_invariant hS hV s g hg)
  have hm : ∀ M, ∫ y, (next ((stdNormal d).prod unif) (rwMove S V s))^[M] g y ∂(normalised (target S V)) = 0 := fun M => by
    induction M with
    | zero => exact hmean
    | succ M ih =>
      rw [Function.iterate_succ_apply']
      have := integral_next (π := normalised (target S V)) (measurable_rwMove hS hV s) hinv (measurable_next_iterate (measurable_rwMove hS hV s) hg M) (abs_next_iterate_le (δ := (stdNormal d).prod unif) (step := rwMove S V s) hB M)
      rw [this, ih]
  induction M generalizing x with
  | zero => simpa using hB x
  | succ M ih =>
    rw [Function.iterate_succ_apply', pow_succ', mul_assoc]
    exact contract hS hV h0 hT hbd hlo h1 h2 (measurable_next_iterate (measurable_rwMove hS hV s) hg M) (abs_next_iterate_le hB M) (hm M) (fun y hy => ih hy) hx

/-- Gains from update `i` on are at most this. -/
noncomputable def gainBound (rm : RM ℝ) (i : ℕ) : ℝ := rm.scale * ((i + 1 : ℕ) : ℝ) ^ (-rm.negExponent)

theorem gainBound_nonneg {rm : RM ℝ} (hscale : 0 ≤ rm.scale) (i : ℕ) : 0 ≤ gainBound rm i := mul_nonneg hscale (Real.rpow_nonneg (by positivity) _)

theorem gainBound_anti {rm : RM ℝ} (hscale : 0 ≤ rm.scale) (hexp : 0 ≤ rm.negExponent) {i j : ℕ} (h : i ≤ j) : gainBound rm j ≤ gainBound rm i := by
  refine mul_le_mul_of_nonneg_left ?_ hscale
  exact Real.rpow_le_rpow_of_nonpos (by positivity) (by exact_mod_cast Nat.succ_le_succ h) (by linarith)

theorem gain_le_gainBound {rm : RM ℝ} (hscale : 0 ≤ rm.scale) (i : ℕ) : gain rm i ≤ gainBound rm i := by
  rw [gain]
  split_ifs
  · exact le_rfl
  · exact gainBound_nonneg hscale i

theorem gainBound_tendsto {rm : RM ℝ} (hexp : 0 < rm.negExponent) (i : ℕ) : Tendsto (fun l : ℕ => gainBound rm (i + l)) atTop (𝓝 0) := by
  have h : Tendsto (fun l : ℕ => ((i + l + 1 : ℕ) : ℝ)) atTop atTop := by
    refine tendsto_natCast_atTop_atTop.comp ?_
    exact tendsto_atTop_mono (fun l => by simp only [id]; omega) tendsto_id
  have := ((tendsto_rpow_neg_atTop hexp).comp h).const_mul rm.scale
  rwa [mul_zero] at this

include hS hV in
/-- For a while, adapted updates are like updates at the stepsize they start with. -/
theorem adapt_close {rm : RM ℝ} (hscale : 0 ≤ rm.scale) (hexp : 0 ≤ rm.negExponent) (ht0 : 0 ≤ rm.target) (ht1 : rm.target ≤ 1) {g : (Fin d → ℝ) → ℝ} (hg : Measurable g) {B : ℝ} (hB : ∀ x, |g x| ≤ B) {s : ℝ} (hs : 0 < s) (j : ℕ) :
    ∀ (x : Fin d → ℝ) (s' : ℝ) (i : ℕ), 0 < s' →
      |(next ((stdNormal d).prod unif) (adaptMove rm S V))^[j] (fun c => g c.1) (x, s', i) - (next ((stdNormal d).prod unif) (rwMove S V s))^[j] g x|
        ≤ j * (B * d) * (|Real.log s' - Real.log s| + j * gainBound rm i) := by
  have hB0 : 0 ≤ B := (abs_nonneg _).trans (hB 0)
  induction j with
  | zero => intro x s' i _; simp
  | succ j ih =>
    intro x s' i hs'
    rw [Function.iterate_succ_apply', Function.iterate_succ_apply']
    set K := (next ((stdNormal d).prod unif) (adaptMove rm S V))^[j] (fun c : (Fin d → ℝ) × ℝ × ℕ => g c.1) with hK
    set P := (next ((stdNormal d).prod unif) (rwMove S V s))^[j] g with hP
    have mA := measurable_adaptMove rm hS hV
    have mg : Measurable fun c : (Fin d → ℝ) × ℝ × ℕ => g c.1 := hg.comp measurable_fst
    have mK : Measurable K := measurable_next_iterate mA mg j
    have bK : ∀ c, |K c| ≤ B := abs_next_iterate_le (δ := (stdNormal d).prod unif) (step := adaptMove rm S V) (f := fun c : (Fin d → ℝ) × ℝ × ℕ => g c.1) (fun c => hB c.1) j
    have mP : Measurable P := measurable_next_iterate (measurable_rwMove hS hV s) hg j
    have bP : ∀ y, |P y| ≤ B := abs_next_iterate_le (δ := (stdNormal d).prod unif) (step := rwMove S V s) hB j
    have c1 := next_rwMove_sub hS hV mP bP hs' hs x
    have hgb := gainBound_nonneg (rm := rm) hscale i
    have c2 : |next ((stdNormal d).prod unif) (adaptMove rm S V) K (x, s', i) - next ((stdNormal d).prod unif) (rwMove S V s') P x| ≤ j * (B * d) * (|Real.log s' - Real.log s| + gainBound rm i + j * gainBound rm i) := by
      have i1 := integrable_step (δ := (stdNormal d).prod unif) mA mK bK (x, s', i)
      have i2 := integrable_step (δ := (stdNormal d).prod unif) (measurable_rwMove hS hV s') mP bP x
      rw [next, next, ← integral_sub i1 i2]
      refine (abs_integral_le_integral_abs).trans ?_
      have hbd : ∀ w, |K (adaptMove rm S V (x, s', i) w) - P (rwMove S V s' x w)| ≤ j * (B * d) * (|Real.log s' - Real.log s| + gainBound rm i + j * gainBound rm i) := fun w => by
        refine (ih _ _ _ (adaptMove_pos rm S V (x, s', i) w)).trans ?_
        have a1 : Real.log (adaptMove rm S V (x, s', i) w).2.1 = Real.log s' + gain rm i * (accOn S V x (rwProp (Real.sqrt s') (x, w.1)) - rm.target) := by simp only [adaptMove, Real.log_exp]
        have a2 : |gain rm i * (accOn S V x (rwProp (Real.sqrt s') (x, w.1)) - rm.target)| ≤ gainBound rm i := by
          rw [abs_mul, abs_of_nonneg (gain_nonneg hscale i)]
          refine (mul_le_of_le_one_right (gain_nonneg hscale i) ?_).trans (gain_le_gainBound hscale i)
          rw [abs_le]
          constructor <;> linarith [accOn_nonneg S V x (rwProp (Real.sqrt s') (x, w.1)), accOn_le_one S V x (rwProp (Real.sqrt s') (x, w.1))]
        have a3 : |Real.log (adaptMove rm S V (x, s', i) w).2.1 - Real.log s| ≤ |Real.log s' - Real.log s| + gainBound rm i := by
          rw [a1, add_sub_right_comm]
          exact (abs_add_le _ _).trans (add_le_add le_rfl a2)
        have a4 : gainBound rm (i + 1) ≤ gainBound rm i := gainBound_anti hscale hexp (Nat.le_succ i)
        refine mul_le_mul_of_nonneg_left (add_le_add a3 (mul_le_mul_of_nonneg_left a4 (by positivity))) (by positivity)
      have := integral_mono (μ := (stdNormal d).prod unif) (i1.sub i2).abs (integrable_const _) hbd
      refine this.trans (le_of_eq ?_)
      simp
    have e : next ((stdNormal d).prod unif) (adaptMove rm S V) K (x, s', i) - next ((stdNormal d).prod unif) (rwMove S V s) P x
        = (next ((stdNormal d).prod unif) (adaptMove rm S V) K (x, s', i) - next ((stdNormal d).prod unif) (rwMove S V s') P x)
          + (next ((stdNormal d).prod unif) (rwMove S V s') P x - next ((stdNormal d).prod unif) (rwMove S V s) P x) := by ring
    rw [e]
    refine (abs_add_le _ _).trans ((add_le_add c2 c1).trans ?_)
    have hBd : 0 ≤ B * d := by positivity
    push_cast
    nlinarith [mul_nonneg hBd hgb, mul_nonneg (mul_nonneg hBd hgb) (Nat.cast_nonneg j : (0 : ℝ) ≤ j)]

end

section
variable {rm : RM ℝ} (hrm : TunesStepsize rm) {q : ℝ → ℝ} (hq : IsNormalDraw q) {S : Set (Fin d → ℝ)} (hS : MeasurableSet S) {V : (Fin d → ℝ) → ℝ} (hV : Measurable V)

include hq in
theorem adapt_stays (c : (Fin d → ℝ) × ℝ × ℕ) (hc : c ∈ inSupport S) (k : Keys.Key) : ∀ᵐ ω ∂ideal, ∀ l, tapeIter (rwDraws q d) Keys.rwNext (adaptMove rm S V) l k c ω ∈ inSupport S := by
  have hd := rwDraws_draws hq (d := d)
  have hu : ∀ᵐ u ∂unif, u ∈ Set.Ico (0 : ℝ) 1 := by unfold unif; exact ae_restrict_mem measurableSet_Ico
  have h2 : ∀ᵐ w ∂((stdNormal d).prod unif), w.2 ∈ Set.Ico (0 : ℝ) 1 := Measure.quasiMeasurePreserving_snd.ae hu
  have h3 : ∀ k, ∀ᵐ ω ∂ideal, (rwDraws q d k ω).2 ∈ Set.Ico (0 : ℝ) 1 := fun k => by
    rw [← hd.law k] at h2
    exact ae_of_ae_map (hd.measurable k).aemeasurable h2
  have h4 : ∀ᵐ ω ∂ideal, ∀ m : ℕ, (rwDraws q d (Keys.rwNext^[m] k) ω).2 ∈ Set.Ico (0 : ℝ) 1 := ae_all_iff.mpr fun m => h3 _
  refine h4.mono fun ω hω l => ?_
  have : ∀ (l : ℕ) (k : Keys.Key) (c : (Fin d → ℝ) × ℝ × ℕ), c ∈ inSupport S → (∀ m : ℕ, (rwDraws q d (Keys.rwNext^[m] k) ω).2 ∈ Set.Ico (0 : ℝ) 1) → tapeIter (rwDraws q d) Keys.rwNext (adaptMove rm S V) l k c ω ∈ inSupport S := by
    intro l
    induction l with
    | zero => intro k c hc _; exact hc
    | succ l ih =>
      intro k c hc hk
      exact ih _ _ (adaptMove_inSupport hc _ (hk 0).1) fun m => hk (m + 1)
  exact this l k c hc hω

include hrm hq hS hV in
/-- Adapted updates forget. -/
theorem adapt_forgets (h0 : target S V Set.univ ≠ 0) (hT : target S V Set.univ ≠ ∞) {D bV : ℝ} (hbd : Bounded S V D bV) (hscale : 0 < rm.scale) (hexp : 0 < rm.negExponent) (ht0 : 0 ≤ rm.target) (ht1 : rm.target ≤ 1)
    {η a b : ℝ} (hη : 0 < η) (hη1 : η ≤ 1) (ha : 0 < a) (hb : 0 < b) (hsmall : ∀ x ∈ S, ∀ s, 0 < s → s ≤ a → rm.target + η ≤ rateAt S V x s) (hlarge : ∀ x ∈ S, ∀ s ≥ b, rateAt S V x s ≤ rm.target - η)
    {step : ℝ} (hstep : 0 < step) {x : Fin d → ℝ} (hx : x ∈ S) (i : ℕ) {g : (Fin d → ℝ) → ℝ} (hg : Measurable g) {B : ℝ} (hB : ∀ x, |g x| ≤ B) (hmean : ∫ y, g y ∂(normalised (target S V)) = 0) {ε : ℝ} (hε : 0 < ε) :
    ∃ M, ∀ᶠ l in atTop, (next ((stdNormal d).prod unif) (adaptMove rm S V))^[l] (fun y => |(next ((stdNormal d).prod unif) (adaptMove rm S V))^[M] (fun c => g c.1) y|) (x, step, i) ≤ ε := by
  have hB0 : 0 ≤ B := (abs_nonneg _).trans (hB 0)
  have hε1 : 0 < ε / (8 * (B + 1)) := by positivity
  obtain ⟨hi, hhi⟩ := C143_not_large hrm hq hS hV hscale hexp.le ht0 ht1 hη hη1 hb hlarge step hstep hε1
  obtain ⟨lo, hlo, hlo'⟩ := C143_not_small hrm hq hS hV hscale hexp.le ht0 ht1 hη hη1 ha hsmall step hstep hε1
  have hβ := reachMass_pos (D := D) (b := bV) h0 hT hlo (le_max_left lo hi)
  set β := reachMass S V D bV lo (max lo hi) with hβd
  -- the rate is below one, since the mean of a constant is the constant
  have hβ1 : β ≤ 1 := by
    have hπ := normalised_prob h0 hT
    have := reach_mean hS hV h0 hT hbd hlo le_rfl (le_max_left lo hi) (h := fun _ => 1) measurable_const (B := 1) (fun _ => by simp) (fun _ _ => zero_le_one) hx
    simpa [next] using this
  have hpow : Tendsto (fun M : ℕ => (1 - β) ^ M * B) atTop (𝓝 0) := by
    have := (tendsto_pow_atTop_nhds_zero_of_lt_one (by linarith) (by linarith : 1 - β < 1)).mul_const B
    rwa [zero_mul] at this
  obtain ⟨M, hM⟩ := (hpow.eventually (gt_mem_nhds (by positivity : 0 < ε / 4))).exists
  have hgt : Tendsto (fun l : ℕ => (M : ℝ) * (B * d) * (0 + M * gainBound rm (i + l))) atTop (𝓝 0) := by
    have := ((gainBound_tendsto hexp i).const_mul (M : ℝ)).const_mul ((M : ℝ) * (B * d))
    simpa using this
  refine ⟨M, (hgt.eventually (gt_mem_nhds (by positivity : 0 < ε / 4))).mono fun l hl => ?_⟩
  have hd := rwDraws_draws hq (d := d)
  have mA := measurable_adaptMove rm hS hV
  have mg : Measurable fun c : (Fin d → ℝ) × ℝ × ℕ => g c.1 := hg.comp measurable_fst
  have mK : Measurable fun y => |(next ((stdNormal d).prod unif) (adaptMove rm S V))^[M] (fun c => g c.1) y| := continuous_abs.measurable.comp (measurable_next_iterate mA mg M)
  have bK : ∀ c, |(next ((stdNormal d).prod unif) (adaptMove rm S V))^[M] (fun c => g c.1) c| ≤ B :=
    abs_next_iterate_le (δ := (stdNormal d).prod unif) (step := adaptMove rm S V) (f := fun c : (Fin d → ℝ) × ℝ × ℕ => g c.1) (fun c => hB c.1) M
  rw [next_iterate_eq hd mA mK (B := B) (fun _ => abs_nonneg _) (fun c => by rw [abs_abs]; exact bK c) l []]
  have hsA := hhi x hx (Fl.fin 0) 0 [] i l
  have hsB := hlo' x hx (Fl.fin 0) 0 [] i l
  have mS := measurable_stepAfter hrm hq hS hV x (Fl.fin 0) 0 [] i step hstep l
  set A : Set Tape := {ω | hi ≤ stepAfter rm q S V x (Fl.fin 0) 0 ⟨[], i, step⟩ l ω} with hA
  set A' : Set Tape := {ω | stepAfter rm q S V x (Fl.fin 0) 0 ⟨[], i, step⟩ l ω ≤ lo} with hA'
  have mAs : MeasurableSet A := measurableSet_le measurable_const mS
  have mAs' : MeasurableSet A' := measurableSet_le mS measurable_const
  have hle : ∀ᵐ ω ∂ideal, |(next ((stdNormal d).prod unif) (adaptMove rm S V))^[M] (fun c => g c.1) (tapeIter (rwDraws q d) Keys.rwNext (adaptMove rm S V) l [] (x, step, i) ω)|
      ≤ ε / 2 + (A.indicator (fun _ => B) ω + A'.indicator (fun _ => B) ω) := by
    filter_upwards [adapt_stays (rm := rm) hq (S := S) (V := V) (x, step, i) ⟨hx, hstep⟩ []] with ω hω
    have hin := hω l
    have hcnt := (adapt_counter (rm := rm) (q := q) (S := S) (V := V) ω l [] (x, step, i) hstep).1
    have hst := stepAfter_eq hrm (q := q) (S := S) (V := V) x (Fl.fin 0) 0 [] i step hstep l ω
    have i1 : 0 ≤ A.indicator (fun _ => B) ω := Set.indicator_nonneg (fun _ _ => hB0) _
    have i2 : 0 ≤ A'.indicator (fun _ => B) ω := Set.indicator_nonneg (fun _ _ => hB0) _
    by_cases c1 : ω ∈ A
    · rw [Set.indicator_of_mem c1]
      exact (bK _).trans (by linarith)
    by_cases c2 : ω ∈ A'
    · rw [Set.indicator_of_mem (s := A') c2]
      exact (bK _).trans (by linarith)
    have c1' : stepAfter rm q S V x (Fl.fin 0) 0 ⟨[], i, step⟩ l ω < hi := not_le.mp c1
    have c2' : lo < stepAfter rm q S V x (Fl.fin 0) 0 ⟨[], i, step⟩ l ω := not_le.mp c2
    rw [hst] at c1' c2'
    generalize tapeIter (rwDraws q d) Keys.rwNext (adaptMove rm S V) l [] (x, step, i) ω = z at hin hcnt c1' c2' ⊢
    obtain ⟨y, s, n⟩ := z
    simp only at c1' c2' hcnt
    subst hcnt
    have e1 := adapt_close hS hV hscale.le hexp.le ht0 ht1 hg hB (hlo.trans c2') M y s (i + l) (hlo.trans c2')
    have e2 := forget hS hV h0 hT hbd hlo c2'.le (c1'.le.trans (le_max_right lo hi)) hg hB hmean M hin.1
    rw [sub_self, abs_zero] at e1
    have e3 := abs_sub_abs_le_abs_sub ((next ((stdNormal d).prod unif) (adaptMove rm S V))^[M] (fun c => g c.1) (y, s, i + l)) ((next ((stdNormal d).prod unif) (rwMove S V s))^[M] g y)
    rw [← hβd] at e2
    linarith
  have mI : Measurable fun ω => tapeIter (rwDraws q d) Keys.rwNext (adaptMove rm S V) l [] (x, step, i) ω := (measurable_tapeIter hd mA l []).comp measurable_prodMk_left
  have hint : Integrable (fun ω => |(next ((stdNormal d).prod unif) (adaptMove rm S V))^[M] (fun c => g c.1) (tapeIter (rwDraws q d) Keys.rwNext (adaptMove rm S V) l [] (x, step, i) ω)|) ideal :=
    Integrable.of_bound (mK.comp mI).aestronglyMeasurable B (.of_forall fun ω => by rw [Real.norm_eq_abs, abs_abs]; exact bK _)
  have j1 : Integrable (A.indicator fun _ => B) ideal := (integrable_const B).indicator mAs
  have j2 : Integrable (A'.indicator fun _ => B) ideal := (integrable_const B).indicator mAs'
  refine (integral_mono_ae hint ((integrable_const (ε / 2)).add (j1.add j2)) hle).trans ?_
  have hsum : ∫ ω, (ε / 2 + (A.indicator (fun _ => B) ω + A'.indicator (fun _ => B) ω)) ∂ideal = ε / 2 + (∫ ω, A.indicator (fun _ => B) ω ∂ideal + ∫ ω, A'.indicator (fun _ => B) ω ∂ideal) := by
    have h1 := integral_add (μ := ideal) (integrable_const (ε / 2)) (j1.add j2)
    have h2 := integral_add (μ := ideal) j1 j2
    rw [← h2]
    refine h1.trans ?_
    simp
  change ∫ ω, (ε / 2 + (A.indicator (fun _ => B) ω + A'.indicator (fun _ => B) ω)) ∂ideal ≤ ε
  rw [hsum, integral_indicator_const _ mAs, integral_indicator_const _ mAs']
  simp only [smul_eq_mul]
  have p1 : ideal.real A ≤ ε / (8 * (B + 1)) := ENNReal.toReal_le_of_le_ofReal hε1.le hsA
  have p2 : ideal.real A' ≤ ε / (8 * (B + 1)) := ENNReal.toReal_le_of_le_ofReal hε1.le hsB
  have p3 : ε / (8 * (B + 1)) * B ≤ ε / 8 := by
    rw [div_mul_eq_mul_div, div_le_div_iff₀ (by positivity) (by norm_num)]
    nlinarith
  have p4 := mul_le_mul_of_nonneg_right p1 hB0
  have p5 := mul_le_mul_of_nonneg_right p2 hB0
  linarith

include hrm hq hS hV in
/-- C144 for adaptation that goes on: if the support is bounded, the potential is bounded on it, and from every position of the support small stepsizes are accepted more often and large ones less often than the
target, by a margin, then the mean over the rows of a run of every bounded quantity tends in probability to its posterior mean. -/
theorem C144_adaptive (h0 : target S V Set.univ ≠ 0) (hT : target S V Set.univ ≠ ∞) {D bV : ℝ} (hbd : Bounded S V D bV) (hscale : 0 < rm.scale) (hexp : 0 < rm.negExponent) (ht0 : 0 ≤ rm.target) (ht1 : rm.target ≤ 1)
    {η a b : ℝ} (hη : 0 < η) (hη1 : η ≤ 1) (ha : 0 < a) (hb : 0 < b) (hsmall : ∀ x ∈ S, ∀ s, 0 < s → s ≤ a → rm.target + η ≤ rateAt S V x s) (hlarge : ∀ x ∈ S, ∀ s ≥ b, rateAt S V x s ≤ rm.target - η)
    {step : ℝ} (hstep : 0 < step) {x0 : Fin d → ℝ} (hx : x0 ∈ S) (al : Fl) (t : ℝ) (key : Keys.Key) {f : (Fin d → ℝ) → ℝ} (hf : Measurable f) {B : ℝ} (hB : ∀ x, |f x| ≤ B) {ε : ℝ} (hε : 0 < ε) :
    Tendsto (fun n : ℕ => ideal {ω | ε ≤ |rowMean f ((runFrom (randomWalk Keys.split3 (normalAt q d ω) fun x _ => potOn S V x) (rm.correct (metropolis Keys.split fun k => ω (k, 0))) n
        (rwState S V x0 al t) ⟨key, 0, step⟩).map fun s => s.payload.value) - meanUnder (target S V) f|}) atTop (𝓝 0) := by
  have hπ := normalised_prob h0 hT
  set m := meanUnder (target S V) f with hm
  have hi' : Integrable f (normalised (target S V)) := Integrable.of_bound hf.aestronglyMeasurable B (.of_forall hB)
  have hmean : ∫ y, (f y - m) ∂(normalised (target S V)) = 0 := by
    rw [integral_sub hi' (integrable_const _), integral_normalised, ← hm]
    simp
  have hg : Measurable fun y => f y - m := hf.sub_const _
  have hB' : ∀ y, |f y - m| ≤ B + |m| := fun y => (abs_sub _ _).trans (add_le_add (hB y) le_rfl)
  have hmain := average_mixing (rwDraws_draws hq (d := d)) (measurable_adaptMove rm hS hV) (f := fun c => f c.1 - m) (hg.comp measurable_fst) (fun c => hB' c.1) (x0, step, 0) key
    (fun ε hε => adapt_forgets hrm hq hS hV h0 hT hbd hscale hexp ht0 ht1 hη hη1 ha hb hsmall hlarge hstep hx 0 hg hB' hmean hε) hε
  refine hmain.congr' ?_
  filter_upwards [eventually_ge_atTop 1] with n hn
  have hn0 : (n : ℝ) ≠ 0 := by positivity
  simp only [adapt_rows hrm f _ hn x0 al t key step hstep]
  congr 1
  ext ω
  simp only [Set.mem_ofPred_eq, pathSum, Finset.sum_sub_distrib, Finset.sum_const, Finset.card_range, nsmul_eq_mul]
  rw [sub_div, mul_div_cancel_left₀ _ hn0]

end

/-- C144 for every continuous potential on a box, with a target between 0 and `1 / 2 ^ dim` and gains that vanish: no adaptation cut-off is needed. -/
theorem C144_box {rm : RM ℝ} (hrm : TunesStepsize rm) {q : ℝ → ℝ} (hq : IsNormalDraw q) {lo hi : Fin d → ℝ} (hd : 0 < d) (hbox : ∀ i, lo i < hi i) {V : (Fin d → ℝ) → ℝ} (hV : Measurable V) (hc : ContinuousOn V (boxOf lo hi))
    (hscale : 0 < rm.scale) (hexp : 0 < rm.negExponent) (ht0 : 0 < rm.target) (ht : rm.target < (1 / 2) ^ d) {step : ℝ} (hstep : 0 < step) {x0 : Fin d → ℝ}
    (hx : x0 ∈ boxOf lo hi) (al : Fl) (t : ℝ) (key : Keys.Key) {f : (Fin d → ℝ) → ℝ} (hf : Measurable f) {B : ℝ} (hB : ∀ x, |f x| ≤ B) {ε : ℝ} (hε : 0 < ε) :
    Tendsto (fun n : ℕ => ideal {ω | ε ≤ |rowMean f ((runFrom (randomWalk Keys.split3 (normalAt q d ω) fun x _ => potOn (boxOf lo hi) V x) (rm.correct (metropolis Keys.split fun k => ω (k, 0))) n
        (rwState (boxOf lo hi) V x0 al t) ⟨key, 0, step⟩).map fun s => s.payload.value) - meanUnder (target (boxOf lo hi) V) f|}) atTop (𝓝 0) := by
  have hSm : MeasurableSet (boxOf lo hi) := measurableSet_Icc
  obtain ⟨b, hb, hlarge⟩ := C143_large_rejected (S := boxOf lo hi) hSm hV ⟨0, hd⟩ (D := hi ⟨0, hd⟩ - lo ⟨0, hd⟩) (fun x hx y hy => by
    have h1 := hx.1 ⟨0, hd⟩
    have h2 := hx.2 ⟨0, hd⟩
    have h3 := hy.1 ⟨0, hd⟩
    have h4 := hy.2 ⟨0, hd⟩
    rw [abs_le]
    constructor <;> linarith) ht0
  obtain ⟨a, ha, η, hη, hsmall⟩ := C143_small_accepted hbox hV hc ht
  have ht1 : rm.target ≤ 1 := ht.le.trans (pow_le_one₀ (by norm_num) (by norm_num))
  have hm0 : 0 < min η (rm.target / 2) := lt_min hη (by linarith)
  obtain ⟨bV, hbV⟩ : ∃ bV, ∀ x ∈ boxOf lo hi, |V x| ≤ bV := by
    obtain ⟨C, hC⟩ := (isCompact_Icc (a := lo) (b := hi)).exists_bound_of_continuousOn hc
    exact ⟨C, hC⟩
  have hbd : Bounded (boxOf lo hi) V (∑ i, (hi i - lo i)) bV := ⟨fun x hx y hy i => by
    have h1 := hx.1 i
    have h2 := hx.2 i
    have h3 := hy.1 i
    have h4 := hy.2 i
    have h5 : hi i - lo i ≤ ∑ i, (hi i - lo i) := Finset.single_le_sum (f := fun i => hi i - lo i) (fun j _ => by linarith [hbox j]) (Finset.mem_univ i)
    rw [abs_le]
    constructor <;> linarith, hbV⟩
  have mD : Measurable (fun x => ENNReal.ofReal (Real.exp (-V x))) := (Real.measurable_exp.comp hV.neg).ennreal_ofReal
  have hmass : target (boxOf lo hi) V Set.univ = ∫⁻ x in boxOf lo hi, ENNReal.ofReal (Real.exp (-V x)) := by
    change volume.withDensity ((boxOf lo hi).indicator fun x => ENNReal.ofReal (Real.exp (-V x))) Set.univ = _
    rw [withDensity_apply _ MeasurableSet.univ, Measure.restrict_univ, lintegral_indicator hSm]
  have hvol : volume (boxOf lo hi) = ENNReal.ofReal (∏ i, (hi i - lo i)) := by
    rw [boxOf, Real.volume_Icc_pi, ENNReal.ofReal_prod_of_nonneg fun i _ => by linarith [hbox i]]
  have hvol0 : volume (boxOf lo hi) ≠ 0 := by
    rw [hvol]
    simp only [ne_eq, ENNReal.ofReal_eq_zero, not_le]
    exact Finset.prod_pos fun i _ => by linarith [hbox i]
  have h0 : target (boxOf lo hi) V Set.univ ≠ 0 := by
    rw [hmass]
    intro h
    rw [lintegral_eq_zero_iff mD] at h
    have : volume.restrict (boxOf lo hi) Set.univ = 0 := by
      refine measure_mono_null (fun x _ => ?_) h
      simp [Real.exp_pos]
    rw [Measure.restrict_apply_univ] at this
    exact hvol0 this
  have hT : target (boxOf lo hi) V Set.univ ≠ ∞ := by
    rw [hmass]
    refine ne_top_of_le_ne_top (b := ENNReal.ofReal (Real.exp bV) * volume (boxOf lo hi)) (ENNReal.mul_ne_top ENNReal.ofReal_ne_top (by rw [hvol]; exact ENNReal.ofReal_ne_top)) ?_
    rw [← setLIntegral_const]
    exact setLIntegral_mono measurable_const fun x hx => ENNReal.ofReal_le_ofReal (Real.exp_le_exp.mpr (by linarith [(abs_le.mp (hbV x hx)).1]))
  exact C144_adaptive hrm hq hSm hV h0 hT hbd hscale hexp ht0.le ht1 (η := min η (rm.target / 2)) hm0 ((min_le_right _ _).trans (by linarith)) ha hb
    (fun x hx s h1 h2 => (by linarith [min_le_left η (rm.target / 2)] : rm.target + min η (rm.target / 2) ≤ rm.target + η).trans (hsmall x hx s h1 h2))
    (fun x hx s hs => (hlarge x hx s hs).trans (by linarith [min_le_right η (rm.target / 2)])) hstep hx al t key hf hB hε

/-! ## Cases -/

/-- The posterior mean of the first coordinate, cut to the square, under the potential `x ↦ x 0 ^ 2 + x 1` on the unit square, with default adaptation. -/
example {q : ℝ → ℝ} (hq : IsNormalDraw q) (key : Keys.Key) {ε : ℝ} (hε : 0 < ε) :
    Tendsto (fun n : ℕ => ideal {ω | ε ≤ |rowMean (fun x => max 0 (min 1 (x 0))) ((runFrom (randomWalk Keys.split3 (normalAt q 2 ω) fun x _ => potOn (boxOf (fun _ : Fin 2 => 0) fun _ => 1) (fun x => x 0 ^ 2 + x 1) x)
        (defaultRM.correct (metropolis Keys.split fun k => ω (k, 0))) n (rwState (boxOf (fun _ : Fin 2 => 0) fun _ => 1) (fun x => x 0 ^ 2 + x 1) (fun _ => 1 / 2) (Fl.fin 1) 1) ⟨key, 0, 1⟩).map fun s => s.payload.value)
          - meanUnder (target (boxOf (fun _ : Fin 2 => 0) fun _ => 1) fun x => x 0 ^ 2 + x 1) (fun x => max 0 (min 1 (x 0)))|}) atTop (𝓝 0) :=
  C144_box tunes_defaultRM hq two_pos (fun _ => one_pos) (by fun_prop) (by fun_prop) one_pos (by norm_num [defaultRM]) (by norm_num [defaultRM]) (by norm_num [defaultRM]) one_pos
    ⟨fun _ => by norm_num, fun _ => by norm_num⟩ _ _ _ (by fun_prop) (B := 1) (fun x => by rw [abs_of_nonneg (le_max_left _ _)]; exact max_le zero_le_one (min_le_left _ _)) hε

end Mocat.Props
