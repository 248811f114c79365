import Verif.Lemmas.Doeblin
import Verif.Lemmas.GaussScale
import Verif.Props.ChainDiagnostics
import Verif.Props.ChainConvergence
/-!
# C153: on bounded supports a random-walk Metropolis run forgets its start at a known rate
-/
namespace Mocat.Props
open Mocat Mocat.Mcmc Mocat.Ideal Mocat.Meas Mocat.Ergodic MeasureTheory ProbabilityTheory Filter
open scoped ENNReal Topology

variable {d : ℕ}

/-! ## Specification -/

/-- The support has diameter at most `R`, and the potential is at least `m` on it. -/
structure BoundedSupport (S : Set (Fin d → ℝ)) (V : (Fin d → ℝ) → ℝ) (R m : ℝ) : Prop where
  diam : ∀ x ∈ S, ∀ y ∈ S, ∑ i, (x i - y i) ^ 2 ≤ R ^ 2
  low : ∀ x ∈ S, m ≤ V x

/-- The share of the posterior in every update: the mass of the posterior density relative to its largest possible value, times the smallest proposal density between points of the support. -/
noncomputable def share (S : Set (Fin d → ℝ)) (V : (Fin d → ℝ) → ℝ) (step R m : ℝ) : ℝ :=
  (target S V Set.univ).toReal / Real.exp (-m) * (Real.exp (-R ^ 2 / (2 * step)) / Real.sqrt (2 * Real.pi * step) ^ d)

/-! ## Lemmas -/

theorem stepOp_metropolis_ge {S : Set (Fin d → ℝ)} (hS : MeasurableSet S) {V : (Fin d → ℝ) → ℝ} (hV : Measurable V) (step : ℝ) {f : (Fin d → ℝ) → ℝ≥0∞} (hf : Measurable f) (x : Fin d → ℝ) :
    ∫⁻ z, ENNReal.ofReal (accOn S V x (fun i => x i + Real.sqrt step * z i)) * f (fun i => x i + Real.sqrt step * z i) ∂(stdNormal d) ≤ stepOp ((stdNormal d).prod unif) (rwMove S V step) f x := by
  have mx : Measurable fun z => f (rwMove S V step x z) := hf.comp ((measurable_rwMove hS hV step).comp measurable_prodMk_left)
  unfold stepOp
  rw [lintegral_prod _ mx.aemeasurable]
  refine lintegral_mono fun z => ?_
  have e : ∀ u, f (rwMove S V step x (z, u)) = if u < accOn S V x (rwProp (Real.sqrt step) (x, z)) then f (rwProp (Real.sqrt step) (x, z)) else f x := fun u => by
    unfold rwMove
    split_ifs <;> rfl
  simp only [e]
  rw [accept_lintegral _ (accOn_nonneg _ _ _ _) (accOn_le_one _ _ _ _)]
  exact le_self_add

theorem normDens_eq {step : ℝ} (hstep : 0 < step) (v : Fin d → ℝ) :
    (Real.sqrt step ^ d)⁻¹ * normDens (fun i => v i / Real.sqrt step) = Real.exp (-(∑ i, v i ^ 2) / (2 * step)) / Real.sqrt (2 * Real.pi * step) ^ d := by
  have hs := Real.sqrt_pos.2 hstep
  have e1 : ∀ i, gaussianPDFReal 0 1 (v i / Real.sqrt step) = (Real.sqrt (2 * Real.pi))⁻¹ * Real.exp (-(v i ^ 2) / (2 * step)) := fun i => by
    rw [gaussianPDFReal_def]
    simp only [NNReal.coe_one, mul_one, sub_zero, div_pow, Real.sq_sqrt hstep.le]
    congr 2
    field_simp
  simp only [normDens, e1, Finset.prod_mul_distrib, Finset.prod_const, Finset.card_univ, Fintype.card_fin]
  rw [← Real.exp_sum, ← Finset.sum_div, Finset.sum_neg_distrib, Real.sqrt_mul (by positivity : 0 ≤ 2 * Real.pi) step, mul_pow, inv_pow]
  have := (Real.sqrt_pos.2 (by positivity : 0 < 2 * Real.pi)).ne'
  field_simp

theorem share_le {S : Set (Fin d → ℝ)} (hS : MeasurableSet S) {V : (Fin d → ℝ) → ℝ} (hV : Measurable V) {R m : ℝ} (hB : BoundedSupport S V R m) {step : ℝ} (hstep : 0 < step)
    {x : Fin d → ℝ} (hx : x ∈ S) {f : (Fin d → ℝ) → ℝ≥0∞} (hf : Measurable f) :
    ENNReal.ofReal (Real.exp m * (Real.exp (-R ^ 2 / (2 * step)) / Real.sqrt (2 * Real.pi * step) ^ d)) * ∫⁻ y, f y ∂(target S V) ≤ stepOp ((stdNormal d).prod unif) (rwMove S V step) f x := by
  refine le_trans ?_ (stepOp_metropolis_ge hS hV step hf x)
  have hs := Real.sqrt_pos.2 hstep
  have ma : Measurable fun y => accOn S V x y := (measurable_accOn hS hV).comp measurable_prodMk_left
  have mH : Measurable fun v : Fin d → ℝ => ENNReal.ofReal (accOn S V x (fun i => x i + v i)) * f (fun i => x i + v i) := by
    have mv : Measurable fun (v : Fin d → ℝ) (i : Fin d) => x i + v i := by fun_prop
    exact (ma.comp mv).ennreal_ofReal.mul (hf.comp mv)
  rw [lintegral_scaled mH hs]
  have mN : Measurable fun v : Fin d → ℝ => ENNReal.ofReal (normDens fun i => v i / Real.sqrt step) := (measurable_normDens.comp (by fun_prop)).ennreal_ofReal
  have mNH : Measurable fun v : Fin d → ℝ => ENNReal.ofReal (normDens fun i => v i / Real.sqrt step) * (ENNReal.ofReal (accOn S V x (fun i => x i + v i)) * f (fun i => x i + v i)) := mN.mul mH
  rw [← lintegral_const_mul _ mNH]
  have hd := measurable_densOn hS hV
  have e1 : ∫⁻ y, f y ∂(target S V) = ∫⁻ y, densOn S V y * f y := lintegral_withDensity_eq_lintegral_mul volume hd hf
  rw [e1, ← lintegral_add_left_eq_self (μ := volume) (fun y => densOn S V y * f y) x]
  have mD : Measurable fun v : Fin d → ℝ => densOn S V (x + v) * f (x + v) := (hd.mul hf).comp (measurable_const_add x)
  rw [← lintegral_const_mul _ mD]
  refine lintegral_mono fun v => ?_
  change _ * (densOn S V (x + v) * f (x + v)) ≤ _ * (_ * (ENNReal.ofReal (accOn S V x (x + v)) * f (x + v)))
  rw [← mul_assoc, ← mul_assoc, ← mul_assoc]
  refine mul_le_mul_left ?_ _
  by_cases hy : x + v ∈ S
  · rw [densOn, Set.indicator_of_mem hy, ← ENNReal.ofReal_mul (by positivity), ← ENNReal.ofReal_mul (by positivity), ← ENNReal.ofReal_mul (by have := normDens_nonneg (fun i => v i / Real.sqrt step); positivity)]
    refine ENNReal.ofReal_le_ofReal ?_
    rw [normDens_eq hstep, mul_comm (Real.exp m), mul_assoc, ← Real.exp_add]
    refine mul_le_mul ?_ ?_ (Real.exp_pos _).le (by positivity)
    · refine div_le_div_of_nonneg_right (Real.exp_le_exp.2 (div_le_div_of_nonneg_right (neg_le_neg ?_) (by positivity))) (by positivity)
      have := hB.diam _ hy x hx
      simpa using this
    · simp only [accOn, hy, hx, if_true]
      refine le_min (Real.exp_le_one_iff.2 ?_) (Real.exp_le_exp.2 ?_)
      · linarith [hB.low _ hy]
      · linarith [hB.low _ hx]
  · simp [densOn, hy]

theorem target_finite {S : Set (Fin d → ℝ)} (hS : MeasurableSet S) {V : (Fin d → ℝ) → ℝ} {R m : ℝ} (hB : BoundedSupport S V R m) {x0 : Fin d → ℝ} (hx0 : x0 ∈ S) : target S V Set.univ ≠ ∞ := by
  have hvol : volume S < ∞ := by
    refine (measure_mono ?_).trans_lt (measure_closedBall_lt_top (μ := volume) (x := x0) (r := |R|))
    intro y hy
    rw [Metric.mem_closedBall, dist_pi_le_iff (abs_nonneg R)]
    intro i
    rw [Real.dist_eq]
    refine sq_le_sq.1 (le_trans ?_ (hB.diam y hy x0 hx0))
    exact Finset.single_le_sum (f := fun i => (y i - x0 i) ^ 2) (fun i _ => sq_nonneg _) (Finset.mem_univ i)
  rw [target, withDensity_apply _ MeasurableSet.univ, Measure.restrict_univ, lintegral_indicator hS]
  refine ne_top_of_le_ne_top (ENNReal.mul_ne_top ENNReal.ofReal_ne_top hvol.ne) (b := ENNReal.ofReal (Real.exp (-m)) * volume S) ?_
  rw [← setLIntegral_const]
  exact setLIntegral_mono measurable_const fun x hx => ENNReal.ofReal_le_ofReal (Real.exp_le_exp.2 (by linarith [hB.low x hx]))

theorem target_compl {S : Set (Fin d → ℝ)} (hS : MeasurableSet S) (V : (Fin d → ℝ) → ℝ) : target S V Sᶜ = 0 := by
  rw [target, withDensity_apply _ hS.compl, lintegral_congr_ae (g := 0) ((ae_restrict_mem hS.compl).mono fun x hx => Set.indicator_of_notMem hx _)]
  simp

theorem unif_nonneg : ∀ᵐ u ∂unif, 0 ≤ u := by
  unfold unif
  exact (ae_restrict_mem measurableSet_Ico).mono fun u hu => hu.1

theorem rw_doeblin {S : Set (Fin d → ℝ)} (hS : MeasurableSet S) {V : (Fin d → ℝ) → ℝ} (hV : Measurable V) {R m : ℝ} (hB : BoundedSupport S V R m) {step : ℝ} (hstep : 0 < step)
    (h0 : target S V Set.univ ≠ 0) {x0 : Fin d → ℝ} (hx0 : x0 ∈ S) : Doeblin ((stdNormal d).prod unif) (rwMove S V step) (normalised (target S V)) S (share S V step R m) := by
  have hT := target_finite hS hB hx0
  have hZ : 0 < (target S V Set.univ).toReal := ENNReal.toReal_pos h0 hT
  have hπ := normalised_prob h0 hT
  have hpos : 0 < share S V step R m := by unfold share; positivity
  have hsh : ∀ x ∈ S, ∀ f : (Fin d → ℝ) → ℝ≥0∞, Measurable f → ENNReal.ofReal (share S V step R m) * ∫⁻ y, f y ∂(normalised (target S V)) ≤ stepOp ((stdNormal d).prod unif) (rwMove S V step) f x := by
    intro x hx f hf
    refine le_trans (le_of_eq ?_) (share_le hS hV hB hstep hx hf)
    rw [normalised, lintegral_smul_measure, smul_eq_mul, ← mul_assoc]
    congr 1
    have hinv : (target S V Set.univ)⁻¹ = ENNReal.ofReal ((target S V Set.univ).toReal)⁻¹ := by rw [ENNReal.ofReal_inv_of_pos hZ, ENNReal.ofReal_toReal hT]
    rw [hinv, ← ENNReal.ofReal_mul hpos.le]
    congr 1
    rw [share, Real.exp_neg, div_inv_eq_mul]
    field_simp
  refine ⟨fun f hf => normalised_invariant (F := fun f x => ∫⁻ w, f (rwMove S V step x w) ∂((stdNormal d).prod unif)) (rwMove_invariant hS hV step f hf), fun x hx => ?_, hpos, ?_, hsh⟩
  · have : ∀ᵐ z ∂((stdNormal d).prod unif), 0 ≤ z.2 := Measure.quasiMeasurePreserving_snd.ae unif_nonneg
    refine this.mono fun z hz => ?_
    unfold rwMove
    split_ifs with hlt
    · exact (accOn_pos S V x _).1 (hz.trans_lt hlt)
    · exact hx
  · have := hsh x0 hx0 1 measurable_one
    simp only [Pi.one_apply, lintegral_one, measure_univ, mul_one, stepOp] at this
    rwa [ENNReal.ofReal_le_one] at this

/-! ## Properties -/

/-- C153: on a bounded support, with a potential bounded below there, after `j` updates the probability of every event differs from its posterior probability by at most `(1 - share) ^ j`, from
every start in the support, for every key and length of the run. -/
theorem C153_forgets {q : ℝ → ℝ} (hq : IsNormalDraw q) {S : Set (Fin d → ℝ)} (hS : MeasurableSet S) {V : (Fin d → ℝ) → ℝ} (hV : Measurable V) {R m : ℝ} (hB : BoundedSupport S V R m)
    (h0 : target S V Set.univ ≠ 0) {step : ℝ} (hstep : 0 < step) :
    (0 < share S V step R m ∧ share S V step R m ≤ 1) ∧ ∀ x0 ∈ S, ∀ (al : Fl) (t : ℝ) (key : Keys.Key) (n j : ℕ), j < n → ∀ A : Set (Fin d → ℝ), MeasurableSet A →
      |rowProb (walkRows S V q step n x0 al t key) j A - probUnder (target S V) A| ≤ (1 - share S V step R m) ^ j := by
  obtain ⟨y, hy⟩ : S.Nonempty := by
    by_contra hne
    refine h0 ?_
    have := target_compl hS V
    rwa [Set.not_nonempty_iff_eq_empty.1 hne, Set.compl_empty, ← Set.not_nonempty_iff_eq_empty.1 hne] at this
  refine ⟨⟨(rw_doeblin hS hV hB hstep h0 hy).pos, (rw_doeblin hS hV hB hstep h0 hy).le_one⟩, fun x0 hx0 al t key n j hj A hA => ?_⟩
  have hπ := normalised_prob h0 (target_finite hS hB hx0)
  have h := (rw_doeblin hS hV hB hstep h0 hx0).prob (rwDraws_draws hq) (measurable_rwMove hS hV step) hA j key hx0
  rw [normalised_apply] at h
  convert h using 3
  have e : walkRows S V q step n x0 al t key = fun ω => (List.range n).map fun i => tapeIter (rwDraws q d) Keys.rwNext (rwMove S V step) i key x0 ω :=
    funext fun ω => rw_run S V step x0 al t key (by omega) ω
  rw [e, rowProb_range _ hj]

/-- C153: the mean over the rows of a run of `n` rows, of a quantity between `lo` and `hi` on the support, has mean squared error at most `(hi - lo)² (2 / share - 1) / n`. -/
theorem C153_error {q : ℝ → ℝ} (hq : IsNormalDraw q) {S : Set (Fin d → ℝ)} (hS : MeasurableSet S) {V : (Fin d → ℝ) → ℝ} (hV : Measurable V) {R m : ℝ} (hB : BoundedSupport S V R m)
    (h0 : target S V Set.univ ≠ 0) {step : ℝ} (hstep : 0 < step) {x0 : Fin d → ℝ} (hx0 : x0 ∈ S) (al : Fl) (t : ℝ) (key : Keys.Key) {n : ℕ} (hn : 0 < n)
    {f : (Fin d → ℝ) → ℝ} (hf : Measurable f) {lo hi : ℝ} (hlo : ∀ x ∈ S, lo ≤ f x) (hhi : ∀ x ∈ S, f x ≤ hi) :
    ∫⁻ ω, ENNReal.ofReal ((rowMean f (walkRows S V q step n x0 al t key ω) - meanUnder (target S V) f) ^ 2) ∂ideal ≤ ENNReal.ofReal ((hi - lo) ^ 2 * (2 / share S V step R m - 1) / n) := by
  have hT := target_finite hS hB hx0
  have hπ := normalised_prob h0 hT
  have hD := rw_doeblin hS hV hB hstep h0 hx0
  have hle : lo ≤ hi := (hlo x0 hx0).trans (hhi x0 hx0)
  have hg : Measurable fun x => max lo (min hi (f x)) := measurable_const.max (measurable_const.min hf)
  have heq : ∀ x ∈ S, max lo (min hi (f x)) = f x := fun x hx => by rw [min_eq_right (hhi x hx), max_eq_right (hlo x hx)]
  have h := hD.average (rwDraws_draws hq) (measurable_rwMove hS hV step) hg (lo := lo) (hi := hi) (fun x => le_max_left _ _) (fun x => max_le hle (min_le_left _ _)) hn key hx0
  have hmean : ∫ y, max lo (min hi (f y)) ∂(normalised (target S V)) = meanUnder (target S V) f := by
    rw [← integral_normalised]
    refine integral_congr_ae ?_
    have : ∀ᵐ y ∂(normalised (target S V)), y ∈ S := by
      rw [ae_iff, normalised_null hT]
      exact target_compl hS V
    exact this.mono fun y hy => heq y hy
  rw [hmean] at h
  refine le_trans (le_of_eq (lintegral_congr_ae ?_)) h
  have hall : ∀ᵐ ω ∂ideal, ∀ j, tapeIter (rwDraws q d) Keys.rwNext (rwMove S V step) j key x0 ω ∈ S := ae_all_iff.2 fun j => hD.stays (rwDraws_draws hq) (measurable_rwMove hS hV step) hS j key hx0
  refine hall.mono fun ω hω => ?_
  have e : walkRows S V q step n x0 al t key ω = (List.range n).map fun i => tapeIter (rwDraws q d) Keys.rwNext (rwMove S V step) i key x0 ω := rw_run S V step x0 al t key hn ω
  simp only
  rw [e, rowMean_range, pathSum]
  simp_rw [heq _ (hω _)]

/-- C153: so the probability that it is off by `ε` or more is at most `(hi - lo)² (2 / share - 1) / (n ε²)`. -/
theorem C153_confidence {q : ℝ → ℝ} (hq : IsNormalDraw q) {S : Set (Fin d → ℝ)} (hS : MeasurableSet S) {V : (Fin d → ℝ) → ℝ} (hV : Measurable V) {R m : ℝ} (hB : BoundedSupport S V R m)
    (h0 : target S V Set.univ ≠ 0) {step : ℝ} (hstep : 0 < step) {x0 : Fin d → ℝ} (hx0 : x0 ∈ S) (al : Fl) (t : ℝ) (key : Keys.Key) {n : ℕ} (hn : 0 < n)
    {f : (Fin d → ℝ) → ℝ} (hf : Measurable f) {lo hi : ℝ} (hlo : ∀ x ∈ S, lo ≤ f x) (hhi : ∀ x ∈ S, f x ≤ hi) {ε : ℝ} (hε : 0 < ε) :
    (ideal {ω | ε ≤ |rowMean f (walkRows S V q step n x0 al t key ω) - meanUnder (target S V) f|}).toReal ≤ (hi - lo) ^ 2 * (2 / share S V step R m - 1) / (n * ε ^ 2) := by
  have h := C153_error hq hS hV hB h0 hstep hx0 al t key hn hf hlo hhi
  have hD := rw_doeblin hS hV hB hstep h0 hx0
  have hsh : 0 ≤ 2 / share S V step R m - 1 := by
    have : 1 ≤ 2 / share S V step R m := (one_le_div hD.pos).2 (by linarith [hD.le_one])
    linarith
  have hm := mul_meas_ge_le_lintegral₀ (μ := ideal) (f := fun ω => ENNReal.ofReal ((rowMean f (walkRows S V q step n x0 al t key ω) - meanUnder (target S V) f) ^ 2)) (by
    have e : ∀ ω, walkRows S V q step n x0 al t key ω = (List.range n).map fun i => tapeIter (rwDraws q d) Keys.rwNext (rwMove S V step) i key x0 ω := fun ω => rw_run S V step x0 al t key hn ω
    simp_rw [e, rowMean_range]
    have mm : Measurable fun ω => ∑ j ∈ Finset.range n, f (tapeIter (rwDraws q d) Keys.rwNext (rwMove S V step) j key x0 ω) :=
      Finset.measurable_fun_sum _ fun j _ => hf.comp ((measurable_tapeIter (rwDraws_draws hq) (measurable_rwMove hS hV step) j key).comp measurable_prodMk_left)
    exact (((mm.div_const _).sub_const _).pow_const 2).ennreal_ofReal.aemeasurable) (ENNReal.ofReal (ε ^ 2))
  have hset : {ω | ENNReal.ofReal (ε ^ 2) ≤ ENNReal.ofReal ((rowMean f (walkRows S V q step n x0 al t key ω) - meanUnder (target S V) f) ^ 2)}
      = {ω | ε ≤ |rowMean f (walkRows S V q step n x0 al t key ω) - meanUnder (target S V) f|} := by
    ext ω
    simp only [Set.mem_ofPred_eq]
    rw [ENNReal.ofReal_le_ofReal_iff (sq_nonneg _), sq_le_sq, abs_of_pos hε]
  rw [hset] at hm
  have h3 := hm.trans h
  rw [← ENNReal.ofReal_toReal (measure_ne_top ideal {ω | ε ≤ |rowMean f (walkRows S V q step n x0 al t key ω) - meanUnder (target S V) f|}), ← ENNReal.ofReal_mul (by positivity),
    ENNReal.ofReal_le_ofReal_iff (by positivity)] at h3
  have hn0 : (0 : ℝ) < n := by exact_mod_cast hn
  rw [le_div_iff₀ (by positivity)]
  rw [le_div_iff₀ hn0] at h3
  linarith

/-! ## Unbounded supports -/

theorem tail_small {α : Type*} [MeasurableSpace α] (μ : Measure α) [IsFiniteMeasure μ] {g : α → ℝ} (hg : Measurable g) {ε : ℝ≥0∞} (hε : ε ≠ 0) : ∃ t : ℝ, 0 ≤ t ∧ μ {x | t < g x} ≤ ε := by
  have hm : ∀ n : ℕ, NullMeasurableSet {x | (n : ℝ) < g x} μ := fun n => (measurableSet_lt measurable_const hg).nullMeasurableSet
  have ha : Antitone fun n : ℕ => {x | (n : ℝ) < g x} := fun a b hab x (hx : (b : ℝ) < g x) => (show (a : ℝ) < g x from lt_of_le_of_lt (Nat.cast_le.2 hab) hx)
  have h := tendsto_measure_iInter_atTop hm ha ⟨0, measure_ne_top _ _⟩
  have he : ⋂ n : ℕ, {x | (n : ℝ) < g x} = ∅ := by
    ext x
    obtain ⟨n, hn⟩ := exists_nat_gt (g x)
    simp only [Set.mem_iInter, Set.mem_ofPred_eq, Set.mem_empty_iff_false, iff_false, not_forall, not_lt]
    exact ⟨n, hn.le⟩
  rw [he, measure_empty] at h
  obtain ⟨n, hn⟩ := (h.eventually (eventually_le_nhds (pos_iff_ne_zero.2 hε))).exists
  exact ⟨n, Nat.cast_nonneg n, hn⟩

theorem stepOp_iterate_le_one {X D : Type*} [MeasurableSpace D] {δ : Measure D} [IsProbabilityMeasure δ] {step : X → D → X} (j : ℕ) {h : X → ℝ≥0∞} (hh : ∀ x, h x ≤ 1) (x : X) :
    (stepOp δ step)^[j] h x ≤ 1 := by
  induction j generalizing x with
  | zero => exact hh x
  | succ j ih =>
    rw [Function.iterate_succ_apply']
    generalize (stepOp δ step)^[j] h = g at ih
    exact (lintegral_mono fun z => ih _).trans (by simp)

/-- A run that starts far from a ball is not in it soon. -/
theorem far_start (S : Set (Fin d → ℝ)) (V : (Fin d → ℝ) → ℝ) (step : ℝ) (j : ℕ) : ∀ {η : ℝ}, 0 < η → ∃ ρ : ℝ, ∀ (M : ℝ) (x : Fin d → ℝ), M + ρ < ‖x‖ →
    (stepOp ((stdNormal d).prod unif) (rwMove S V step))^[j] ((Metric.closedBall 0 M).indicator 1) x ≤ ENNReal.ofReal η := by
  induction j with
  | zero =>
    intro η _
    refine ⟨0, fun M x hx => ?_⟩
    have : x ∉ Metric.closedBall (0 : Fin d → ℝ) M := by simpa using hx
    simp [this]
  | succ j ih =>
    intro η hη
    obtain ⟨ρ, hρ⟩ := ih (half_pos hη)
    have mg : Measurable fun w : (Fin d → ℝ) × ℝ => |Real.sqrt step| * ‖w.1‖ := measurable_const.mul measurable_fst.norm
    obtain ⟨t, ht0, ht⟩ := tail_small ((stdNormal d).prod unif) mg (ε := ENNReal.ofReal (η / 2)) (by simpa using hη)
    refine ⟨ρ + t, fun M x hx => ?_⟩
    rw [Function.iterate_succ_apply']
    obtain ⟨g, hg⟩ : ∃ g, g = (stepOp ((stdNormal d).prod unif) (rwMove S V step))^[j] ((Metric.closedBall 0 M).indicator 1) := ⟨_, rfl⟩
    have hg1 : ∀ y, g y ≤ 1 := fun y => by
      rw [hg]
      exact stepOp_iterate_le_one j (fun z => Set.indicator_le_self' (fun _ _ => bot_le) z) y
    have hstep : ∀ w, ¬ t < |Real.sqrt step| * ‖w.1‖ → g (rwMove S V step x w) ≤ ENNReal.ofReal (η / 2) := by
      intro w hw
      rw [hg]
      refine hρ M _ ?_
      have hb : ‖x‖ ≤ ‖rwMove S V step x w‖ + |Real.sqrt step| * ‖w.1‖ := by
        unfold rwMove
        split_ifs
        · have e : x = rwProp (Real.sqrt step) (x, w.1) - Real.sqrt step • w.1 := by
            funext i
            simp [rwProp]
          calc ‖x‖ = ‖rwProp (Real.sqrt step) (x, w.1) - Real.sqrt step • w.1‖ := by rw [← e]
            _ ≤ _ := by
              refine (norm_sub_le _ _).trans ?_
              rw [norm_smul, Real.norm_eq_abs]
        · have := mul_nonneg (abs_nonneg (Real.sqrt step)) (norm_nonneg w.1)
          linarith
      linarith [not_lt.1 hw]
    rw [← hg]
    unfold stepOp
    have hle : ∀ w, g (rwMove S V step x w) ≤ {w : (Fin d → ℝ) × ℝ | t < |Real.sqrt step| * ‖w.1‖}.indicator 1 w + ENNReal.ofReal (η / 2) := by
      intro w
      by_cases hw : t < |Real.sqrt step| * ‖w.1‖
      · have : w ∈ {w : (Fin d → ℝ) × ℝ | t < |Real.sqrt step| * ‖w.1‖} := hw
        rw [Set.indicator_of_mem this]
        exact (hg1 _).trans le_self_add
      · exact (hstep w hw).trans le_add_self
    refine (lintegral_mono hle).trans ?_
    rw [lintegral_add_right _ measurable_const, lintegral_indicator_one (measurableSet_lt measurable_const mg), lintegral_const, measure_univ, mul_one]
    refine (add_le_add_left ht _).trans ?_
    rw [← ENNReal.ofReal_add (half_pos hη).le (half_pos hη).le, add_halves]

/-- C153: boundedness is needed. On an unbounded support no number of updates suffices for all starts: there are a start in the support and an event whose probability after `j` updates is
wrong by almost 1. -/
theorem C153_unbounded {q : ℝ → ℝ} (hq : IsNormalDraw q) {S : Set (Fin d → ℝ)} (hS : MeasurableSet S) {V : (Fin d → ℝ) → ℝ} (hV : Measurable V) (h0 : target S V Set.univ ≠ 0)
    (hT : target S V Set.univ ≠ ∞) (hunb : ∀ ρ : ℝ, ∃ x ∈ S, ρ < ‖x‖) (step : ℝ) (j : ℕ) {η : ℝ} (hη : 0 < η) :
    ∃ x0 ∈ S, ∃ A, MeasurableSet A ∧ ∀ (al : Fl) (t : ℝ) (key : Keys.Key) (n : ℕ), j < n → 1 - η ≤ |rowProb (walkRows S V q step n x0 al t key) j A - probUnder (target S V) A| := by
  have hπ := normalised_prob h0 hT
  obtain ⟨ρ, hρ⟩ := far_start S V step j (half_pos hη)
  obtain ⟨M, -, hM⟩ := tail_small (normalised (target S V)) (g := fun x => ‖x‖) measurable_norm (ε := ENNReal.ofReal (η / 2)) (by simpa using hη)
  obtain ⟨x0, hx0, hfar⟩ := hunb (M + ρ)
  have mA : MeasurableSet (Metric.closedBall (0 : Fin d → ℝ) M) := Metric.isClosed_closedBall.measurableSet
  refine ⟨x0, hx0, _, mA, fun al t key n hj => ?_⟩
  have e : walkRows S V q step n x0 al t key = fun ω => (List.range n).map fun i => tapeIter (rwDraws q d) Keys.rwNext (rwMove S V step) i key x0 ω :=
    funext fun ω => rw_run S V step x0 al t key (by omega) ω
  rw [e, rowProb_range _ hj]
  have h1 := hρ M x0 hfar
  rw [← lintegral_tapeIter (rwDraws_draws hq) (measurable_rwMove hS hV step) j key x0 (measurable_one.indicator mA)] at h1
  have mX : Measurable fun ω => tapeIter (rwDraws q d) Keys.rwNext (rwMove S V step) j key x0 ω := (measurable_tapeIter (rwDraws_draws hq) (measurable_rwMove hS hV step) j key).comp measurable_prodMk_left
  have e2 : ∫⁻ ω, (Metric.closedBall (0 : Fin d → ℝ) M).indicator (1 : (Fin d → ℝ) → ℝ≥0∞) (tapeIter (rwDraws q d) Keys.rwNext (rwMove S V step) j key x0 ω) ∂ideal
      = ideal {ω | tapeIter (rwDraws q d) Keys.rwNext (rwMove S V step) j key x0 ω ∈ Metric.closedBall 0 M} := lintegral_indicator_one (mX mA)
  rw [e2] at h1
  have h2 := ENNReal.toReal_mono ENNReal.ofReal_ne_top h1
  rw [ENNReal.toReal_ofReal (half_pos hη).le] at h2
  have h3 : 1 - η / 2 ≤ probUnder (target S V) (Metric.closedBall 0 M) := by
    rw [← normalised_apply]
    have hc : (Metric.closedBall (0 : Fin d → ℝ) M)ᶜ = {x | M < ‖x‖} := by ext x; simp
    have h4 := prob_compl_eq_one_sub (μ := normalised (target S V)) mA
    rw [hc] at h4
    rw [h4] at hM
    have h5 := ENNReal.toReal_mono ENNReal.ofReal_ne_top hM
    rw [ENNReal.toReal_sub_of_le prob_le_one ENNReal.one_ne_top, ENNReal.toReal_ofReal (half_pos hη).le, ENNReal.toReal_one] at h5
    linarith
  rw [abs_sub_comm]
  refine le_trans ?_ (le_abs_self _)
  linarith

/-! ## The hypotheses are met -/

/-- The uniform distribution on the unit interval. -/
theorem unitInterval_mass : target {x : Fin 1 → ℝ | x 0 ∈ Set.Icc (0 : ℝ) 1} (fun _ => 0) Set.univ = 1 := by
  have hS : MeasurableSet {x : Fin 1 → ℝ | x 0 ∈ Set.Icc (0 : ℝ) 1} := (measurable_pi_apply 0) measurableSet_Icc
  rw [target, withDensity_apply _ MeasurableSet.univ, Measure.restrict_univ, lintegral_indicator hS]
  simp only [neg_zero, Real.exp_zero, ENNReal.ofReal_one, setLIntegral_one]
  have e : {x : Fin 1 → ℝ | x 0 ∈ Set.Icc (0 : ℝ) 1} = Set.pi Set.univ fun _ => Set.Icc 0 1 := by
    ext x
    simp only [Set.mem_ofPred_eq, Set.mem_univ_pi, Fin.forall_fin_one]
  rw [e, volume_pi_pi]
  simp

/-- For the uniform distribution on the unit interval and stepsize 1 the share is at least one sixth, so that one hundred updates leave less than `10⁻⁷`. -/
example {q : ℝ → ℝ} (hq : IsNormalDraw q) (x0 : Fin 1 → ℝ) (hx0 : x0 0 ∈ Set.Icc (0 : ℝ) 1) (key : Keys.Key) (A : Set (Fin 1 → ℝ)) (hA : MeasurableSet A) :
    |rowProb (walkRows {x : Fin 1 → ℝ | x 0 ∈ Set.Icc (0 : ℝ) 1} (fun _ => 0) q 1 101 x0 (Fl.fin 1) 0 key) 100 A - probUnder (target {x : Fin 1 → ℝ | x 0 ∈ Set.Icc (0 : ℝ) 1} fun _ => 0) A| ≤ 1 / 10 ^ 7 := by
  have hS : MeasurableSet {x : Fin 1 → ℝ | x 0 ∈ Set.Icc (0 : ℝ) 1} := (measurable_pi_apply 0) measurableSet_Icc
  have hB : BoundedSupport {x : Fin 1 → ℝ | x 0 ∈ Set.Icc (0 : ℝ) 1} (fun _ => 0) 1 0 := by
    refine ⟨fun x hx y hy => ?_, fun _ _ => le_rfl⟩
    simp only [Finset.univ_unique, Fin.default_eq_zero, Finset.sum_singleton]
    have hx' : 0 ≤ x 0 ∧ x 0 ≤ 1 := hx
    have hy' : 0 ≤ y 0 ∧ y 0 ≤ 1 := hy
    nlinarith
  obtain ⟨⟨h1, h2⟩, h3⟩ := C153_forgets hq hS (V := fun _ => 0) measurable_const hB (by rw [unitInterval_mass]; exact one_ne_zero) one_pos
  refine (h3 x0 hx0 _ _ key 101 100 (by norm_num) A hA).trans ?_
  have hsh : (1 : ℝ) / 6 ≤ share {x : Fin 1 → ℝ | x 0 ∈ Set.Icc (0 : ℝ) 1} (fun _ => 0) 1 1 0 := by
    rw [share, unitInterval_mass]
    have e1 : (1 : ℝ) / 2 ≤ Real.exp (-(1 : ℝ) / 2) := by
      have := Real.add_one_le_exp (-(1 : ℝ) / 2)
      linarith
    have e2 : Real.sqrt (2 * Real.pi) ≤ 3 := by
      rw [Real.sqrt_le_left (by norm_num)]
      have := Real.pi_lt_d2
      linarith
    have e3 : 0 < Real.sqrt (2 * Real.pi) := Real.sqrt_pos.2 (by positivity)
    simp only [ENNReal.toReal_one, neg_zero, Real.exp_zero, div_one, one_mul, mul_one, one_pow, pow_one]
    rw [div_le_div_iff₀ (by norm_num) e3]
    linarith
  refine (pow_le_pow_left₀ (by linarith) (by linarith : _ ≤ (5 : ℝ) / 6) 100).trans ?_
  norm_num

end Mocat.Props
