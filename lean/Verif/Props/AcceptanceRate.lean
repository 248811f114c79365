import Verif.Lemmas.Overlap
import Verif.Props.ChainErgodic
import Verif.Props.RobbinsMonro
import Mathlib.Topology.Order.IntermediateValue
import Mathlib.MeasureTheory.Integral.DominatedConvergence
/-!
# C128: every target acceptance rate is attained by some stepsize, and adaptation heads towards it

`RMMetropolis` looks for a stepsize whose acceptance rate is the target of the sampler. Here: there is one, whatever the posterior, and the
expected move of the adaptation is up at small stepsizes and down at large ones.
-/
namespace Mocat.Props
open Mocat Mocat.Mcmc Mocat.Ideal Mocat.Meas MeasureTheory ProbabilityTheory Filter
open scoped ENNReal Topology

variable {d : ℕ}

/-! ## Specification -/

/-- The acceptance rate of `RandomWalk` with `Metropolis` at a stepsize: the mean of the `alpha` recorded by an update, over the posterior and
over the draws of the update. -/
noncomputable def rwRate (q : ℝ → ℝ) (S : Set (Fin d → ℝ)) (V : (Fin d → ℝ) → ℝ) (key : Keys.Key) (i : ℕ) (al : Fl) (t step : ℝ) : ℝ :=
  meanUnder (target S V) fun x => ∫ ω, flToReal (update (randomWalk Keys.split3 (normalAt q d ω) fun x _ => potOn S V x)
    (metropolis Keys.split fun k => ω (k, 0)) (rwState S V x al t) ⟨key, i, step⟩).1.alpha ∂ideal

/-- The acceptance rate of `Underdamped` with `Metropolis`, over the posterior, standard normal momenta and the draws of the update. -/
noncomputable def udRate (q : ℝ → ℝ) (prior lik : (Fin d → ℝ) → ℝ × (Fin d → ℝ)) (T : ℝ) (L : ℕ) (key : Keys.Key) (i : ℕ) (al : Fl) (t : ℝ) (p : UDParams) : ℝ :=
  meanUnder (udTarget prior lik T) fun z => ∫ ω, flToReal (update (underdamped Keys.split Keys.splitN (normalAt q d ω) (fun x _ => prior x) (fun x _ => lik x) T L)
    (metropolis Keys.split fun k => ω (k, 0)) (udState prior lik T z al t) ⟨key, i, p⟩).1.alpha ∂ideal

/-- The expected change of the logarithm of the stepsize in one update of `RandomWalk` with `RMMetropolis(Metropolis)`, over the posterior and the draws. -/
noncomputable def rwDrift (rm : RM ℝ) (q : ℝ → ℝ) (S : Set (Fin d → ℝ)) (V : (Fin d → ℝ) → ℝ) (key : Keys.Key) (i : ℕ) (al : Fl) (t step : ℝ) : ℝ :=
  meanUnder (target S V) fun x => ∫ ω, (Real.log (update (randomWalk Keys.split3 (normalAt q d ω) fun x _ => potOn S V x)
    (rm.correct (metropolis Keys.split fun k => ω (k, 0))) (rwState S V x al t) ⟨key, i, step⟩).2.params - Real.log step) ∂ideal

/-! ## The recorded acceptance probability -/

theorem alpha_metropolis {K σ π : Type*} (split : K → K × K) (uniform : K → ℝ) (smp : Sampler K σ π) (rs : State σ) (re : Extra K π) (ps : State σ) (pe : Extra K π) :
    (metropolis split uniform smp rs re ps pe).1.alpha = (if (smp.acceptance rs re ps pe).isNan then Fl.fin 0 else smp.acceptance rs re ps pe) := by
  obtain ⟨a, ha, h1, h2⟩ := C14_all_or_nothing split uniform smp rs re ps pe
  by_cases h : Fl.lt (Fl.fin (uniform (split pe.key).2)) a
  · rw [h1 h, ← ha]
  · rw [h2 h, ← ha]

theorem alpha_rm {K σ π : Type*} (rm : RM π) (sup : Correction K σ π) (smp : Sampler K σ π) (s : State σ) (e : Extra K π) :
    (update smp (rm.correct sup) s e).1.alpha = (update smp sup s e).1.alpha := by
  simp only [update, RM.correct, RM.adapt]
  split <;> split <;> rfl

theorem rw_alpha {K : Type*} (S : Set (Fin d → ℝ)) (V : (Fin d → ℝ) → ℝ) (split3 : Split3 K) (normal : K → Fin d → ℝ) (split : K → K × K) (uniform : K → ℝ)
    (x : Fin d → ℝ) (al : Fl) (t : ℝ) (k : K) (i : ℕ) (step : ℝ) :
    (update (randomWalk split3 normal fun x _ => potOn S V x) (metropolis split uniform) (rwState S V x al t) ⟨k, i, step⟩).1.alpha
      = Fl.fin (accOn S V x (rwProp (Real.sqrt step) (x, normal (split3 k).2.1))) := by
  refine (alpha_metropolis split uniform _ _ _ _ _).trans ?_
  exact accOn_eq S V _ _

/-! ## RandomWalk -/

/-- The density of the target. -/
noncomputable def dens (S : Set (Fin d → ℝ)) (V : (Fin d → ℝ) → ℝ) : (Fin d → ℝ) → ℝ := S.indicator fun x => Real.exp (-V x)

section
variable {S : Set (Fin d → ℝ)} {V : (Fin d → ℝ) → ℝ}

theorem dens_nonneg (x : Fin d → ℝ) : 0 ≤ dens S V x := Set.indicator_nonneg (fun _ _ => (Real.exp_pos _).le) _

theorem densOn_eq (x : Fin d → ℝ) : densOn S V x = ENNReal.ofReal (dens S V x) := by
  by_cases h : x ∈ S <;> simp [densOn, dens, h]

theorem measurable_dens (hS : MeasurableSet S) (hV : Measurable V) : Measurable (dens S V) :=
  (Real.measurable_exp.comp hV.neg).indicator hS

theorem target_univ : target S V Set.univ = ∫⁻ x, ENNReal.ofReal (dens S V x) := by
  rw [target, withDensity_apply _ MeasurableSet.univ, Measure.restrict_univ]
  exact lintegral_congr densOn_eq

theorem integrable_dens (hS : MeasurableSet S) (hV : Measurable V) (hT : target S V Set.univ ≠ ∞) : Integrable (dens S V) := by
  refine ⟨(measurable_dens hS hV).aestronglyMeasurable, ?_⟩
  rw [hasFiniteIntegral_iff_ofReal (ae_of_all _ dens_nonneg), ← target_univ]
  exact hT.lt_top

theorem target_toReal (hS : MeasurableSet S) (hV : Measurable V) : (target S V Set.univ).toReal = ∫ x, dens S V x := by
  rw [integral_eq_lintegral_of_nonneg_ae (ae_of_all _ dens_nonneg) (measurable_dens hS hV).aestronglyMeasurable, target_univ]

theorem dens_mul_accOn (x y : Fin d → ℝ) : dens S V x * accOn S V x y = min (dens S V x) (dens S V y) := by
  by_cases hx : x ∈ S <;> by_cases hy : y ∈ S <;> simp [dens, accOn, hx, hy, (Real.exp_pos _).le]
  rw [mul_min_of_nonneg _ _ (Real.exp_pos _).le, mul_one, ← Real.exp_add]
  congr 2
  ring

theorem integral_target (hS : MeasurableSet S) (hV : Measurable V) (f : (Fin d → ℝ) → ℝ) : ∫ x, f x ∂(target S V) = ∫ x, dens S V x * f x := by
  have e : target S V = volume.withDensity (densOn S V) := rfl
  rw [e, integral_withDensity_eq_integral_toReal_smul (measurable_densOn hS hV) (ae_of_all _ fun x => by rw [densOn_eq]; exact ENNReal.ofReal_lt_top)]
  refine integral_congr_ae (ae_of_all _ fun x => ?_)
  simp only [densOn_eq, ENNReal.toReal_ofReal (dens_nonneg x), smul_eq_mul]

/-- The mean shared mass of the target and its translate by `r` standard normals. -/
noncomputable def shared (S : Set (Fin d → ℝ)) (V : (Fin d → ℝ) → ℝ) (r : ℝ) : ℝ := ∫ ξ, overlap (dens S V) (fun i => r * ξ i) ∂(stdNormal d)

theorem integral_acc_ideal {q : ℝ → ℝ} (hq : IsNormalDraw q) (hS : MeasurableSet S) (hV : Measurable V) (step : ℝ) (x : Fin d → ℝ) (k : Keys.Key) :
    ∫ ω, accOn S V x (rwProp (Real.sqrt step) (x, normalAt q d ω k)) ∂ideal = ∫ ξ, accOn S V x (rwProp (Real.sqrt step) (x, ξ)) ∂(stdNormal d) := by
  rw [← map_normalAt (d := d) hq k, integral_map (measurable_normalAt hq k).aemeasurable]
  exact ((measurable_accOn hS hV).comp (measurable_const.prodMk ((measurable_rwProp _).comp (measurable_const.prodMk measurable_id)))).aestronglyMeasurable

theorem rwRate_eq {q : ℝ → ℝ} (hq : IsNormalDraw q) (hS : MeasurableSet S) (hV : Measurable V) (hT : target S V Set.univ ≠ ∞) (key : Keys.Key) (i : ℕ) (al : Fl) (t step : ℝ) :
    rwRate q S V key i al t step = shared S V (Real.sqrt step) / ∫ x, dens S V x := by
  rw [rwRate, meanUnder, target_toReal hS hV, integral_target hS hV]
  congr 1
  have h1 : ∀ x, ∫ ω, flToReal (update (randomWalk Keys.split3 (normalAt q d ω) fun x _ => potOn S V x)
      (metropolis Keys.split fun k => ω (k, 0)) (rwState S V x al t) ⟨key, i, step⟩).1.alpha ∂ideal
      = ∫ ξ, accOn S V x (rwProp (Real.sqrt step) (x, ξ)) ∂(stdNormal d) := by
    intro x
    rw [← integral_acc_ideal hq hS hV step x (1 :: key)]
    refine integral_congr_ae (ae_of_all _ fun ω => ?_)
    simp only [rw_alpha, flToReal]
    rfl
  simp only [h1, ← integral_const_mul, dens_mul_accOn]
  have hp := integrable_dens hS hV hT
  have mp := measurable_dens hS hV
  rw [integral_integral_swap]
  · rfl
  · have hm : Measurable fun z : (Fin d → ℝ) × (Fin d → ℝ) => min (dens S V z.1) (dens S V (rwProp (Real.sqrt step) (z.1, z.2))) :=
      (mp.comp measurable_fst).min (mp.comp ((measurable_rwProp _).comp measurable_id))
    have hi : Integrable (fun z : (Fin d → ℝ) × (Fin d → ℝ) => dens S V z.1) (volume.prod (stdNormal d)) := hp.comp_fst _
    refine hi.mono hm.aestronglyMeasurable (ae_of_all _ fun z => ?_)
    simp only [Function.uncurry_def]
    rw [Real.norm_of_nonneg (dens_nonneg _), Real.norm_of_nonneg (le_min (dens_nonneg _) (dens_nonneg _))]
    exact min_le_left _ _

theorem continuous_shared (hS : MeasurableSet S) (hV : Measurable V) (hT : target S V Set.univ ≠ ∞) : Continuous (shared S V) := by
  have hp := integrable_dens hS hV hT
  have hc := continuous_overlap hp
  refine continuous_of_dominated (bound := fun _ => ∫ x, dens S V x) (fun r => ?_) (fun r => ae_of_all _ fun ξ => ?_) (integrable_const _) (ae_of_all _ fun ξ => ?_)
  · exact (hc.comp (by fun_prop)).aestronglyMeasurable
  · rw [Real.norm_of_nonneg (overlap_nonneg dens_nonneg _)]
    exact overlap_le hp _
  · exact hc.comp (by fun_prop)

theorem shared_zero : shared S V 0 = ∫ x, dens S V x := by
  have h : ∀ ξ : Fin d → ℝ, (fun i => (0 : ℝ) * ξ i) = 0 := fun ξ => funext fun i => zero_mul _
  simp only [shared, h, overlap_zero, integral_const, probReal_univ, one_smul]

theorem stdNormal_zero (hd : 0 < d) : ∀ᵐ ξ ∂(stdNormal d), ξ ≠ 0 := by
  have : Nonempty (Fin d) := ⟨⟨0, hd⟩⟩
  have hac : stdNormal d ≪ volume := by rw [stdNormal_eq_withDensity]; exact withDensity_absolutelyContinuous _ _
  exact hac.ae_le (Measure.ae_ne volume 0)

theorem shared_tendsto (hd : 0 < d) (hS : MeasurableSet S) (hV : Measurable V) (hT : target S V Set.univ ≠ ∞) : Tendsto (shared S V) atTop (𝓝 0) := by
  have hp := integrable_dens hS hV hT
  have hc := continuous_overlap hp
  have := tendsto_integral_filter_of_dominated_convergence (μ := stdNormal d) (F := fun (r : ℝ) ξ => overlap (dens S V) (fun i => r * ξ i)) (l := atTop) (f := fun _ => (0 : ℝ))
    (fun _ => ∫ x, dens S V x) (.of_forall fun r => (hc.comp (by fun_prop)).aestronglyMeasurable)
    (.of_forall fun r => ae_of_all _ fun ξ => by
      rw [Real.norm_of_nonneg (overlap_nonneg dens_nonneg _)]
      exact overlap_le hp _) (integrable_const _) ((stdNormal_zero hd).mono fun ξ hξ => overlap_tendsto hp dens_nonneg hξ)
  rwa [integral_zero] at this

theorem mass_pos (hS : MeasurableSet S) (hV : Measurable V) (h0 : target S V Set.univ ≠ 0) (hT : target S V Set.univ ≠ ∞) : 0 < ∫ x, dens S V x := by
  rw [← target_toReal hS hV]
  exact ENNReal.toReal_pos h0 hT

variable {q : ℝ → ℝ} (hq : IsNormalDraw q) (hS : MeasurableSet S) (hV : Measurable V) (h0 : target S V Set.univ ≠ 0) (hT : target S V Set.univ ≠ ∞)
  (key : Keys.Key) (i : ℕ) (al : Fl) (t : ℝ)
include hq hS hV h0 hT

omit h0 in
/-- C128: the acceptance rate of `RandomWalk` changes continuously with the stepsize, for any potential (discontinuous, or infinite outside a support). -/
theorem C128_continuous : Continuous (rwRate q S V key i al t) := by
  have h : rwRate q S V key i al t = fun step => shared S V (Real.sqrt step) / ∫ x, dens S V x := funext fun step => rwRate_eq hq hS hV hT key i al t step
  rw [h]
  exact ((continuous_shared hS hV hT).comp Real.continuous_sqrt).div_const _

/-- C128: small stepsizes are nearly always accepted. -/
theorem C128_small : Tendsto (rwRate q S V key i al t) (𝓝[>] 0) (𝓝 1) := by
  have h := (C128_continuous hq hS hV hT key i al t).tendsto 0
  rw [rwRate_eq hq hS hV hT, Real.sqrt_zero, shared_zero, div_self (mass_pos hS hV h0 hT).ne'] at h
  exact h.mono_left nhdsWithin_le_nhds

omit h0 in
/-- C128: large stepsizes are nearly always rejected. -/
theorem C128_large (hd : 0 < d) : Tendsto (rwRate q S V key i al t) atTop (𝓝 0) := by
  have h : rwRate q S V key i al t = fun step => shared S V (Real.sqrt step) / ∫ x, dens S V x := funext fun step => rwRate_eq hq hS hV hT key i al t step
  rw [h]
  simpa using ((shared_tendsto hd hS hV hT).comp Real.tendsto_sqrt_atTop).div_const (∫ x, dens S V x)

/-- C128: every target strictly between zero and one is the acceptance rate of some stepsize. -/
theorem C128_attained (hd : 0 < d) {a : ℝ} (ha : 0 < a) (ha1 : a < 1) : ∃ step, 0 < step ∧ rwRate q S V key i al t step = a := by
  obtain ⟨lo, hlo, hlo0⟩ := ((C128_small hq hS hV h0 hT key i al t).eventually (lt_mem_nhds ha1)).and self_mem_nhdsWithin |>.exists
  obtain ⟨hi, hhi, hhi0⟩ := ((C128_large hq hS hV hT key i al t hd).eventually (gt_mem_nhds ha)).and (eventually_ge_atTop lo) |>.exists
  obtain ⟨s, hs, he⟩ := intermediate_value_Icc' hhi0 (C128_continuous hq hS hV hT key i al t).continuousOn ⟨hhi.le, hlo.le⟩
  exact ⟨s, lt_of_lt_of_le hlo0 hs.1, he⟩

/-- C128: the expected change of the log stepsize under `RMMetropolis` is a positive multiple of the excess of the acceptance rate over the target. -/
theorem C128_drift (rm : RM ℝ) (hget : ∀ p, rm.get p = p) (hset : ∀ p x, rm.set p x = x) (hdec : rm.increasing = false) (hlog : rm.logUpdate = true)
    (had : Adapting rm (i + 1)) (step : ℝ) :
    rwDrift rm q S V key i al t step = rm.scale * ((i + 1 : ℕ) : ℝ) ^ (-rm.negExponent) * (rwRate q S V key i al t step - rm.target) := by
  have hfin : IsFiniteMeasure (target S V) := ⟨hT.lt_top⟩
  set c := rm.scale * ((i + 1 : ℕ) : ℝ) ^ (-rm.negExponent) with hc
  have hmono : rm.monotonicity = -1 := by simp [RM.monotonicity, hdec]
  set A : (Fin d → ℝ) → Tape → ℝ := fun x ω => accOn S V x (rwProp (Real.sqrt step) (x, normalAt q d ω (1 :: key))) with hA
  have halpha : ∀ x ω, flToReal (update (randomWalk Keys.split3 (normalAt q d ω) fun x _ => potOn S V x)
      (metropolis Keys.split fun k => ω (k, 0)) (rwState S V x al t) ⟨key, i, step⟩).1.alpha = A x ω := by
    intro x ω
    rw [rw_alpha]
    rfl
  have hstep : ∀ x ω, Real.log (update (randomWalk Keys.split3 (normalAt q d ω) fun x _ => potOn S V x)
      (rm.correct (metropolis Keys.split fun k => ω (k, 0))) (rwState S V x al t) ⟨key, i, step⟩).2.params - Real.log step = c * (A x ω - rm.target) := by
    intro x ω
    have h := (update_rm rm (fun p x => by rw [hget, hset]) (randomWalk Keys.split3 (normalAt q d ω) fun x _ => potOn S V x)
      (metropolis Keys.split fun k => ω (k, 0)) (keepsIter_randomWalk _ _ _) (corrKeepsIter_metropolis _ _) (keepsParams_randomWalk _ _ _)
      (corrKeepsParams_metropolis _ _) (rwState S V x al t) ⟨key, i, step⟩).2.1 had
    rw [hget, alpha_rm, halpha, if_pos hlog, hget, hmono] at h
    rw [h, Real.log_exp, ← hc]
    ring
  have mA : Measurable (Function.uncurry A) := by
    have : Measurable fun z : (Fin d → ℝ) × Tape => (z.1, rwProp (Real.sqrt step) (z.1, normalAt q d z.2 (1 :: key))) :=
      measurable_fst.prodMk ((measurable_rwProp _).comp (measurable_fst.prodMk ((measurable_normalAt hq _).comp measurable_snd)))
    exact (measurable_accOn hS hV).comp this
  have bA : ∀ x ω, ‖A x ω‖ ≤ 1 := fun x ω => by
    rw [Real.norm_of_nonneg (accOn_nonneg _ _ _ _)]
    exact accOn_le_one _ _ _ _
  have iA : ∀ x, Integrable (A x) ideal := fun x =>
    Integrable.of_bound (mA.comp (measurable_const.prodMk measurable_id)).aestronglyMeasurable 1 (ae_of_all _ (bA x))
  have iI : Integrable (fun x => ∫ ω, A x ω ∂ideal) (target S V) := by
    refine Integrable.of_bound mA.stronglyMeasurable.integral_prod_right.aestronglyMeasurable 1 (ae_of_all _ fun x => ?_)
    refine (norm_integral_le_of_norm_le_const (ae_of_all _ (bA x))).trans ?_
    simp
  have hin : ∀ x, ∫ ω, c * (A x ω - rm.target) ∂ideal = c * ((∫ ω, A x ω ∂ideal) - rm.target) := by
    intro x
    rw [integral_const_mul, integral_sub (iA x) (integrable_const _)]
    simp
  have hm : (target S V Set.univ).toReal ≠ 0 := (ENNReal.toReal_pos h0 hT).ne'
  simp only [rwDrift, rwRate, hstep, halpha, hin, meanUnder]
  rw [integral_const_mul, integral_sub iI (integrable_const _), integral_const, smul_eq_mul, Measure.real]
  field_simp

/-- C128: with a target strictly between zero and one, adaptation is expected to lengthen every small enough step and to shorten every large enough one, and
in between there is a stepsize at which it is balanced. -/
theorem C128_adapts (hd : 0 < d) (rm : RM ℝ) (hget : ∀ p, rm.get p = p) (hset : ∀ p x, rm.set p x = x) (hdec : rm.increasing = false) (hlog : rm.logUpdate = true)
    (had : Adapting rm (i + 1)) (hscale : 0 < rm.scale) (ht0 : 0 < rm.target) (ht1 : rm.target < 1) :
    ∃ lo hi, 0 < lo ∧ lo ≤ hi ∧ (∀ step, 0 < step → step ≤ lo → 0 < rwDrift rm q S V key i al t step) ∧ (∀ step, hi ≤ step → rwDrift rm q S V key i al t step < 0) ∧
      ∃ step, lo ≤ step ∧ step ≤ hi ∧ rwDrift rm q S V key i al t step = 0 := by
  have hD := C128_drift hq hS hV h0 hT key i al t rm hget hset hdec hlog had
  have hc : 0 < rm.scale * ((i + 1 : ℕ) : ℝ) ^ (-rm.negExponent) := mul_pos hscale (Real.rpow_pos_of_pos (by positivity) _)
  simp only [hD]
  obtain ⟨lo, hlo0, hlo⟩ := mem_nhdsGT_iff_exists_Ioc_subset.mp ((C128_small hq hS hV h0 hT key i al t).eventually (lt_mem_nhds ht1))
  obtain ⟨hi, hhi⟩ := eventually_atTop.mp ((C128_large hq hS hV hT key i al t hd).eventually (gt_mem_nhds ht0))
  have h1 : ∀ step, 0 < step → step ≤ lo → rm.target < rwRate q S V key i al t step := fun s h h' => hlo ⟨h, h'⟩
  have h2 : ∀ step, max lo hi ≤ step → rwRate q S V key i al t step < rm.target := fun s h => hhi s ((le_max_right _ _).trans h)
  refine ⟨lo, max lo hi, hlo0, le_max_left _ _, fun s h h' => mul_pos hc (sub_pos.mpr (h1 s h h')), fun s h => mul_neg_of_pos_of_neg hc (sub_neg.mpr (h2 s h)), ?_⟩
  obtain ⟨s, hs, he⟩ := intermediate_value_Icc' (le_max_left lo hi) (C128_continuous hq hS hV hT key i al t).continuousOn
    ⟨(h2 _ le_rfl).le, (h1 lo hlo0 le_rfl).le⟩
  exact ⟨s, hs.1, hs.2, by rw [he, sub_self, mul_zero]⟩

end

/-! ## Underdamped -/

section
variable {K : Type*} (prior lik : (Fin d → ℝ) → ℝ × (Fin d → ℝ)) (T : ℝ) (L : ℕ)

/-- The acceptance probability from a point of phase space. -/
noncomputable def hmcAcc (ε : ℝ) (z : (Fin d → ℝ) × (Fin d → ℝ)) : ℝ :=
  min 1 (Real.exp (-energy prior lik T (hmcMap ε (gradField prior lik T) L z) + energy prior lik T z))

theorem hmcAcc_nonneg (ε : ℝ) (z) : 0 ≤ hmcAcc prior lik T L ε z := le_min zero_le_one (Real.exp_pos _).le

theorem hmcAcc_le (ε : ℝ) (z) : hmcAcc prior lik T L ε z ≤ 1 := min_le_left _ _

theorem ud_alpha (split : K → K × K) (splitN : K → ℕ → K × List K) (normal : K → Fin d → ℝ) (uniform : K → ℝ) (hlen : ∀ k, (splitN k L).2.length = L)
    (z : (Fin d → ℝ) × (Fin d → ℝ)) (al : Fl) (t : ℝ) (k : K) (i : ℕ) (p : UDParams) :
    (update (underdamped split splitN normal (fun x _ => prior x) (fun x _ => lik x) T L) (metropolis split uniform) (udState prior lik T z al t) ⟨k, i, p⟩).1.alpha
      = Fl.fin (hmcAcc prior lik T L p.stepsize (z.1, refreshMomenta p z.2 (normal (split k).2))) := by
  set smp := underdamped split splitN normal (fun x _ => prior x) (fun x _ => lik x) T L with hsmp
  set z1 : (Fin d → ℝ) × (Fin d → ℝ) := (z.1, refreshMomenta p z.2 (normal (split k).2)) with hz1
  have hph := proposal_phase prior lik split splitN normal T L hlen (udState prior lik T z1 al t)
    ⟨(split k).1, i + 1, p⟩ (stateAt_consistent prior lik T _ _)
  have hprop : smp.proposal (udState prior lik T z1 al t) ⟨(split k).1, i + 1, p⟩
      = (udState prior lik T (hmcMap p.stepsize (gradField prior lik T) L z1) al t, ⟨(splitN (split k).1 L).1, i + 1, p⟩) := by
    refine Prod.ext ?_ rfl
    rw [state_eq_udState prior lik T _ hph.1, hph.2]; rfl
  have hupd : update smp (metropolis split uniform) (udState prior lik T z al t) ⟨k, i, p⟩
    = metropolis split uniform smp (udState prior lik T z1 al t) ⟨(split k).1, i + 1, p⟩
      (udState prior lik T (hmcMap p.stepsize (gradField prior lik T) L z1) al t) ⟨(splitN (split k).1 L).1, i + 1, p⟩ := by
    have : update smp (metropolis split uniform) (udState prior lik T z al t) ⟨k, i, p⟩
      = metropolis split uniform smp (udState prior lik T z1 al t) ⟨(split k).1, i + 1, p⟩
      (smp.proposal (udState prior lik T z1 al t) ⟨(split k).1, i + 1, p⟩).1
      (smp.proposal (udState prior lik T z1 al t) ⟨(split k).1, i + 1, p⟩).2 := rfl
    rw [this, hprop]
  have e : smp.acceptance (udState prior lik T z1 al t) ⟨(split k).1, i + 1, p⟩
      (udState prior lik T (hmcMap p.stepsize (gradField prior lik T) L z1) al t) ⟨(splitN (split k).1 L).1, i + 1, p⟩
      = Fl.minimum (Fl.fin 1) (Fl.exp (Fl.fin (-energy prior lik T (hmcMap p.stepsize (gradField prior lik T) L z1) + energy prior lik T z1))) := by
    simp only [hsmp, underdamped, energy, udState, stateAt, potAt]
    congr 3; ring
  have e2 : ∀ r : ℝ, Fl.minimum (Fl.fin 1) (Fl.exp (Fl.fin r)) = Fl.fin (min 1 (Real.exp r)) := by
    intro r
    simp only [Fl.exp, Fl.minimum]
    by_cases h : Real.exp r < 1
    · rw [min_eq_right h.le]; exact if_pos h
    · rw [min_eq_left (not_lt.mp h)]; exact if_neg h
  rw [hupd, alpha_metropolis, e, e2]; rfl

theorem continuous_hmcMap (hg : Continuous (gradField prior lik T)) : Continuous fun w : ℝ × ((Fin d → ℝ) × (Fin d → ℝ)) => hmcMap w.1 (gradField prior lik T) L w.2 := by
  have h1 : Continuous fun w : ℝ × ((Fin d → ℝ) × (Fin d → ℝ)) => lfMap w.1 (gradField prior lik T) w.2 := by
    have hx : Continuous fun w : ℝ × ((Fin d → ℝ) × (Fin d → ℝ)) => gradField prior lik T w.2.1 := hg.comp (by fun_prop)
    have hp : Continuous fun w : ℝ × ((Fin d → ℝ) × (Fin d → ℝ)) => fun i => w.2.2 i - w.1 / 2 * gradField prior lik T w.2.1 i := by fun_prop
    have hx' : Continuous fun w : ℝ × ((Fin d → ℝ) × (Fin d → ℝ)) => fun i => w.2.1 i + w.1 * (w.2.2 i - w.1 / 2 * gradField prior lik T w.2.1 i) := by fun_prop
    have hg' := hg.comp hx'
    simp only [Function.comp_def] at hg'
    simp only [lfMap]
    fun_prop
  have h2 : ∀ n, Continuous fun w : ℝ × ((Fin d → ℝ) × (Fin d → ℝ)) => (lfMap w.1 (gradField prior lik T))^[n] w.2 := by
    intro n
    induction n with
    | zero => exact continuous_snd
    | succ n ih =>
      simp only [Function.iterate_succ_apply']
      exact h1.comp (continuous_fst.prodMk ih)
  have h3 := h2 L
  simp only [hmcMap, Mcmc.flip]
  fun_prop

theorem continuous_gaussianPotentialDefault : Continuous (Gaussian.gaussianPotentialDefault : (Fin d → ℝ) → ℝ) := by
  have h : (Gaussian.gaussianPotentialDefault : (Fin d → ℝ) → ℝ) = fun x => -Real.log (∏ i, gaussianPDFReal 0 1 (x i)) := by
    funext x; rw [← exp_neg_gaussianPotentialDefault, Real.log_exp, neg_neg]
  have hg : Continuous (gaussianPDFReal 0 1) := by unfold gaussianPDFReal; fun_prop
  rw [h]
  refine (Continuous.log (by fun_prop) fun x => ?_).neg
  exact (Finset.prod_pos fun i _ => gaussianPDFReal_pos 0 1 _ one_ne_zero).ne'

theorem continuous_hmcAcc (hg : Continuous (gradField prior lik T)) (hU : Continuous (potAt prior lik T)) :
    Continuous fun w : ℝ × ((Fin d → ℝ) × (Fin d → ℝ)) => hmcAcc prior lik T L w.1 w.2 := by
  have hm := continuous_hmcMap prior lik T L hg
  have hE : Continuous (energy prior lik T) := by
    have := continuous_gaussianPotentialDefault (d := d)
    exact (hU.comp continuous_fst).add (this.comp continuous_snd)
  exact continuous_const.min (Real.continuous_exp.comp ((hE.comp hm).neg.add (hE.comp continuous_snd)))

theorem hmcAcc_zero (z) : hmcAcc prior lik T L 0 z = 1 := by
  have h1 : lfMap 0 (gradField prior lik T) = id := by
    funext z; simp [lfMap]
  have h2 : energy prior lik T (Mcmc.flip z) = energy prior lik T z := by
    have h : ∀ x : Fin d → ℝ, Gaussian.gaussianPotentialDefault x = -Real.log (∏ i, gaussianPDFReal 0 1 (x i)) := fun x => by
      rw [← exp_neg_gaussianPotentialDefault, Real.log_exp, neg_neg]
    simp [energy, Mcmc.flip, h, gaussianPDFReal]
  simp [hmcAcc, hmcMap, h1, h2]

variable {q : ℝ → ℝ} (hq : IsNormalDraw q) (key : Keys.Key) (i : ℕ) (al : Fl) (t : ℝ) (hg : Continuous (gradField prior lik T)) (hU : Continuous (potAt prior lik T))
  (h0 : udTarget prior lik T Set.univ ≠ 0) (hfin : udTarget prior lik T Set.univ ≠ ∞)
include hq hg hU hfin

theorem udRate_eq (p : UDParams) (hp : Admissible p) :
    udRate q prior lik T L key i al t p = (∫ z, hmcAcc prior lik T L p.stepsize z ∂(udTarget prior lik T)) / (udTarget prior lik T Set.univ).toReal := by
  rw [udRate, meanUnder]
  congr 1
  have hF : IsFiniteMeasure (udTarget prior lik T) := ⟨hfin.lt_top⟩
  have mA : Measurable (hmcAcc prior lik T L p.stepsize) :=
    ((continuous_hmcAcc prior lik T L hg hU).comp (continuous_const.prodMk continuous_id)).measurable
  have mR : Measurable fun w : (Fin d → ℝ) × (Fin d → ℝ) => refreshMomenta p w.1 w.2 := by
    unfold refreshMomenta; fun_prop
  have h1 : ∀ z, ∫ ω, flToReal (update (underdamped Keys.split Keys.splitN (normalAt q d ω) (fun x _ => prior x) (fun x _ => lik x) T L)
      (metropolis Keys.split fun k => ω (k, 0)) (udState prior lik T z al t) ⟨key, i, p⟩).1.alpha ∂ideal
      = ∫ ξ, hmcAcc prior lik T L p.stepsize (z.1, refreshMomenta p z.2 ξ) ∂(stdNormal d) := by
    intro z
    rw [← map_normalAt (d := d) hq (1 :: key), integral_map (measurable_normalAt hq _).aemeasurable]
    · refine integral_congr_ae (ae_of_all _ fun ω => ?_)
      simp only [ud_alpha prior lik T L Keys.split Keys.splitN (normalAt q d ω) (fun k => ω (k, 0)) (fun k => by simp [Keys.splitN]), flToReal]
      rfl
    · exact (mA.comp (measurable_const.prodMk (mR.comp (measurable_const.prodMk measurable_id)))).aestronglyMeasurable
  simp only [h1]
  set m : Measure (Fin d → ℝ) := volume.withDensity fun x => ENNReal.ofReal (Real.exp (-potAt prior lik T x)) with hm
  have hT : udTarget prior lik T = m.prod (stdNormal d) := rfl
  have hR : MeasurePreserving (fun w : (Fin d → ℝ) × (Fin d → ℝ) => refreshMomenta p w.1 w.2) ((stdNormal d).prod (stdNormal d)) (stdNormal d) := ⟨mR, C20_refresh p hp⟩
  have hP : MeasurePreserving (fun w : ((Fin d → ℝ) × (Fin d → ℝ)) × (Fin d → ℝ) => (w.1.1, refreshMomenta p w.1.2 w.2)) ((udTarget prior lik T).prod (stdNormal d)) (udTarget prior lik T) := by
    rw [hT]
    exact ((MeasurePreserving.id m).prod hR).comp (measurePreserving_prodAssoc m (stdNormal d) (stdNormal d))
  rw [← integral_prod (fun w : ((Fin d → ℝ) × (Fin d → ℝ)) × (Fin d → ℝ) => hmcAcc prior lik T L p.stepsize (w.1.1, refreshMomenta p w.1.2 w.2))]
  · conv_rhs => rw [← hP.map_eq]
    rw [integral_map hP.measurable.aemeasurable mA.aestronglyMeasurable]
  · refine Integrable.of_bound (mA.comp hP.measurable).aestronglyMeasurable 1 (ae_of_all _ fun w => ?_)
    rw [Real.norm_of_nonneg (hmcAcc_nonneg _ _ _ _ _ _)]
    exact hmcAcc_le _ _ _ _ _ _

omit hq in
theorem continuous_mean_hmcAcc : Continuous fun ε => (∫ z, hmcAcc prior lik T L ε z ∂(udTarget prior lik T)) / (udTarget prior lik T Set.univ).toReal := by
  have hF : IsFiniteMeasure (udTarget prior lik T) := ⟨hfin.lt_top⟩
  have hc := continuous_hmcAcc prior lik T L hg hU
  refine Continuous.div_const (continuous_of_dominated (bound := fun _ => 1) (fun ε => ?_) (fun ε => ae_of_all _ fun z => ?_) (integrable_const _) (ae_of_all _ fun z => ?_)) _
  · exact (hc.comp (continuous_const.prodMk continuous_id)).measurable.aestronglyMeasurable
  · rw [Real.norm_of_nonneg (hmcAcc_nonneg _ _ _ _ _ _)]
    exact hmcAcc_le _ _ _ _ _ _
  · exact hc.comp (continuous_id.prodMk continuous_const)

theorem udRate_on {fr : Option ℝ} (hfr : ∀ γ, fr = some γ → 0 ≤ γ) {step : ℝ} (hs : 0 < step) :
    udRate q prior lik T L key i al t ⟨step, fr⟩ = (∫ z, hmcAcc prior lik T L step z ∂(udTarget prior lik T)) / (udTarget prior lik T Set.univ).toReal :=
  udRate_eq prior lik T L hq key i al t hg hU hfin ⟨step, fr⟩ ⟨hs.le, hfr, fun _ => hs⟩

/-- C128: the acceptance rate of `Underdamped` changes continuously with the stepsize. -/
theorem C128_leapfrog_continuous {fr : Option ℝ} (hfr : ∀ γ, fr = some γ → 0 ≤ γ) :
    ContinuousOn (fun step => udRate q prior lik T L key i al t ⟨step, fr⟩) (Set.Ioi 0) :=
  (continuous_mean_hmcAcc prior lik T L hg hU hfin).continuousOn.congr fun _ hs => udRate_on prior lik T L hq key i al t hg hU hfin hfr hs

include h0

/-- C128: with any number of leapfrog steps, any friction and any differentiable posterior, small stepsizes are nearly always accepted. -/
theorem C128_leapfrog_small {fr : Option ℝ} (hfr : ∀ γ, fr = some γ → 0 ≤ γ) :
    Tendsto (fun step => udRate q prior lik T L key i al t ⟨step, fr⟩) (𝓝[>] 0) (𝓝 1) := by
  have hF : IsFiniteMeasure (udTarget prior lik T) := ⟨hfin.lt_top⟩
  have h := (continuous_mean_hmcAcc prior lik T L hg hU hfin).tendsto 0
  simp only [hmcAcc_zero, integral_const, smul_eq_mul, mul_one, Measure.real] at h
  rw [div_self (ENNReal.toReal_pos h0 hfin).ne'] at h
  refine (h.mono_left nhdsWithin_le_nhds).congr' ?_
  filter_upwards [self_mem_nhdsWithin] with step hs
  exact (udRate_on prior lik T L hq key i al t hg hU hfin hfr hs).symm

/-- C128: every rate between that of some stepsize and one is the acceptance rate of a smaller stepsize. -/
theorem C128_leapfrog_attained {fr : Option ℝ} (hfr : ∀ γ, fr = some γ → 0 ≤ γ) {big a : ℝ} (hb : 0 < big) (ha : udRate q prior lik T L key i al t ⟨big, fr⟩ ≤ a) (ha1 : a < 1) :
    ∃ step, 0 < step ∧ step ≤ big ∧ udRate q prior lik T L key i al t ⟨step, fr⟩ = a := by
  have hc := C128_leapfrog_continuous prior lik T L hq key i al t hg hU hfin hfr
  obtain ⟨lo, ⟨hlo, hlob⟩, hlo0⟩ := (((C128_leapfrog_small prior lik T L hq key i al t hg hU h0 hfin hfr).eventually (lt_mem_nhds ha1)).and
    (nhdsWithin_le_nhds (gt_mem_nhds hb))).and self_mem_nhdsWithin |>.exists
  obtain ⟨s, hs, he⟩ := intermediate_value_Icc' (le_of_lt hlob) (hc.mono fun x hx => lt_of_lt_of_le hlo0 hx.1) ⟨ha, hlo.le⟩
  exact ⟨s, lt_of_lt_of_le hlo0 hs.1, hs.2, he⟩

end

/-- Non-vacuity: the uniform distribution on a square, whose potential jumps to infinity at the boundary, and the default target 0.234 of `RandomWalk`. -/
example {q : ℝ → ℝ} (hq : IsNormalDraw q) (key : Keys.Key) :
    ∃ step, 0 < step ∧ rwRate q (Set.Icc 0 1 : Set (Fin 2 → ℝ)) (fun _ => 0) key 0 (.fin 1) 1 step = 0.234 := by
  have hS : MeasurableSet (Set.Icc 0 1 : Set (Fin 2 → ℝ)) := measurableSet_Icc
  have hT : target (Set.Icc 0 1 : Set (Fin 2 → ℝ)) (fun _ => 0) Set.univ = 1 := by
    rw [target, withDensity_apply _ MeasurableSet.univ, Measure.restrict_univ, lintegral_indicator hS]
    simp [Real.volume_Icc_pi]
  exact C128_attained hq hS measurable_const (by rw [hT]; exact one_ne_zero) (by rw [hT]; exact ENNReal.one_ne_top) key 0 _ 1 (by norm_num) (by norm_num) (by norm_num)

/-- Non-vacuity: adaptation with the defaults of `RMMetropolis` and `RandomWalk` on the same target. -/
example {q : ℝ → ℝ} (hq : IsNormalDraw q) (key : Keys.Key) :
    ∃ step, 0 < step ∧ rwDrift ⟨id, fun _ x => x, 0.234, false, none, 1, 2 / 3, true⟩ q (Set.Icc 0 1 : Set (Fin 2 → ℝ)) (fun _ => 0) key 0 (.fin 1) 1 step = 0 := by
  have hS : MeasurableSet (Set.Icc 0 1 : Set (Fin 2 → ℝ)) := measurableSet_Icc
  have hT : target (Set.Icc 0 1 : Set (Fin 2 → ℝ)) (fun _ => 0) Set.univ = 1 := by
    rw [target, withDensity_apply _ MeasurableSet.univ, Measure.restrict_univ, lintegral_indicator hS]
    simp [Real.volume_Icc_pi]
  obtain ⟨lo, hi, h, -, -, -, s, hs, -, he⟩ := C128_adapts hq hS measurable_const (by rw [hT]; exact one_ne_zero) (by rw [hT]; exact ENNReal.one_ne_top) key 0 (.fin 1) 1 (by norm_num)
    ⟨id, fun _ x => x, 0.234, false, none, 1, 2 / 3, true⟩ (fun _ => rfl) (fun _ _ => rfl) rfl rfl (fun _ h => (nomatch h)) (by norm_num) (by norm_num) (by norm_num)
  exact ⟨s, h.trans_le hs, he⟩

/-- Non-vacuity: a standard normal posterior, three leapfrog steps, friction 2. -/
example {q : ℝ → ℝ} (hq : IsNormalDraw q) (key : Keys.Key) :
    Tendsto (fun step => udRate q (fun x : Fin 2 → ℝ => (Gaussian.gaussianPotentialDefault x, x)) (fun _ => (0, 0)) 1 3 key 0 (.fin 1) 1 ⟨step, some 2⟩) (𝓝[>] 0) (𝓝 1) := by
  have hpot : potAt (fun x : Fin 2 → ℝ => (Gaussian.gaussianPotentialDefault x, x)) (fun _ => (0, 0)) 1 = Gaussian.gaussianPotentialDefault := by funext x; simp [potAt]
  have hgr : gradField (fun x : Fin 2 → ℝ => (Gaussian.gaussianPotentialDefault x, x)) (fun _ => (0, 0)) 1 = fun x => x := by funext x i; simp [gradField]
  have hm : udTarget (fun x : Fin 2 → ℝ => (Gaussian.gaussianPotentialDefault x, x)) (fun _ => (0, 0)) 1 Set.univ = 1 := by
    have : udTarget (fun x : Fin 2 → ℝ => (Gaussian.gaussianPotentialDefault x, x)) (fun _ => (0, 0)) 1 = (stdNormal 2).prod (stdNormal 2) := by
      rw [udTarget, hpot]
      simp only [exp_neg_gaussianPotentialDefault]
      rw [← stdNormal_eq_withDensity]
    rw [this, measure_univ]
  refine C128_leapfrog_small _ _ _ _ hq key 0 _ 1 (by rw [hgr]; exact continuous_id) (by rw [hpot]; exact continuous_gaussianPotentialDefault) ?_ ?_ (fun γ h => by cases h; norm_num)
  · rw [hm]; exact one_ne_zero
  · rw [hm]; exact ENNReal.one_ne_top

end Mocat.Props
