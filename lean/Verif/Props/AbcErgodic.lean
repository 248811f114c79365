import Verif.Props.ChainErgodic
import Verif.Props.AbcLaw
/-!
# C112: averages over an ABC-MCMC run tend to means under the ABC posterior
-/
namespace Mocat.Props
open Mocat Mocat.Mcmc Mocat.Abc Mocat.Ideal Mocat.Meas Mocat.Ergodic MeasureTheory ProbabilityTheory Filter
open scoped ENNReal Topology

variable {d : ℕ} {D : Type*}

theorem abc_values (S : Set (Fin d → ℝ)) (V : (Fin d → ℝ) → ℝ) (pri : Tape → Fin d → ℝ) (sim : (Fin d → ℝ) → Tape → D) (dist : D → Fl) (q : ℝ → ℝ) (p : Params d) (stp : Fin d → ℝ) (t : ℝ)
    (ω : Tape) (n : ℕ) : ∀ z k (al : Fl) (i : ℕ),
    ((bodyIter (abcUpdate S V pri sim dist q ω) n (abcState S V dist z stp al t, ⟨k, i, p⟩)).1.payload.value,
      (bodyIter (abcUpdate S V pri sim dist q ω) n (abcState S V dist z stp al t, ⟨k, i, p⟩)).1.payload.data)
      = tapeIter (abcDraws q d) Keys.abcNext (abcMove S V sim (ball dist p.threshold) fun i => Real.sqrt (p.stepsize i)) n k z ω := by
  induction n with
  | zero => intro z k al i; rfl
  | succ n ih =>
    intro z k al i
    obtain ⟨al', h⟩ := abcUpdate_eq S V pri sim dist q ω z stp al t k i p
    have : bodyIter (abcUpdate S V pri sim dist q ω) (n + 1) (abcState S V dist z stp al t, ⟨k, i, p⟩)
      = bodyIter (abcUpdate S V pri sim dist q ω) n (abcUpdate S V pri sim dist q ω (abcState S V dist z stp al t) ⟨k, i, p⟩) := by
      simp [bodyIter, Function.iterate_succ_apply]
    rw [this, h, ih]; rfl

theorem abcAcc_pos (S : Set (Fin d → ℝ)) (V : (Fin d → ℝ) → ℝ) (B : Set D) (x : Fin d → ℝ) (z : (Fin d → ℝ) × D) : 0 < abcAcc S V B x z ↔ z.2 ∈ B ∧ z.1 ∈ S := by
  unfold abcAcc
  split_ifs with h <;> simp [h, accOn_pos]

section
variable [MeasurableSpace D] {S : Set (Fin d → ℝ)} {V : (Fin d → ℝ) → ℝ} {sim : (Fin d → ℝ) → Tape → D} {B : Set D}

/-- The ABC posterior and the accepted moves have the same null sets. -/
theorem abc_null (hS : MeasurableSet S) (hV : Measurable V) (hB : MeasurableSet B) (hsim : Measurable fun z : (Fin d → ℝ) × Tape => sim z.1 z.2) {s : Fin d → ℝ} (hs : ∀ i, s i ≠ 0)
    (z : (Fin d → ℝ) × D) {A : Set ((Fin d → ℝ) × D)} (hA : MeasurableSet A) :
    accepted ((stdNormal d).prod ideal) (fun z w => abcProp sim s (z, w)) (fun z w => abcAcc S V B z.1 (abcProp sim s (z, w))) z A = 0 ↔ abcTarget S V sim B A = 0 := by
  have hP := measurable_abcProp (D := D) hsim s
  have hpair : Measurable fun z : (Fin d → ℝ) × Tape => (z.1, sim z.1 z.2) := measurable_fst.prodMk hsim
  have hd := measurable_densOn hS hV
  have mP : Measurable fun w => abcProp sim s (z, w) := hP.comp measurable_prodMk_left
  have ma : Measurable fun w => ENNReal.ofReal (abcAcc S V B z.1 (abcProp sim s (z, w))) :=
    ENNReal.measurable_ofReal.comp ((measurable_abcAcc hS hV hB).comp (measurable_const.prodMk mP))
  set E : Set ((Fin d → ℝ) × Tape) := {w | w.1 ∈ S ∧ sim w.1 w.2 ∈ B ∧ (w.1, sim w.1 w.2) ∈ A} with hE
  have mE : MeasurableSet E := (measurable_fst hS).inter ((hsim hB).inter (hpair hA))
  set h : (Fin d → ℝ) → ℝ≥0∞ := fun y => ideal (Prod.mk y ⁻¹' E) with hh
  have mh : Measurable h := measurable_measure_prodMk_left mE
  have mw : Measurable fun ξ : Fin d → ℝ => walk s (z.1, ξ) := (measurable_walk s).comp measurable_prodMk_left
  have e1 : accepted ((stdNormal d).prod ideal) (fun z w => abcProp sim s (z, w)) (fun z w => abcAcc S V B z.1 (abcProp sim s (z, w))) z A = 0 ↔ volume {y | h y ≠ 0} = 0 := by
    rw [accepted, Measure.map_apply mP hA, withDensity_apply_eq_zero ma]
    have hset : {w | ENNReal.ofReal (abcAcc S V B z.1 (abcProp sim s (z, w))) ≠ 0} ∩ (fun w => abcProp sim s (z, w)) ⁻¹' A
        = (fun w : (Fin d → ℝ) × Tape => (walk s (z.1, w.1), w.2)) ⁻¹' E := by
      ext w
      simp only [ne_eq, ENNReal.ofReal_eq_zero, not_le, Set.mem_inter_iff, Set.mem_ofPred_eq, Set.mem_preimage, hE, abcAcc_pos]
      simp only [abcProp]
      tauto
    have mE' : MeasurableSet ((fun w : (Fin d → ℝ) × Tape => (walk s (z.1, w.1), w.2)) ⁻¹' E) := ((mw.comp measurable_fst).prodMk measurable_snd) mE
    rw [hset, Measure.prod_apply mE', lintegral_eq_zero_iff (measurable_measure_prodMk_left mE')]
    have : (fun ξ => ideal (Prod.mk ξ ⁻¹' ((fun w : (Fin d → ℝ) × Tape => (walk s (z.1, w.1), w.2)) ⁻¹' E))) = fun ξ => h (walk s (z.1, ξ)) := rfl
    rw [this, Filter.EventuallyEq, ae_iff, stdNormal_null]
    exact volume_scale z.1 s hs {y | h y ≠ 0}
  have e2 : abcTarget S V sim B A = 0 ↔ volume {y | h y ≠ 0} = 0 := by
    have h1 := lintegral_abcTarget hS hV hB hsim (f := A.indicator 1) (measurable_one.indicator hA)
    rw [lintegral_indicator_one hA] at h1
    have h2 : ∀ x, densOn S V x * ∫⁻ τ, B.indicator (fun y => A.indicator (1 : (Fin d → ℝ) × D → ℝ≥0∞) (x, y)) (sim x τ) ∂ideal = densOn S V x * h x := by
      intro x
      by_cases hx : x ∈ S
      · congr 1
        change _ = ideal (Prod.mk x ⁻¹' E)
        rw [← lintegral_indicator_one (measurable_prodMk_left mE)]
        refine lintegral_congr fun τ => ?_
        by_cases hb : sim x τ ∈ B <;> by_cases hA' : (x, sim x τ) ∈ A <;> simp [hE, hb, hA', hx]
      · simp [densOn, hx]
    simp_rw [h2] at h1
    have mdh : Measurable fun x => densOn S V x * h x := hd.mul mh
    rw [h1, lintegral_eq_zero_iff mdh, Filter.EventuallyEq, ae_iff]
    have : {x | ¬ densOn S V x * h x = (0 : (Fin d → ℝ) → ℝ≥0∞) x} = {y | h y ≠ 0} := by
      ext x
      simp only [Pi.zero_apply, mul_eq_zero, not_or, Set.mem_ofPred_eq, ne_eq]
      refine ⟨fun h => h.2, fun hx => ⟨?_, hx⟩⟩
      have hxS : x ∈ S := by
        by_contra hxS
        refine hx ?_
        have : Prod.mk x ⁻¹' E = ∅ := by ext τ; simp [hE, hxS]
        simp [hh, this]
      simp [densOn, hxS, Real.exp_pos]
    exact Iff.of_eq (congrArg (fun s => volume s = 0) this)
  exact e1.trans e2.symm

/-- C112: `RandomWalkABC` with `Metropolis`: any simulator, any distance and threshold, a prior that may vanish, an ABC posterior of finite positive mass, positive stepsizes, any start (even
one whose data are outside the threshold), any integrable quantity of parameter and data: the mean over the rows of a run tends in probability to the mean under the ABC posterior. -/
theorem C112_abc {q : ℝ → ℝ} (hq : IsNormalDraw q) (hS : MeasurableSet S) (hV : Measurable V) (pri : Tape → Fin d → ℝ)
    (hsim : Measurable fun z : (Fin d → ℝ) × Tape => sim z.1 z.2) (dist : D → Fl) (p : Params d) (hB : MeasurableSet (ball dist p.threshold)) (hstep : ∀ i, 0 < p.stepsize i)
    (h0 : abcTarget S V sim (ball dist p.threshold) Set.univ ≠ 0) (hT : abcTarget S V sim (ball dist p.threshold) Set.univ ≠ ∞) (z0 : (Fin d → ℝ) × D) (stp : Fin d → ℝ) (al : Fl) (t : ℝ)
    (key : Keys.Key) {f : (Fin d → ℝ) × D → ℝ} (hf : Measurable f) (hfi : Integrable f (abcTarget S V sim (ball dist p.threshold))) {ε : ℝ} (hε : 0 < ε) :
    Tendsto (fun n : ℕ => ideal {ω | ε ≤ |rowMean f ((runFrom (randomWalkABC Keys.split Keys.split4 (normalAt q d ω) (tapeScenario S V pri sim dist ω)) (metropolis Keys.split fun k => ω (k, 0)) n
        (abcState S V dist z0 stp al t) ⟨key, 0, p⟩).map fun s => (s.payload.value, s.payload.data)) - meanUnder (abcTarget S V sim (ball dist p.threshold)) f|}) atTop (𝓝 0) := by
  set B := ball dist p.threshold with hBdef
  set s : Fin d → ℝ := fun i => Real.sqrt (p.stepsize i) with hs
  have hs0 : ∀ i, s i ≠ 0 := fun i => (Real.sqrt_pos.mpr (hstep i)).ne'
  have hπ := normalised_prob h0 hT
  have mT : Measurable (Function.uncurry fun z w => abcProp sim s (z, w)) := measurable_abcProp hsim s
  have ma : Measurable (Function.uncurry fun z w => abcAcc S V B z.1 (abcProp sim s (z, w))) :=
    (measurable_abcAcc hS hV hB).comp ((measurable_fst.comp measurable_fst).prodMk (measurable_abcProp hsim s))
  have ha : ∀ z w, 0 ≤ abcAcc S V B z.1 (abcProp sim s (z, w)) ∧ abcAcc S V B z.1 (abcProp sim s (z, w)) ≤ 1 := by
    intro z w
    simp only [abcAcc]
    split_ifs
    · exact ⟨accOn_nonneg _ _ _ _, accOn_le_one _ _ _ _⟩
    · exact ⟨le_rfl, zero_le_one⟩
  have hmain := metropolis_average (abcDraws_draws hq) mT ma (fun z w => (ha z w).1) (fun z w => (ha z w).2)
    (fun g hg => normalised_invariant (F := fun g z => ∫⁻ w, g (abcMove S V sim B s z w) ∂(((stdNormal d).prod ideal).prod unif)) (abcMove_invariant hS hV hB hsim s g hg))
    (fun z => (normalised_ac hT fun A hA => abc_null hS hV hB hsim hs0 z hA).1) (fun z => (normalised_ac hT fun A hA => abc_null hS hV hB hsim hs0 z hA).2) hf
    (hfi.smul_measure (ENNReal.inv_ne_top.mpr h0)) z0 hε key
  rw [integral_normalised] at hmain
  refine hmain.congr' ?_
  filter_upwards [eventually_ge_atTop 1] with n hn
  congr 1
  ext ω
  simp only [Set.mem_ofPred_eq]
  rw [C12_mcmc _ _ (keepsIter_randomWalkABC _ _ _ _) (corrKeepsIter_metropolis _ _), List.map_map]
  have hlen : ((n : ℤ) - 1 - ((0 : ℕ) : ℤ)).toNat + 1 = n := by omega
  simp only [hlen]
  rw [rowMean_range]
  simp only [Function.comp]
  have := fun j => abc_values S V pri sim dist q p stp t ω j z0 key al 0
  unfold abcUpdate at this
  simp only [this]
  rfl

end

/-- The case below: data with an error between -1 and 1. -/
noncomputable def noisy (x : Fin 1 → ℝ) (τ : Tape) : ℝ := x 0 + Real.sin (τ ([], 0))

theorem measurable_noisy : Measurable fun z : (Fin 1 → ℝ) × Tape => noisy z.1 z.2 :=
  ((measurable_pi_apply 0).comp measurable_fst).add (Real.measurable_sin.comp ((measurable_pi_apply (([], 0) : Site)).comp measurable_snd))

theorem measurable_ball_two : MeasurableSet (ball (fun y : ℝ => Fl.fin |y|) (Fl.fin 2)) := by
  change MeasurableSet {y : ℝ | |y| < 2}
  exact measurableSet_lt (by fun_prop) measurable_const

theorem noisy_finite : abcTarget Set.univ (fun x : Fin 1 → ℝ => x 0 ^ 2 / 2) noisy (ball (fun y : ℝ => Fl.fin |y|) (Fl.fin 2)) Set.univ ≠ ∞ := by
  have e1 : target Set.univ (fun x : Fin 1 → ℝ => x 0 ^ 2 / 2) = ENNReal.ofReal (Real.sqrt (2 * Real.pi)) • stdNormal 1 := by
    rw [← stdTarget, target, Set.indicator_univ]
  have : IsFiniteMeasure (target Set.univ (fun x : Fin 1 → ℝ => x 0 ^ 2 / 2)) := by
    rw [e1]; exact ⟨lt_top_iff_ne_top.mpr stdTarget_finite⟩
  unfold abcTarget
  exact measure_ne_top _ _

theorem noisy_pos : abcTarget Set.univ (fun x : Fin 1 → ℝ => x 0 ^ 2 / 2) noisy (ball (fun y : ℝ => Fl.fin |y|) (Fl.fin 2)) Set.univ ≠ 0 := by
  have hV : Measurable fun x : Fin 1 → ℝ => x 0 ^ 2 / 2 := by fun_prop
  have hmass := lintegral_abcTarget (S := Set.univ) (sim := noisy) .univ hV measurable_ball_two measurable_noisy (f := 1) measurable_one
  simp only [Pi.one_apply, lintegral_one] at hmass
  rw [hmass]
  refine ne_of_gt (lt_of_lt_of_le ?_ (setLIntegral_le_lintegral {x : Fin 1 → ℝ | |x 0| < 1} _))
  have hopen : IsOpen {x : Fin 1 → ℝ | |x 0| < 1} := isOpen_lt (by fun_prop) continuous_const
  have hval : ∀ x ∈ {x : Fin 1 → ℝ | |x 0| < 1}, ENNReal.ofReal (Real.exp (-(1 : ℝ))) ≤ densOn Set.univ (fun x : Fin 1 → ℝ => x 0 ^ 2 / 2) x
      * ∫⁻ τ : Tape, (ball (fun y : ℝ => Fl.fin |y|) (Fl.fin 2)).indicator (fun _ => (1 : ℝ≥0∞)) (noisy x τ) ∂ideal := by
    intro x hx
    have hx' : |x 0| < 1 := hx
    have hin : ∀ τ : Tape, noisy x τ ∈ ball (fun y : ℝ => Fl.fin |y|) (Fl.fin 2) := fun τ => by
      change |x 0 + Real.sin (τ ([], 0))| < 2
      have h1 := abs_add_le (x 0) (Real.sin (τ ([], 0)))
      have h2 := Real.abs_sin_le_one (τ ([], 0))
      linarith
    have : ∀ τ : Tape, (ball (fun y : ℝ => Fl.fin |y|) (Fl.fin 2)).indicator (fun _ => (1 : ℝ≥0∞)) (noisy x τ) = 1 := fun τ => by simp [hin τ]
    simp only [this, lintegral_one, measure_univ, mul_one, densOn, Set.indicator_univ]
    refine ENNReal.ofReal_le_ofReal (Real.exp_le_exp.mpr ?_)
    have : x 0 ^ 2 ≤ 1 := (sq_le_one_iff_abs_le_one _).mpr hx'.le
    linarith
  refine lt_of_lt_of_le ?_ (setLIntegral_mono' hopen.measurableSet hval)
  rw [setLIntegral_const]
  exact ENNReal.mul_pos (ENNReal.ofReal_pos.mpr (Real.exp_pos _)).ne' (hopen.measure_ne_zero volume ⟨0, by simp⟩)

/-- A case: a standard normal prior, data with an error between -1 and 1, distance to the observation 0, threshold 2, from a start whose data are far outside the threshold: the fraction of
rows with a parameter above 1/2. -/
example (key : Keys.Key) : ∃ q, IsNormalDraw q ∧
    Tendsto (fun n : ℕ => ideal {ω | 0.1 ≤ |rowMean (Set.indicator {z : (Fin 1 → ℝ) × ℝ | 1 / 2 < z.1 0} 1) ((runFrom (randomWalkABC Keys.split Keys.split4 (normalAt q 1 ω)
        (tapeScenario Set.univ (fun x => x 0 ^ 2 / 2) (fun _ _ => 1) noisy (fun y => Fl.fin |y|) ω)) (metropolis Keys.split fun k => ω (k, 0)) n
        (abcState Set.univ (fun x => x 0 ^ 2 / 2) (fun y => Fl.fin |y|) (fun _ => 10, 9.5) (fun _ => 3) (Fl.fin 1) 0) ⟨key, 0, ⟨Fl.fin 2, fun _ => 3, 0, 0⟩⟩).map
          fun s => (s.payload.value, s.payload.data))
        - meanUnder (abcTarget Set.univ (fun x => x 0 ^ 2 / 2) noisy (ball (fun y : ℝ => Fl.fin |y|) (Fl.fin 2)))
          (Set.indicator {z : (Fin 1 → ℝ) × ℝ | 1 / 2 < z.1 0} 1)|}) atTop (𝓝 0) := by
  obtain ⟨q, hq⟩ := exists_isNormalDraw
  have hV : Measurable fun x : Fin 1 → ℝ => x 0 ^ 2 / 2 := by fun_prop
  have hfm : Measurable (Set.indicator {z : (Fin 1 → ℝ) × ℝ | 1 / 2 < z.1 0} (1 : (Fin 1 → ℝ) × ℝ → ℝ)) :=
    measurable_one.indicator (measurableSet_lt measurable_const ((measurable_pi_apply 0).comp measurable_fst))
  refine ⟨q, hq, C112_abc (sim := noisy) hq .univ hV _ measurable_noisy _ ⟨Fl.fin 2, fun _ => 3, 0, 0⟩ measurable_ball_two (fun i => by norm_num) noisy_pos noisy_finite _ _ _ _ key hfm ?_ (by norm_num)⟩
  have : IsFiniteMeasure (abcTarget Set.univ (fun x : Fin 1 → ℝ => x 0 ^ 2 / 2) noisy (ball (fun y : ℝ => Fl.fin |y|) (Fl.fin 2))) :=
    ⟨lt_top_iff_ne_top.mpr noisy_finite⟩
  refine Integrable.of_bound hfm.aestronglyMeasurable 1 (.of_forall fun z => ?_)
  by_cases hz : z ∈ {z : (Fin 1 → ℝ) × ℝ | 1 / 2 < z.1 0}
  · rw [Set.indicator_of_mem hz]; simp
  · rw [Set.indicator_of_notMem hz]; simp

end Mocat.Props
