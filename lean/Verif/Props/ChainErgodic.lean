import Verif.Lemmas.MetropolisErgodic
import Verif.Props.ChainLaw
/-!
# C110, C111: averages over a run tend to posterior means

`C16` and `C19` say that a run started from the posterior stays there. Here a run starts anywhere, and its length grows.
-/
namespace Mocat.Props
open Mocat Mocat.Mcmc Mocat.Ideal Mocat.Meas Mocat.Ergodic MeasureTheory ProbabilityTheory Filter
open scoped ENNReal Topology

variable {d : ℕ}

/-! ## Specification -/

/-- The mean of `f` over the rows of a run. -/
noncomputable def rowMean {α : Type*} (f : α → ℝ) (rows : List α) : ℝ := (rows.map f).sum / rows.length

/-- The mean of `f` under an unnormalised measure of finite mass. -/
noncomputable def meanUnder {α : Type*} [MeasurableSpace α] (μ : Measure α) (f : α → ℝ) : ℝ := (∫ x, f x ∂μ) / (μ Set.univ).toReal

/-! ## Normalisation -/

section
variable {α : Type*} [MeasurableSpace α] {μ : Measure α}

/-- The probability measure proportional to `μ`. -/
noncomputable def normalised (μ : Measure α) : Measure α := (μ Set.univ)⁻¹ • μ

theorem normalised_prob (h0 : μ Set.univ ≠ 0) (hT : μ Set.univ ≠ ∞) : IsProbabilityMeasure (normalised μ) :=
  ⟨by rw [normalised, Measure.smul_apply, smul_eq_mul, ENNReal.inv_mul_cancel h0 hT]⟩

theorem normalised_null (hT : μ Set.univ ≠ ∞) (A : Set α) : normalised μ A = 0 ↔ μ A = 0 := by
  rw [normalised, Measure.smul_apply, smul_eq_mul, mul_eq_zero, ENNReal.inv_eq_zero]
  exact or_iff_right hT

theorem normalised_invariant {F : (α → ℝ≥0∞) → α → ℝ≥0∞} {f : α → ℝ≥0∞} (h : ∫⁻ x, F f x ∂μ = ∫⁻ x, f x ∂μ) :
    ∫⁻ x, F f x ∂(normalised μ) = ∫⁻ x, f x ∂(normalised μ) := by
  rw [normalised, lintegral_smul_measure, lintegral_smul_measure, h]

theorem integral_normalised (f : α → ℝ) : ∫ x, f x ∂(normalised μ) = meanUnder μ f := by
  rw [normalised, integral_smul_measure, meanUnder, ENNReal.toReal_inv, smul_eq_mul, div_eq_inv_mul]

theorem normalised_ac {ν : Measure α} (hT : μ Set.univ ≠ ∞) (h : ∀ A, MeasurableSet A → (ν A = 0 ↔ μ A = 0)) : ν ≪ normalised μ ∧ normalised μ ≪ ν :=
  ⟨Measure.AbsolutelyContinuous.mk fun A hA h' => (h A hA).mpr ((normalised_null hT A).mp h'),
    Measure.AbsolutelyContinuous.mk fun A hA h' => (normalised_null hT A).mpr ((h A hA).mp h')⟩

end

/-! ## C110 -/

theorem rw_values {q : ℝ → ℝ} (S : Set (Fin d → ℝ)) (V : (Fin d → ℝ) → ℝ) (step t : ℝ) (ω : Tape) (n : ℕ) : ∀ x k (al : Fl) (i : ℕ),
    (bodyIter (rwUpdate S V Keys.split3 (normalAt q d ω) Keys.split fun k => ω (k, 0)) n (rwState S V x al t, ⟨k, i, step⟩)).1.payload.value
      = tapeIter (rwDraws q d) Keys.rwNext (rwMove S V step) n k x ω := by
  induction n with
  | zero => intro x k al i; rfl
  | succ n ih =>
    intro x k al i
    obtain ⟨al', h⟩ := rwUpdate_eq S V Keys.split3 (normalAt q d ω) Keys.split (fun k => ω (k, 0)) x al t k i step
    have : bodyIter (rwUpdate S V Keys.split3 (normalAt q d ω) Keys.split fun k => ω (k, 0)) (n + 1) (rwState S V x al t, ⟨k, i, step⟩)
      = bodyIter (rwUpdate S V Keys.split3 (normalAt q d ω) Keys.split fun k => ω (k, 0)) n
        (rwUpdate S V Keys.split3 (normalAt q d ω) Keys.split (fun k => ω (k, 0)) (rwState S V x al t) ⟨k, i, step⟩) := by
      simp [bodyIter, Function.iterate_succ_apply]
    rw [this, h, ih]; rfl

theorem rowMean_range {α : Type*} (f : α → ℝ) (v : ℕ → α) (n : ℕ) : rowMean f ((List.range n).map v) = (∑ j ∈ Finset.range n, f (v j)) / n := by
  rw [rowMean, List.map_map, List.length_map, List.length_range, Finset.sum_range, ← List.sum_ofFn]
  congr 2
  rw [List.ofFn_eq_map, ← List.map_coe_finRange_eq_range, List.map_map]
  rfl

theorem accOn_pos (S : Set (Fin d → ℝ)) (V : (Fin d → ℝ) → ℝ) (x y) : 0 < accOn S V x y ↔ y ∈ S := by
  unfold accOn
  split_ifs <;> simp_all [Real.exp_pos]

/-- The accepted moves of a random walk and the posterior have the same null sets. -/
theorem rw_ac {S : Set (Fin d → ℝ)} (hS : MeasurableSet S) {V : (Fin d → ℝ) → ℝ} (hV : Measurable V) (hT : target S V Set.univ ≠ ∞) {step : ℝ} (hstep : 0 < step) (x : Fin d → ℝ) :
    accepted (stdNormal d) (fun x z => rwProp (Real.sqrt step) (x, z)) (fun x z => accOn S V x (rwProp (Real.sqrt step) (x, z))) x ≪ normalised (target S V)
    ∧ normalised (target S V) ≪ accepted (stdNormal d) (fun x z => rwProp (Real.sqrt step) (x, z)) (fun x z => accOn S V x (rwProp (Real.sqrt step) (x, z))) x := by
  have hh : Real.sqrt step ≠ 0 := (Real.sqrt_pos.mpr hstep).ne'
  have mT : Measurable (Function.uncurry fun x z : Fin d → ℝ => rwProp (Real.sqrt step) (x, z)) := measurable_rwProp (d := d) (Real.sqrt step)
  have ma : Measurable (Function.uncurry fun x z : Fin d → ℝ => accOn S V x (rwProp (Real.sqrt step) (x, z))) := (measurable_accOn hS hV).comp (measurable_fst.prodMk mT)
  refine normalised_ac hT fun A hA => (accepted_null (c := fun x => x) hh (fun x z => rfl) ma (fun x z => accOn_pos S V x _) x hA).trans ?_
  change _ ↔ volume.withDensity (densOn S V) A = 0
  rw [withDensity_apply_eq_zero (measurable_densOn hS hV)]
  have : {x | densOn S V x ≠ 0} = S := by
    ext x
    by_cases hx : x ∈ S
    · simp [densOn, hx, Real.exp_pos]
    · simp [densOn, hx]
  rw [this]

/-- C110: `RandomWalk` with `Metropolis`, any potential that may be infinite, a posterior of finite positive mass, any positive stepsize, any start (even outside the support), any
integrable quantity: the mean over the rows of a run tends in probability to the posterior mean. -/
theorem C110_randomWalk {q : ℝ → ℝ} (hq : IsNormalDraw q) {S : Set (Fin d → ℝ)} (hS : MeasurableSet S) {V : (Fin d → ℝ) → ℝ} (hV : Measurable V)
    (h0 : target S V Set.univ ≠ 0) (hT : target S V Set.univ ≠ ∞) {step : ℝ} (hstep : 0 < step) (x0 : Fin d → ℝ) (al : Fl) (t : ℝ) (key : Keys.Key)
    {f : (Fin d → ℝ) → ℝ} (hf : Measurable f) (hfi : Integrable f (target S V)) {ε : ℝ} (hε : 0 < ε) :
    Tendsto (fun n : ℕ => ideal {ω | ε ≤ |rowMean f ((runFrom (randomWalk Keys.split3 (normalAt q d ω) fun x _ => potOn S V x) (metropolis Keys.split fun k => ω (k, 0)) n
        (rwState S V x0 al t) ⟨key, 0, step⟩).map fun s => s.payload.value) - meanUnder (target S V) f|}) atTop (𝓝 0) := by
  have hπ := normalised_prob h0 hT
  have mT : Measurable (Function.uncurry fun x z : Fin d → ℝ => rwProp (Real.sqrt step) (x, z)) := measurable_rwProp (d := d) (Real.sqrt step)
  have ma : Measurable (Function.uncurry fun x z : Fin d → ℝ => accOn S V x (rwProp (Real.sqrt step) (x, z))) := (measurable_accOn hS hV).comp (measurable_fst.prodMk mT)
  have hmain := metropolis_average (rwDraws_draws hq) mT ma (fun _ _ => accOn_nonneg _ _ _ _) (fun _ _ => accOn_le_one _ _ _ _)
    (fun g hg => normalised_invariant (F := fun g x => ∫⁻ w, g (rwMove S V step x w) ∂((stdNormal d).prod unif)) (rwMove_invariant hS hV step g hg))
    (fun x => (rw_ac hS hV hT hstep x).1) (fun x => (rw_ac hS hV hT hstep x).2) hf (hfi.smul_measure (ENNReal.inv_ne_top.mpr h0)) x0 hε key
  rw [integral_normalised] at hmain
  refine hmain.congr' ?_
  filter_upwards [eventually_ge_atTop 1] with n hn
  congr 1
  ext ω
  simp only [Set.mem_ofPred_eq]
  rw [C12_mcmc _ _ (keepsIter_randomWalk _ _ _) (corrKeepsIter_metropolis _ _), List.map_map]
  have hlen : ((n : ℤ) - 1 - ((0 : ℕ) : ℤ)).toNat + 1 = n := by omega
  simp only [hlen]
  rw [rowMean_range]
  simp only [Function.comp]
  have := fun j => rw_values (q := q) S V step t ω j x0 key al 0
  unfold rwUpdate at this
  simp only [this]
  rfl

/-! ## C111 -/

section
variable (prior lik : (Fin d → ℝ) → ℝ × (Fin d → ℝ)) (T : ℝ)

theorem ud_values {q : ℝ → ℝ} (L : ℕ) (p : UDParams) (hp : p.friction = none) (t : ℝ) (ω : Tape) (n : ℕ) : ∀ z k (al : Fl) (i : ℕ),
    (bodyIter (udUpdate prior lik T L Keys.split Keys.splitN (normalAt q d ω) fun k => ω (k, 0)) n (udState prior lik T z al t, ⟨k, i, p⟩)).1.payload.value
      = tapeIter (udDrawsAt q d) Keys.udNext (udMove prior lik T L p) n k z.1 ω := by
  induction n with
  | zero => intro z k al i; rfl
  | succ n ih =>
    intro z k al i
    obtain ⟨al', h⟩ := udUpdate_eq prior lik T L Keys.split Keys.splitN (normalAt q d ω) (fun k => ω (k, 0)) (fun k => by simp [Keys.splitN]) z al t k i p
    have : bodyIter (udUpdate prior lik T L Keys.split Keys.splitN (normalAt q d ω) fun k => ω (k, 0)) (n + 1) (udState prior lik T z al t, ⟨k, i, p⟩)
      = bodyIter (udUpdate prior lik T L Keys.split Keys.splitN (normalAt q d ω) fun k => ω (k, 0)) n
        (udUpdate prior lik T L Keys.split Keys.splitN (normalAt q d ω) (fun k => ω (k, 0)) (udState prior lik T z al t) ⟨k, i, p⟩) := by
      simp [bodyIter, Function.iterate_succ_apply]
    rw [this, h, ih, udStep_fst prior lik T L p hp]; rfl

theorem ud_rows {q : ℝ → ℝ} (L : ℕ) (p : UDParams) (hp : p.friction = none) (f : (Fin d → ℝ) → ℝ) (t : ℝ) (ω : Tape) {n : ℕ} (hn : 1 ≤ n) (z) (key : Keys.Key) (al : Fl) :
    rowMean f ((runFrom (underdamped Keys.split Keys.splitN (normalAt q d ω) (fun x _ => prior x) (fun x _ => lik x) T L) (metropolis Keys.split fun k => ω (k, 0)) n
        (udState prior lik T z al t) ⟨key, 0, p⟩).map fun s => s.payload.value)
      = pathSum (udDrawsAt q d) Keys.udNext (udMove prior lik T L p) f n key z.1 ω / n := by
  rw [C12_mcmc _ _ (keepsIter_underdamped _ _ _ _ _ _ _) (corrKeepsIter_metropolis _ _), List.map_map]
  have hlen : ((n : ℤ) - 1 - ((0 : ℕ) : ℤ)).toNat + 1 = n := by omega
  simp only [hlen]
  rw [rowMean_range]
  simp only [Function.comp]
  have := fun j => ud_values (q := q) prior lik T L p hp t ω j z key al 0
  unfold udUpdate at this
  simp only [this]
  rfl

/-- The proposal of one leapfrog step from fresh momenta. -/
noncomputable def lfProp (step : ℝ) (x ξ : Fin d → ℝ) : Fin d → ℝ := (hmcMap step (gradField prior lik T) 1 (x, ξ)).1

/-- Its acceptance probability. -/
noncomputable def lfAcc (step : ℝ) (x ξ : Fin d → ℝ) : ℝ := min 1 (Real.exp (-energy prior lik T (hmcMap step (gradField prior lik T) 1 (x, ξ)) + energy prior lik T (x, ξ)))

theorem udMove_metro (step : ℝ) : udMove prior lik T 1 ⟨step, none⟩ = metro (lfProp prior lik T step) (lfAcc prior lik T step) := by
  have e : ∀ ξ : Fin d → ℝ, refreshMomenta ⟨step, none⟩ 0 ξ = ξ := fun ξ => by funext i; simp [refreshMomenta, decay]
  funext x w
  simp only [udMove, udStep, metro, lfProp, lfAcc, e]
  rw [apply_ite Prod.fst]
  exact if_congr Iff.rfl rfl rfl

section
variable {prior lik T}

theorem measurable_lfProp (hg : Measurable (gradField prior lik T)) (step : ℝ) : Measurable (Function.uncurry (lfProp prior lik T step)) :=
  measurable_fst.comp (measurePreserving_hmcMap step (gradField prior lik T) hg 1).measurable

theorem measurable_lfAcc (hg : Measurable (gradField prior lik T)) (hU : Measurable (potAt prior lik T)) (step : ℝ) : Measurable (Function.uncurry (lfAcc prior lik T step)) := by
  have mE := measurable_energy prior lik T hU
  have mM := (measurePreserving_hmcMap step (gradField prior lik T) hg 1).measurable
  exact measurable_const.min (Real.measurable_exp.comp ((mE.comp mM).neg.add mE))

theorem lfAcc_nonneg (step : ℝ) (x ξ : Fin d → ℝ) : 0 ≤ lfAcc prior lik T step x ξ := le_min zero_le_one (Real.exp_pos _).le
theorem lfAcc_le_one (step : ℝ) (x ξ : Fin d → ℝ) : lfAcc prior lik T step x ξ ≤ 1 := min_le_left _ _

theorem posTarget_null (hU : Measurable (potAt prior lik T)) (A : Set (Fin d → ℝ)) : posTarget prior lik T A = 0 ↔ volume A = 0 := by
  have hm : Measurable fun x => ENNReal.ofReal (Real.exp (-potAt prior lik T x)) := ENNReal.measurable_ofReal.comp (Real.measurable_exp.comp hU.neg)
  rw [posTarget, withDensity_apply_eq_zero hm]
  simp [Real.exp_pos]

theorem posTarget_pos (hU : Measurable (potAt prior lik T)) : posTarget prior lik T Set.univ ≠ 0 := fun h =>
  isOpen_univ.measure_ne_zero volume Set.univ_nonempty ((posTarget_null hU _).mp h)

/-- The accepted moves of one leapfrog step and the posterior have the same null sets. -/
theorem ud_ac (hg : Measurable (gradField prior lik T)) (hU : Measurable (potAt prior lik T)) (hT : posTarget prior lik T Set.univ ≠ ∞) {step : ℝ} (hstep : 0 < step) (x : Fin d → ℝ) :
    accepted (stdNormal d) (lfProp prior lik T step) (lfAcc prior lik T step) x ≪ normalised (posTarget prior lik T)
    ∧ normalised (posTarget prior lik T) ≪ accepted (stdNormal d) (lfProp prior lik T step) (lfAcc prior lik T step) x := by
  refine normalised_ac hT fun A hA => ?_
  refine (accepted_null (S := Set.univ) (c := fun x i => x i - step * (step / 2 * gradField prior lik T x i)) hstep.ne' (fun x z => ?_) (measurable_lfAcc hg hU step) (fun x z => ?_) x hA).trans ?_
  · funext i
    simp only [lfProp, hmcMap, lfMap, Mcmc.flip, Function.iterate_one]
    ring
  · simp [lfAcc, Real.exp_pos]
  · rw [posTarget_null hU, Set.univ_inter]

end

/-- C111, the default of `Underdamped` (infinite friction, one leapfrog step): any finite measurable potential with a measurable gradient field (which need not be its gradient), a posterior
of finite mass, any positive stepsize, any starting position and momenta, any integrable quantity: the mean over the rows of a run tends in probability to the posterior mean. -/
theorem C111_one_step_partial {q : ℝ → ℝ} (hq : IsNormalDraw q) (hg : Measurable (gradField prior lik T)) (hU : Measurable (potAt prior lik T))
    (hT : posTarget prior lik T Set.univ ≠ ∞) {step : ℝ} (hstep : 0 < step) (z0 : (Fin d → ℝ) × (Fin d → ℝ)) (al : Fl) (t : ℝ) (key : Keys.Key)
    {f : (Fin d → ℝ) → ℝ} (hf : Measurable f) (hfi : Integrable f (posTarget prior lik T)) {ε : ℝ} (hε : 0 < ε) :
    Tendsto (fun n : ℕ => ideal {ω | ε ≤ |rowMean f ((runFrom (underdamped Keys.split Keys.splitN (normalAt q d ω) (fun x _ => prior x) (fun x _ => lik x) T 1)
        (metropolis Keys.split fun k => ω (k, 0)) n (udState prior lik T z0 al t) ⟨key, 0, ⟨step, none⟩⟩).map fun s => s.payload.value)
        - meanUnder (posTarget prior lik T) f|}) atTop (𝓝 0) := by
  have h0 := posTarget_pos (prior := prior) (lik := lik) hU
  have hπ := normalised_prob h0 hT
  have hmv := udMove_metro prior lik T step
  have hmain := metropolis_average (udDrawsAt_draws hq) (measurable_lfProp hg step) (measurable_lfAcc hg hU step) (lfAcc_nonneg step) (lfAcc_le_one step)
    (fun g hg' => normalised_invariant (F := fun g x => ∫⁻ w, g (metro (lfProp prior lik T step) (lfAcc prior lik T step) x w) ∂((stdNormal d).prod unif)) (by
      rw [← hmv]; exact udMove_invariant hg hU 1 ⟨step, none⟩ rfl hstep g hg'))
    (fun x => (ud_ac hg hU hT hstep x).1) (fun x => (ud_ac hg hU hT hstep x).2) hf (hfi.smul_measure (ENNReal.inv_ne_top.mpr h0)) z0.1 hε key
  rw [integral_normalised] at hmain
  refine hmain.congr' ?_
  filter_upwards [eventually_ge_atTop 1] with n hn
  congr 1
  ext ω
  simp only [Set.mem_ofPred_eq]
  rw [ud_rows prior lik T 1 _ rfl f t ω hn, hmv]

end

/-- Two leapfrog steps of stepsize `√2` on a standard normal posterior keep the squared position. -/
theorem two_steps_square {q : ℝ → ℝ} (j : ℕ) (k : Keys.Key) (x : Fin 1 → ℝ) (ω : Tape) :
    tapeIter (udDrawsAt q 1) Keys.udNext (udMove (fun x : Fin 1 → ℝ => (x 0 ^ 2 / 2, x)) (fun _ => (0, 0)) 1 2 ⟨Real.sqrt 2, none⟩) j k x ω 0 ^ 2 = x 0 ^ 2 := by
  have hs : Real.sqrt 2 * Real.sqrt 2 = 2 := Real.mul_self_sqrt (by norm_num)
  have hone : ∀ (x : Fin 1 → ℝ) w, udMove (fun x : Fin 1 → ℝ => (x 0 ^ 2 / 2, x)) (fun _ => (0, 0)) 1 2 ⟨Real.sqrt 2, none⟩ x w 0 ^ 2 = x 0 ^ 2 := by
    intro x w
    unfold udMove udStep
    simp only
    split_ifs
    · have : (hmcMap (Real.sqrt 2) (gradField (fun x : Fin 1 → ℝ => (x 0 ^ 2 / 2, x)) (fun _ => (0, 0)) 1) 2 (x, refreshMomenta ⟨Real.sqrt 2, none⟩ 0 w.1)).1 0 = -x 0 := by
        simp only [hmcMap, lfMap, Mcmc.flip, Function.iterate_succ, Function.iterate_zero, Function.comp, gradField, id]
        simp
        linear_combination (-x 0 + x 0 * Real.sqrt 2 ^ 2 / 2 - Real.sqrt 2 * refreshMomenta ⟨Real.sqrt 2, none⟩ 0 w.1 0) * hs
      rw [this]; ring
    · rfl
  induction j generalizing k x with
  | zero => rfl
  | succ j ih => simp only [tapeIter]; rw [ih, hone]

/-- C111 fails with two leapfrog steps: a standard normal posterior, stepsize `√2`, infinite friction. Every proposal is minus the position, so the mean of the squared position over a run
is the square of the start, whatever the random numbers. -/
theorem C111_fails_two_steps {q : ℝ → ℝ} (x0 p0 : ℝ) (al : Fl) (t : ℝ) (key : Keys.Key) (ω : Tape) {n : ℕ} (hn : 1 ≤ n) :
    rowMean (fun x => x 0 ^ 2) ((runFrom (underdamped Keys.split Keys.splitN (normalAt q 1 ω) (fun x _ => (x 0 ^ 2 / 2, x)) (fun _ _ => (0, 0)) 1 2)
        (metropolis Keys.split fun k => ω (k, 0)) n (udState (fun x => (x 0 ^ 2 / 2, x)) (fun _ => (0, 0)) 1 (fun _ => x0, fun _ => p0) al t) ⟨key, 0, ⟨Real.sqrt 2, none⟩⟩).map
          fun s => s.payload.value) = x0 ^ 2 := by
  rw [ud_rows (fun x : Fin 1 → ℝ => (x 0 ^ 2 / 2, x)) (fun _ => (0, 0)) 1 2 ⟨Real.sqrt 2, none⟩ rfl (fun x => x 0 ^ 2) t ω hn]
  have hall := fun j k x => two_steps_square (q := q) j k x ω
  simp only [pathSum, hall]
  have : (n : ℝ) ≠ 0 := by positivity
  simp [this]

/-- Hence no number is the limit from every start. -/
theorem C111_fails {q : ℝ → ℝ} (m : ℝ) : ¬ ∀ x0 : ℝ, Tendsto (fun n : ℕ => ideal {ω | 1 ≤ |rowMean (fun x => x 0 ^ 2)
    ((runFrom (underdamped Keys.split Keys.splitN (normalAt q 1 ω) (fun x _ => (x 0 ^ 2 / 2, x)) (fun _ _ => (0, 0)) 1 2)
        (metropolis Keys.split fun k => ω (k, 0)) n (udState (fun x => (x 0 ^ 2 / 2, x)) (fun _ => (0, 0)) 1 (fun _ => x0, fun _ => 0) (Fl.fin 1) 0) ⟨[], 0, ⟨Real.sqrt 2, none⟩⟩).map
          fun s => s.payload.value) - m|}) atTop (𝓝 0) := by
  intro h
  have key : ∀ x0 : ℝ, |x0 ^ 2 - m| < 1 := by
    intro x0
    by_contra hc
    rw [not_lt] at hc
    have h1 := h x0
    have h2 : Tendsto (fun _ : ℕ => (1 : ℝ≥0∞)) atTop (𝓝 0) := by
      refine h1.congr' ?_
      filter_upwards [eventually_ge_atTop 1] with n hn
      simp only [C111_fails_two_steps x0 0 (Fl.fin 1) 0 [] _ hn, hc, Set.ofPred_true, measure_univ]
    exact one_ne_zero (tendsto_nhds_unique tendsto_const_nhds h2)
  have h1 := abs_lt.mp (key 0)
  have h2 := abs_lt.mp (key 2)
  linarith [h1.1, h1.2, h2.1, h2.2]

/-! ## Cases -/

theorem stdTarget : volume.withDensity (fun x : Fin 1 → ℝ => ENNReal.ofReal (Real.exp (-(x 0 ^ 2 / 2)))) = ENNReal.ofReal (Real.sqrt (2 * Real.pi)) • stdNormal 1 := by
  rw [stdNormal_eq_withDensity, ← withDensity_smul _ (by
    refine ENNReal.measurable_ofReal.comp (Finset.measurable_prod _ fun i _ => (measurable_gaussianPDFReal 0 1).comp (measurable_pi_apply i)))]
  congr 1
  funext x
  have h : 0 < Real.sqrt (2 * Real.pi) := Real.sqrt_pos.mpr (by positivity)
  rw [Pi.smul_apply, smul_eq_mul, ← ENNReal.ofReal_mul h.le]
  congr 1
  simp only [Fin.prod_univ_one, gaussianPDFReal, NNReal.coe_one, mul_one, sub_zero]
  rw [← mul_assoc, mul_inv_cancel₀ h.ne', one_mul]
  congr 1; ring

theorem stdTarget_finite : ENNReal.ofReal (Real.sqrt (2 * Real.pi)) • stdNormal 1 Set.univ ≠ ∞ := by
  rw [measure_univ, smul_eq_mul, mul_one]; exact ENNReal.ofReal_ne_top

theorem stdTarget_integrable : Integrable (fun x : Fin 1 → ℝ => x 0 ^ 2) (ENNReal.ofReal (Real.sqrt (2 * Real.pi)) • stdNormal 1) := by
  refine Integrable.smul_measure ?_ ENNReal.ofReal_ne_top
  have h : Integrable (fun x : ℝ => x ^ 2) (gaussianReal 0 1) := (memLp_id_gaussianReal 2).integrable_sq
  exact integrable_comp_eval (μ := fun _ : Fin 1 => gaussianReal 0 1) (i := 0) h

/-- A standard normal posterior, the mean square, from any start: stepsize 3. `Underdamped` converges with one leapfrog step, and `C111_fails_two_steps` shows that two would not do. -/
example (x0 : Fin 1 → ℝ) (key : Keys.Key) : ∃ q, IsNormalDraw q ∧
    Tendsto (fun n : ℕ => ideal {ω | 0.1 ≤ |rowMean (fun x : Fin 1 → ℝ => x 0 ^ 2) ((runFrom (randomWalk Keys.split3 (normalAt q 1 ω) fun x _ => potOn Set.univ (fun x : Fin 1 → ℝ => x 0 ^ 2 / 2) x)
        (metropolis Keys.split fun k => ω (k, 0)) n (rwState Set.univ (fun x => x 0 ^ 2 / 2) x0 (Fl.fin 1) 0) ⟨key, 0, 3⟩).map fun s => s.payload.value)
        - meanUnder (target Set.univ fun x : Fin 1 → ℝ => x 0 ^ 2 / 2) fun x => x 0 ^ 2|}) atTop (𝓝 0) ∧
    Tendsto (fun n : ℕ => ideal {ω | 0.1 ≤ |rowMean (fun x => x 0 ^ 2)
      ((runFrom (underdamped Keys.split Keys.splitN (normalAt q 1 ω) (fun x _ => (x 0 ^ 2 / 2, x)) (fun _ _ => (0, 0)) 1 1)
        (metropolis Keys.split fun k => ω (k, 0)) n (udState (fun x => (x 0 ^ 2 / 2, x)) (fun _ => (0, 0)) 1 (x0, 0) (Fl.fin 1) 0) ⟨key, 0, ⟨Real.sqrt 2, none⟩⟩).map
          fun s => s.payload.value) - meanUnder (posTarget (fun x : Fin 1 → ℝ => (x 0 ^ 2 / 2, x)) (fun _ => (0, 0)) 1) fun x => x 0 ^ 2|}) atTop (𝓝 0) := by
  obtain ⟨q, hq⟩ := exists_isNormalDraw
  have e1 : target Set.univ (fun x : Fin 1 → ℝ => x 0 ^ 2 / 2) = ENNReal.ofReal (Real.sqrt (2 * Real.pi)) • stdNormal 1 := by
    rw [← stdTarget, target, Set.indicator_univ]
  have e2 : posTarget (fun x : Fin 1 → ℝ => (x 0 ^ 2 / 2, x)) (fun _ => (0, 0)) 1 = ENNReal.ofReal (Real.sqrt (2 * Real.pi)) • stdNormal 1 := by
    rw [← stdTarget, posTarget]; simp [potAt]
  have hfin : (ENNReal.ofReal (Real.sqrt (2 * Real.pi)) • stdNormal 1) Set.univ ≠ ∞ := stdTarget_finite
  have hpos : (ENNReal.ofReal (Real.sqrt (2 * Real.pi)) • stdNormal 1) Set.univ ≠ 0 := by
    rw [Measure.smul_apply, measure_univ, smul_eq_mul, mul_one]
    exact (ENNReal.ofReal_pos.mpr (Real.sqrt_pos.mpr (by positivity))).ne'
  refine ⟨q, hq, C110_randomWalk hq .univ (by fun_prop) (by rw [e1]; exact hpos) (by rw [e1]; exact hfin) (by norm_num) x0 _ _ key (by fun_prop) (by rw [e1]; exact stdTarget_integrable)
    (by norm_num), C111_one_step_partial _ _ _ hq ?_ ?_ (by rw [e2]; exact hfin) (Real.sqrt_pos.mpr (by norm_num)) (x0, 0) _ _ key (by fun_prop)
    (by rw [e2]; exact stdTarget_integrable) (by norm_num)⟩
  · unfold gradField; fun_prop
  · unfold potAt; fun_prop

end Mocat.Props
