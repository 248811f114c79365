import Verif.Lemmas.Reversible
import Verif.Props.AbcErgodic
/-!
# C113, C114, C115: the rows of a run converge in distribution to the posterior, from every start

`C110` to `C112` are about averages over a run. Here the distribution of a single late row is compared with the posterior, uniformly over all events.
-/
namespace Mocat.Props
open Mocat Mocat.Mcmc Mocat.Abc Mocat.Ideal Mocat.Meas Mocat.Ergodic MeasureTheory ProbabilityTheory Filter
open scoped ENNReal Topology

variable {d : ℕ}

/-! ## Specification -/

/-- The probability of `A` under an unnormalised measure of finite mass. -/
noncomputable def probUnder {α : Type*} [MeasurableSpace α] (μ : Measure α) (A : Set α) : ℝ := (μ A).toReal / (μ Set.univ).toReal

/-- The probability, over the random numbers, that row `j` (counted from 0) of the run exists and is in `A`. -/
noncomputable def rowProb {α : Type*} (rows : Tape → List α) (j : ℕ) (A : Set α) : ℝ := (ideal {ω | ∃ v ∈ A, (rows ω)[j]? = some v}).toReal

/-! ## Lemmas -/

theorem normalised_apply {α : Type*} [MeasurableSpace α] (μ : Measure α) (A : Set α) : (normalised μ A).toReal = probUnder μ A := by
  rw [normalised, Measure.smul_apply, smul_eq_mul, ENNReal.toReal_mul, ENNReal.toReal_inv, probUnder, div_eq_inv_mul]

theorem rowProb_range {α : Type*} (v : ℕ → Tape → α) {n j : ℕ} (hj : j < n) (A : Set α) : rowProb (fun ω => (List.range n).map fun i => v i ω) j A = (ideal {ω | v j ω ∈ A}).toReal := by
  unfold rowProb
  congr 2
  ext ω
  simp [hj]

theorem rw_reversible {S : Set (Fin d → ℝ)} (hS : MeasurableSet S) {V : (Fin d → ℝ) → ℝ} (hV : Measurable V) (step : ℝ) :
    Reversible ((stdNormal d).prod unif) (rwMove S V step) (target S V) := by
  have hd := measurable_densOn hS hV
  have mT : Measurable (Function.uncurry fun x z : Fin d → ℝ => rwProp (Real.sqrt step) (x, z)) := measurable_rwProp (d := d) (Real.sqrt step)
  have ma : Measurable (Function.uncurry fun x z : Fin d → ℝ => accOn S V x (rwProp (Real.sqrt step) (x, z))) := (measurable_accOn hS hV).comp (measurable_fst.prodMk mT)
  refine metro_reversible (T := fun x z => rwProp (Real.sqrt step) (x, z)) (a := fun x z => accOn S V x (rwProp (Real.sqrt step) (x, z))) mT ma (fun _ _ => accOn_nonneg _ _ _ _)
    (fun _ _ => accOn_le_one _ _ _ _) fun f g hf hg => ?_
  set s : Fin d → ℝ := fun _ => Real.sqrt step with hs
  have expand : ∀ f g : (Fin d → ℝ) → ℝ≥0∞, Measurable f → Measurable g →
      ∫⁻ x, f x * ∫⁻ z, ENNReal.ofReal (accOn S V x (rwProp (Real.sqrt step) (x, z))) * g (rwProp (Real.sqrt step) (x, z)) ∂(stdNormal d) ∂(target S V)
        = ∫⁻ x, ∫⁻ z, min (densOn S V x) (densOn S V (walk s (x, z))) * (f x * g (walk s (x, z))) ∂(stdNormal d) := by
    intro f g hf hg
    have mi : Measurable fun p : (Fin d → ℝ) × (Fin d → ℝ) => ENNReal.ofReal (accOn S V p.1 (rwProp (Real.sqrt step) p)) * g (rwProp (Real.sqrt step) p) :=
      (ENNReal.measurable_ofReal.comp ma).mul (hg.comp mT)
    have mo : Measurable fun x => f x * ∫⁻ z, ENNReal.ofReal (accOn S V x (rwProp (Real.sqrt step) (x, z))) * g (rwProp (Real.sqrt step) (x, z)) ∂(stdNormal d) :=
      hf.mul (Measurable.lintegral_prod_right' mi)
    change ∫⁻ x, _ ∂(volume.withDensity (densOn S V)) = _
    rw [lintegral_withDensity_eq_lintegral_mul _ hd mo]
    refine lintegral_congr fun x => ?_
    have mx : Measurable fun z => ENNReal.ofReal (accOn S V x (rwProp (Real.sqrt step) (x, z))) * g (rwProp (Real.sqrt step) (x, z)) := mi.comp measurable_prodMk_left
    simp only [Pi.mul_apply]
    rw [← lintegral_const_mul _ mx, ← lintegral_const_mul _ (mx.const_mul _)]
    refine lintegral_congr fun z => ?_
    change densOn S V x * (f x * (_ * _)) = min (densOn S V x) (densOn S V (rwProp (Real.sqrt step) (x, z))) * (f x * g (rwProp (Real.sqrt step) (x, z)))
    rw [← dens_mul_acc]
    ring
  rw [expand f g hf hg, expand g f hg hf]
  have := walk_symm s (fun z => min (densOn S V z.1) (densOn S V z.2) * (f z.1 * g z.2))
    (((hd.comp measurable_fst).min (hd.comp measurable_snd)).mul ((hf.comp measurable_fst).mul (hg.comp measurable_snd)))
  refine this.trans (lintegral_congr fun x => lintegral_congr fun z => ?_)
  simp only
  rw [min_comm, mul_comm (f _)]

attribute [local irreducible] lfProp lfAcc in
theorem ud_reversible {prior lik : (Fin d → ℝ) → ℝ × (Fin d → ℝ)} {T : ℝ} (hg : Measurable (gradField prior lik T)) (hU : Measurable (potAt prior lik T)) (step : ℝ) :
    Reversible ((stdNormal d).prod unif) (udMove prior lik T 1 ⟨step, none⟩) (posTarget prior lik T) := by
  rw [udMove_metro]
  have mP := measurable_lfProp hg step
  have ma := measurable_lfAcc hg hU step
  refine metro_reversible mP ma (lfAcc_nonneg step) (lfAcc_le_one step) fun f g hf hgm => ?_
  have mE := measurable_energy prior lik T hU
  have hM := measurePreserving_hmcMap step (gradField prior lik T) hg 1
  set F := hmcMap step (gradField prior lik T) 1 with hF
  set w : (Fin d → ℝ) × (Fin d → ℝ) → ℝ≥0∞ := fun z => ENNReal.ofReal (Real.exp (-energy prior lik T z)) with hw
  have mw : Measurable w := ENNReal.measurable_ofReal.comp (Real.measurable_exp.comp mE.neg)
  have expand : ∀ f g : (Fin d → ℝ) → ℝ≥0∞, Measurable f → Measurable g →
      ∫⁻ x, f x * ∫⁻ ξ, ENNReal.ofReal (lfAcc prior lik T step x ξ) * g (lfProp prior lik T step x ξ) ∂(stdNormal d) ∂(posTarget prior lik T)
        = ∫⁻ z, min (w z) (w (F z)) * (f z.1 * g (F z).1) := by
    intro f g hf hg
    have mi : Measurable fun z : (Fin d → ℝ) × (Fin d → ℝ) => ENNReal.ofReal (lfAcc prior lik T step z.1 z.2) * g (lfProp prior lik T step z.1 z.2) :=
      (ENNReal.measurable_ofReal.comp ma).mul (hg.comp mP)
    have mo : Measurable fun z : (Fin d → ℝ) × (Fin d → ℝ) => f z.1 * (ENNReal.ofReal (lfAcc prior lik T step z.1 z.2) * g (lfProp prior lik T step z.1 z.2)) := (hf.comp measurable_fst).mul mi
    have e1 : ∫⁻ x, f x * ∫⁻ ξ, ENNReal.ofReal (lfAcc prior lik T step x ξ) * g (lfProp prior lik T step x ξ) ∂(stdNormal d) ∂(posTarget prior lik T)
        = ∫⁻ z, f z.1 * (ENNReal.ofReal (lfAcc prior lik T step z.1 z.2) * g (lfProp prior lik T step z.1 z.2)) ∂(udTarget prior lik T) := by
      rw [udTarget, lintegral_prod _ mo.aemeasurable]
      refine lintegral_congr fun x => ?_
      have mx : Measurable fun ξ => ENNReal.ofReal (lfAcc prior lik T step x ξ) * g (lfProp prior lik T step x ξ) := mi.comp measurable_prodMk_left
      exact (lintegral_const_mul _ mx).symm
    rw [e1, udTarget_eq prior lik T hU, lintegral_withDensity_eq_lintegral_mul _ mw mo]
    refine lintegral_congr fun z => ?_
    have hflow : w z * ENNReal.ofReal (lfAcc prior lik T step z.1 z.2) = min (w z) (w (F z)) := by
      simp only [hw, lfAcc]
      rw [← ENNReal.ofReal_mul (Real.exp_pos _).le, ← ENNReal.ofReal_min, mul_min_of_nonneg _ _ (Real.exp_pos _).le, mul_one, ← Real.exp_add]
      congr 3
      ring
    simp only [Pi.mul_apply]
    rw [← hflow]
    have hP : (F z).1 = lfProp prior lik T step z.1 z.2 := by rw [lfProp]
    rw [hP]
    ring
  rw [expand f g hf hgm, expand g f hgm hf]
  have m2 : Measurable fun z => min (w z) (w (F z)) * (g z.1 * f (F z).1) :=
    (mw.min (mw.comp hM.measurable)).mul ((hgm.comp measurable_fst).mul (hf.comp (measurable_fst.comp hM.measurable)))
  rw [← hM.lintegral_comp m2]
  refine lintegral_congr fun z => ?_
  rw [hF, hmcMap_invol, min_comm, mul_comm (f _)]

theorem abc_reversible {D : Type*} [MeasurableSpace D] {S : Set (Fin d → ℝ)} {V : (Fin d → ℝ) → ℝ} {sim : (Fin d → ℝ) → Tape → D} {B : Set D}
    (hS : MeasurableSet S) (hV : Measurable V) (hB : MeasurableSet B) (hsim : Measurable fun z : (Fin d → ℝ) × Tape => sim z.1 z.2) (s : Fin d → ℝ) :
    Reversible (((stdNormal d).prod ideal).prod unif) (abcMove S V sim B s) (abcTarget S V sim B) := by
  have mT : Measurable (Function.uncurry fun z w => abcProp sim s (z, w)) := measurable_abcProp (D := D) hsim s
  have ma : Measurable (Function.uncurry fun z w => abcAcc S V B z.1 (abcProp sim s (z, w))) :=
    (measurable_abcAcc hS hV hB).comp ((measurable_fst.comp measurable_fst).prodMk (measurable_abcProp hsim s))
  have ha : ∀ (z : (Fin d → ℝ) × D) w, 0 ≤ abcAcc S V B z.1 (abcProp sim s (z, w)) ∧ abcAcc S V B z.1 (abcProp sim s (z, w)) ≤ 1 := by
    intro z w
    simp only [abcAcc]
    split_ifs
    · exact ⟨accOn_nonneg _ _ _ _, accOn_le_one _ _ _ _⟩
    · exact ⟨le_rfl, zero_le_one⟩
  refine metro_reversible (T := fun z w => abcProp sim s (z, w)) (a := fun z w => abcAcc S V B z.1 (abcProp sim s (z, w))) mT ma (fun z w => (ha z w).1) (fun z w => (ha z w).2) fun f g hf hg => ?_
  have hpair : Measurable fun z : (Fin d → ℝ) × Tape => (z.1, sim z.1 z.2) := measurable_fst.prodMk hsim
  have hd := measurable_densOn hS hV
  have hBm : Measurable fun z : (Fin d → ℝ) × D => B.indicator (1 : D → ℝ≥0∞) z.2 := (measurable_one.indicator hB).comp measurable_snd
  have hw : Measurable fun z : (Fin d → ℝ) × D => densOn S V z.1 * B.indicator (1 : D → ℝ≥0∞) z.2 := (hd.comp measurable_fst).mul hBm
  have hint := lintegral_abcBase (d := d) (D := D) hsim
  have hsimi : ∀ g : (Fin d → ℝ) × D → ℝ≥0∞, Measurable g → Measurable fun x => ∫⁻ τ, g (x, sim x τ) ∂ideal := fun g hg =>
    Measurable.lintegral_prod_right' (f := fun z : (Fin d → ℝ) × Tape => g (z.1, sim z.1 z.2)) (hg.comp hpair)
  set b : ((Fin d → ℝ) × D → ℝ≥0∞) → (Fin d → ℝ) × D → ℝ≥0∞ := fun f z => B.indicator (1 : D → ℝ≥0∞) z.2 * f z with hb
  have mb : ∀ {f : (Fin d → ℝ) × D → ℝ≥0∞}, Measurable f → Measurable (b f) := fun hf => hBm.mul hf
  have expand : ∀ f g : (Fin d → ℝ) × D → ℝ≥0∞, Measurable f → Measurable g →
      ∫⁻ z, f z * ∫⁻ w, ENNReal.ofReal (abcAcc S V B z.1 (abcProp sim s (z, w))) * g (abcProp sim s (z, w)) ∂((stdNormal d).prod ideal) ∂(abcTarget S V sim B)
        = ∫⁻ x, ∫⁻ ξ, min (densOn S V x) (densOn S V (walk s (x, ξ))) * ((∫⁻ τ, b f (x, sim x τ) ∂ideal) * ∫⁻ τ, b g (walk s (x, ξ), sim (walk s (x, ξ)) τ) ∂ideal) ∂(stdNormal d) := by
    intro f g hf hg
    have mi : Measurable fun p : ((Fin d → ℝ) × D) × ((Fin d → ℝ) × Tape) => ENNReal.ofReal (abcAcc S V B p.1.1 (abcProp sim s p)) * g (abcProp sim s p) :=
      (ENNReal.measurable_ofReal.comp ma).mul (hg.comp mT)
    have mo : Measurable fun z => f z * ∫⁻ w, ENNReal.ofReal (abcAcc S V B z.1 (abcProp sim s (z, w))) * g (abcProp sim s (z, w)) ∂((stdNormal d).prod ideal) :=
      hf.mul (Measurable.lintegral_prod_right' mi)
    rw [abcTarget_eq hS hV hB hsim mo, lintegral_withDensity_eq_lintegral_mul _ hw mo, ← abc_flow hint hS hV hsim s (mb hf) (mb hg)]
    refine lintegral_congr fun z => ?_
    have mx : Measurable fun w => ENNReal.ofReal (abcAcc S V B z.1 (abcProp sim s (z, w))) * g (abcProp sim s (z, w)) := mi.comp measurable_prodMk_left
    simp only [Pi.mul_apply]
    rw [← lintegral_const_mul _ mx, ← lintegral_const_mul _ (mx.const_mul _)]
    refine lintegral_congr fun w => ?_
    rw [← dens_mul_acc]
    by_cases h : (abcProp sim s (z, w)).2 ∈ B
    · simp [hb, abcAcc, h]; ring
    · simp [hb, abcAcc, h]
  rw [expand f g hf hg, expand g f hg hf]
  have := walk_symm s (fun z => min (densOn S V z.1) (densOn S V z.2) * ((∫⁻ τ, b f (z.1, sim z.1 τ) ∂ideal) * ∫⁻ τ, b g (z.2, sim z.2 τ) ∂ideal))
    (((hd.comp measurable_fst).min (hd.comp measurable_snd)).mul (((hsimi _ (mb hf)).comp measurable_fst).mul ((hsimi _ (mb hg)).comp measurable_snd)))
  refine this.trans (lintegral_congr fun x => lintegral_congr fun z => ?_)
  simp only
  rw [min_comm, mul_comm (∫⁻ τ, b f (walk s (x, z), _) ∂ideal)]

/-! ## Rows of a run -/

theorem rw_run {q : ℝ → ℝ} (S : Set (Fin d → ℝ)) (V : (Fin d → ℝ) → ℝ) (step : ℝ) (x0 : Fin d → ℝ) (al : Fl) (t : ℝ) (key : Keys.Key) {n : ℕ} (hn : 0 < n) (ω : Tape) :
    (runFrom (randomWalk Keys.split3 (normalAt q d ω) fun x _ => potOn S V x) (metropolis Keys.split fun k => ω (k, 0)) n
        (rwState S V x0 al t) ⟨key, 0, step⟩).map (fun s => s.payload.value) = (List.range n).map fun i => tapeIter (rwDraws q d) Keys.rwNext (rwMove S V step) i key x0 ω := by
  rw [C12_mcmc _ _ (keepsIter_randomWalk _ _ _) (corrKeepsIter_metropolis _ _), List.map_map]
  have hlen : ((n : ℤ) - 1 - ((0 : ℕ) : ℤ)).toNat + 1 = n := by omega
  rw [hlen]
  have := fun j => rw_values (q := q) S V step t ω j x0 key al 0
  unfold rwUpdate at this
  simp only [Function.comp_def, this]

theorem ud_run (prior lik : (Fin d → ℝ) → ℝ × (Fin d → ℝ)) (T : ℝ) {q : ℝ → ℝ} (L : ℕ) (step : ℝ) (z0 : (Fin d → ℝ) × (Fin d → ℝ)) (al : Fl) (t : ℝ) (key : Keys.Key) {n : ℕ} (hn : 0 < n) (ω : Tape) :
    (runFrom (underdamped Keys.split Keys.splitN (normalAt q d ω) (fun x _ => prior x) (fun x _ => lik x) T L)
        (metropolis Keys.split fun k => ω (k, 0)) n (udState prior lik T z0 al t) ⟨key, 0, ⟨step, none⟩⟩).map (fun s => s.payload.value)
      = (List.range n).map fun i => tapeIter (udDrawsAt q d) Keys.udNext (udMove prior lik T L ⟨step, none⟩) i key z0.1 ω := by
  rw [C12_mcmc _ _ (keepsIter_underdamped _ _ _ _ _ _ _) (corrKeepsIter_metropolis _ _), List.map_map]
  have hlen : ((n : ℤ) - 1 - ((0 : ℕ) : ℤ)).toNat + 1 = n := by omega
  rw [hlen]
  have := fun j => ud_values (q := q) prior lik T L ⟨step, none⟩ rfl t ω j z0 key al 0
  unfold udUpdate at this
  simp only [Function.comp_def, this]

theorem abc_run {D : Type*} (S : Set (Fin d → ℝ)) (V : (Fin d → ℝ) → ℝ) (pri : Tape → Fin d → ℝ) (sim : (Fin d → ℝ) → Tape → D) (dist : D → Fl) (q : ℝ → ℝ) (p : Params d)
    (z0 : (Fin d → ℝ) × D) (stp : Fin d → ℝ) (al : Fl) (t : ℝ) (key : Keys.Key) {n : ℕ} (hn : 0 < n) (ω : Tape) :
    (runFrom (randomWalkABC Keys.split Keys.split4 (normalAt q d ω) (tapeScenario S V pri sim dist ω)) (metropolis Keys.split fun k => ω (k, 0)) n
        (abcState S V dist z0 stp al t) ⟨key, 0, p⟩).map (fun s => (s.payload.value, s.payload.data))
      = (List.range n).map fun i => tapeIter (abcDraws q d) Keys.abcNext (abcMove S V sim (ball dist p.threshold) fun i => Real.sqrt (p.stepsize i)) i key z0 ω := by
  rw [C12_mcmc _ _ (keepsIter_randomWalkABC _ _ _ _) (corrKeepsIter_metropolis _ _), List.map_map]
  have hlen : ((n : ℤ) - 1 - ((0 : ℕ) : ℤ)).toNat + 1 = n := by omega
  rw [hlen]
  have := fun j => abc_values S V pri sim dist q p stp t ω j z0 key al 0
  unfold abcUpdate at this
  simp only [Function.comp_def, this]

theorem row_two {α : Type*} (v : ℕ → α) (A : Set α) : (∃ x ∈ A, ((List.range 2).map v)[1]? = some x) ↔ v 1 ∈ A := by simp

/-! ## Properties -/

/-- C113: `RandomWalk` with `Metropolis`, any potential that may be infinite, a posterior of finite positive mass, any positive stepsize, any start (even outside the support): for late rows
the probability of every event is within `ε` of its posterior probability. How late depends on the start and on `ε`, not on the event, the key or the length of the run. -/
theorem C113_randomWalk {q : ℝ → ℝ} (hq : IsNormalDraw q) {S : Set (Fin d → ℝ)} (hS : MeasurableSet S) {V : (Fin d → ℝ) → ℝ} (hV : Measurable V)
    (h0 : target S V Set.univ ≠ 0) (hT : target S V Set.univ ≠ ∞) {step : ℝ} (hstep : 0 < step) (x0 : Fin d → ℝ) (al : Fl) (t : ℝ) {ε : ℝ} (hε : 0 < ε) :
    ∃ J : ℕ, ∀ j ≥ J, ∀ n > j, ∀ (key : Keys.Key) (A : Set (Fin d → ℝ)), MeasurableSet A →
      |rowProb (fun ω => (runFrom (randomWalk Keys.split3 (normalAt q d ω) fun x _ => potOn S V x) (metropolis Keys.split fun k => ω (k, 0)) n
        (rwState S V x0 al t) ⟨key, 0, step⟩).map fun s => s.payload.value) j A - probUnder (target S V) A| ≤ ε := by
  have hπ := normalised_prob h0 hT
  have mT : Measurable (Function.uncurry fun x z : Fin d → ℝ => rwProp (Real.sqrt step) (x, z)) := measurable_rwProp (d := d) (Real.sqrt step)
  have ma : Measurable (Function.uncurry fun x z : Fin d → ℝ => accOn S V x (rwProp (Real.sqrt step) (x, z))) := (measurable_accOn hS hV).comp (measurable_fst.prodMk mT)
  obtain ⟨J, hJ⟩ := metropolis_tv (π := normalised (target S V)) (rwDraws_draws hq) mT ma (fun _ _ => accOn_nonneg _ _ _ _) (fun _ _ => accOn_le_one _ _ _ _) ((rw_reversible hS hV step).smul _)
    (fun x => (rw_ac hS hV hT hstep x).1) (fun x => (rw_ac hS hV hT hstep x).2) x0 hε
  refine ⟨J, fun j hj n hn key A hA => ?_⟩
  have h := hJ j hj key A hA
  change |_ - (normalised (target S V) A).toReal| ≤ ε at h
  rw [normalised_apply] at h
  convert h using 3
  rw [funext fun ω => rw_run S V step x0 al t key (by omega : 0 < n) ω, rowProb_range _ hn]
  rfl

/-- C114: the same for the default of `Underdamped` (infinite friction, one leapfrog step), any finite measurable potential with a measurable gradient field, from any position and momenta. -/
theorem C114_one_step_partial (prior lik : (Fin d → ℝ) → ℝ × (Fin d → ℝ)) (T : ℝ) {q : ℝ → ℝ} (hq : IsNormalDraw q) (hg : Measurable (gradField prior lik T))
    (hU : Measurable (potAt prior lik T)) (hT : posTarget prior lik T Set.univ ≠ ∞) {step : ℝ} (hstep : 0 < step) (z0 : (Fin d → ℝ) × (Fin d → ℝ)) (al : Fl) (t : ℝ) {ε : ℝ} (hε : 0 < ε) :
    ∃ J : ℕ, ∀ j ≥ J, ∀ n > j, ∀ (key : Keys.Key) (A : Set (Fin d → ℝ)), MeasurableSet A →
      |rowProb (fun ω => (runFrom (underdamped Keys.split Keys.splitN (normalAt q d ω) (fun x _ => prior x) (fun x _ => lik x) T 1)
        (metropolis Keys.split fun k => ω (k, 0)) n (udState prior lik T z0 al t) ⟨key, 0, ⟨step, none⟩⟩).map fun s => s.payload.value) j A - probUnder (posTarget prior lik T) A| ≤ ε := by
  have h0 := posTarget_pos (prior := prior) (lik := lik) hU
  have hπ := normalised_prob h0 hT
  have hrev := (ud_reversible hg hU step).smul (posTarget prior lik T Set.univ)⁻¹
  rw [udMove_metro] at hrev
  obtain ⟨J, hJ⟩ := metropolis_tv (π := normalised (posTarget prior lik T)) (udDrawsAt_draws hq) (measurable_lfProp hg step) (measurable_lfAcc hg hU step) (lfAcc_nonneg step) (lfAcc_le_one step) hrev
    (fun x => (ud_ac hg hU hT hstep x).1) (fun x => (ud_ac hg hU hT hstep x).2) z0.1 hε
  refine ⟨J, fun j hj n hn key A hA => ?_⟩
  have h := hJ j hj key A hA
  change |_ - (normalised (posTarget prior lik T) A).toReal| ≤ ε at h
  rw [normalised_apply, ← udMove_metro] at h
  convert h using 3
  rw [funext fun ω => ud_run prior lik T 1 step z0 al t key (by omega : 0 < n) ω, rowProb_range _ hn]

/-- C115: the same for `RandomWalkABC` with `Metropolis`, for parameter and data jointly. -/
theorem C115_abc {D : Type*} [MeasurableSpace D] {S : Set (Fin d → ℝ)} {V : (Fin d → ℝ) → ℝ} {sim : (Fin d → ℝ) → Tape → D} {q : ℝ → ℝ} (hq : IsNormalDraw q) (hS : MeasurableSet S)
    (hV : Measurable V) (pri : Tape → Fin d → ℝ) (hsim : Measurable fun z : (Fin d → ℝ) × Tape => sim z.1 z.2) (dist : D → Fl) (p : Params d) (hB : MeasurableSet (ball dist p.threshold))
    (hstep : ∀ i, 0 < p.stepsize i) (h0 : abcTarget S V sim (ball dist p.threshold) Set.univ ≠ 0) (hT : abcTarget S V sim (ball dist p.threshold) Set.univ ≠ ∞) (z0 : (Fin d → ℝ) × D)
    (stp : Fin d → ℝ) (al : Fl) (t : ℝ) {ε : ℝ} (hε : 0 < ε) :
    ∃ J : ℕ, ∀ j ≥ J, ∀ n > j, ∀ (key : Keys.Key) (A : Set ((Fin d → ℝ) × D)), MeasurableSet A →
      |rowProb (fun ω => (runFrom (randomWalkABC Keys.split Keys.split4 (normalAt q d ω) (tapeScenario S V pri sim dist ω)) (metropolis Keys.split fun k => ω (k, 0)) n
        (abcState S V dist z0 stp al t) ⟨key, 0, p⟩).map fun s => (s.payload.value, s.payload.data)) j A - probUnder (abcTarget S V sim (ball dist p.threshold)) A| ≤ ε := by
  set B := ball dist p.threshold with hBdef
  set s : Fin d → ℝ := fun i => Real.sqrt (p.stepsize i) with hs
  have hs0 : ∀ i, s i ≠ 0 := fun i => (Real.sqrt_pos.mpr (hstep i)).ne'
  have hπ := normalised_prob h0 hT
  have mT : Measurable (Function.uncurry fun z w => abcProp sim s (z, w)) := measurable_abcProp hsim s
  have ma : Measurable (Function.uncurry fun z w => abcAcc S V B z.1 (abcProp sim s (z, w))) :=
    (measurable_abcAcc hS hV hB).comp ((measurable_fst.comp measurable_fst).prodMk (measurable_abcProp hsim s))
  have ha : ∀ z w, 0 ≤ abcAcc S V B z.1 (abcProp sim s (z, w)) ∧ abcAcc S V B z.1 (abcProp sim s (z, w)) ≤ 1 := by
    intro z w
    simp only [abcAcc]
    split_ifs
    · exact ⟨accOn_nonneg _ _ _ _, accOn_le_one _ _ _ _⟩
    · exact ⟨le_rfl, zero_le_one⟩
  obtain ⟨J, hJ⟩ := metropolis_tv (π := normalised (abcTarget S V sim B)) (abcDraws_draws hq) mT ma (fun z w => (ha z w).1) (fun z w => (ha z w).2) ((abc_reversible hS hV hB hsim s).smul _)
    (fun z => (normalised_ac hT fun A hA => abc_null hS hV hB hsim hs0 z hA).1) (fun z => (normalised_ac hT fun A hA => abc_null hS hV hB hsim hs0 z hA).2) z0 hε
  refine ⟨J, fun j hj n hn key A hA => ?_⟩
  have h := hJ j hj key A hA
  change |_ - (normalised (abcTarget S V sim B) A).toReal| ≤ ε at h
  rw [normalised_apply] at h
  convert h using 3
  rw [funext fun ω => abc_run S V pri sim dist q p z0 stp al t key (by omega : 0 < n) ω, rowProb_range _ hn]
  rfl

/-- C114 fails with two leapfrog steps: a standard normal posterior, stepsize `√2`, infinite friction, start 1. Every row has squared position 1, an event of posterior probability 0. -/
theorem C114_fails_two_steps {q : ℝ → ℝ} (p0 : Fin 1 → ℝ) (al : Fl) (t : ℝ) (key : Keys.Key) {n j : ℕ} (hj : j < n) :
    rowProb (fun ω => (runFrom (underdamped Keys.split Keys.splitN (normalAt q 1 ω) (fun x _ => (x 0 ^ 2 / 2, x)) (fun _ _ => (0, 0)) 1 2)
        (metropolis Keys.split fun k => ω (k, 0)) n (udState (fun x => (x 0 ^ 2 / 2, x)) (fun _ => (0, 0)) 1 (1, p0) al t) ⟨key, 0, ⟨Real.sqrt 2, none⟩⟩).map
          fun s => s.payload.value) j {x | x 0 ^ 2 = 1} = 1
    ∧ probUnder (posTarget (fun x : Fin 1 → ℝ => (x 0 ^ 2 / 2, x)) (fun _ => (0, 0)) 1) {x | x 0 ^ 2 = 1} = 0 := by
  constructor
  · rw [funext fun ω => ud_run (fun x : Fin 1 → ℝ => (x 0 ^ 2 / 2, x)) (fun _ => (0, 0)) 1 2 (Real.sqrt 2) (1, p0) al t key (by omega : 0 < n) ω, rowProb_range _ hj]
    simp only [Set.mem_ofPred_eq, two_steps_square]
    simp
  · have h : posTarget (fun x : Fin 1 → ℝ => (x 0 ^ 2 / 2, x)) (fun _ => (0, 0)) 1 {x | x 0 ^ 2 = 1} = 0 := by
      rw [posTarget_null (by unfold potAt; fun_prop)]
      refine measure_mono_null (t := {fun _ => (1 : ℝ)} ∪ {fun _ => (-1 : ℝ)}) (fun x hx => ?_) (measure_union_null (measure_singleton _) (measure_singleton _))
      rcases sq_eq_one_iff.mp (show x 0 ^ 2 = 1 from hx) with h | h
      · exact Or.inl (funext fun i => by rw [Subsingleton.elim i 0, h])
      · exact Or.inr (funext fun i => by rw [Subsingleton.elim i 0, h])
    rw [probUnder, h]; simp

/-! ## C116 -/

/-- C116: the posterior is the only distribution that one update of `RandomWalk` with `Metropolis` keeps: if the second row of a run has the distribution of the first, that distribution
is the posterior. -/
theorem C116_randomWalk {q : ℝ → ℝ} (hq : IsNormalDraw q) {S : Set (Fin d → ℝ)} (hS : MeasurableSet S) {V : (Fin d → ℝ) → ℝ} (hV : Measurable V)
    (h0 : target S V Set.univ ≠ 0) (hT : target S V Set.univ ≠ ∞) {step : ℝ} (hstep : 0 < step) (al : Fl) (t : ℝ) (key : Keys.Key) (ν : Measure (Fin d → ℝ)) [IsProbabilityMeasure ν]
    (hν : ∀ A, MeasurableSet A → ∫⁻ x0, ideal {ω | ∃ v ∈ A, ((runFrom (randomWalk Keys.split3 (normalAt q d ω) fun x _ => potOn S V x) (metropolis Keys.split fun k => ω (k, 0)) 2
        (rwState S V x0 al t) ⟨key, 0, step⟩).map fun s => s.payload.value)[1]? = some v} ∂ν = ν A) (A : Set (Fin d → ℝ)) : (ν A).toReal = probUnder (target S V) A := by
  have hπ := normalised_prob h0 hT
  have mT : Measurable (Function.uncurry fun x z : Fin d → ℝ => rwProp (Real.sqrt step) (x, z)) := measurable_rwProp (d := d) (Real.sqrt step)
  have ma : Measurable (Function.uncurry fun x z : Fin d → ℝ => accOn S V x (rwProp (Real.sqrt step) (x, z))) := (measurable_accOn hS hV).comp (measurable_fst.prodMk mT)
  have hu := metropolis_unique (π := normalised (target S V)) (ν := ν) (rwDraws_draws hq) mT ma (fun _ _ => accOn_nonneg _ _ _ _) (fun _ _ => accOn_le_one _ _ _ _)
    ((rw_reversible hS hV step).smul _) (fun x => (rw_ac hS hV hT hstep x).1) (fun x => (rw_ac hS hV hT hstep x).2) key fun A hA => by
      rw [← hν A hA]
      refine lintegral_congr fun x0 => ?_
      have e := fun ω => rw_run (q := q) S V step x0 al t key (n := 2) (by norm_num) ω
      simp only [Nat.cast_ofNat] at e
      simp only [e, row_two]
      rfl
  rw [hu, normalised_apply]

/-- C116 for the default of `Underdamped` (infinite friction, one leapfrog step). -/
theorem C116_one_step (prior lik : (Fin d → ℝ) → ℝ × (Fin d → ℝ)) (T : ℝ) {q : ℝ → ℝ} (hq : IsNormalDraw q) (hg : Measurable (gradField prior lik T))
    (hU : Measurable (potAt prior lik T)) (hT : posTarget prior lik T Set.univ ≠ ∞) {step : ℝ} (hstep : 0 < step) (p0 : Fin d → ℝ) (al : Fl) (t : ℝ) (key : Keys.Key)
    (ν : Measure (Fin d → ℝ)) [IsProbabilityMeasure ν]
    (hν : ∀ A, MeasurableSet A → ∫⁻ x0, ideal {ω | ∃ v ∈ A, ((runFrom (underdamped Keys.split Keys.splitN (normalAt q d ω) (fun x _ => prior x) (fun x _ => lik x) T 1)
        (metropolis Keys.split fun k => ω (k, 0)) 2 (udState prior lik T (x0, p0) al t) ⟨key, 0, ⟨step, none⟩⟩).map fun s => s.payload.value)[1]? = some v} ∂ν = ν A)
    (A : Set (Fin d → ℝ)) : (ν A).toReal = probUnder (posTarget prior lik T) A := by
  have h0 := posTarget_pos (prior := prior) (lik := lik) hU
  have hπ := normalised_prob h0 hT
  have hrev := (ud_reversible hg hU step).smul (posTarget prior lik T Set.univ)⁻¹
  rw [udMove_metro] at hrev
  have hu := metropolis_unique (π := normalised (posTarget prior lik T)) (ν := ν) (udDrawsAt_draws hq) (measurable_lfProp hg step) (measurable_lfAcc hg hU step) (lfAcc_nonneg step)
    (lfAcc_le_one step) hrev (fun x => (ud_ac hg hU hT hstep x).1) (fun x => (ud_ac hg hU hT hstep x).2) key fun A hA => by
      rw [← hν A hA]
      refine lintegral_congr fun x0 => ?_
      have e := fun ω => ud_run (q := q) prior lik T 1 step (x0, p0) al t key (n := 2) (by norm_num) ω
      simp only [Nat.cast_ofNat] at e
      simp only [e, row_two, udMove_metro]
  rw [hu, normalised_apply]

/-- C116 for `RandomWalkABC` with `Metropolis`: parameter and data jointly. -/
theorem C116_abc {D : Type*} [MeasurableSpace D] {S : Set (Fin d → ℝ)} {V : (Fin d → ℝ) → ℝ} {sim : (Fin d → ℝ) → Tape → D} {q : ℝ → ℝ} (hq : IsNormalDraw q) (hS : MeasurableSet S)
    (hV : Measurable V) (pri : Tape → Fin d → ℝ) (hsim : Measurable fun z : (Fin d → ℝ) × Tape => sim z.1 z.2) (dist : D → Fl) (p : Params d) (hB : MeasurableSet (ball dist p.threshold))
    (hstep : ∀ i, 0 < p.stepsize i) (h0 : abcTarget S V sim (ball dist p.threshold) Set.univ ≠ 0) (hT : abcTarget S V sim (ball dist p.threshold) Set.univ ≠ ∞)
    (stp : Fin d → ℝ) (al : Fl) (t : ℝ) (key : Keys.Key) (ν : Measure ((Fin d → ℝ) × D)) [IsProbabilityMeasure ν]
    (hν : ∀ A, MeasurableSet A → ∫⁻ z0, ideal {ω | ∃ v ∈ A, ((runFrom (randomWalkABC Keys.split Keys.split4 (normalAt q d ω) (tapeScenario S V pri sim dist ω))
        (metropolis Keys.split fun k => ω (k, 0)) 2 (abcState S V dist z0 stp al t) ⟨key, 0, p⟩).map fun s => (s.payload.value, s.payload.data))[1]? = some v} ∂ν = ν A)
    (A : Set ((Fin d → ℝ) × D)) : (ν A).toReal = probUnder (abcTarget S V sim (ball dist p.threshold)) A := by
  set B := ball dist p.threshold with hBdef
  set s : Fin d → ℝ := fun i => Real.sqrt (p.stepsize i) with hs
  have hs0 : ∀ i, s i ≠ 0 := fun i => (Real.sqrt_pos.mpr (hstep i)).ne'
  have hπ := normalised_prob h0 hT
  have mT : Measurable (Function.uncurry fun z w => abcProp sim s (z, w)) := measurable_abcProp hsim s
  have ma : Measurable (Function.uncurry fun z w => abcAcc S V B z.1 (abcProp sim s (z, w))) :=
    (measurable_abcAcc hS hV hB).comp ((measurable_fst.comp measurable_fst).prodMk (measurable_abcProp hsim s))
  have ha : ∀ z w, 0 ≤ abcAcc S V B z.1 (abcProp sim s (z, w)) ∧ abcAcc S V B z.1 (abcProp sim s (z, w)) ≤ 1 := by
    intro z w
    simp only [abcAcc]
    split_ifs
    · exact ⟨accOn_nonneg _ _ _ _, accOn_le_one _ _ _ _⟩
    · exact ⟨le_rfl, zero_le_one⟩
  have hu := metropolis_unique (π := normalised (abcTarget S V sim B)) (ν := ν) (abcDraws_draws hq) mT ma (fun z w => (ha z w).1) (fun z w => (ha z w).2) ((abc_reversible hS hV hB hsim s).smul _)
    (fun z => (normalised_ac hT fun A hA => abc_null hS hV hB hsim hs0 z hA).1) (fun z => (normalised_ac hT fun A hA => abc_null hS hV hB hsim hs0 z hA).2) key fun A hA => by
      rw [← hν A hA]
      refine lintegral_congr fun z0 => ?_
      have e := fun ω => abc_run S V pri sim dist q p z0 stp al t key (n := 2) (by norm_num) ω
      simp only [Nat.cast_ofNat] at e
      simp only [e, row_two]
      rfl
  rw [hu, normalised_apply]

/-! ## Cases -/

theorem std_target : target Set.univ (fun x : Fin 1 → ℝ => x 0 ^ 2 / 2) = ENNReal.ofReal (Real.sqrt (2 * Real.pi)) • stdNormal 1 := by rw [← stdTarget, target, Set.indicator_univ]

theorem std_posTarget : posTarget (fun x : Fin 1 → ℝ => (x 0 ^ 2 / 2, x)) (fun _ => (0, 0)) 1 = ENNReal.ofReal (Real.sqrt (2 * Real.pi)) • stdNormal 1 := by rw [← stdTarget, posTarget]; simp [potAt]

theorem std_pos : (ENNReal.ofReal (Real.sqrt (2 * Real.pi)) • stdNormal 1) Set.univ ≠ 0 := by
  rw [Measure.smul_apply, measure_univ, smul_eq_mul, mul_one]
  exact (ENNReal.ofReal_pos.mpr (Real.sqrt_pos.mpr (by positivity))).ne'

/-- A standard normal posterior from any start, and an ABC posterior from a start whose data are far outside the threshold: late rows are within a hundredth of the posterior. -/
example (x0 : Fin 1 → ℝ) : ∃ q, IsNormalDraw q ∧
    (∃ J : ℕ, ∀ j ≥ J, ∀ n > j, ∀ (key : Keys.Key) (A : Set (Fin 1 → ℝ)), MeasurableSet A →
      |rowProb (fun ω => (runFrom (randomWalk Keys.split3 (normalAt q 1 ω) fun x _ => potOn Set.univ (fun x : Fin 1 → ℝ => x 0 ^ 2 / 2) x) (metropolis Keys.split fun k => ω (k, 0)) n
        (rwState Set.univ (fun x => x 0 ^ 2 / 2) x0 (Fl.fin 1) 0) ⟨key, 0, 3⟩).map fun s => s.payload.value) j A - probUnder (target Set.univ fun x : Fin 1 → ℝ => x 0 ^ 2 / 2) A| ≤ 0.01) ∧
    (∃ J : ℕ, ∀ j ≥ J, ∀ n > j, ∀ (key : Keys.Key) (A : Set (Fin 1 → ℝ)), MeasurableSet A →
      |rowProb (fun ω => (runFrom (underdamped Keys.split Keys.splitN (normalAt q 1 ω) (fun x _ => (x 0 ^ 2 / 2, x)) (fun _ _ => (0, 0)) 1 1)
        (metropolis Keys.split fun k => ω (k, 0)) n (udState (fun x => (x 0 ^ 2 / 2, x)) (fun _ => (0, 0)) 1 (x0, 0) (Fl.fin 1) 0) ⟨key, 0, ⟨Real.sqrt 2, none⟩⟩).map
          fun s => s.payload.value) j A - probUnder (posTarget (fun x : Fin 1 → ℝ => (x 0 ^ 2 / 2, x)) (fun _ => (0, 0)) 1) A| ≤ 0.01) ∧
    (∃ J : ℕ, ∀ j ≥ J, ∀ n > j, ∀ (key : Keys.Key) (A : Set ((Fin 1 → ℝ) × ℝ)), MeasurableSet A →
      |rowProb (fun ω => (runFrom (randomWalkABC Keys.split Keys.split4 (normalAt q 1 ω) (tapeScenario Set.univ (fun x => x 0 ^ 2 / 2) (fun _ _ => 1) noisy (fun y => Fl.fin |y|) ω))
        (metropolis Keys.split fun k => ω (k, 0)) n (abcState Set.univ (fun x => x 0 ^ 2 / 2) (fun y => Fl.fin |y|) (fun _ => 10, 9.5) (fun _ => 3) (Fl.fin 1) 0)
          ⟨key, 0, ⟨Fl.fin 2, fun _ => 3, 0, 0⟩⟩).map fun s => (s.payload.value, s.payload.data)) j A
        - probUnder (abcTarget Set.univ (fun x => x 0 ^ 2 / 2) noisy (ball (fun y : ℝ => Fl.fin |y|) (Fl.fin 2))) A| ≤ 0.01) := by
  obtain ⟨q, hq⟩ := exists_isNormalDraw
  refine ⟨q, hq, C113_randomWalk hq .univ (by fun_prop) (by rw [std_target]; exact std_pos) (by rw [std_target]; exact stdTarget_finite) (by norm_num) x0 _ _ (by norm_num),
    C114_one_step_partial _ _ _ hq ?_ ?_ (by rw [std_posTarget]; exact stdTarget_finite) (Real.sqrt_pos.mpr (by norm_num)) (x0, 0) _ _ (by norm_num),
    C115_abc (sim := noisy) hq .univ (by fun_prop) _ measurable_noisy _ ⟨Fl.fin 2, fun _ => 3, 0, 0⟩ measurable_ball_two (fun i => by norm_num) noisy_pos noisy_finite _ _ _ _ (by norm_num)⟩
  · unfold gradField; fun_prop
  · unfold potAt; fun_prop

/-- The hypotheses of C116 are met: the normalised posterior is kept. -/
example (key : Keys.Key) : ∃ q, IsNormalDraw q ∧ ∀ A, MeasurableSet A →
    ∫⁻ x0, ideal {ω | ∃ v ∈ A, ((runFrom (randomWalk Keys.split3 (normalAt q 1 ω) fun x _ => potOn Set.univ (fun x : Fin 1 → ℝ => x 0 ^ 2 / 2) x) (metropolis Keys.split fun k => ω (k, 0)) 2
        (rwState Set.univ (fun x => x 0 ^ 2 / 2) x0 (Fl.fin 1) 0) ⟨key, 0, 3⟩).map fun s => s.payload.value)[1]? = some v} ∂(normalised (target Set.univ fun x : Fin 1 → ℝ => x 0 ^ 2 / 2))
      = normalised (target Set.univ fun x : Fin 1 → ℝ => x 0 ^ 2 / 2) A := by
  obtain ⟨q, hq⟩ := exists_isNormalDraw
  refine ⟨q, hq, fun A hA => ?_⟩
  have hV : Measurable fun x : Fin 1 → ℝ => x 0 ^ 2 / 2 := by fun_prop
  have hprob := normalised_prob (μ := target Set.univ fun x : Fin 1 → ℝ => x 0 ^ 2 / 2) (by rw [std_target]; exact std_pos) (by rw [std_target]; exact stdTarget_finite)
  have hm := measurable_metro (T := fun x z : Fin 1 → ℝ => rwProp (Real.sqrt 3) (x, z)) (a := fun x z => accOn Set.univ (fun x : Fin 1 → ℝ => x 0 ^ 2 / 2) x (rwProp (Real.sqrt 3) (x, z)))
    (measurable_rwProp (Real.sqrt 3)) ((measurable_accOn .univ hV).comp (measurable_fst.prodMk (measurable_rwProp (Real.sqrt 3))))
  have hinv := ((rw_reversible .univ hV 3).smul (target Set.univ (fun x : Fin 1 → ℝ => x 0 ^ 2 / 2) Set.univ)⁻¹).invariant (A.indicator 1) (measurable_one.indicator hA)
  rw [lintegral_indicator_one hA] at hinv
  refine Eq.trans (lintegral_congr fun x0 => ?_) hinv
  have e := fun ω => rw_run (q := q) Set.univ (fun x : Fin 1 → ℝ => x 0 ^ 2 / 2) 3 x0 (Fl.fin 1) 0 key (n := 2) (by norm_num) ω
  simp only [Nat.cast_ofNat] at e
  simp only [e, row_two]
  have h1 := ofReal_hit (δ := (stdNormal 1).prod unif) hm hA 1 x0
  have h2 := prob_tapeIter (rwDraws_draws (d := 1) hq) hm hA 1 key x0
  rw [← h2, ENNReal.ofReal_toReal (measure_ne_top _ _)] at h1
  exact h1

end Mocat.Props
