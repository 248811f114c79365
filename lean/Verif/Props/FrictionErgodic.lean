import Verif.Lemmas.Nonreversible
import Verif.Props.ChainConvergence
/-!
# C111, C114, C116 for `Underdamped` with any positive friction

With finite friction the momenta are kept from one update to the next, so a run is a chain on positions and momenta, and it is not reversible.
-/
namespace Mocat.Props
open Mocat Mocat.Mcmc Mocat.Ideal Mocat.Meas Mocat.Ergodic MeasureTheory ProbabilityTheory Filter
open scoped ENNReal Topology

variable {d : ℕ}

/-! ## Specification -/

/-- Positive stepsize; infinite friction (`none`) or positive friction. -/
structure Damped (p : UDParams) : Prop where
  stepsize : 0 < p.stepsize
  friction : ∀ γ, p.friction = some γ → 0 < γ

theorem Damped.admissible {p : UDParams} (hp : Damped p) : Admissible p := ⟨hp.stepsize.le, fun γ h => (hp.friction γ h).le, fun _ => hp.stepsize⟩

/-! ## The two halves of an update -/

theorem Damped.noise {p : UDParams} (hp : Damped p) : 0 < Real.sqrt (1 - decay 2 p) := by
  refine Real.sqrt_pos.mpr ?_
  obtain ⟨ε, f⟩ := p
  cases f with
  | none => simp [decay]
  | some γ =>
    have h1 := hp.friction γ rfl
    have h2 := hp.stepsize
    simp only [decay] at *
    have : Real.exp (-2 * γ * ε) < 1 := by rw [Real.exp_lt_one_iff]; nlinarith [mul_pos h1 h2]
    linarith

section
variable (prior lik : (Fin d → ℝ) → ℝ × (Fin d → ℝ)) (T : ℝ) (p : UDParams)

/-- Acceptance probability of the leapfrog move. -/
noncomputable def lfAccept (z : (Fin d → ℝ) × (Fin d → ℝ)) : ℝ := min 1 (Real.exp (-energy prior lik T (hmcMap p.stepsize (gradField prior lik T) 1 z) + energy prior lik T z))

/-- The refresh. -/
noncomputable def refreshOp (W : (Fin d → ℝ) × (Fin d → ℝ) → ℝ≥0∞) (z : (Fin d → ℝ) × (Fin d → ℝ)) : ℝ≥0∞ := ∫⁻ ξ, W (z.1, refreshMomenta p z.2 ξ) ∂(stdNormal d)

/-- The accepted part of the leapfrog move. -/
noncomputable def moveOp (W : (Fin d → ℝ) × (Fin d → ℝ) → ℝ≥0∞) (z : (Fin d → ℝ) × (Fin d → ℝ)) : ℝ≥0∞ :=
  ENNReal.ofReal (lfAccept prior lik T p z) * W (hmcMap p.stepsize (gradField prior lik T) 1 z)

/-- The rejected part. -/
noncomputable def stayOp (W : (Fin d → ℝ) × (Fin d → ℝ) → ℝ≥0∞) (z : (Fin d → ℝ) × (Fin d → ℝ)) : ℝ≥0∞ := ENNReal.ofReal (1 - lfAccept prior lik T p z) * W z

end

section
variable {prior lik : (Fin d → ℝ) → ℝ × (Fin d → ℝ)} {T : ℝ} {p : UDParams}

theorem lfAccept_pos (z) : 0 < lfAccept prior lik T p z := lt_min one_pos (Real.exp_pos _)
theorem lfAccept_le (z) : lfAccept prior lik T p z ≤ 1 := min_le_left _ _

theorem measurable_lfAccept (hg : Measurable (gradField prior lik T)) (hU : Measurable (potAt prior lik T)) : Measurable (lfAccept prior lik T p) := by
  have mE := measurable_energy prior lik T hU
  have mM := (measurePreserving_hmcMap p.stepsize (gradField prior lik T) hg 1).measurable
  exact measurable_const.min (Real.measurable_exp.comp ((mE.comp mM).neg.add mE))

theorem measurable_refresh : Measurable fun q : ((Fin d → ℝ) × (Fin d → ℝ)) × (Fin d → ℝ) => (q.1.1, refreshMomenta p q.1.2 q.2) := by
  unfold refreshMomenta; fun_prop

theorem measurable_refreshOp {W : (Fin d → ℝ) × (Fin d → ℝ) → ℝ≥0∞} (hW : Measurable W) : Measurable (refreshOp p W) :=
  Measurable.lintegral_prod_right' (f := fun q : ((Fin d → ℝ) × (Fin d → ℝ)) × (Fin d → ℝ) => W (q.1.1, refreshMomenta p q.1.2 q.2)) (hW.comp measurable_refresh)

theorem measurable_moveOp (hg : Measurable (gradField prior lik T)) (hU : Measurable (potAt prior lik T)) {W : (Fin d → ℝ) × (Fin d → ℝ) → ℝ≥0∞} (hW : Measurable W) :
    Measurable (moveOp prior lik T p W) :=
  (ENNReal.measurable_ofReal.comp (measurable_lfAccept hg hU)).mul (hW.comp (measurePreserving_hmcMap p.stepsize (gradField prior lik T) hg 1).measurable)

theorem measurable_stayOp (hg : Measurable (gradField prior lik T)) (hU : Measurable (potAt prior lik T)) {W : (Fin d → ℝ) × (Fin d → ℝ) → ℝ≥0∞} (hW : Measurable W) :
    Measurable (stayOp prior lik T p W) :=
  (ENNReal.measurable_ofReal.comp (measurable_const.sub (measurable_lfAccept hg hU))).mul hW

theorem stepOp_udStep (hg : Measurable (gradField prior lik T)) (hU : Measurable (potAt prior lik T)) {h : (Fin d → ℝ) × (Fin d → ℝ) → ℝ≥0∞} (hh : Measurable h) (z) :
    stepOp ((stdNormal d).prod unif) (udStep prior lik T 1 p) h z = refreshOp p (moveOp prior lik T p h) z + refreshOp p (stayOp prior lik T p h) z := by
  have mS := measurable_udStep prior lik T 1 hg hU p
  have mz : Measurable fun w => h (udStep prior lik T 1 p z w) := hh.comp (mS.comp (measurable_const.prodMk measurable_id))
  have m1 : Measurable fun ξ => moveOp prior lik T p h (z.1, refreshMomenta p z.2 ξ) := (measurable_moveOp hg hU hh).comp (measurable_refresh.comp (measurable_const.prodMk measurable_id))
  rw [stepOp, lintegral_prod _ mz.aemeasurable, refreshOp, refreshOp, ← lintegral_add_left m1]
  refine lintegral_congr fun ξ => ?_
  have : ∀ u, h (udStep prior lik T 1 p z (ξ, u)) = if u < lfAccept prior lik T p (z.1, refreshMomenta p z.2 ξ) then h (hmcMap p.stepsize (gradField prior lik T) 1 (z.1, refreshMomenta p z.2 ξ))
      else h (z.1, refreshMomenta p z.2 ξ) := fun u => by
    simp only [udStep, lfAccept]
    rw [apply_ite h]
    exact if_congr Iff.rfl rfl rfl
  simp_rw [this]
  rw [accept_lintegral _ (lfAccept_pos _).le (lfAccept_le _)]
  rfl

/-- The refresh reaches all momenta. -/
theorem refresh_ae (hp : Damped p) (m : Fin d → ℝ) {P : (Fin d → ℝ) → Prop} : (∀ᵐ ξ ∂(stdNormal d), P (refreshMomenta p m ξ)) ↔ ∀ᵐ q ∂(volume : Measure (Fin d → ℝ)), P q := by
  rw [ae_iff, ae_iff, stdNormal_null]
  have e : {ξ | ¬ P (refreshMomenta p m ξ)} = (fun (z : Fin d → ℝ) i => (-m i * decay 1 p) + Real.sqrt (1 - decay 2 p) * z i) ⁻¹' {q | ¬ P q} := rfl
  rw [e, volume_affine _ hp.noise.ne']

theorem refreshOp_zero (hp : Damped p) {W : (Fin d → ℝ) × (Fin d → ℝ) → ℝ≥0∞} (hW : Measurable W) (z) : refreshOp p W z = 0 ↔ ∀ᵐ q ∂(volume : Measure (Fin d → ℝ)), W (z.1, q) = 0 := by
  have m1 : Measurable fun ξ => W (z.1, refreshMomenta p z.2 ξ) := hW.comp (measurable_refresh.comp (measurable_const.prodMk measurable_id))
  rw [refreshOp, lintegral_eq_zero_iff m1, ← refresh_ae hp z.2]
  rfl

/-- The move from refreshed momenta reaches all positions. -/
theorem landing_ae (hp : Damped p) (z : (Fin d → ℝ) × (Fin d → ℝ)) {P : (Fin d → ℝ) → Prop} :
    (∀ᵐ q ∂(volume : Measure (Fin d → ℝ)), P (hmcMap p.stepsize (gradField prior lik T) 1 (z.1, q)).1) ↔ ∀ᵐ y ∂(volume : Measure (Fin d → ℝ)), P y := by
  rw [ae_iff, ae_iff]
  have e : {q | ¬ P (hmcMap p.stepsize (gradField prior lik T) 1 (z.1, q)).1}
      = (fun (q : Fin d → ℝ) i => (z.1 i - p.stepsize * (p.stepsize / 2 * gradField prior lik T z.1 i)) + p.stepsize * q i) ⁻¹' {q | ¬ P q} := by
    ext q
    simp only [Set.mem_ofPred_eq, Set.mem_preimage]
    have : (hmcMap p.stepsize (gradField prior lik T) 1 (z.1, q)).1 = fun i => (z.1 i - p.stepsize * (p.stepsize / 2 * gradField prior lik T z.1 i)) + p.stepsize * q i := by
      funext i
      simp only [hmcMap, lfMap, Mcmc.flip, Function.iterate_one]
      ring
    rw [this]
  rw [e, volume_affine _ hp.stepsize.ne']

theorem moveOp_eq_zero {W : (Fin d → ℝ) × (Fin d → ℝ) → ℝ≥0∞} {z} : moveOp prior lik T p W z = 0 ↔ W (hmcMap p.stepsize (gradField prior lik T) 1 z) = 0 := by
  simp [moveOp, lfAccept_pos]

/-! ## Null sets -/

/-- A function that vanishes almost everywhere does so, after a refresh, for almost all positions and all momenta. -/
theorem refreshOp_ae (hp : Damped p) {W : (Fin d → ℝ) × (Fin d → ℝ) → ℝ≥0∞} (hW : Measurable W) (h0 : ∀ᵐ z ∂(volume : Measure ((Fin d → ℝ) × (Fin d → ℝ))), W z = 0) :
    ∀ᵐ x ∂(volume : Measure (Fin d → ℝ)), ∀ m, refreshOp p W (x, m) = 0 := by
  have := Measure.ae_ae_of_ae_prod h0
  filter_upwards [this] with x hx m
  exact (refreshOp_zero hp hW (x, m)).mpr hx

theorem ae_of_fst {P : (Fin d → ℝ) → Prop} (h : ∀ᵐ x ∂(volume : Measure (Fin d → ℝ)), P x) : ∀ᵐ z ∂(volume : Measure ((Fin d → ℝ) × (Fin d → ℝ))), P z.1 :=
  Measure.quasiMeasurePreserving_fst.ae h

theorem moveOp_ae (hg : Measurable (gradField prior lik T)) {W : (Fin d → ℝ) × (Fin d → ℝ) → ℝ≥0∞} (h0 : ∀ᵐ z ∂(volume : Measure ((Fin d → ℝ) × (Fin d → ℝ))), W z = 0) :
    ∀ᵐ z ∂(volume : Measure ((Fin d → ℝ) × (Fin d → ℝ))), moveOp prior lik T p W z = 0 := by
  have := (measurePreserving_hmcMap p.stepsize (gradField prior lik T) hg 1).quasiMeasurePreserving.ae h0
  filter_upwards [this] with z hz
  exact moveOp_eq_zero.mpr hz

theorem stepOp_ae (hp : Damped p) (hg : Measurable (gradField prior lik T)) (hU : Measurable (potAt prior lik T)) {W : (Fin d → ℝ) × (Fin d → ℝ) → ℝ≥0∞} (hW : Measurable W)
    (h0 : ∀ᵐ z ∂(volume : Measure ((Fin d → ℝ) × (Fin d → ℝ))), W z = 0) :
    ∀ᵐ x ∂(volume : Measure (Fin d → ℝ)), ∀ m, stepOp ((stdNormal d).prod unif) (udStep prior lik T 1 p) W (x, m) = 0 := by
  have h1 := refreshOp_ae hp (measurable_moveOp (p := p) hg hU hW) (moveOp_ae hg h0)
  have h2 := refreshOp_ae hp (measurable_stayOp (p := p) hg hU hW) (by filter_upwards [h0] with z hz; simp [stayOp, hz])
  filter_upwards [h1, h2] with x a b m
  rw [stepOp_udStep hg hU hW, a, b, add_zero]

/-- The probability that `m` moves in a row are rejected. -/
noncomputable def allRejected (prior lik : (Fin d → ℝ) → ℝ × (Fin d → ℝ)) (T : ℝ) (p : UDParams) (m : ℕ) : (Fin d → ℝ) × (Fin d → ℝ) → ℝ≥0∞ :=
  (fun W => refreshOp p (stayOp prior lik T p W))^[m] 1

theorem allRejected_succ (m : ℕ) : allRejected prior lik T p (m + 1) = refreshOp p (stayOp prior lik T p (allRejected prior lik T p m)) := by
  unfold allRejected
  rw [Function.iterate_succ_apply']

theorem measurable_allRejected (hg : Measurable (gradField prior lik T)) (hU : Measurable (potAt prior lik T)) (m : ℕ) : Measurable (allRejected prior lik T p m) := by
  induction m with
  | zero => exact measurable_one
  | succ m ih => rw [allRejected_succ]; exact measurable_refreshOp (measurable_stayOp hg hU ih)

theorem refreshOp_mono {V W : (Fin d → ℝ) × (Fin d → ℝ) → ℝ≥0∞} (h : ∀ z, V z ≤ W z) (z) : refreshOp p V z ≤ refreshOp p W z := lintegral_mono fun _ => h _

theorem stayOp_mono {V W : (Fin d → ℝ) × (Fin d → ℝ) → ℝ≥0∞} (h : ∀ z, V z ≤ W z) (z) : stayOp prior lik T p V z ≤ stayOp prior lik T p W z := mul_le_mul_right (h z) _

theorem stayOp_le (W : (Fin d → ℝ) × (Fin d → ℝ) → ℝ≥0∞) (z) : stayOp prior lik T p W z ≤ W z :=
  mul_le_of_le_one_left (zero_le) (by rw [← ENNReal.ofReal_one]; exact ENNReal.ofReal_le_ofReal (by linarith [lfAccept_pos (prior := prior) (lik := lik) (T := T) (p := p) z]))

theorem allRejected_anti (m : ℕ) : ∀ z, allRejected prior lik T p (m + 1) z ≤ allRejected prior lik T p m z := by
  induction m with
  | zero =>
    intro z
    rw [allRejected_succ]
    calc _ ≤ refreshOp p 1 z := refreshOp_mono (fun z => stayOp_le _ z) z
      _ = 1 := by simp [refreshOp]
  | succ m ih =>
    intro z
    rw [allRejected_succ (m + 1)]
    conv_rhs => rw [allRejected_succ m]
    exact refreshOp_mono (stayOp_mono ih) z

theorem allRejected_le (m : ℕ) (z) : allRejected prior lik T p m z ≤ 1 := by
  induction m with
  | zero => exact le_rfl
  | succ m ih => exact (allRejected_anti m z).trans ih

/-- A null set is hit, after `m + 1` updates, at most as often as the first `m` moves are rejected. -/
theorem null_le (hp : Damped p) (hg : Measurable (gradField prior lik T)) (hU : Measurable (potAt prior lik T)) {N : Set ((Fin d → ℝ) × (Fin d → ℝ))} (hN : MeasurableSet N)
    (h0 : volume N = 0) (m : ℕ) (z) : (stepOp ((stdNormal d).prod unif) (udStep prior lik T 1 p))^[m + 1] (N.indicator 1) z ≤ allRejected prior lik T p m z := by
  have mS := measurable_udStep prior lik T 1 hg hU p
  have mi : Measurable (N.indicator (1 : (Fin d → ℝ) × (Fin d → ℝ) → ℝ≥0∞)) := measurable_one.indicator hN
  have mI := fun m => measurable_stepOp_iterate (δ := (stdNormal d).prod unif) mS m mi
  have hae : ∀ m, ∀ᵐ z ∂(volume : Measure ((Fin d → ℝ) × (Fin d → ℝ))), (stepOp ((stdNormal d).prod unif) (udStep prior lik T 1 p))^[m] (N.indicator 1) z = 0 := by
    intro m
    induction m with
    | zero =>
      have : ∀ᵐ z ∂(volume : Measure ((Fin d → ℝ) × (Fin d → ℝ))), z ∉ N := measure_eq_zero_iff_ae_notMem.mp h0
      filter_upwards [this] with z hz
      exact Set.indicator_of_notMem hz _
    | succ m ih =>
      rw [Function.iterate_succ']
      filter_upwards [ae_of_fst (stepOp_ae hp hg hU (mI m) ih)] with z hz
      exact hz z.2
  induction m generalizing z with
  | zero =>
    refine (le_of_le_of_eq (lintegral_mono fun w => ?_) (by simp : ∫⁻ _, 1 ∂((stdNormal d).prod unif) = 1))
    exact Set.indicator_le_self' (fun _ _ => zero_le) _ |>.trans le_rfl
  | succ m ih =>
    rw [Function.iterate_succ_apply', stepOp_udStep hg hU (mI _)]
    have h1 : refreshOp p (moveOp prior lik T p ((stepOp ((stdNormal d).prod unif) (udStep prior lik T 1 p))^[m + 1] (N.indicator 1))) z = 0 := by
      rw [refreshOp_zero hp (measurable_moveOp hg hU (mI _))]
      have h2 : ∀ᵐ y ∂(volume : Measure (Fin d → ℝ)), ∀ q, (stepOp ((stdNormal d).prod unif) (udStep prior lik T 1 p))^[m + 1] (N.indicator 1) (y, q) = 0 := by
        rw [Function.iterate_succ']
        exact stepOp_ae hp hg hU (mI m) (hae m)
      filter_upwards [(landing_ae (prior := prior) (lik := lik) (T := T) hp z).mpr h2] with q hq
      exact moveOp_eq_zero.mpr (hq _)
    rw [h1, zero_add, allRejected_succ]
    exact refreshOp_mono (stayOp_mono ih) z

/-- Not all moves are rejected for ever. -/
theorem allRejected_iInf (hp : Damped p) (hg : Measurable (gradField prior lik T)) (hU : Measurable (potAt prior lik T)) (z) : ⨅ m, allRejected prior lik T p m z = 0 := by
  set u : (Fin d → ℝ) × (Fin d → ℝ) → ℝ≥0∞ := fun z => ⨅ m, allRejected prior lik T p m z with hu
  have mA := fun m => measurable_allRejected (p := p) hg hU m
  have mu : Measurable u := .iInf mA
  have hanti : Antitone fun m => allRejected prior lik T p m := antitone_nat_of_succ_le fun m z => allRejected_anti m z
  have hfix : ∀ z, u z = refreshOp p (stayOp prior lik T p u) z := by
    intro z
    have e1 : u z = ⨅ m, allRejected prior lik T p (m + 1) z := by
      refine le_antisymm (le_iInf fun m => iInf_le _ (m + 1)) (le_iInf fun m => (iInf_le _ m).trans (allRejected_anti m z))
    have e2 : ∀ m, allRejected prior lik T p (m + 1) z = ∫⁻ ξ, stayOp prior lik T p (allRejected prior lik T p m) (z.1, refreshMomenta p z.2 ξ) ∂(stdNormal d) := fun m => by rw [allRejected_succ]; rfl
    rw [e1]
    simp_rw [e2]
    rw [← lintegral_iInf]
    · refine lintegral_congr fun ξ => ?_
      simp only [stayOp, hu]
      rw [ENNReal.mul_iInf fun h => absurd h ENNReal.ofReal_ne_top]
    · exact fun m => (measurable_stayOp hg hU (mA m)).comp (measurable_refresh.comp (measurable_const.prodMk measurable_id))
    · exact fun i j hij ξ => stayOp_mono (hanti hij) _
    · refine ne_top_of_le_ne_top ENNReal.one_ne_top ((lintegral_mono fun ξ => (stayOp_le _ _).trans (allRejected_le 0 _)).trans ?_)
      simp
  have hle : ∀ z, u z ≤ 1 := fun z => (iInf_le _ 0).trans (allRejected_le 0 z)
  have hzero : ∀ x, ∀ᵐ m ∂(stdNormal d), u (x, m) = 0 := by
    intro x
    have mR : Measurable fun q : (Fin d → ℝ) × (Fin d → ℝ) => refreshMomenta p q.1 q.2 := by unfold refreshMomenta; fun_prop
    have ms : Measurable fun m => stayOp prior lik T p u (x, m) := (measurable_stayOp hg hU mu).comp (measurable_const.prodMk measurable_id)
    have mx : Measurable fun m => u (x, m) := mu.comp (measurable_const.prodMk measurable_id)
    have ma : Measurable fun m => ENNReal.ofReal (lfAccept prior lik T p (x, m)) := ENNReal.measurable_ofReal.comp ((measurable_lfAccept hg hU).comp (measurable_const.prodMk measurable_id))
    have mau : Measurable fun m => ENNReal.ofReal (lfAccept prior lik T p (x, m)) * u (x, m) := ma.mul mx
    have h1 : ∫⁻ m, u (x, m) ∂(stdNormal d) = ∫⁻ m, stayOp prior lik T p u (x, m) ∂(stdNormal d) := by
      have msR : Measurable fun q : (Fin d → ℝ) × (Fin d → ℝ) => stayOp prior lik T p u (x, refreshMomenta p q.1 q.2) := ms.comp mR
      conv_rhs => rw [← C20_refresh p hp.admissible, lintegral_map ms mR, lintegral_prod _ msR.aemeasurable]
      exact lintegral_congr fun m => hfix (x, m)
    have h2 : ∫⁻ m, u (x, m) ∂(stdNormal d) = ∫⁻ m, ENNReal.ofReal (lfAccept prior lik T p (x, m)) * u (x, m) ∂(stdNormal d) + ∫⁻ m, stayOp prior lik T p u (x, m) ∂(stdNormal d) := by
      rw [← lintegral_add_left mau]
      refine lintegral_congr fun m => ?_
      rw [stayOp, ← add_mul, ← ENNReal.ofReal_add (lfAccept_pos _).le (by linarith [lfAccept_le (prior := prior) (lik := lik) (T := T) (p := p) (x, m)])]
      simp
    have hfin : ∫⁻ m, stayOp prior lik T p u (x, m) ∂(stdNormal d) ≠ ∞ := by
      refine ne_top_of_le_ne_top ENNReal.one_ne_top ((lintegral_mono fun m => (stayOp_le _ _).trans (hle _)).trans ?_)
      simp
    rw [h1] at h2
    have h3 : ∫⁻ m, ENNReal.ofReal (lfAccept prior lik T p (x, m)) * u (x, m) ∂(stdNormal d) = 0 := by
      have : ∫⁻ m, ENNReal.ofReal (lfAccept prior lik T p (x, m)) * u (x, m) ∂(stdNormal d) + ∫⁻ m, stayOp prior lik T p u (x, m) ∂(stdNormal d) = 0 + ∫⁻ m, stayOp prior lik T p u (x, m) ∂(stdNormal d) := by
        rw [zero_add]; exact h2.symm
      exact (ENNReal.add_left_inj hfin).mp this
    rw [lintegral_eq_zero_iff mau] at h3
    filter_upwards [h3] with m hm
    exact (mul_eq_zero.mp hm).resolve_left (ENNReal.ofReal_pos.mpr (lfAccept_pos _)).ne'
  change u z = 0
  rw [hfix, refreshOp_zero hp (measurable_stayOp hg hU mu)]
  have h4 : ∀ᵐ m ∂(volume : Measure (Fin d → ℝ)), u (z.1, m) = 0 := by
    have := hzero z.1
    rw [ae_iff, stdNormal_null] at this
    exact this
  filter_upwards [h4] with m hm
  simp [stayOp, hm]

/-! ## The chain on positions and momenta -/

theorem udTarget_posTarget : udTarget prior lik T = (posTarget prior lik T).prod (stdNormal d) := rfl

theorem udTarget_univ : udTarget prior lik T Set.univ = posTarget prior lik T Set.univ := by
  rw [udTarget_posTarget, ← Set.univ_prod_univ, Measure.prod_prod, measure_univ (μ := stdNormal d), mul_one]

theorem udTarget_null (hU : Measurable (potAt prior lik T)) (A : Set ((Fin d → ℝ) × (Fin d → ℝ))) : udTarget prior lik T A = 0 ↔ volume A = 0 := by
  have hm : Measurable fun z => ENNReal.ofReal (Real.exp (-energy prior lik T z)) := ENNReal.measurable_ofReal.comp (Real.measurable_exp.comp (measurable_energy prior lik T hU).neg)
  rw [udTarget_eq prior lik T hU, withDensity_apply_eq_zero hm]
  simp [Real.exp_pos]

theorem ud_regular (hp : Damped p) (hg : Measurable (gradField prior lik T)) (hU : Measurable (potAt prior lik T)) (hT : posTarget prior lik T Set.univ ≠ ∞) (z) :
    Regular ((stdNormal d).prod unif) (udStep prior lik T 1 p) (normalised (udTarget prior lik T)) z := by
  intro η hη
  obtain ⟨m, hm⟩ := iInf_lt_iff.mp ((allRejected_iInf hp hg hU z).trans_lt hη)
  refine ⟨m + 1, fun N hN h0 => (null_le hp hg hU hN ?_ m z).trans hm.le⟩
  rwa [normalised_null (by rwa [udTarget_univ]), udTarget_null hU] at h0

theorem ud_reach2 (hp : Damped p) (hg : Measurable (gradField prior lik T)) (hU : Measurable (potAt prior lik T)) (hT : posTarget prior lik T Set.univ ≠ ∞) (z) :
    normalised (udTarget prior lik T) ≪ (((stdNormal d).prod unif).prod ((stdNormal d).prod unif)).map (step2 (udStep prior lik T 1 p) z) := by
  have mS := measurable_udStep prior lik T 1 hg hU p
  have m2 : Measurable (step2 (udStep prior lik T 1 p) z) := (measurable_step2 mS).comp measurable_prodMk_left
  refine Measure.AbsolutelyContinuous.mk fun A hA h0 => ?_
  rw [normalised_null (by rwa [udTarget_univ]), udTarget_null hU]
  have mi : Measurable (A.indicator (1 : (Fin d → ℝ) × (Fin d → ℝ) → ℝ≥0∞)) := measurable_one.indicator hA
  have mi2 : Measurable fun w => A.indicator (1 : (Fin d → ℝ) × (Fin d → ℝ) → ℝ≥0∞) (step2 (udStep prior lik T 1 p) z w) := mi.comp m2
  rw [← lintegral_indicator_one hA, lintegral_map mi m2, lintegral_prod _ mi2.aemeasurable] at h0
  change stepOp ((stdNormal d).prod unif) (udStep prior lik T 1 p) (stepOp ((stdNormal d).prod unif) (udStep prior lik T 1 p) (A.indicator 1)) z = 0 at h0
  have mo := measurable_stepOp (δ := (stdNormal d).prod unif) mS mi
  rw [stepOp_udStep hg hU mo, add_eq_zero, refreshOp_zero hp (measurable_moveOp hg hU mo)] at h0
  have h1 : ∀ᵐ q ∂(volume : Measure (Fin d → ℝ)), ∀ᵐ q' ∂(volume : Measure (Fin d → ℝ)),
      hmcMap p.stepsize (gradField prior lik T) 1 ((hmcMap p.stepsize (gradField prior lik T) 1 (z.1, q)).1, q') ∉ A := by
    filter_upwards [h0.1] with q hq
    rw [moveOp_eq_zero, stepOp_udStep hg hU mi, add_eq_zero, refreshOp_zero hp (measurable_moveOp hg hU mi)] at hq
    filter_upwards [hq.1] with q' hq'
    rw [moveOp_eq_zero] at hq'
    intro hmem
    rw [Set.indicator_of_mem hmem] at hq'
    exact one_ne_zero hq'
  have h2 := (landing_ae (prior := prior) (lik := lik) (T := T) hp z (P := fun y => ∀ᵐ q' ∂(volume : Measure (Fin d → ℝ)), hmcMap p.stepsize (gradField prior lik T) 1 (y, q') ∉ A)).mp h1
  have hM := measurePreserving_hmcMap p.stepsize (gradField prior lik T) hg 1
  have h3 : volume (hmcMap p.stepsize (gradField prior lik T) 1 ⁻¹' A) = 0 := by
    rw [Measure.volume_eq_prod, Measure.measure_prod_null (hM.measurable hA)]
    filter_upwards [h2] with y hy
    exact measure_eq_zero_iff_ae_notMem.mpr hy
  rwa [hM.measure_preimage hA.nullMeasurableSet] at h3

theorem ud_inv (hp : Damped p) (hg : Measurable (gradField prior lik T)) (hU : Measurable (potAt prior lik T)) (f : (Fin d → ℝ) × (Fin d → ℝ) → ℝ≥0∞) (hf : Measurable f) :
    ∫⁻ z, ∫⁻ w, f (udStep prior lik T 1 p z w) ∂((stdNormal d).prod unif) ∂(normalised (udTarget prior lik T)) = ∫⁻ z, f z ∂(normalised (udTarget prior lik T)) :=
  normalised_invariant (F := fun f z => ∫⁻ w, f (udStep prior lik T 1 p z w) ∂((stdNormal d).prod unif)) (udStep_invariant prior lik T 1 hg hU p hp.admissible f hf)

theorem ud_tv (hp : Damped p) (hg : Measurable (gradField prior lik T)) (hU : Measurable (potAt prior lik T)) (hT : posTarget prior lik T Set.univ ≠ ∞) (z0) {ε : ℝ} (hε : 0 < ε) :
    ∃ N, ∀ n ≥ N, ∀ A, MeasurableSet A → |hit ((stdNormal d).prod unif) (udStep prior lik T 1 p) A n z0 - probUnder (udTarget prior lik T) A| ≤ ε := by
  have hπ := normalised_prob (μ := udTarget prior lik T) (by rw [udTarget_univ]; exact posTarget_pos hU) (by rwa [udTarget_univ])
  have mS := measurable_udStep prior lik T 1 hg hU p
  have h := tv_regular (π := normalised (udTarget prior lik T)) mS (fun ν _ hν ε hε => tv_ac2 mS (ud_inv hp hg hU) (.of_forall (ud_reach2 hp hg hU hT)) hν hε) (ud_regular hp hg hU hT z0) hε
  simp_rw [normalised_apply] at h
  exact h

/-! ## Rows of a run -/

end

theorem ud_phases {q : ℝ → ℝ} (prior lik : (Fin d → ℝ) → ℝ × (Fin d → ℝ)) (T : ℝ) (L : ℕ) (p : UDParams) (t : ℝ) (ω : Tape) (n : ℕ) : ∀ z k (al : Fl) (i : ℕ),
    (bodyIter (udUpdate prior lik T L Keys.split Keys.splitN (normalAt q d ω) fun k => ω (k, 0)) n (udState prior lik T z al t, ⟨k, i, p⟩)).1.payload.phase
      = tapeIter (udDrawsAt q d) Keys.udNext (udStep prior lik T L p) n k z ω := by
  induction n with
  | zero => intro z k al i; rfl
  | succ n ih =>
    intro z k al i
    obtain ⟨al', h⟩ := udUpdate_eq prior lik T L Keys.split Keys.splitN (normalAt q d ω) (fun k => ω (k, 0)) (fun k => by simp [Keys.splitN]) z al t k i p
    have : bodyIter (udUpdate prior lik T L Keys.split Keys.splitN (normalAt q d ω) fun k => ω (k, 0)) (n + 1) (udState prior lik T z al t, ⟨k, i, p⟩)
      = bodyIter (udUpdate prior lik T L Keys.split Keys.splitN (normalAt q d ω) fun k => ω (k, 0)) n
        (udUpdate prior lik T L Keys.split Keys.splitN (normalAt q d ω) (fun k => ω (k, 0)) (udState prior lik T z al t) ⟨k, i, p⟩) := by
      simp [bodyIter, Function.iterate_succ_apply]
    rw [this, h, ih]; rfl

theorem ud_run_phase (prior lik : (Fin d → ℝ) → ℝ × (Fin d → ℝ)) (T : ℝ) {q : ℝ → ℝ} (L : ℕ) (p : UDParams) (z0 : (Fin d → ℝ) × (Fin d → ℝ)) (al : Fl) (t : ℝ) (key : Keys.Key) {n : ℕ} (hn : 0 < n)
    (ω : Tape) : (runFrom (underdamped Keys.split Keys.splitN (normalAt q d ω) (fun x _ => prior x) (fun x _ => lik x) T L)
        (metropolis Keys.split fun k => ω (k, 0)) n (udState prior lik T z0 al t) ⟨key, 0, p⟩).map (fun s => (s.payload.value, s.payload.momenta))
      = (List.range n).map fun i => tapeIter (udDrawsAt q d) Keys.udNext (udStep prior lik T L p) i key z0 ω := by
  rw [C12_mcmc _ _ (keepsIter_underdamped _ _ _ _ _ _ _) (corrKeepsIter_metropolis _ _), List.map_map]
  have hlen : ((n : ℤ) - 1 - ((0 : ℕ) : ℤ)).toNat + 1 = n := by omega
  rw [hlen]
  have := fun j => ud_phases (q := q) prior lik T L p t ω j z0 key al 0
  unfold udUpdate LfState.phase at this
  simp only [Function.comp_def, this]

/-! ## Properties -/

/-- C111, any positive or infinite friction, one leapfrog step: any finite measurable potential with a measurable gradient field (which need not be its gradient), a posterior of finite mass,
any positive stepsize, any starting position and momenta, any integrable quantity: the mean over the rows of a run tends in probability to the posterior mean. -/
theorem C111_friction_partial (prior lik : (Fin d → ℝ) → ℝ × (Fin d → ℝ)) (T : ℝ) {q : ℝ → ℝ} (hq : IsNormalDraw q) (hg : Measurable (gradField prior lik T)) (hU : Measurable (potAt prior lik T))
    (hT : posTarget prior lik T Set.univ ≠ ∞) {p : UDParams} (hp : Damped p) (z0 : (Fin d → ℝ) × (Fin d → ℝ)) (al : Fl) (t : ℝ) (key : Keys.Key)
    {f : (Fin d → ℝ) → ℝ} (hf : Measurable f) (hfi : Integrable f (posTarget prior lik T)) {ε : ℝ} (hε : 0 < ε) :
    Tendsto (fun n : ℕ => ideal {ω | ε ≤ |rowMean f ((runFrom (underdamped Keys.split Keys.splitN (normalAt q d ω) (fun x _ => prior x) (fun x _ => lik x) T 1)
        (metropolis Keys.split fun k => ω (k, 0)) n (udState prior lik T z0 al t) ⟨key, 0, p⟩).map fun s => s.payload.value)
        - meanUnder (posTarget prior lik T) f|}) atTop (𝓝 0) := by
  have h0 : udTarget prior lik T Set.univ ≠ 0 := by rw [udTarget_univ]; exact posTarget_pos hU
  have hT' : udTarget prior lik T Set.univ ≠ ∞ := by rwa [udTarget_univ]
  have hπ := normalised_prob h0 hT'
  have mS := measurable_udStep prior lik T 1 hg hU p
  have hi : Integrable (fun z : (Fin d → ℝ) × (Fin d → ℝ) => f z.1) (udTarget prior lik T) := by
    have : SFinite (posTarget prior lik T) := by unfold posTarget; infer_instance
    exact hfi.comp_fst (stdNormal d)
  have hmean : ∫ z, f z.1 ∂(normalised (udTarget prior lik T)) = meanUnder (posTarget prior lik T) f := by
    rw [integral_normalised (fun z : (Fin d → ℝ) × (Fin d → ℝ) => f z.1), meanUnder, meanUnder, udTarget_univ]
    congr 1
    have hsf : SFinite (posTarget prior lik T) := by unfold posTarget; infer_instance
    have := integral_fun_fst (μ := posTarget prior lik T) (ν := stdNormal d) f
    rw [udTarget_posTarget]
    simpa using this
  have mf : Measurable fun z : (Fin d → ℝ) × (Fin d → ℝ) => f z.1 := hf.comp measurable_fst
  have hmain := average_regular (π := normalised (udTarget prior lik T)) (udDrawsAt_draws hq) mS (ud_inv hp hg hU) (irreducible_of_reach2 mS (ud_inv hp hg hU) (.of_forall (ud_reach2 hp hg hU hT)))
    (f := fun z : (Fin d → ℝ) × (Fin d → ℝ) => f z.1) mf (hi.smul_measure (ENNReal.inv_ne_top.mpr h0)) (ud_regular hp hg hU hT z0) hε key
  rw [hmean] at hmain
  refine hmain.congr' ?_
  filter_upwards [eventually_ge_atTop 1] with n hn
  congr 1
  ext ω
  simp only [Set.mem_ofPred_eq]
  have e := ud_run_phase (q := q) prior lik T 1 p z0 al t key (n := n) (by omega) ω
  have e2 : (runFrom (underdamped Keys.split Keys.splitN (normalAt q d ω) (fun x _ => prior x) (fun x _ => lik x) T 1)
        (metropolis Keys.split fun k => ω (k, 0)) n (udState prior lik T z0 al t) ⟨key, 0, p⟩).map (fun s => s.payload.value)
      = (List.range n).map fun i => (tapeIter (udDrawsAt q d) Keys.udNext (udStep prior lik T 1 p) i key z0 ω).1 := by
    have := congrArg (List.map Prod.fst) e
    simpa [List.map_map, Function.comp_def] using this
  rw [e2, rowMean_range]
  rfl

/-- C114, any positive or infinite friction, one leapfrog step: for late rows, the probability of every event in positions and momenta is within `ε` of its probability under the posterior with
independent standard normal momenta. -/
theorem C114_friction_partial (prior lik : (Fin d → ℝ) → ℝ × (Fin d → ℝ)) (T : ℝ) {q : ℝ → ℝ} (hq : IsNormalDraw q) (hg : Measurable (gradField prior lik T))
    (hU : Measurable (potAt prior lik T)) (hT : posTarget prior lik T Set.univ ≠ ∞) {p : UDParams} (hp : Damped p) (z0 : (Fin d → ℝ) × (Fin d → ℝ)) (al : Fl) (t : ℝ) {ε : ℝ} (hε : 0 < ε) :
    ∃ J : ℕ, ∀ j ≥ J, ∀ n > j, ∀ (key : Keys.Key) (A : Set ((Fin d → ℝ) × (Fin d → ℝ))), MeasurableSet A →
      |rowProb (fun ω => (runFrom (underdamped Keys.split Keys.splitN (normalAt q d ω) (fun x _ => prior x) (fun x _ => lik x) T 1)
        (metropolis Keys.split fun k => ω (k, 0)) n (udState prior lik T z0 al t) ⟨key, 0, p⟩).map fun s => (s.payload.value, s.payload.momenta)) j A
        - probUnder ((posTarget prior lik T).prod (stdNormal d)) A| ≤ ε := by
  obtain ⟨J, hJ⟩ := ud_tv hp hg hU hT z0 hε
  refine ⟨J, fun j hj n hn key A hA => ?_⟩
  have h := hJ j hj A hA
  rw [← prob_tapeIter (udDrawsAt_draws hq) (measurable_udStep prior lik T 1 hg hU p) hA j key z0, udTarget_posTarget] at h
  convert h using 3
  rw [funext fun ω => ud_run_phase prior lik T 1 p z0 al t key (by omega : 0 < n) ω, rowProb_range _ hn]

/-- C116, any positive or infinite friction, one leapfrog step: the posterior with independent standard normal momenta is the only distribution that an update keeps. -/
theorem C116_friction (prior lik : (Fin d → ℝ) → ℝ × (Fin d → ℝ)) (T : ℝ) {q : ℝ → ℝ} (hq : IsNormalDraw q) (hg : Measurable (gradField prior lik T))
    (hU : Measurable (potAt prior lik T)) (hT : posTarget prior lik T Set.univ ≠ ∞) {p : UDParams} (hp : Damped p) (al : Fl) (t : ℝ) (key : Keys.Key)
    (ν : Measure ((Fin d → ℝ) × (Fin d → ℝ))) [IsProbabilityMeasure ν]
    (hν : ∀ A, MeasurableSet A → ∫⁻ z0, ideal {ω | ∃ v ∈ A, ((runFrom (underdamped Keys.split Keys.splitN (normalAt q d ω) (fun x _ => prior x) (fun x _ => lik x) T 1)
        (metropolis Keys.split fun k => ω (k, 0)) 2 (udState prior lik T z0 al t) ⟨key, 0, p⟩).map fun s => (s.payload.value, s.payload.momenta))[1]? = some v} ∂ν = ν A)
    (A : Set ((Fin d → ℝ) × (Fin d → ℝ))) : (ν A).toReal = probUnder ((posTarget prior lik T).prod (stdNormal d)) A := by
  have h0 : udTarget prior lik T Set.univ ≠ 0 := by rw [udTarget_univ]; exact posTarget_pos hU
  have hT' : udTarget prior lik T Set.univ ≠ ∞ := by rwa [udTarget_univ]
  have hπ := normalised_prob h0 hT'
  have mS := measurable_udStep prior lik T 1 hg hU p
  have hu : ν = normalised (udTarget prior lik T) := unique_of_tv (δ := (stdNormal d).prod unif) mS (fun x0 ε hε => by
      have := ud_tv hp hg hU hT x0 hε
      simp_rw [← normalised_apply] at this
      exact this) fun A hA => by
    rw [← hν A hA]
    refine lintegral_congr fun z0 => ?_
    rw [← prob_tapeIter (udDrawsAt_draws hq) mS hA 1 key z0, ENNReal.ofReal_toReal (measure_ne_top _ _)]
    have e := fun ω => ud_run_phase (q := q) prior lik T 1 p z0 al t key (n := 2) (by norm_num) ω
    simp only [Nat.cast_ofNat] at e
    simp only [e, row_two]
  rw [hu, normalised_apply]
  rfl

/-- A standard normal posterior, friction `1`, from any start. -/
example (x0 : Fin 1 → ℝ) (key : Keys.Key) : ∃ q, IsNormalDraw q ∧
    Tendsto (fun n : ℕ => ideal {ω | 0.01 ≤ |rowMean (fun x => x 0 ^ 2) ((runFrom (underdamped Keys.split Keys.splitN (normalAt q 1 ω) (fun x _ => (x 0 ^ 2 / 2, x)) (fun _ _ => (0, 0)) 1 1)
        (metropolis Keys.split fun k => ω (k, 0)) n (udState (fun x => (x 0 ^ 2 / 2, x)) (fun _ => (0, 0)) 1 (x0, 0) (Fl.fin 1) 0) ⟨key, 0, ⟨1 / 2, some 1⟩⟩).map fun s => s.payload.value)
        - meanUnder (posTarget (fun x : Fin 1 → ℝ => (x 0 ^ 2 / 2, x)) (fun _ => (0, 0)) 1) fun x => x 0 ^ 2|}) atTop (𝓝 0) ∧
    (∃ J : ℕ, ∀ j ≥ J, ∀ n > j, ∀ (key : Keys.Key) (A : Set ((Fin 1 → ℝ) × (Fin 1 → ℝ))), MeasurableSet A →
      |rowProb (fun ω => (runFrom (underdamped Keys.split Keys.splitN (normalAt q 1 ω) (fun x _ => (x 0 ^ 2 / 2, x)) (fun _ _ => (0, 0)) 1 1)
        (metropolis Keys.split fun k => ω (k, 0)) n (udState (fun x => (x 0 ^ 2 / 2, x)) (fun _ => (0, 0)) 1 (x0, 0) (Fl.fin 1) 0) ⟨key, 0, ⟨1 / 2, some 1⟩⟩).map
          fun s => (s.payload.value, s.payload.momenta)) j A - probUnder ((posTarget (fun x : Fin 1 → ℝ => (x 0 ^ 2 / 2, x)) (fun _ => (0, 0)) 1).prod (stdNormal 1)) A| ≤ 0.01) := by
  obtain ⟨q, hq⟩ := exists_isNormalDraw
  have hp : Damped ⟨1 / 2, some 1⟩ := ⟨by norm_num, fun γ h => by cases h; norm_num⟩
  have h1 : Measurable (gradField (fun x : Fin 1 → ℝ => (x 0 ^ 2 / 2, x)) (fun _ => (0, 0)) 1) := by unfold gradField; fun_prop
  have h2 : Measurable (potAt (fun x : Fin 1 → ℝ => (x 0 ^ 2 / 2, x)) (fun _ => (0, 0)) 1) := by unfold potAt; fun_prop
  exact ⟨q, hq, C111_friction_partial _ _ _ hq h1 h2 (by rw [std_posTarget]; exact stdTarget_finite) hp (x0, 0) _ _ key (by fun_prop) (by rw [std_posTarget]; exact stdTarget_integrable) (by norm_num),
    C114_friction_partial _ _ _ hq h1 h2 (by rw [std_posTarget]; exact stdTarget_finite) hp (x0, 0) _ _ (by norm_num)⟩

/-- The hypotheses of `C116_friction` are met: the normalised posterior with standard normal momenta is kept. -/
example (key : Keys.Key) : ∃ q, IsNormalDraw q ∧ ∀ A, MeasurableSet A →
    ∫⁻ z0, ideal {ω | ∃ v ∈ A, ((runFrom (underdamped Keys.split Keys.splitN (normalAt q 1 ω) (fun x _ => (x 0 ^ 2 / 2, x)) (fun _ _ => (0, 0)) 1 1)
        (metropolis Keys.split fun k => ω (k, 0)) 2 (udState (fun x => (x 0 ^ 2 / 2, x)) (fun _ => (0, 0)) 1 z0 (Fl.fin 1) 0) ⟨key, 0, ⟨1 / 2, some 1⟩⟩).map
          fun s => (s.payload.value, s.payload.momenta))[1]? = some v} ∂(normalised (udTarget (fun x : Fin 1 → ℝ => (x 0 ^ 2 / 2, x)) (fun _ => (0, 0)) 1))
      = normalised (udTarget (fun x : Fin 1 → ℝ => (x 0 ^ 2 / 2, x)) (fun _ => (0, 0)) 1) A := by
  obtain ⟨q, hq⟩ := exists_isNormalDraw
  have hp : Damped ⟨1 / 2, some 1⟩ := ⟨by norm_num, fun γ h => by cases h; norm_num⟩
  have h1 : Measurable (gradField (fun x : Fin 1 → ℝ => (x 0 ^ 2 / 2, x)) (fun _ => (0, 0)) 1) := by unfold gradField; fun_prop
  have h2 : Measurable (potAt (fun x : Fin 1 → ℝ => (x 0 ^ 2 / 2, x)) (fun _ => (0, 0)) 1) := by unfold potAt; fun_prop
  refine ⟨q, hq, fun A hA => ?_⟩
  have mS := measurable_udStep (fun x : Fin 1 → ℝ => (x 0 ^ 2 / 2, x)) (fun _ => (0, 0)) 1 1 h1 h2 ⟨1 / 2, some 1⟩
  have hinv := ud_inv hp h1 h2 (A.indicator 1) (measurable_one.indicator hA)
  rw [lintegral_indicator_one hA] at hinv
  refine Eq.trans (lintegral_congr fun z0 => ?_) hinv
  have e := fun ω => ud_run_phase (q := q) (fun x : Fin 1 → ℝ => (x 0 ^ 2 / 2, x)) (fun _ => (0, 0)) 1 1 ⟨1 / 2, some 1⟩ z0 (Fl.fin 1) 0 key (n := 2) (by norm_num) ω
  simp only [Nat.cast_ofNat] at e
  simp only [e, row_two]
  have h3 := ofReal_hit (δ := (stdNormal 1).prod unif) mS hA 1 z0
  rw [← prob_tapeIter (udDrawsAt_draws (d := 1) hq) mS hA 1 key z0, ENNReal.ofReal_toReal (measure_ne_top _ _)] at h3
  exact h3

end Mocat.Props
