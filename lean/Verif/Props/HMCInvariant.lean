import Verif.Lemmas.HMCInvariant
import Verif.Lemmas.Stream
import Verif.Props.Leapfrog
import Verif.Props.Mcmc
/-!
# C19, C20: Underdamped + Metropolis leaves `exp (-potential)` times a standard normal invariant
-/
namespace Mocat.Props
open Mocat Mocat.Mcmc MeasureTheory ProbabilityTheory Set Mocat.Meas
open scoped ENNReal

variable {K : Type*} {d : ℕ}

/-! ## C20 -/

/-- Admissible parameters: non-negative stepsize and friction (`none` is infinite friction, which needs a
positive stepsize: `inf * 0` is NaN in the code). -/
structure Admissible (p : UDParams) : Prop where
  stepsize : 0 ≤ p.stepsize
  friction : ∀ γ, p.friction = some γ → 0 ≤ γ
  infinite : p.friction = none → 0 < p.stepsize

theorem decay_sq (p : UDParams) (hp : Admissible p) :
    decay 1 p ^ 2 + Real.sqrt (1 - decay 2 p) ^ 2 = 1 := by
  obtain ⟨ε, f⟩ := p
  cases f with
  | none => simp [decay]
  | some γ =>
    have hγ := hp.friction γ rfl
    have hε := hp.stepsize
    simp only [decay] at *
    have h : Real.exp (-2 * γ * ε) ≤ 1 := Real.exp_le_one_iff.mpr (by nlinarith [mul_nonneg hγ hε])
    rw [Real.sq_sqrt (by linarith), ← Real.exp_nat_mul]
    rw [show ((2 : ℕ) : ℝ) * (-1 * γ * ε) = -2 * γ * ε by push_cast; ring]
    ring

/-- C20: the momenta refresh (negation, damping, fresh noise) of a standard normal with independent
standard normal noise is standard normal, in every dimension, for all admissible parameters. -/
theorem C20_refresh (p : UDParams) (hp : Admissible p) :
    ((stdNormal d).prod (stdNormal d)).map (fun z => refreshMomenta p z.1 z.2) = stdNormal d :=
  refresh_nd (decay 1 p) (Real.sqrt (1 - decay 2 p)) (decay_sq p hp)

/-- Non-vacuity of C20: finite and infinite friction. -/
example : Admissible ⟨1 / 2, some 3⟩ ∧ Admissible ⟨1 / 2, none⟩ :=
  ⟨⟨by norm_num, fun γ h => by cases h; norm_num, fun h => by cases h⟩,
   ⟨by norm_num, fun γ h => (nomatch h), fun _ => by norm_num⟩⟩

/-! ## C19 -/

section
variable (prior lik : (Fin d → ℝ) → ℝ × (Fin d → ℝ)) (T : ℝ) (L : ℕ)
  (split : K → K × K) (splitN : K → ℕ → K × List K) (normal : K → Fin d → ℝ) (uniform : K → ℝ)

/-- The potential of the scenario. -/
def potAt (x : Fin d → ℝ) : ℝ := (prior x).1 + T * (lik x).1

/-- The state of an Underdamped run at `z = (position, momenta)`. -/
def udState (z : (Fin d → ℝ) × (Fin d → ℝ)) (al : Fl) (t : ℝ) : State (LfState d) :=
  ⟨stateAt prior lik T z.1 z.2, al, t⟩

/-- Underdamped with Metropolis. -/
noncomputable def udUpdate : State (LfState d) → Extra K UDParams → State (LfState d) × Extra K UDParams :=
  update (underdamped split splitN normal (fun x _ => prior x) (fun x _ => lik x) T L) (metropolis split uniform)

/-- Target: `exp (-potential)` for the position, standard normal momenta. -/
noncomputable def udTarget : Measure ((Fin d → ℝ) × (Fin d → ℝ)) :=
  (volume.withDensity fun x => ENNReal.ofReal (Real.exp (-potAt prior lik T x))).prod (stdNormal d)

/-- The draws of one update as functions of its key: noise of the refresh and uniform. -/
def udDraws (k : K) : (Fin d → ℝ) × ℝ :=
  (normal (split k).2, uniform (split (splitN (split k).1 L).1).2)

/-- The key of the next update. -/
def udNextKey (k : K) : K := (split (splitN (split k).1 L).1).1

/-- Total energy. -/
noncomputable def energy (z : (Fin d → ℝ) × (Fin d → ℝ)) : ℝ :=
  potAt prior lik T z.1 + Gaussian.gaussianPotentialDefault z.2

/-- One update on phase space with noise `ξ` and uniform `u`. -/
noncomputable def udStep (p : UDParams) (z : (Fin d → ℝ) × (Fin d → ℝ)) (w : (Fin d → ℝ) × ℝ) :
    (Fin d → ℝ) × (Fin d → ℝ) :=
  let z1 := (z.1, refreshMomenta p z.2 w.1)
  if w.2 < min 1 (Real.exp (-energy prior lik T (hmcMap p.stepsize (gradField prior lik T) L z1)
      + energy prior lik T z1)) then hmcMap p.stepsize (gradField prior lik T) L z1 else z1

theorem state_eq_udState (s : State (LfState d)) (hs : Consistent prior lik T s.payload) :
    s = udState prior lik T s.payload.phase s.alpha s.tuned := by
  obtain ⟨p, a, t⟩ := s
  have : p = stateAt prior lik T p.phase.1 p.phase.2 :=
    consistent_ext prior lik hs (stateAt_consistent prior lik T _ _) rfl
  simp only [udState]; rw [← this]

theorem udUpdate_eq (hlen : ∀ k, (splitN k L).2.length = L) (z) (al : Fl) (t : ℝ) (k : K) (i : ℕ) (p : UDParams) :
    ∃ al', udUpdate prior lik T L split splitN normal uniform (udState prior lik T z al t) ⟨k, i, p⟩
      = (udState prior lik T (udStep prior lik T L p z (udDraws L split splitN normal uniform k)) al' t,
         ⟨udNextKey L split splitN k, i + 1, p⟩) := by
  set smp := underdamped split splitN normal (fun x _ => prior x) (fun x _ => lik x) T L with hsmp
  set z1 : (Fin d → ℝ) × (Fin d → ℝ) := (z.1, refreshMomenta p z.2 (normal (split k).2)) with hz1
  have halw : smp.always (udState prior lik T z al t) ⟨k, i + 1, p⟩
      = (udState prior lik T z1 al t, ⟨(split k).1, i + 1, p⟩) := rfl
  have hph := proposal_phase prior lik split splitN normal T L hlen (udState prior lik T z1 al t)
    ⟨(split k).1, i + 1, p⟩ (stateAt_consistent prior lik T _ _)
  have hprop : smp.proposal (udState prior lik T z1 al t) ⟨(split k).1, i + 1, p⟩
      = (udState prior lik T (hmcMap p.stepsize (gradField prior lik T) L z1) al t,
        ⟨(splitN (split k).1 L).1, i + 1, p⟩) := by
    refine Prod.ext ?_ rfl
    rw [state_eq_udState prior lik T _ hph.1, hph.2]; rfl
  have hupd : udUpdate prior lik T L split splitN normal uniform (udState prior lik T z al t) ⟨k, i, p⟩
    = metropolis split uniform smp (udState prior lik T z1 al t) ⟨(split k).1, i + 1, p⟩
      (udState prior lik T (hmcMap p.stepsize (gradField prior lik T) L z1) al t)
      ⟨(splitN (split k).1 L).1, i + 1, p⟩ := by
    have : udUpdate prior lik T L split splitN normal uniform (udState prior lik T z al t) ⟨k, i, p⟩
      = metropolis split uniform smp (udState prior lik T z1 al t) ⟨(split k).1, i + 1, p⟩
      (smp.proposal (udState prior lik T z1 al t) ⟨(split k).1, i + 1, p⟩).1
      (smp.proposal (udState prior lik T z1 al t) ⟨(split k).1, i + 1, p⟩).2 := rfl
    rw [this, hprop]
  obtain ⟨a, ha, h1, h2⟩ := C14_all_or_nothing split uniform smp (udState prior lik T z1 al t)
    ⟨(split k).1, i + 1, p⟩ (udState prior lik T (hmcMap p.stepsize (gradField prior lik T) L z1) al t)
    ⟨(splitN (split k).1 L).1, i + 1, p⟩
  have hacc : a = Fl.fin (min 1 (Real.exp (-energy prior lik T (hmcMap p.stepsize (gradField prior lik T) L z1)
      + energy prior lik T z1))) := by
    have e : smp.acceptance (udState prior lik T z1 al t) ⟨(split k).1, i + 1, p⟩
        (udState prior lik T (hmcMap p.stepsize (gradField prior lik T) L z1) al t)
        ⟨(splitN (split k).1 L).1, i + 1, p⟩
        = Fl.minimum (Fl.fin 1) (Fl.exp (Fl.fin (-energy prior lik T (hmcMap p.stepsize (gradField prior lik T) L z1)
          + energy prior lik T z1))) := by
      simp only [hsmp, underdamped, energy, udState, stateAt, potAt]
      congr 3; ring
    have e2 : ∀ r : ℝ, Fl.minimum (Fl.fin 1) (Fl.exp (Fl.fin r)) = Fl.fin (min 1 (Real.exp r)) := by
      intro r
      simp only [Fl.exp, Fl.minimum]
      by_cases h : Real.exp r < 1
      · rw [min_eq_right h.le]; exact if_pos h
      · rw [min_eq_left (not_lt.mp h)]; exact if_neg h
    rw [ha, e, e2]; rfl
  rw [hupd]
  refine ⟨a, ?_⟩
  by_cases hlt : (udDraws L split splitN normal uniform k).2
      < min 1 (Real.exp (-energy prior lik T (hmcMap p.stepsize (gradField prior lik T) L z1)
      + energy prior lik T z1))
  · rw [h1 (by rw [hacc]; exact hlt)]
    have : udStep prior lik T L p z (udDraws L split splitN normal uniform k)
      = hmcMap p.stepsize (gradField prior lik T) L z1 := if_pos hlt
    rw [this]; rfl
  · rw [h2 (by rw [hacc]; exact hlt)]
    have : udStep prior lik T L p z (udDraws L split splitN normal uniform k) = z1 := if_neg hlt
    rw [this]; rfl

/-- C19: the proposal preserves volume on phase space, for every measurable gradient field. -/
theorem C19_volume (hlen : ∀ k, (splitN k L).2.length = L) (hg : Measurable (gradField prior lik T))
    (e : Extra K UDParams) (al : Fl) (t : ℝ) :
    MeasurePreserving (fun z : (Fin d → ℝ) × (Fin d → ℝ) =>
      ((underdamped split splitN normal (fun x _ => prior x) (fun x _ => lik x) T L).proposal
        (udState prior lik T z al t) e).1.payload.phase) volume volume := by
  have h : (fun z : (Fin d → ℝ) × (Fin d → ℝ) =>
      ((underdamped split splitN normal (fun x _ => prior x) (fun x _ => lik x) T L).proposal
        (udState prior lik T z al t) e).1.payload.phase)
      = hmcMap e.params.stepsize (gradField prior lik T) L := by
    funext z
    exact (proposal_phase prior lik split splitN normal T L hlen (udState prior lik T z al t) e
      (stateAt_consistent prior lik T _ _)).2
  rw [h]
  exact measurePreserving_hmcMap _ _ hg L

/-- `exp` of minus the default Gaussian potential is the standard normal density. -/
theorem exp_neg_gaussianPotentialDefault (x : Fin d → ℝ) :
    Real.exp (-Gaussian.gaussianPotentialDefault x) = ∏ i, gaussianPDFReal 0 1 (x i) := by
  have hpi : 0 < 2 * Real.pi := by positivity
  have e1 : Gaussian.gaussianPotentialDefault x = ∑ i, (x i ^ 2 / 2 + Real.log (2 * Real.pi) / 2) := by
    simp only [Gaussian.gaussianPotentialDefault, Gaussian.gaussianPotential, Gaussian.defaultPrec,
      Gaussian.PArg.expand, Gaussian.defaultDet, Gaussian.negLogZ, Gaussian.mvGaussianPotentialDiag]
    rw [Finset.sum_add_distrib, Finset.mul_sum]
    simp only [Pi.zero_apply, sub_zero, mul_one, Finset.prod_const_one, Real.log_one, Finset.sum_const,
      Finset.card_univ, Fintype.card_fin, nsmul_eq_mul]
    congr 1
    · exact Finset.sum_congr rfl fun i _ => by ring
    · ring
  rw [e1, ← Finset.sum_neg_distrib, Real.exp_sum]
  refine Finset.prod_congr rfl fun i _ => ?_
  rw [gaussianPDFReal]
  simp only [NNReal.coe_one, mul_one, sub_zero]
  rw [neg_add, Real.exp_add, mul_comm, Real.sqrt_eq_rpow, ← Real.rpow_neg hpi.le, Real.rpow_def_of_pos hpi]
  congr 2 <;> ring

theorem measurable_energy (hU : Measurable (potAt prior lik T)) : Measurable (energy prior lik T) := by
  have : Measurable (Gaussian.gaussianPotentialDefault : (Fin d → ℝ) → ℝ) := by
    have h : (Gaussian.gaussianPotentialDefault : (Fin d → ℝ) → ℝ)
        = fun x => -Real.log (∏ i, gaussianPDFReal 0 1 (x i)) := by
      funext x; rw [← exp_neg_gaussianPotentialDefault, Real.log_exp, neg_neg]
    rw [h]
    have := measurable_gaussianPDFReal 0 1
    fun_prop
  exact (hU.comp measurable_fst).add (this.comp measurable_snd)

theorem udTarget_eq (hU : Measurable (potAt prior lik T)) :
    udTarget prior lik T = volume.withDensity fun z => ENNReal.ofReal (Real.exp (-energy prior lik T z)) := by
  unfold udTarget
  rw [stdNormal_eq_withDensity, prod_withDensity]
  · congr 1
    funext z
    rw [← exp_neg_gaussianPotentialDefault, ← ENNReal.ofReal_mul (Real.exp_pos _).le, ← Real.exp_add, energy, neg_add]
  · exact ENNReal.measurable_ofReal.comp (Real.measurable_exp.comp hU.neg)
  · have := measurable_gaussianPDFReal 0 1
    fun_prop

theorem measurable_udStep (hg : Measurable (gradField prior lik T)) (hU : Measurable (potAt prior lik T))
    (p : UDParams) : Measurable (Function.uncurry (udStep prior lik T L p)) := by
  have mE := measurable_energy prior lik T hU
  have mM := (measurePreserving_hmcMap p.stepsize (gradField prior lik T) hg L).measurable
  have m1 : Measurable fun q : ((Fin d → ℝ) × (Fin d → ℝ)) × ((Fin d → ℝ) × ℝ) =>
      (q.1.1, refreshMomenta p q.1.2 q.2.1) := by
    unfold refreshMomenta; fun_prop
  simp only [Function.uncurry_def, udStep]
  refine Measurable.ite ?_ (mM.comp m1) m1
  refine measurableSet_lt (measurable_snd.comp measurable_snd) ?_
  exact measurable_const.min (Real.measurable_exp.comp
    ((mE.comp (mM.comp m1)).neg.add (mE.comp m1)))

theorem udStep_invariant (hg : Measurable (gradField prior lik T)) (hU : Measurable (potAt prior lik T))
    (p : UDParams) (hp : Admissible p) (f : (Fin d → ℝ) × (Fin d → ℝ) → ℝ≥0∞) (hf : Measurable f) :
    ∫⁻ z, ∫⁻ w, f (udStep prior lik T L p z w) ∂((stdNormal d).prod unif) ∂(udTarget prior lik T)
      = ∫⁻ z, f z ∂(udTarget prior lik T) := by
  have mE := measurable_energy prior lik T hU
  have hM := measurePreserving_hmcMap p.stepsize (gradField prior lik T) hg L
  have mM := hM.measurable
  have mS := measurable_udStep prior lik T L hg hU p
  -- the accept/reject half
  set G : (Fin d → ℝ) × (Fin d → ℝ) → ℝ≥0∞ := fun z => ∫⁻ u, f (if u < min 1 (Real.exp
      (-energy prior lik T (hmcMap p.stepsize (gradField prior lik T) L z) + energy prior lik T z))
      then hmcMap p.stepsize (gradField prior lik T) L z else z) ∂unif with hG
  have mG : Measurable G := by
    refine Measurable.lintegral_prod_right (f := fun (q : (Fin d → ℝ) × (Fin d → ℝ)) (u : ℝ) =>
      f (if u < min 1 (Real.exp
      (-energy prior lik T (hmcMap p.stepsize (gradField prior lik T) L q) + energy prior lik T q))
      then hmcMap p.stepsize (gradField prior lik T) L q else q)) ?_
    refine hf.comp (Measurable.ite ?_ (mM.comp measurable_fst) measurable_fst)
    exact measurableSet_lt measurable_snd (measurable_const.min (Real.measurable_exp.comp
      ((mE.comp (mM.comp measurable_fst)).neg.add (mE.comp measurable_fst))))
  have hMH : ∫⁻ z, G z ∂(udTarget prior lik T) = ∫⁻ z, f z ∂(udTarget prior lik T) := by
    rw [udTarget_eq prior lik T hU]
    exact involution_metropolis volume _ hM (hmcMap_invol _ _ _) _ mE f hf
  rw [← hMH]
  -- the refresh half
  have e1 : ∀ z, ∫⁻ w, f (udStep prior lik T L p z w) ∂((stdNormal d).prod unif)
      = ∫⁻ ξ, G (z.1, refreshMomenta p z.2 ξ) ∂(stdNormal d) := by
    intro z
    have mz : Measurable fun w => f (udStep prior lik T L p z w) :=
      hf.comp (mS.comp (measurable_const.prodMk measurable_id))
    rw [lintegral_prod _ mz.aemeasurable]
    rfl
  simp_rw [e1]
  have mR : Measurable fun q : (Fin d → ℝ) × (Fin d → ℝ) => refreshMomenta p q.1 q.2 := by
    unfold refreshMomenta; fun_prop
  unfold udTarget
  rw [lintegral_prod, lintegral_prod _ mG.aemeasurable]
  · refine lintegral_congr fun x => ?_
    have mGx : Measurable fun q => G (x, q) := mG.comp (measurable_const.prodMk measurable_id)
    simp only
    rw [← lintegral_prod (f := fun q : (Fin d → ℝ) × (Fin d → ℝ) => G (x, refreshMomenta p q.1 q.2))
      (mGx.comp mR).aemeasurable]
    conv_rhs => rw [← C20_refresh p hp, lintegral_map mGx mR]
  · refine Measurable.aemeasurable ?_
    refine Measurable.lintegral_prod_right (f := fun (q : (Fin d → ℝ) × (Fin d → ℝ)) (ξ : Fin d → ℝ) =>
      G (q.1, refreshMomenta p q.2 ξ)) ?_
    exact mG.comp ((measurable_fst.comp measurable_fst).prodMk
      (mR.comp ((measurable_snd.comp measurable_fst).prodMk measurable_snd)))

variable [MeasurableSpace K] (κ : Measure K)

/-- C19, one update: momenta refresh, `L` leapfrog steps, flip, accept/reject. If the key law makes the
refresh noise standard normal and the uniform independent, a state with position distributed as
`exp (-potential)` and independent standard normal momenta keeps that joint distribution. The gradient field
need not be the gradient of the potential: any measurable field will do. -/
theorem C19_update_invariant (hlen : ∀ k, (splitN k L).2.length = L) (hg : Measurable (gradField prior lik T))
    (hU : Measurable (potAt prior lik T)) (hmeas : Measurable (udDraws L split splitN normal uniform))
    (hlaw : κ.map (udDraws L split splitN normal uniform) = (stdNormal d).prod unif)
    (p : UDParams) (hp : Admissible p) (i : ℕ) (al : Fl) (t : ℝ)
    (f : (Fin d → ℝ) × (Fin d → ℝ) → ℝ≥0∞) (hf : Measurable f) :
    ∫⁻ z, ∫⁻ k, f (udUpdate prior lik T L split splitN normal uniform
        (udState prior lik T z al t) ⟨k, i, p⟩).1.payload.phase ∂κ ∂(udTarget prior lik T)
      = ∫⁻ z, f z ∂(udTarget prior lik T) := by
  have hval : ∀ z k, (udUpdate prior lik T L split splitN normal uniform
        (udState prior lik T z al t) ⟨k, i, p⟩).1.payload.phase
      = udStep prior lik T L p z (udDraws L split splitN normal uniform k) := by
    intro z k
    obtain ⟨al', h⟩ := udUpdate_eq prior lik T L split splitN normal uniform hlen z al t k i p
    rw [h]; rfl
  simp_rw [hval]
  rw [← udStep_invariant prior lik T L hg hU p hp f hf]
  refine lintegral_congr fun z => ?_
  rw [← hlaw, lintegral_map _ hmeas]
  exact hf.comp ((measurable_udStep prior lik T L hg hU p).comp (measurable_const.prodMk measurable_id))

/-- C19, whole chains: under the fresh-randomness assumption on keys, after any number of updates the
joint distribution of position and momenta is unchanged. -/
theorem C19_chain_invariant [IsProbabilityMeasure κ] (hlen : ∀ k, (splitN k L).2.length = L)
    (hg : Measurable (gradField prior lik T)) (hU : Measurable (potAt prior lik T))
    (hmeas : Measurable (udDraws L split splitN normal uniform)) (hmeas' : Measurable (udNextKey L split splitN))
    (hlaw : κ.map (fun k => (udDraws L split splitN normal uniform k, udNextKey L split splitN k))
      = ((stdNormal d).prod unif).prod κ)
    (p : UDParams) (hp : Admissible p) (n i : ℕ) (al : Fl) (t : ℝ)
    (f : (Fin d → ℝ) × (Fin d → ℝ) → ℝ≥0∞) (hf : Measurable f) :
    ∫⁻ z, ∫⁻ k, f (bodyIter (udUpdate prior lik T L split splitN normal uniform) n
        (udState prior lik T z al t, ⟨k, i, p⟩)).1.payload.phase ∂κ ∂(udTarget prior lik T)
      = ∫⁻ z, f z ∂(udTarget prior lik T) := by
  have hval : ∀ (n : ℕ) z k (al : Fl) (i : ℕ),
      (bodyIter (udUpdate prior lik T L split splitN normal uniform) n
        (udState prior lik T z al t, ⟨k, i, p⟩)).1.payload.phase
      = (keyIter (udDraws L split splitN normal uniform) (udNextKey L split splitN) (udStep prior lik T L p) n (z, k)).1 := by
    intro n
    induction n with
    | zero => intro z k al i; rfl
    | succ n ih =>
      intro z k al i
      obtain ⟨al', h⟩ := udUpdate_eq prior lik T L split splitN normal uniform hlen z al t k i p
      have : bodyIter (udUpdate prior lik T L split splitN normal uniform) (n + 1)
          (udState prior lik T z al t, ⟨k, i, p⟩)
        = bodyIter (udUpdate prior lik T L split splitN normal uniform) n
          (udUpdate prior lik T L split splitN normal uniform (udState prior lik T z al t) ⟨k, i, p⟩) := by
        simp [bodyIter, Function.iterate_succ_apply]
      rw [this, h, ih]; rfl
  simp_rw [hval]
  exact chain_invariant _ κ _ _ hmeas _ hmeas' hlaw _ (measurable_udStep prior lik T L hg hU p)
    (fun f hf => udStep_invariant prior lik T L hg hU p hp f hf) n f hf

end

theorem two_draws (d : ℕ) :
    (Measure.infinitePi fun _ : ℕ => (stdNormal d).prod unif).map
      (fun k => (((k 0).1, (k 1).2), fun n => k (n + 2)))
      = ((stdNormal d).prod unif).prod (Measure.infinitePi fun _ : ℕ => (stdNormal d).prod unif) := by
  set mu := (stdNormal d).prod unif
  set κ := Measure.infinitePi fun _ : ℕ => mu with hκ
  have h1 : κ.map (fun k => (k 0, (k 1, fun n => k (n + 2)))) = mu.prod (mu.prod κ) := by
    have : (fun k : ℕ → (Fin d → ℝ) × ℝ => (k 0, (k 1, fun n => k (n + 2))))
        = (Prod.map id (fun k : ℕ → (Fin d → ℝ) × ℝ => (k 0, fun n => k (n + 1)))) ∘ (fun k => (k 0, fun n => k (n + 1))) := rfl
    rw [this, ← Measure.map_map (by fun_prop) (by fun_prop), hκ, stream_map mu,
      ← Measure.map_prod_map _ _ (by fun_prop) (by fun_prop), stream_map mu, Measure.map_id]
  have h2 : (fun k : ℕ → (Fin d → ℝ) × ℝ => (((k 0).1, (k 1).2), fun n => k (n + 2)))
      = MeasurableEquiv.prodAssoc.symm ∘ (Prod.map Prod.fst (Prod.map Prod.snd id)) ∘
        (fun k => (k 0, (k 1, fun n => k (n + 2)))) := rfl
  rw [h2, ← Measure.map_map (by fun_prop) (by fun_prop), ← Measure.map_map (by fun_prop) (by fun_prop), h1,
    ← Measure.map_prod_map _ _ (by fun_prop) (by fun_prop), ← Measure.map_prod_map _ _ (by fun_prop) (by fun_prop),
    Measure.map_id, Measure.map_fst_prod, Measure.map_snd_prod]
  simp only [measure_univ, one_smul]
  rw [← Measure.prodAssoc_prod, MeasurableEquiv.map_symm_map]

/-- Non-vacuity of C19_chain_invariant: a quadratic target in dimension 2 with three leapfrog steps, finite
friction, and keys that are infinite streams of independent draws. -/
example (n : ℕ) (f : (Fin 2 → ℝ) × (Fin 2 → ℝ) → ℝ≥0∞) (hf : Measurable f) :
    let prior : (Fin 2 → ℝ) → ℝ × (Fin 2 → ℝ) := fun x => (∑ i, x i ^ 2, fun i => 2 * x i)
    let lik : (Fin 2 → ℝ) → ℝ × (Fin 2 → ℝ) := fun _ => (0, 0)
    ∫⁻ z, ∫⁻ k, f (bodyIter (udUpdate prior lik 1 3
        (fun k : ℕ → (Fin 2 → ℝ) × ℝ => (fun n => k (n + 1), k)) (fun k m => (k, List.replicate m k))
        (fun k => (k 0).1) (fun k => (k 0).2)) n
        (udState prior lik 1 z (Fl.fin 1) 0, ⟨k, 0, ⟨1 / 2, some 3⟩⟩)).1.payload.phase
        ∂(Measure.infinitePi fun _ => (stdNormal 2).prod unif) ∂(udTarget prior lik 1)
      = ∫⁻ z, f z ∂(udTarget prior lik 1) := by
  intro prior lik
  refine C19_chain_invariant prior lik 1 3 _ _ _ _ _ (fun k => by simp) ?_ ?_ ?_ ?_ ?_ _
    ⟨by norm_num, fun γ h => by cases h; norm_num, fun h => by cases h⟩ n 0 _ _ f hf
  · unfold gradField; simp only [prior, lik]; fun_prop
  · unfold potAt; simp only [prior, lik]; fun_prop
  · unfold udDraws; fun_prop
  · exact measurable_pi_lambda _ fun n => measurable_pi_apply (n + 1 + 1)
  · exact two_draws 2

end Mocat.Props
