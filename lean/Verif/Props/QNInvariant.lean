import Verif.Lemmas.QN
import Verif.Lemmas.GaussMap
import Verif.Props.QN
import Verif.Props.HMCInvariant
/-!
# C70: quasi-Newton proposals are reversible; with the memory held fixed they keep the target

`B` is the Hessian approximation held in the memory (the mass matrix); momenta are `N(0, B)`.
-/
namespace Mocat.Props
open Mocat Mocat.Mcmc Mocat.Bfgs Mocat.QN Matrix MeasureTheory Set Mocat.Meas Mocat.Spec ProbabilityTheory Mocat.MatGauss
open scoped ENNReal

variable {K : Type*} {d : ℕ}

section
variable (prior lik : (Fin d → ℝ) → ℝ × (Fin d → ℝ)) (T : ℝ) (L : ℕ) (r : Option ℝ)
  (split : K → K × K) (splitN : K → ℕ → K × List K) (normal : K → Fin d → ℝ)
  (argsort : Option (List Fl → List ℕ))

theorem qstep_consistent (ε T : ℝ) (pq : List (Vec d × Vec d)) (dg : Diag d) (s : LfState d) (k : K) :
    Consistent prior lik T (bfgsLeapfrogStep (fun x _ => prior x) (fun x _ => lik x) ε T pq dg s k).1 :=
  ⟨rfl, rfl, rfl, rfl, rfl, rfl⟩

theorem qstep_phase (ε T : ℝ) (mem : Memory d) (s : LfState d) (k : K) (hs : Consistent prior lik T s) :
    (bfgsLeapfrogStep (fun x _ => prior x) (fun x _ => lik x) ε T mem.pq mem.diag.inv s k).1.phase
      = qlfMap ε (gradField prior lik T) (velocity mem) s.phase := by
  have h := hs.pot_grad
  simp only [bfgsLeapfrogStep, LfState.phase, qlfMap, gradField, h, velocity]

theorem qfoldl_consistent (ε T : ℝ) (mem : Memory d) (s : LfState d) (keys : List K) (hs : Consistent prior lik T s) :
    let q := keys.foldl (fun s k =>
      (bfgsLeapfrogStep (fun x _ => prior x) (fun x _ => lik x) ε T mem.pq mem.diag.inv s k).1) s
    Consistent prior lik T q ∧
      q.phase = (qlfMap ε (gradField prior lik T) (velocity mem))^[keys.length] s.phase := by
  induction keys generalizing s with
  | nil => exact ⟨hs, rfl⟩
  | cons k ks ih =>
    have h := ih _ (qstep_consistent prior lik ε T mem.pq mem.diag.inv s k)
    refine ⟨h.1, ?_⟩
    simp only [List.foldl_cons, List.length_cons, Function.iterate_succ_apply]
    rw [h.2, qstep_phase prior lik ε T mem s k hs]

theorem qproposal_phase (hlen : ∀ k, (splitN k L).2.length = L) (s : State (QNState d)) (e : Extra K QNParams)
    (hs : Consistent prior lik T s.payload.lf) :
    let p := ((qnUnderdamped split splitN normal argsort (fun x _ => prior x) (fun x _ => lik x) T L r).proposal s e).1.payload
    p.memory = s.payload.memory ∧ Consistent prior lik T p.lf ∧
    p.lf.phase = qhmcMap e.params.ud.stepsize (gradField prior lik T) (velocity s.payload.memory) L s.payload.lf.phase := by
  have h := qfoldl_consistent prior lik e.params.ud.stepsize T s.payload.memory s.payload.lf (splitN e.key L).2 hs
  rw [hlen] at h
  simp only [qnUnderdamped]
  rw [bfgsLeapfrog_last]
  refine ⟨trivial, ?_, ?_⟩
  · obtain ⟨⟨h1, h2, h3, h4, h5, h6⟩, -⟩ := h
    refine ⟨h1, h2, h3, h4, ?_, ?_⟩
    · simp only [h1, h3]
    · simp only [h2, h4]
  · rw [qhmcMap, ← h.2]; rfl

/-- C70: with any memory (whatever its factors), from any consistent state, the proposal applied to its own output gives
back the starting state: position, momenta, potentials, gradients and memory. -/
theorem C70_involution (hlen : ∀ k, (splitN k L).2.length = L) (s : State (QNState d)) (e e' : Extra K QNParams)
    (hε : e'.params.ud.stepsize = e.params.ud.stepsize) (hs : Consistent prior lik T s.payload.lf) :
    let smp := qnUnderdamped split splitN normal argsort (fun x _ => prior x) (fun x _ => lik x) T L r
    (smp.proposal (smp.proposal s e).1 e').1.payload = s.payload := by
  intro smp
  have h1 := qproposal_phase prior lik T L r split splitN normal argsort hlen s e hs
  have h2 := qproposal_phase prior lik T L r split splitN normal argsort hlen (smp.proposal s e).1 e' h1.2.1
  have hm : (smp.proposal (smp.proposal s e).1 e').1.payload.memory = s.payload.memory := h2.1.trans h1.1
  have hl : (smp.proposal (smp.proposal s e).1 e').1.payload.lf = s.payload.lf := by
    refine consistent_ext prior lik h2.2.1 hs ?_
    rw [h2.2.2, h1.2.2, h1.1, hε, qhmcMap, qhmcMap, qlf_iter_flip _ _ _ (velocity_neg _)]
  cases hq : (smp.proposal (smp.proposal s e).1 e').1.payload with
  | mk a b =>
    rw [hq] at hm hl
    cases hp : s.payload with
    | mk a' b' => rw [hp] at hm hl; simp only at hm hl; rw [hm, hl]

/-- State at `z = (position, momenta)` with a given memory. -/
def qnAt (mem : Memory d) (z : (Fin d → ℝ) × (Fin d → ℝ)) (al : Fl) (t : ℝ) : State (QNState d) :=
  ⟨⟨stateAt prior lik T z.1 z.2, mem⟩, al, t⟩

/-- C70: the proposal preserves volume on phase space. -/
theorem C70_volume (hlen : ∀ k, (splitN k L).2.length = L) (hg : Measurable (gradField prior lik T))
    (mem : Memory d) (e : Extra K QNParams) (al : Fl) (t : ℝ) :
    MeasurePreserving (fun z : (Fin d → ℝ) × (Fin d → ℝ) =>
      ((qnUnderdamped split splitN normal argsort (fun x _ => prior x) (fun x _ => lik x) T L r).proposal
        (qnAt prior lik T mem z al t) e).1.payload.lf.phase) volume volume := by
  have h : (fun z : (Fin d → ℝ) × (Fin d → ℝ) =>
      ((qnUnderdamped split splitN normal argsort (fun x _ => prior x) (fun x _ => lik x) T L r).proposal
        (qnAt prior lik T mem z al t) e).1.payload.lf.phase)
      = qhmcMap e.params.ud.stepsize (gradField prior lik T) (velocity mem) L := by
    funext z
    exact (qproposal_phase prior lik T L r split splitN normal argsort hlen (qnAt prior lik T mem z al t) e
      (stateAt_consistent prior lik T _ _)).2.2
  rw [h]
  exact measurePreserving_qhmcMap _ _ _ hg (measurable_velocity mem) L

/-- The factors of a memory come from a BFGS pass over some history, with `r > -inf` or positive curvatures (always true
after one update of a run: `C24_factors`). -/
structure BfgsMemory (mem : Memory d) : Prop where
  diag : ∀ i, mem.diag.at i ≠ 0
  factors : ∃ (r : Option ℝ) (l : List (Pair d)), mem.factors = sqrtPqut mem.diag r l ∧
    (r = none → ∀ p ∈ l, 0 < p.s ⬝ᵥ p.y)

/-- `B` is the matrix of the Hessian approximation of the memory. -/
def IsHessian (mem : Memory d) (B : Matrix (Fin d) (Fin d) ℝ) : Prop :=
  ∀ z, hessian mem.diag mem.factors z = B *ᵥ z

theorem isHessian_eq (mem : Memory d) (B : Matrix (Fin d) (Fin d) ℝ) (hB : IsHessian mem B) :
    B = sqrtMat mem.ut mem.diag * (sqrtMat mem.ut mem.diag)ᵀ := by
  apply ext_of_mulVec_single
  intro i
  rw [← hB, hessian_eq]; rfl

theorem mem_inv (mem : Memory d) (hm : BfgsMemory mem) :
    hess mem.pq mem.diag.inv * hess mem.ut mem.diag = 1 := by
  obtain ⟨r, l, hf, hc⟩ := hm.factors
  have := hess_mul mem.diag hm.diag _ (pqut_inv mem.diag hm.diag r l hc)
  rw [← hf] at this
  exact this

theorem mem_det (mem : Memory d) (hm : BfgsMemory mem) : (sqrtMat mem.ut mem.diag).det ≠ 0 := by
  have h := congrArg det (mem_inv mem hm)
  rw [det_mul, det_one] at h
  intro h0
  have : (hess mem.ut mem.diag).det = 0 := by rw [hess, det_mul, h0, zero_mul]
  rw [this, mul_zero] at h
  exact zero_ne_one h

/-- C70: refreshing momenta distributed as `N(0, B)` leaves them `N(0, B)`. -/
theorem C70_refresh (p : UDParams) (hp : Admissible p) (mem : Memory d) (hm : BfgsMemory mem)
    (B : Matrix (Fin d) (Fin d) ℝ) (hB : IsHessian mem B) :
    ((gauss 0 B).prod (stdNormal d)).map (fun z => refresh p mem z.1 z.2) = gauss 0 B := by
  set M := sqrtMat mem.ut mem.diag with hM
  have hdet : M.det ≠ 0 := mem_det mem hm
  have hmeas : Measurable fun z : Fin d → ℝ => M *ᵥ z := by
    have : Continuous (toLin' M) := LinearMap.continuous_of_finiteDimensional _
    exact this.measurable
  have hg : gauss 0 B = (stdNormal d).map (fun z => M *ᵥ z) := by
    rw [isHessian_eq mem B hB, ← hM, ← stdNormal_map_affine 0 M hdet]; simp
  have hR : Measurable fun z : (Fin d → ℝ) × (Fin d → ℝ) => refreshMomenta p z.1 z.2 := by
    unfold refreshMomenta; fun_prop
  rw [hg]
  conv_rhs => rw [← C20_refresh p hp, Measure.map_map hmeas hR]
  have h1 : ((stdNormal d).map fun z => M *ᵥ z).prod (stdNormal d)
      = ((stdNormal d).prod (stdNormal d)).map (Prod.map (fun z => M *ᵥ z) id) := by
    rw [← Measure.map_prod_map _ _ hmeas measurable_id, Measure.map_id]
  have hR2 : Measurable fun z : (Fin d → ℝ) × (Fin d → ℝ) => refresh p mem z.1 z.2 := by
    have : (fun z : (Fin d → ℝ) × (Fin d → ℝ) => refresh p mem z.1 z.2)
        = (fun z => refreshMomenta p z.1 z.2) ∘ (Prod.map id fun z => M *ᵥ z) := by
      funext z; simp [refresh, sqrtProd_eq, hM]
    rw [this]
    exact hR.comp (measurable_id.prodMap hmeas)
  rw [h1, Measure.map_map hR2 (hmeas.prodMap measurable_id)]
  congr 1
  funext z
  simp only [Function.comp_apply, Prod.map, id_eq, refresh, sqrtProd_eq, ← hM]
  funext i
  have : refreshMomenta p z.1 z.2
      = (-(decay 1 p)) • z.1 + √(1 - decay 2 p) • z.2 := by
    funext j; simp [refreshMomenta]; ring
  rw [this, mulVec_add, mulVec_smul, mulVec_smul]
  simp [refreshMomenta]; ring

/-- Everything within the `max_val` box. -/
def box (maxVal : ℝ) : Set ((Fin d → ℝ) × (Fin d → ℝ)) :=
  {z | (∀ i, |z.1 i| ≤ maxVal) ∧ ∀ i, |z.2 i| ≤ maxVal}

theorem measurableSet_box (maxVal : ℝ) : MeasurableSet (box (d := d) maxVal) := by
  have : IsClosed (box (d := d) maxVal) := by
    unfold box
    simp only [Set.ofPred_and, Set.ofPred_forall]
    refine IsClosed.inter (isClosed_iInter fun i => ?_) (isClosed_iInter fun i => ?_)
    · exact isClosed_le (by fun_prop) continuous_const
    · exact isClosed_le (by fun_prop) continuous_const
  exact this.measurableSet

/-- Target: `exp (-potential)` for the position and `N(0, B)` for the momenta, within the `max_val` box. -/
noncomputable def qnTarget (B : Matrix (Fin d) (Fin d) ℝ) (maxVal : ℝ) : Measure ((Fin d → ℝ) × (Fin d → ℝ)) :=
  ((volume.withDensity fun x => ENNReal.ofReal (Real.exp (-potAt prior lik T x))).prod (gauss 0 B)).restrict (box maxVal)

/-- Total energy with the memory's mass matrix. -/
noncomputable def qnEnergy (mem : Memory d) (z : (Fin d → ℝ) × (Fin d → ℝ)) : ℝ :=
  potAt prior lik T z.1 + momentaPotential mem z.2

theorem momentaPotential_eq (mem : Memory d) (hm : BfgsMemory mem) (B : Matrix (Fin d) (Fin d) ℝ)
    (hB : IsHessian mem B) (p : Vec d) : momentaPotential mem p = (1 / 2) * (p ⬝ᵥ (B⁻¹ *ᵥ p)) := by
  have hinv : B⁻¹ = hess mem.pq mem.diag.inv := by
    apply inv_eq_left_inv
    rw [isHessian_eq mem B hB]
    exact mem_inv mem hm
  rw [momentaPotential, hinv, quad_hess]
  simp only [sqrtTransposeProd_eq]
  norm_num

theorem measurable_qnEnergy (mem : Memory d) (hU : Measurable (potAt prior lik T)) :
    Measurable (qnEnergy prior lik T mem) := by
  have : Measurable (momentaPotential mem) := by
    have h : momentaPotential mem = fun p => 0.5 * ∑ i, (toLin' (sqrtMat mem.pq mem.diag.inv)ᵀ p) i ^ 2 := by
      funext p
      simp only [momentaPotential, sqrtTransposeProd_eq]; rfl
    rw [h]
    have hc : Measurable (toLin' (sqrtMat mem.pq mem.diag.inv)ᵀ) :=
      (LinearMap.continuous_of_finiteDimensional _).measurable
    fun_prop
  exact (hU.comp measurable_fst).add (this.comp measurable_snd)

theorem qnTarget_eq (mem : Memory d) (hm : BfgsMemory mem) (B : Matrix (Fin d) (Fin d) ℝ) (hB : IsHessian mem B)
    (hU : Measurable (potAt prior lik T)) (maxVal : ℝ) :
    ∃ c : ℝ≥0∞, qnTarget prior lik T B maxVal = volume.withDensity
      ((box maxVal).indicator fun z => c * ENNReal.ofReal (Real.exp (-qnEnergy prior lik T mem z))) := by
  refine ⟨ENNReal.ofReal (Real.sqrt (B.det⁻¹ / (2 * Real.pi) ^ d)), ?_⟩
  unfold qnTarget
  have h1 : Measurable fun x => ENNReal.ofReal (Real.exp (-potAt prior lik T x)) :=
    ENNReal.measurable_ofReal.comp (Real.measurable_exp.comp hU.neg)
  have h2 : Measurable fun x => ENNReal.ofReal (gaussDensity 0 B x) :=
    ENNReal.measurable_ofReal.comp (continuous_gaussDensity 0 B).measurable
  rw [gauss, prod_withDensity h1 h2, restrict_withDensity (measurableSet_box maxVal),
    withDensity_indicator (measurableSet_box maxVal), ← Measure.volume_eq_prod]
  congr 1
  funext z
  rw [gaussDensity, sub_zero, ← ENNReal.ofReal_mul (Real.exp_pos _).le, ← ENNReal.ofReal_mul (Real.sqrt_nonneg _),
    qnEnergy, momentaPotential_eq mem hm B hB, neg_add, Real.exp_add]
  congr 1
  rw [show -(1 / 2 : ℝ) * (z.2 ⬝ᵥ (B⁻¹ *ᵥ z.2)) = -(1 / 2 * (z.2 ⬝ᵥ (B⁻¹ *ᵥ z.2))) by ring]
  ring

open Classical in
/-- The acceptance probability on phase space. -/
noncomputable def qnAlpha (mem : Memory d) (p : QNParams) (z : (Fin d → ℝ) × (Fin d → ℝ)) : ℝ :=
  let z' := qhmcMap p.ud.stepsize (gradField prior lik T) (velocity mem) L z
  if z' ∈ box p.maxVal then min 1 (Real.exp (-qnEnergy prior lik T mem z' + qnEnergy prior lik T mem z)) else 0

variable (uniform : K → ℝ)

theorem qnCorrect_eq (hlen : ∀ k, (splitN k L).2.length = L) (mem : Memory d) (z) (al : Fl) (t : ℝ)
    (e : Extra K QNParams) :
    let smp := qnUnderdamped split splitN normal argsort (fun x _ => prior x) (fun x _ => lik x) T L r
    let prop := smp.proposal (qnAt prior lik T mem z al t) e
    (metropolis split uniform smp (qnAt prior lik T mem z al t) e prop.1 prop.2).1.payload.lf.phase
      = if uniform (split prop.2.key).2 < qnAlpha prior lik T L mem e.params z
        then qhmcMap e.params.ud.stepsize (gradField prior lik T) (velocity mem) L z else z := by
  intro smp prop
  have hph := qproposal_phase prior lik T L r split splitN normal argsort hlen (qnAt prior lik T mem z al t) e
    (stateAt_consistent prior lik T _ _)
  set z' := qhmcMap e.params.ud.stepsize (gradField prior lik T) (velocity mem) L z with hz'
  have hlf : prop.1.payload.lf = stateAt prior lik T z'.1 z'.2 :=
    consistent_ext prior lik hph.2.1 (stateAt_consistent prior lik T _ _) hph.2.2
  obtain ⟨a, ha, h1, h2⟩ := C14_all_or_nothing split uniform smp (qnAt prior lik T mem z al t) e prop.1 prop.2
  have e2 : ∀ x : ℝ, Fl.minimum (Fl.fin 1) (Fl.exp (Fl.fin x)) = Fl.fin (min 1 (Real.exp x)) := by
    intro x
    simp only [Fl.exp, Fl.minimum]
    by_cases h : Real.exp x < 1
    · rw [min_eq_right h.le]; exact if_pos h
    · rw [min_eq_left (not_lt.mp h)]; exact if_neg h
  have hex : exceeds e.params.maxVal prop.1.payload.lf ↔ z' ∉ box e.params.maxVal := by
    rw [hlf]
    simp only [exceeds, box, Set.mem_ofPred_eq, stateAt, not_and_or, not_forall, not_le]
  have hacc : smp.acceptance (qnAt prior lik T mem z al t) e prop.1 prop.2
      = Fl.fin (qnAlpha prior lik T L mem e.params z) := by
    have hd : smp.acceptance (qnAt prior lik T mem z al t) e prop.1 prop.2
        = open Classical in if exceeds e.params.maxVal prop.1.payload.lf then Fl.fin 0 else
          Fl.minimum (Fl.fin 1) (Fl.exp (Fl.fin (-qnEnergy prior lik T mem z' + qnEnergy prior lik T mem z))) := by
      have : -prop.1.payload.lf.potential + (qnAt prior lik T mem z al t).payload.lf.potential
          - momentaPotential mem prop.1.payload.lf.momenta
          + momentaPotential mem (qnAt prior lik T mem z al t).payload.lf.momenta
          = -qnEnergy prior lik T mem z' + qnEnergy prior lik T mem z := by
        rw [hlf]; simp only [qnEnergy, stateAt, potAt, qnAt]; ring
      rw [← this]; rfl
    rw [hd, qnAlpha]
    by_cases hb : z' ∈ box e.params.maxVal
    · rw [if_neg (by rw [hex]; exact not_not.2 hb)]
      rw [if_pos hb, e2]
    · rw [if_pos (hex.2 hb)]
      rw [if_neg hb]
  have hacc' : a = Fl.fin (qnAlpha prior lik T L mem e.params z) := by rw [ha, hacc]; rfl
  by_cases hlt : uniform (split prop.2.key).2 < qnAlpha prior lik T L mem e.params z
  · rw [if_pos hlt, h1 (by rw [hacc']; exact hlt)]
    exact hph.2.2
  · rw [if_neg hlt, h2 (by rw [hacc']; exact hlt)]
    rfl

variable [MeasurableSpace K] (κ : Measure K)

/-- C70: with the memory held fixed, proposal and accept/reject leave `exp (-potential) ⊗ N(0, B)` restricted to the
`max_val` box invariant, for every number of leapfrog steps and every measurable gradient field. The law of the keys makes
the uniform draw uniform. -/
theorem C70_accept_invariant (hlen : ∀ k, (splitN k L).2.length = L) (hg : Measurable (gradField prior lik T))
    (hU : Measurable (potAt prior lik T)) (mem : Memory d) (hm : BfgsMemory mem)
    (B : Matrix (Fin d) (Fin d) ℝ) (hB : IsHessian mem B)
    (hmeas : Measurable fun k => uniform (split (splitN k L).1).2)
    (hlaw : κ.map (fun k => uniform (split (splitN k L).1).2) = unif)
    (p : QNParams) (i : ℕ) (al : Fl) (t : ℝ) (f : (Fin d → ℝ) × (Fin d → ℝ) → ℝ≥0∞) (hf : Measurable f) :
    let smp := qnUnderdamped split splitN normal argsort (fun x _ => prior x) (fun x _ => lik x) T L r
    ∫⁻ z, ∫⁻ k, (f (metropolis split uniform smp (qnAt prior lik T mem z al t) ⟨k, i, p⟩
        (smp.proposal (qnAt prior lik T mem z al t) ⟨k, i, p⟩).1
        (smp.proposal (qnAt prior lik T mem z al t) ⟨k, i, p⟩).2).1.payload.lf.phase) ∂κ ∂(qnTarget prior lik T B p.maxVal)
      = ∫⁻ z, f z ∂(qnTarget prior lik T B p.maxVal) := by
  intro smp
  have hmp := measurePreserving_qhmcMap p.ud.stepsize (gradField prior lik T) (velocity mem) hg (measurable_velocity mem) L
  have mM := hmp.measurable
  have mE := measurable_qnEnergy prior lik T mem hU
  have mA : Measurable (qnAlpha prior lik T L mem p) := by
    refine Measurable.ite (mM (measurableSet_box p.maxVal)) ?_ measurable_const
    exact measurable_const.min (Real.measurable_exp.comp ((mE.comp mM).neg.add mE))
  have hval : ∀ z k, (metropolis split uniform smp (qnAt prior lik T mem z al t) ⟨k, i, p⟩
        (smp.proposal (qnAt prior lik T mem z al t) ⟨k, i, p⟩).1
        (smp.proposal (qnAt prior lik T mem z al t) ⟨k, i, p⟩).2).1.payload.lf.phase
      = if uniform (split (splitN k L).1).2 < qnAlpha prior lik T L mem p z
        then qhmcMap p.ud.stepsize (gradField prior lik T) (velocity mem) L z else z :=
    fun z k => qnCorrect_eq prior lik T L r split splitN normal argsort uniform hlen mem z al t ⟨k, i, p⟩
  simp_rw [hval]
  have hk : ∀ z, ∫⁻ k, f (if uniform (split (splitN k L).1).2 < qnAlpha prior lik T L mem p z
        then qhmcMap p.ud.stepsize (gradField prior lik T) (velocity mem) L z else z) ∂κ
      = ∫⁻ u, f (if u < qnAlpha prior lik T L mem p z
        then qhmcMap p.ud.stepsize (gradField prior lik T) (velocity mem) L z else z) ∂unif := by
    intro z
    rw [← hlaw, lintegral_map _ hmeas]
    exact hf.comp (Measurable.ite (measurableSet_lt measurable_id measurable_const) measurable_const measurable_const)
  simp_rw [hk]
  obtain ⟨c, hc⟩ := qnTarget_eq prior lik T mem hm B hB hU p.maxVal
  rw [hc]
  have hinv : ∀ z, qhmcMap p.ud.stepsize (gradField prior lik T) (velocity mem) L
      (qhmcMap p.ud.stepsize (gradField prior lik T) (velocity mem) L z) = z :=
    fun z => qlf_iter_flip _ _ _ (velocity_neg mem) L z
  refine involution_metropolis' volume _ hmp _ ?_ _ mA ?_ ?_ ?_ f hf
  · exact ((measurable_const.mul (ENNReal.measurable_ofReal.comp (Real.measurable_exp.comp mE.neg))).indicator
      (measurableSet_box p.maxVal))
  · intro z; unfold qnAlpha; dsimp only; split_ifs
    · exact le_min zero_le_one (Real.exp_pos _).le
    · exact le_rfl
  · intro z; unfold qnAlpha; dsimp only; split_ifs
    · exact min_le_left _ _
    · exact zero_le_one
  · intro z
    set z' := qhmcMap p.ud.stepsize (gradField prior lik T) (velocity mem) L z with hz'
    have hflow : ∀ a b : ℝ, ENNReal.ofReal (Real.exp (-a)) * ENNReal.ofReal (min 1 (Real.exp (-b + a)))
        = ENNReal.ofReal (Real.exp (-b)) * ENNReal.ofReal (min 1 (Real.exp (-a + b))) := by
      intro a b
      rw [← ENNReal.ofReal_mul (Real.exp_pos _).le, ← ENNReal.ofReal_mul (Real.exp_pos _).le,
        mul_min_of_nonneg _ _ (Real.exp_pos _).le, mul_min_of_nonneg _ _ (Real.exp_pos _).le, mul_one, mul_one,
        ← Real.exp_add, ← Real.exp_add, min_comm]
      congr 3 <;> ring
    by_cases h1 : z ∈ box p.maxVal <;> by_cases h2 : z' ∈ box p.maxVal
    · rw [Set.indicator_of_mem h1, Set.indicator_of_mem h2]
      simp only [qnAlpha, ← hz']
      rw [if_pos h2, hz', hinv, if_pos h1, ← hz', mul_assoc, mul_assoc, hflow]
    · rw [Set.indicator_of_notMem h2]
      simp only [qnAlpha, ← hz']
      rw [if_neg h2]; simp
    · rw [Set.indicator_of_notMem h1]
      simp only [qnAlpha]
      rw [hz', hinv, if_neg h1]; simp
    · rw [Set.indicator_of_notMem h1, Set.indicator_of_notMem h2]; simp

end

/-- Non-vacuity of C70: the memory after the first update of a run (damping `r = 1/2`) is a BFGS memory with a Hessian. -/
example (x g : Fin 2 → ℝ) :
    let mem := updateMemory none (some 0.5) (initMemory none (some 0.5) 3 (Diag.scalar (d := 2) 1) 1) x (Fl.fin 0) g (Fl.fin 0) 0 1
    BfgsMemory mem ∧ ∃ B, IsHessian mem B := by
  intro mem
  refine ⟨⟨fun i => one_ne_zero, _, _, rfl, fun h => by cases h⟩, _, fun z => hessian_eq _ _ z⟩

end Mocat.Props
