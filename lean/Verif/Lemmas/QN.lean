import Verif.Model.QN
import Verif.Lemmas.HMCInvariant
import Verif.Lemmas.Bfgs
/-! Helper lemmas: leapfrog with a linear velocity map, and Metropolis with an involution and a general weight. -/
namespace Mocat.QN
open Mocat Mocat.Mcmc Mocat.Bfgs MeasureTheory Set Mocat.Meas Matrix
open scoped ENNReal

variable {K : Type*} {d : ℕ}

/-- One leapfrog step with velocity `h p`. -/
noncomputable def qlfMap (ε : ℝ) (g h : (Fin d → ℝ) → Fin d → ℝ) (z : (Fin d → ℝ) × (Fin d → ℝ)) :
    (Fin d → ℝ) × (Fin d → ℝ) :=
  let pHalf := fun i => z.2 i - ε / 2 * g z.1 i
  let x' := fun i => z.1 i + ε * h pHalf i
  (x', fun i => pHalf i - ε / 2 * g x' i)

theorem qlf_flip_qlf (ε : ℝ) (g h : (Fin d → ℝ) → Fin d → ℝ) (hodd : ∀ p, h (fun i => -p i) = fun i => -h p i) (z) :
    Mcmc.flip (qlfMap ε g h (Mcmc.flip (qlfMap ε g h z))) = z := by
  have hhalf : (fun i => (Mcmc.flip (qlfMap ε g h z)).2 i - ε / 2 * g (Mcmc.flip (qlfMap ε g h z)).1 i)
      = fun i => -(z.2 i - ε / 2 * g z.1 i) := by
    funext i
    simp only [qlfMap, Mcmc.flip]
    ring
  have hx : (qlfMap ε g h (Mcmc.flip (qlfMap ε g h z))).1 = z.1 := by
    funext i
    have : (qlfMap ε g h (Mcmc.flip (qlfMap ε g h z))).1 i = (Mcmc.flip (qlfMap ε g h z)).1 i
      + ε * h (fun i => (Mcmc.flip (qlfMap ε g h z)).2 i - ε / 2 * g (Mcmc.flip (qlfMap ε g h z)).1 i) i := rfl
    rw [this, hhalf, hodd]
    simp only [qlfMap, Mcmc.flip]
    ring
  have hp : ∀ i, (qlfMap ε g h (Mcmc.flip (qlfMap ε g h z))).2 i
      = (fun i => (Mcmc.flip (qlfMap ε g h z)).2 i - ε / 2 * g (Mcmc.flip (qlfMap ε g h z)).1 i) i
        - ε / 2 * g (qlfMap ε g h (Mcmc.flip (qlfMap ε g h z))).1 i := fun i => rfl
  refine Prod.ext hx ?_
  funext i
  have hd : (Mcmc.flip (qlfMap ε g h (Mcmc.flip (qlfMap ε g h z)))).2 i = -(qlfMap ε g h (Mcmc.flip (qlfMap ε g h z))).2 i := rfl
  rw [hd, hp, hhalf, hx]
  ring

theorem qlf_iter_flip (ε : ℝ) (g h : (Fin d → ℝ) → Fin d → ℝ) (hodd : ∀ p, h (fun i => -p i) = fun i => -h p i)
    (L : ℕ) (z) : Mcmc.flip ((qlfMap ε g h)^[L] (Mcmc.flip ((qlfMap ε g h)^[L] z))) = z := by
  induction L generalizing z with
  | zero => simp [Mcmc.flip_flip]
  | succ L ih =>
    have key : ∀ w, qlfMap ε g h (Mcmc.flip (qlfMap ε g h w)) = flip w := by
      intro w
      rw [← Mcmc.flip_flip (qlfMap ε g h (Mcmc.flip (qlfMap ε g h w))), qlf_flip_qlf ε g h hodd]
    rw [Function.iterate_succ_apply' (qlfMap ε g h) L z, Function.iterate_succ_apply, key, ih]

theorem measurePreserving_drift_map (ε : ℝ) (h : (Fin d → ℝ) → Fin d → ℝ) (hh : Measurable h) :
    MeasurePreserving (fun z : (Fin d → ℝ) × (Fin d → ℝ) => (fun i => z.1 i + ε * h z.2 i, z.2)) volume volume := by
  have h1 : MeasurePreserving (fun z : (Fin d → ℝ) × (Fin d → ℝ) => (z.1, fun i => z.2 i + ε * h z.1 i))
      volume volume := by
    refine MeasurePreserving.skew_product (g := fun (x p : Fin d → ℝ) i => p i + ε * h x i)
      (MeasurePreserving.id volume) ?_ ?_
    · simp only [Function.uncurry_def]; fun_prop
    · refine ae_of_all _ fun x => ?_
      exact (measurePreserving_add_right volume (fun i => ε * h x i)).map_eq
  exact (Measure.measurePreserving_swap.comp h1).comp Measure.measurePreserving_swap

theorem measurePreserving_qlfMap (ε : ℝ) (g h : (Fin d → ℝ) → Fin d → ℝ) (hg : Measurable g) (hh : Measurable h) :
    MeasurePreserving (qlfMap ε g h) volume volume :=
  ((measurePreserving_kick (ε / 2) g hg).comp (measurePreserving_drift_map ε h hh)).comp
    (measurePreserving_kick (ε / 2) g hg)

/-- `L` steps, then flip. -/
noncomputable def qhmcMap (ε : ℝ) (g h : (Fin d → ℝ) → Fin d → ℝ) (L : ℕ) (z : (Fin d → ℝ) × (Fin d → ℝ)) :
    (Fin d → ℝ) × (Fin d → ℝ) := Mcmc.flip ((qlfMap ε g h)^[L] z)

theorem measurePreserving_qhmcMap (ε : ℝ) (g h : (Fin d → ℝ) → Fin d → ℝ) (hg : Measurable g) (hh : Measurable h)
    (L : ℕ) : MeasurePreserving (qhmcMap ε g h L) volume volume :=
  measurePreserving_flip.comp ((measurePreserving_qlfMap ε g h hg hh).iterate L)

/-- The inverse Hessian map of a memory. -/
noncomputable def velocity (mem : Memory d) (p : Vec d) : Vec d :=
  sqrtProd mem.pq (sqrtTransposeProd mem.pq p mem.diag.inv) mem.diag.inv

theorem velocity_eq (mem : Memory d) (p : Vec d) : velocity mem p = hess mem.pq mem.diag.inv *ᵥ p := by
  simp only [velocity, sqrtProd_eq, sqrtTransposeProd_eq, mulVec_mulVec, hess]

theorem velocity_neg (mem : Memory d) (p : Vec d) : velocity mem (fun i => -p i) = fun i => -velocity mem p i := by
  rw [velocity_eq, velocity_eq]
  funext i
  have := congrFun (mulVec_neg p (hess mem.pq mem.diag.inv)) i
  exact this

theorem measurable_velocity (mem : Memory d) : Measurable (velocity mem) := by
  have : velocity mem = toLin' (hess mem.pq mem.diag.inv) := by
    funext p; rw [velocity_eq]; rfl
  rw [this]
  exact (LinearMap.continuous_of_finiteDimensional _).measurable

/-- Metropolis with a measure preserving involution, general weight and acceptance probability in balance. -/
theorem involution_metropolis' {X : Type*} [MeasurableSpace X] (lam : Measure X) [SFinite lam]
    (T : X → X) (hT : MeasurePreserving T lam lam) (w : X → ℝ≥0∞) (hw : Measurable w)
    (a : X → ℝ) (ha : Measurable a) (ha0 : ∀ x, 0 ≤ a x) (ha1 : ∀ x, a x ≤ 1)
    (hbal : ∀ x, w x * ENNReal.ofReal (a x) = w (T x) * ENNReal.ofReal (a (T x)))
    (f : X → ℝ≥0∞) (hf : Measurable f) :
    ∫⁻ x, ∫⁻ u, f (if u < a x then T x else x) ∂unif ∂(lam.withDensity w) = ∫⁻ x, f x ∂(lam.withDensity w) := by
  have mT := hT.measurable
  have hb : ∫⁻ x, ∫⁻ _ω : Unit, w x * ENNReal.ofReal (a x) * f (T x) ∂(Measure.dirac ()) ∂lam
      = ∫⁻ x, ∫⁻ _ω : Unit, w x * ENNReal.ofReal (a x) * f x ∂(Measure.dirac ()) ∂lam := by
    simp_rw [lintegral_const, measure_univ, mul_one]
    have m2 : Measurable fun x => w x * ENNReal.ofReal (a x) * f x :=
      (hw.mul (ENNReal.measurable_ofReal.comp ha)).mul hf
    rw [← hT.lintegral_comp m2]
    exact lintegral_congr fun x => by rw [hbal]
  have h := metropolis_invariant lam (Measure.dirac ()) (fun z : X × Unit => T z.1) (mT.comp measurable_fst)
    (fun z => a z.1) (ha.comp measurable_fst) (fun z => ha0 _) (fun z => ha1 _) _ hw f hf hb
  rw [← h]
  refine lintegral_congr fun x => ?_
  have m3 : Measurable fun z : Unit × ℝ => f (if z.2 < a x then T x else x) :=
    hf.comp (Measurable.ite (measurableSet_lt measurable_snd measurable_const) measurable_const measurable_const)
  rw [lintegral_prod _ m3.aemeasurable, lintegral_dirac]

/-- The last row of the BFGS leapfrog chain is the fold of the single steps. -/
theorem bfgsLeapfrog_last (prior lik : ValGrad K d) (s : LfState d) (ε : ℝ) (keys : List K)
    (pq : List (Vec d × Vec d)) (dg : Diag d) (T : ℝ) :
    (bfgsLeapfrog prior lik s ε keys pq dg T).last s
      = keys.foldl (fun s k => (bfgsLeapfrogStep prior lik ε T pq dg s k).1) s := by
  have h := scan_states_last (fun s k => (bfgsLeapfrogStep prior lik ε T pq dg s k).1)
    (fun s k => (bfgsLeapfrogStep prior lik ε T pq dg s k).2.2) s LfState.momenta
    (fun s k => ⟨[fun i => s.momenta i - ε / 2 * s.gradPotential i], rfl⟩) keys s.momenta rfl
  obtain ⟨-, h2, h3⟩ := h
  have e : bfgsLeapfrogStep prior lik ε T pq dg = (fun s k => ((bfgsLeapfrogStep prior lik ε T pq dg s k).1,
    ((bfgsLeapfrogStep prior lik ε T pq dg s k).1, (bfgsLeapfrogStep prior lik ε T pq dg s k).2.2))) := by
    funext s k; rfl
  have h2' := h2 s
  have h3' := h3 s.momenta
  simp only [LfChain.last, bfgsLeapfrog]
  rw [e]
  rw [h2', h3']

end Mocat.QN
