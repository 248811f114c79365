import Mathlib.MeasureTheory.Measure.WithDensity
import Mathlib.MeasureTheory.Measure.Prod
import Mathlib.MeasureTheory.Constructions.Pi
import Mathlib.MeasureTheory.Integral.Pi
import Mathlib.MeasureTheory.Measure.Lebesgue.Basic
import Mathlib.MeasureTheory.Group.Measure
import Mathlib.MeasureTheory.Group.LIntegral
import Mathlib.MeasureTheory.Integral.Bochner.Basic
import Mathlib.Probability.Distributions.Gaussian.Real
/-! Measure-theoretic helper lemmas for the Metropolis kernels. -/
namespace Mocat.Meas
open MeasureTheory ProbabilityTheory Set
open scoped ENNReal

/-- The uniform distribution on `[0, 1)`. -/
noncomputable def unif : Measure ℝ := volume.restrict (Ico 0 1)

/-- The standard normal distribution on `ℝ^d`. -/
noncomputable def stdNormal (d : ℕ) : Measure (Fin d → ℝ) := Measure.pi fun _ => gaussianReal 0 1

instance : IsProbabilityMeasure unif := ⟨by simp [unif]⟩
instance (d : ℕ) : IsProbabilityMeasure (stdNormal d) := by unfold stdNormal; infer_instance

theorem accept_lintegral (a : ℝ) (h0 : 0 ≤ a) (h1 : a ≤ 1) (A B : ℝ≥0∞) :
    ∫⁻ u, (if u < a then A else B) ∂unif = ENNReal.ofReal a * A + ENNReal.ofReal (1 - a) * B := by
  have hs : MeasurableSet {u : ℝ | u < a} := measurableSet_Iio
  have : (fun u : ℝ => if u < a then A else B)
      = fun u => ({u | u < a}.indicator (fun _ => A) u) + ({u | u < a}ᶜ.indicator (fun _ => B) u) := by
    funext u
    by_cases hu : u < a <;> simp [indicator, hu]
  rw [this, lintegral_add_left (measurable_const.indicator hs), lintegral_indicator hs,
    lintegral_indicator hs.compl, setLIntegral_const, setLIntegral_const, unif,
    Measure.restrict_apply hs, Measure.restrict_apply hs.compl]
  have e1 : {u : ℝ | u < a} ∩ Ico 0 1 = Ico 0 a := by
    ext u; simp only [mem_inter_iff, mem_ofPred_eq, mem_Ico]; constructor
    · rintro ⟨h, h', -⟩; exact ⟨h', h⟩
    · rintro ⟨h, h'⟩; exact ⟨h', h, h'.trans_le h1⟩
  have e2 : {u : ℝ | u < a}ᶜ ∩ Ico 0 1 = Ico a 1 := by
    ext u; simp only [mem_inter_iff, mem_compl_iff, mem_ofPred_eq, mem_Ico, not_lt]; constructor
    · rintro ⟨h, -, h'⟩; exact ⟨h, h'⟩
    · rintro ⟨h, h'⟩; exact ⟨h, h0.trans h, h'⟩
  rw [e1, e2, Real.volume_Ico, Real.volume_Ico, sub_zero, mul_comm, mul_comm B]

/-- Abstract Metropolis invariance. `T` is the proposal map (with noise `ω`), `a` the acceptance
probability, `w` the target density. `hbal` is the exchange (detailed balance) identity for the accepted
flow `m`. -/
theorem metropolis_invariant {X Ω : Type*} [MeasurableSpace X] [MeasurableSpace Ω]
    (lam : Measure X) [SFinite lam] (nu : Measure Ω) [IsProbabilityMeasure nu]
    (T : X × Ω → X) (hT : Measurable T) (a : X × Ω → ℝ) (ha : Measurable a)
    (ha0 : ∀ z, 0 ≤ a z) (ha1 : ∀ z, a z ≤ 1) (w : X → ℝ≥0∞) (hw : Measurable w)
    (f : X → ℝ≥0∞) (hf : Measurable f)
    (hbal : ∫⁻ x, ∫⁻ ω, w x * ENNReal.ofReal (a (x, ω)) * f (T (x, ω)) ∂nu ∂lam
      = ∫⁻ x, ∫⁻ ω, w x * ENNReal.ofReal (a (x, ω)) * f x ∂nu ∂lam) :
    ∫⁻ x, ∫⁻ z, f (if z.2 < a (x, z.1) then T (x, z.1) else x) ∂(nu.prod unif) ∂(lam.withDensity w)
      = ∫⁻ x, f x ∂(lam.withDensity w) := by
  have hmeasA : Measurable fun z : X × Ω => ENNReal.ofReal (a z) := ENNReal.measurable_ofReal.comp ha
  have hmeasB : Measurable fun z : X × Ω => ENNReal.ofReal (1 - a z) :=
    ENNReal.measurable_ofReal.comp (measurable_const.sub ha)
  have hinner : ∀ x, ∫⁻ z, f (if z.2 < a (x, z.1) then T (x, z.1) else x) ∂(nu.prod unif)
      = ∫⁻ ω, (ENNReal.ofReal (a (x, ω)) * f (T (x, ω)) + ENNReal.ofReal (1 - a (x, ω)) * f x) ∂nu := by
    intro x
    have hms : MeasurableSet {z : Ω × ℝ | z.2 < a (x, z.1)} :=
      measurableSet_lt measurable_snd (ha.comp (measurable_const.prodMk measurable_fst))
    have hmeas : Measurable fun z : Ω × ℝ => f (if z.2 < a (x, z.1) then T (x, z.1) else x) :=
      hf.comp (Measurable.ite hms (hT.comp (measurable_const.prodMk measurable_fst)) measurable_const)
    rw [lintegral_prod _ hmeas.aemeasurable]
    refine lintegral_congr fun ω => ?_
    rw [← accept_lintegral _ (ha0 _) (ha1 _)]
    refine lintegral_congr fun u => ?_
    simp only
    split <;> rfl
  simp_rw [hinner]
  have hG : Measurable fun x => ∫⁻ ω, (ENNReal.ofReal (a (x, ω)) * f (T (x, ω))
      + ENNReal.ofReal (1 - a (x, ω)) * f x) ∂nu := by
    apply Measurable.lintegral_prod_right
    exact (hmeasA.mul (hf.comp hT)).add (hmeasB.mul (hf.comp measurable_fst))
  rw [lintegral_withDensity_eq_lintegral_mul _ hw hG, lintegral_withDensity_eq_lintegral_mul _ hw hf]
  have h1 : ∀ x, (w * fun x => ∫⁻ ω, (ENNReal.ofReal (a (x, ω)) * f (T (x, ω))
      + ENNReal.ofReal (1 - a (x, ω)) * f x) ∂nu) x
      = ∫⁻ ω, w x * ENNReal.ofReal (a (x, ω)) * f (T (x, ω)) ∂nu
        + ∫⁻ ω, w x * ENNReal.ofReal (1 - a (x, ω)) * f x ∂nu := by
    intro x
    have m1 : Measurable fun ω => ENNReal.ofReal (a (x, ω)) * f (T (x, ω)) :=
      (hmeasA.mul (hf.comp hT)).comp (measurable_const.prodMk measurable_id)
    have m2 : Measurable fun ω => ENNReal.ofReal (1 - a (x, ω)) * f x :=
      (hmeasB.comp (measurable_const.prodMk measurable_id)).mul measurable_const
    rw [Pi.mul_apply, lintegral_add_left m1, mul_add, ← lintegral_const_mul _ m1,
      ← lintegral_const_mul _ m2]
    simp_rw [mul_assoc]
  have h2 : ∀ x, (w * f) x
      = ∫⁻ ω, w x * ENNReal.ofReal (a (x, ω)) * f x ∂nu
        + ∫⁻ ω, w x * ENNReal.ofReal (1 - a (x, ω)) * f x ∂nu := by
    intro x
    have m1 : Measurable fun ω => w x * ENNReal.ofReal (a (x, ω)) * f x :=
      ((measurable_const.mul (hmeasA.comp (measurable_const.prodMk measurable_id)))).mul measurable_const
    rw [← lintegral_add_left m1]
    have : ∀ ω, w x * ENNReal.ofReal (a (x, ω)) * f x + w x * ENNReal.ofReal (1 - a (x, ω)) * f x
        = w x * f x := by
      intro ω
      rw [← add_mul, ← mul_add, ← ENNReal.ofReal_add (ha0 _) (by linarith [ha1 (x, ω)])]
      simp
    simp_rw [this]
    simp
  simp_rw [h1, h2]
  have mm : Measurable fun x => ∫⁻ ω, w x * ENNReal.ofReal (a (x, ω)) * f (T (x, ω)) ∂nu :=
    Measurable.lintegral_prod_right (((hw.comp measurable_fst).mul hmeasA).mul (hf.comp hT))
  have mm' : Measurable fun x => ∫⁻ ω, w x * ENNReal.ofReal (a (x, ω)) * f x ∂nu :=
    Measurable.lintegral_prod_right (((hw.comp measurable_fst).mul hmeasA).mul (hf.comp measurable_fst))
  rw [lintegral_add_left mm, lintegral_add_left mm', hbal]

/-- The standard normal is symmetric. -/
theorem stdNormal_map_neg (d : ℕ) : (stdNormal d).map (fun x i => - x i) = stdNormal d := by
  unfold stdNormal
  rw [Measure.pi_map_pi (f := fun _ x => -x) (fun _ => by fun_prop)]
  simp [gaussianReal_map_neg]

/-- Density of the standard normal. -/
theorem stdNormal_eq_withDensity (d : ℕ) :
    stdNormal d = volume.withDensity fun x => ENNReal.ofReal (∏ i, gaussianPDFReal 0 1 (x i)) := by
  unfold stdNormal
  refine Measure.pi_eq fun s hs => ?_
  have hint : ∀ i, Integrable (gaussianPDFReal 0 1) (volume.restrict (s i)) :=
    fun i => (integrable_gaussianPDFReal 0 1).restrict
  rw [withDensity_apply _ (MeasurableSet.univ_pi hs), volume_pi, Measure.restrict_pi_pi,
    ← ofReal_integral_eq_lintegral_ofReal (Integrable.fintype_prod hint)
      (ae_of_all _ fun x => Finset.prod_nonneg fun i _ => gaussianPDFReal_nonneg 0 1 _),
    integral_fintype_prod_eq_prod (fun _ => gaussianPDFReal 0 1),
    ENNReal.ofReal_prod_of_nonneg (fun i _ => integral_nonneg fun x => gaussianPDFReal_nonneg 0 1 _)]
  refine Finset.prod_congr rfl fun i _ => ?_
  rw [ofReal_integral_eq_lintegral_ofReal (hint i) (ae_of_all _ fun x => gaussianPDFReal_nonneg 0 1 _),
    gaussianReal_of_var_ne_zero 0 one_ne_zero, withDensity_apply _ (hs i)]
  rfl

/-- iterate a random step, feeding it with the draws of successive keys -/
def keyIter {X K D : Type*} (draw : K → D) (next : K → K) (step : X → D → X) : ℕ → X × K → X × K
  | 0, z => z
  | n + 1, z => keyIter draw next step n (step z.1 (draw z.2), next z.2)

/-- If one step leaves `mu` invariant and keys behave like independent fresh randomness, then any number
of steps leaves `mu` invariant. -/
theorem chain_invariant {X K D : Type*} [MeasurableSpace X] [MeasurableSpace K] [MeasurableSpace D]
    (mu : Measure X) (κ : Measure K) [IsProbabilityMeasure κ] (δ : Measure D) [SFinite δ]
    (draw : K → D) (hd : Measurable draw) (next : K → K) (hn : Measurable next)
    (hlaw : κ.map (fun k => (draw k, next k)) = δ.prod κ)
    (step : X → D → X) (hs : Measurable (Function.uncurry step))
    (hinv : ∀ f : X → ℝ≥0∞, Measurable f → ∫⁻ x, ∫⁻ w, f (step x w) ∂δ ∂mu = ∫⁻ x, f x ∂mu)
    (n : ℕ) (f : X → ℝ≥0∞) (hf : Measurable f) :
    ∫⁻ x, ∫⁻ k, f (keyIter draw next step n (x, k)).1 ∂κ ∂mu = ∫⁻ x, f x ∂mu := by
  have mnext : Measurable fun z : X × K => (step z.1 (draw z.2), next z.2) :=
    (hs.comp (measurable_fst.prodMk (hd.comp measurable_snd))).prodMk (hn.comp measurable_snd)
  have joint : ∀ (n : ℕ) (F : X × K → ℝ≥0∞), Measurable F →
      ∫⁻ x, ∫⁻ k, F (keyIter draw next step n (x, k)) ∂κ ∂mu = ∫⁻ x, ∫⁻ k, F (x, k) ∂κ ∂mu ∧
      Measurable fun z => F (keyIter draw next step n z) := by
    intro n
    induction n with
    | zero => intro F hF; exact ⟨rfl, hF⟩
    | succ n ih =>
      intro F hF
      obtain ⟨hI, hM⟩ := ih F hF
      refine ⟨?_, hM.comp mnext⟩
      rw [← hI]
      set G := fun z => F (keyIter draw next step n z) with hG
      have hGm : Measurable fun y => ∫⁻ k, G (y, k) ∂κ := Measurable.lintegral_prod_right hM
      have e : ∀ x, ∫⁻ k, F (keyIter draw next step (n + 1) (x, k)) ∂κ
          = ∫⁻ w, (∫⁻ k, G (step x w, k) ∂κ) ∂δ := by
        intro x
        have mz : Measurable fun z : D × K => G (step x z.1, z.2) :=
          hM.comp ((hs.comp (measurable_const.prodMk measurable_fst)).prodMk measurable_snd)
        rw [← lintegral_prod (f := fun z : D × K => G (step x z.1, z.2)) mz.aemeasurable, ← hlaw,
          lintegral_map mz (hd.prodMk hn)]
        rfl
      simp_rw [e]
      exact hinv _ hGm
  rw [(joint n (fun z => f z.1) (hf.comp measurable_fst)).1]
  simp

end Mocat.Meas
