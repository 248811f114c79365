import Mathlib.Analysis.InnerProductSpace.MeanErgodic
import Mathlib.Analysis.InnerProductSpace.Adjoint
import Mathlib.MeasureTheory.Function.L2Space
import Mathlib.MeasureTheory.Function.ConvergenceInMeasure
import Mathlib.Analysis.Asymptotics.SpecificAsymptotics
import Mathlib.Probability.Kernel.Composition.MapComap
import Mathlib.Probability.Kernel.Composition.Prod
import Mathlib.Probability.Kernel.Composition.Comp
import Mathlib.MeasureTheory.Measure.Decomposition.Lebesgue
import Verif.Lemmas.TapeMoves
/-! Averages along a chain with an invariant law that is reached from everywhere. -/
namespace Mocat.Ergodic
open MeasureTheory ProbabilityTheory Filter Topology
open scoped ENNReal InnerProductSpace

/-! ## Successive states of a stationary chain -/

section
variable {X : Type*} [MeasurableSpace X] {J : Measure (X × X)} {π : Measure X}

/-- The transition operator on square integrable functions, from the law of two successive states. -/
noncomputable def op (h1 : MeasurePreserving Prod.fst J π) (h2 : MeasurePreserving Prod.snd J π) : Lp ℝ 2 π →L[ℝ] Lp ℝ 2 π :=
  (ContinuousLinearMap.adjoint (Lp.compMeasurePreservingₗᵢ ℝ Prod.fst h1 : Lp ℝ 2 π →ₗᵢ[ℝ] Lp ℝ 2 J).toContinuousLinearMap).comp
    (Lp.compMeasurePreservingₗᵢ ℝ Prod.snd h2 : Lp ℝ 2 π →ₗᵢ[ℝ] Lp ℝ 2 J).toContinuousLinearMap

variable (h1 : MeasurePreserving Prod.fst J π) (h2 : MeasurePreserving Prod.snd J π)

theorem inner_op (g h : Lp ℝ 2 π) : ⟪g, op h1 h2 h⟫_ℝ = ⟪Lp.compMeasurePreserving Prod.fst h1 g, Lp.compMeasurePreserving Prod.snd h2 h⟫_ℝ := by
  unfold op
  rw [ContinuousLinearMap.comp_apply, ContinuousLinearMap.adjoint_inner_right]
  rfl

theorem norm_op_le : ‖op h1 h2‖ ≤ 1 := by
  unfold op
  refine (ContinuousLinearMap.opNorm_comp_le _ _).trans ?_
  rw [LinearIsometryEquiv.norm_map]
  exact mul_le_one₀ (LinearIsometry.norm_toContinuousLinearMap_le _) (norm_nonneg _) (LinearIsometry.norm_toContinuousLinearMap_le _)

theorem op_fixed {h : Lp ℝ 2 π} (hh : op h1 h2 h = h) :
    Lp.compMeasurePreserving Prod.fst h1 h = Lp.compMeasurePreserving Prod.snd h2 h := by
  have e := inner_op h1 h2 h h
  rw [hh, real_inner_self_eq_norm_sq] at e
  rw [← sub_eq_zero, ← norm_eq_zero, ← sq_eq_zero_iff, norm_sub_sq_real, ← e, Lp.norm_compMeasurePreserving, Lp.norm_compMeasurePreserving]
  ring

theorem op_fixed_const [IsProbabilityMeasure π] (hac : π.prod π ≪ J) {h : Lp ℝ 2 π} (hh : op h1 h2 h = h) : ∃ c : ℝ, h =ᵐ[π] fun _ => c := by
  have e := op_fixed h1 h2 hh
  have e1 := Lp.coeFn_compMeasurePreserving h h1
  have e2 := Lp.coeFn_compMeasurePreserving h h2
  rw [← e] at e2
  have e3 : ∀ᵐ z ∂(π.prod π), h z.1 = h z.2 := hac.ae_le (by
    filter_upwards [e1, e2] with z a b
    exact a.symm.trans b)
  obtain ⟨x, hx⟩ := (Measure.ae_ae_of_ae_prod e3).exists
  exact ⟨h x, by filter_upwards [hx] with y hy; exact hy.symm⟩

/-- Mean ergodic theorem. -/
theorem average_tendsto [IsProbabilityMeasure π] (hconst : ∀ h : Lp ℝ 2 π, op h1 h2 h = h → ∃ c : ℝ, h =ᵐ[π] fun _ => c) {h : Lp ℝ 2 π} (h0 : ∫ x, h x ∂π = 0) :
    Tendsto (birkhoffAverage ℝ (op h1 h2) _root_.id · h) atTop (𝓝 0) := by
  have hT := (op h1 h2).tendsto_birkhoffAverage_orthogonalProjection (norm_op_le h1 h2) h
  set p := ((op h1 h2).eqLocus (1 : Lp ℝ 2 π →L[ℝ] Lp ℝ 2 π)).orthogonalProjectionOnto h with hp
  have hfix : op h1 h2 (p : Lp ℝ 2 π) = p := p.2
  obtain ⟨c, hc⟩ := hconst _ hfix
  have h3 : ⟪(p : Lp ℝ 2 π), h⟫_ℝ = 0 := by
    rw [L2.inner_def]
    have : (fun a => ⟪(p : Lp ℝ 2 π) a, h a⟫_ℝ) =ᵐ[π] fun a => c * h a := by
      filter_upwards [hc] with a ha
      rw [ha]; simp [mul_comm]
    rw [integral_congr_ae this, integral_const_mul, h0, mul_zero]
  have h4 : (p : Lp ℝ 2 π) = 0 := by
    rw [← norm_eq_zero, ← sq_eq_zero_iff, ← real_inner_self_eq_norm_sq]
    have h5 : ⟪(p : Lp ℝ 2 π), h - p⟫_ℝ = 0 := by
      rw [hp]
      exact Submodule.inner_right_of_mem_orthogonal (SetLike.coe_mem _) (Submodule.sub_starProjection_mem_orthogonal h)
    rw [inner_sub_right, h3] at h5
    linarith
  rwa [h4] at hT
end

/-! ## Moments of sums along a chain -/

section
variable {X D : Type*} [MeasurableSpace X] [MeasurableSpace D]

/-- The mean of `f` after one step. -/
noncomputable def next (δ : Measure D) (step : X → D → X) (f : X → ℝ) (x : X) : ℝ := ∫ z, f (step x z) ∂δ

/-- The mean of the sum of `f` over the first `n` states, from `x`. -/
noncomputable def sum1 (δ : Measure D) (step : X → D → X) (f : X → ℝ) : ℕ → X → ℝ
  | 0, _ => 0
  | n + 1, x => f x + next δ step (sum1 δ step f n) x

/-- Its mean square. -/
noncomputable def sum2 (δ : Measure D) (step : X → D → X) (f : X → ℝ) : ℕ → X → ℝ
  | 0, _ => 0
  | n + 1, x => f x ^ 2 + 2 * f x * next δ step (sum1 δ step f n) x + next δ step (sum2 δ step f n) x

/-- Law of two successive states, the first from `π`. -/
noncomputable def pairLaw (δ : Measure D) (step : X → D → X) (π : Measure X) : Measure (X × X) := (π.prod δ).map fun z => (z.1, step z.1 z.2)

variable {δ : Measure D} [IsProbabilityMeasure δ] {step : X → D → X} (hs : Measurable (Function.uncurry step))

include hs in
theorem measurable_next {f : X → ℝ} (hf : Measurable f) : Measurable (next δ step f) :=
  (StronglyMeasurable.integral_prod_right (f := fun x z => f (step x z)) (hf.comp hs).stronglyMeasurable).measurable

omit [MeasurableSpace X] in
theorem abs_next_le {f : X → ℝ} {B : ℝ} (hB : ∀ x, |f x| ≤ B) (x : X) : |next δ step f x| ≤ B := by
  have := norm_integral_le_of_norm_le_const (μ := δ) (f := fun z => f (step x z)) (.of_forall fun z => hB _)
  simpa [next] using this

include hs in
theorem integrable_step {f : X → ℝ} (hf : Measurable f) {B : ℝ} (hB : ∀ x, |f x| ≤ B) (x : X) : Integrable (fun z => f (step x z)) δ :=
  Integrable.of_bound (hf.comp (hs.comp measurable_prodMk_left)).aestronglyMeasurable B (.of_forall fun _ => hB _)

variable {f : X → ℝ} (hf : Measurable f) {B : ℝ} (hB : ∀ x, |f x| ≤ B)

include hs hf in
theorem measurable_sum1 (n : ℕ) : Measurable (sum1 δ step f n) := by
  induction n with
  | zero => exact measurable_const
  | succ n ih => exact hf.add (measurable_next hs ih)

include hs hf in
theorem measurable_sum2 (n : ℕ) : Measurable (sum2 δ step f n) := by
  induction n with
  | zero => exact measurable_const
  | succ n ih => exact ((hf.pow_const 2).add ((hf.const_mul 2).mul (measurable_next hs (measurable_sum1 hs hf n)))).add (measurable_next hs ih)

omit [MeasurableSpace X] in
include hB in
theorem abs_sum1_le (n : ℕ) (x : X) : |sum1 δ step f n x| ≤ n * B := by
  induction n generalizing x with
  | zero => simp [sum1]
  | succ n ih =>
    refine (abs_add_le _ _).trans ?_
    have := abs_next_le (δ := δ) (step := step) ih x
    push_cast
    linarith [hB x]

omit [MeasurableSpace X] in
include hB in
theorem abs_sum2_le (n : ℕ) (x : X) : |sum2 δ step f n x| ≤ n ^ 2 * B ^ 2 := by
  induction n generalizing x with
  | zero => simp [sum2]
  | succ n ih =>
    have h1 := abs_next_le (δ := δ) (step := step) ih x
    have h2 := abs_next_le (δ := δ) (step := step) (abs_sum1_le (δ := δ) (step := step) hB n) x
    have hB0 : 0 ≤ B := (abs_nonneg _).trans (hB x)
    have h3 : |f x ^ 2| ≤ B ^ 2 := by rw [abs_pow]; exact pow_le_pow_left₀ (abs_nonneg _) (hB x) 2
    have h4 : |2 * f x * next δ step (sum1 δ step f n) x| ≤ 2 * B * (n * B) := by
      rw [abs_mul, abs_mul, abs_two]
      have := hB x
      gcongr
    simp only [sum2]
    refine (abs_add_le _ _).trans ((add_le_add ((abs_add_le _ _).trans (add_le_add h3 h4)) h1).trans (le_of_eq ?_))
    push_cast
    ring

/-! ## The stationary chain -/

variable {π : Measure X} [IsProbabilityMeasure π] (hinv : ∀ f : X → ℝ≥0∞, Measurable f → ∫⁻ x, ∫⁻ w, f (step x w) ∂δ ∂π = ∫⁻ x, f x ∂π)

omit [IsProbabilityMeasure π] in
include hs in
theorem fst_pres : MeasurePreserving Prod.fst (pairLaw δ step π) π := by
  refine ⟨measurable_fst, ?_⟩
  unfold pairLaw
  have hm : Measurable fun z : X × D => (z.1, step z.1 z.2) := measurable_fst.prodMk hs
  rw [Measure.map_map measurable_fst hm]
  change (π.prod δ).map Prod.fst = π
  rw [Measure.map_fst_prod, measure_univ, one_smul]

omit [IsProbabilityMeasure π] in
include hs hinv in
theorem snd_pres : MeasurePreserving Prod.snd (pairLaw δ step π) π := by
  refine ⟨measurable_snd, ?_⟩
  unfold pairLaw
  have hm' : Measurable fun z : X × D => (z.1, step z.1 z.2) := measurable_fst.prodMk hs
  rw [Measure.map_map measurable_snd hm']
  refine Measure.ext fun A hA => ?_
  have hm : Measurable (Prod.snd ∘ fun z : X × D => (z.1, step z.1 z.2)) := hs
  rw [← lintegral_indicator_one hA, lintegral_map (measurable_one.indicator hA) hm]
  have hc : Measurable fun z : X × D => A.indicator (1 : X → ℝ≥0∞) (step z.1 z.2) := (measurable_one.indicator hA).comp hm
  refine (lintegral_prod (μ := π) (ν := δ) _ hc.aemeasurable).trans ?_
  exact (hinv _ (measurable_one.indicator hA)).trans (lintegral_indicator_one hA)

include hs in
/-- If every set with positive probability under `π` is reached in one step from almost every state, so is every such set of pairs. -/
theorem prod_ac_pairLaw (hreach : ∀ᵐ x ∂π, π ≪ δ.map (step x)) : π.prod π ≪ pairLaw δ step π := by
  refine Measure.AbsolutelyContinuous.mk fun A hA h0 => ?_
  have hm : Measurable fun z : X × D => (z.1, step z.1 z.2) := measurable_fst.prodMk hs
  unfold pairLaw at h0
  rw [Measure.map_apply hm hA, Measure.prod_apply (hm hA), lintegral_eq_zero_iff (measurable_measure_prodMk_left (hm hA))] at h0
  rw [Measure.prod_apply hA, lintegral_eq_zero_iff (measurable_measure_prodMk_left hA)]
  filter_upwards [h0, hreach] with x h1 h2
  refine h2 ?_
  have hx : Measurable (step x) := hs.comp measurable_prodMk_left
  rw [Measure.map_apply hx (measurable_prodMk_left hA)]
  exact h1

/-- Only constant functions are kept by every step. -/
def Irreducible (δ : Measure D) (step : X → D → X) (π : Measure X) : Prop :=
  ∀ g : X → ℝ, Measurable g → (∀ᵐ z ∂(π.prod δ), g z.1 = g (step z.1 z.2)) → ∃ c : ℝ, g =ᵐ[π] fun _ => c

include hs in
theorem irreducible_of_reach (hreach : ∀ᵐ x ∂π, π ≪ δ.map (step x)) : Irreducible δ step π := by
  intro g hg h
  have h1 := Measure.ae_ae_of_ae_prod h
  obtain ⟨x, hx, hx'⟩ := (h1.and hreach).exists
  refine ⟨g x, hx'.ae_le ?_⟩
  have hm : Measurable (step x) := hs.comp measurable_prodMk_left
  refine (ae_map_iff hm.aemeasurable (measurableSet_eq_fun hg measurable_const)).mpr ?_
  filter_upwards [hx] with w hw
  exact hw.symm

include hs hinv in
/-- Two steps will do. -/
theorem irreducible_of_reach2 (hreach : ∀ᵐ x ∂π, π ≪ (δ.prod δ).map fun w => step (step x w.1) w.2) : Irreducible δ step π := by
  intro g hg h
  have h1 : ∀ᵐ x ∂π, ∀ᵐ w ∂δ, g x = g (step x w) := Measure.ae_ae_of_ae_prod h
  have h2 : ∀ᵐ x ∂π, ∀ᵐ w ∂δ, ∀ᵐ w' ∂δ, g (step x w) = g (step (step x w) w') := by
    have e := (snd_pres (π := π) (δ := δ) hs hinv).map_eq
    unfold pairLaw at e
    have hm : Measurable fun z : X × D => (z.1, step z.1 z.2) := measurable_fst.prodMk hs
    rw [Measure.map_map measurable_snd hm] at e
    have h3 : ∀ᵐ y ∂((π.prod δ).map (Prod.snd ∘ fun z : X × D => (z.1, step z.1 z.2))), ∀ᵐ w' ∂δ, g y = g (step y w') := by rw [e]; exact h1
    exact Measure.ae_ae_of_ae_prod (ae_of_ae_map (measurable_snd.comp hm).aemeasurable h3)
  obtain ⟨x, hx1, hx2, hx3⟩ := (h1.and (h2.and hreach)).exists
  refine ⟨g x, hx3.ae_le ?_⟩
  have hm : Measurable fun w : D × D => step (step x w.1) w.2 :=
    hs.comp ((hs.comp (measurable_const.prodMk measurable_fst)).prodMk measurable_snd)
  refine (ae_map_iff hm.aemeasurable (measurableSet_eq_fun hg measurable_const)).mpr ?_
  refine (Measure.ae_prod_iff_ae_ae (measurableSet_eq_fun (hg.comp hm) measurable_const)).mpr ?_
  filter_upwards [hx1, hx2] with w a b
  filter_upwards [b] with w' c
  rw [a]; exact c.symm

omit [IsProbabilityMeasure π] in
include hs in
theorem Irreducible.fixed (hirr : Irreducible δ step π) {h : Lp ℝ 2 π} (hh : op (fst_pres (π := π) (δ := δ) hs) (snd_pres hs hinv) h = h) : ∃ c : ℝ, h =ᵐ[π] fun _ => c := by
  have hm : Measurable fun z : X × D => (z.1, step z.1 z.2) := measurable_fst.prodMk hs
  have mh : Measurable fun x => (h x : ℝ) := (Lp.stronglyMeasurable h).measurable
  have e := op_fixed _ _ hh
  have e1 := Lp.coeFn_compMeasurePreserving h (fst_pres (π := π) (δ := δ) hs)
  have e2 := Lp.coeFn_compMeasurePreserving h (snd_pres hs hinv)
  rw [← e] at e2
  have e3 : ∀ᵐ z ∂(pairLaw δ step π), h z.1 = h z.2 := by
    filter_upwards [e1, e2] with z a b
    exact a.symm.trans b
  unfold pairLaw at e3
  exact hirr _ mh (ae_of_ae_map hm.aemeasurable e3)

omit [IsProbabilityMeasure δ] [MeasurableSpace D] in
theorem memLp_of_bound {D : Type*} [MeasurableSpace D] {π : Measure D} [IsProbabilityMeasure π] {f : D → ℝ} (hf : Measurable f) {B : ℝ} (hB : ∀ x, |f x| ≤ B) : MemLp f 2 π :=
  MemLp.of_bound hf.aestronglyMeasurable B (.of_forall hB)

include hs in
theorem op_toLp {h : X → ℝ} (hh : Measurable h) {C : ℝ} (hC : ∀ x, |h x| ≤ C) :
    op (fst_pres (π := π) (δ := δ) hs) (snd_pres hs hinv) ((memLp_of_bound hh hC).toLp h) = (memLp_of_bound (measurable_next (δ := δ) hs hh) (abs_next_le hC)).toLp (next δ step h) := by
  refine ext_inner_left ℝ fun g => ?_
  rw [inner_op, L2.inner_def, L2.inner_def]
  have hm : Measurable fun z : X × D => (z.1, step z.1 z.2) := measurable_fst.prodMk hs
  set G := Lp.compMeasurePreserving Prod.fst (fst_pres (π := π) (δ := δ) hs) g with hG
  set H := Lp.compMeasurePreserving Prod.snd (snd_pres hs hinv) ((memLp_of_bound hh hC).toLp h) with hH
  have e1 : (fun z => ⟪G z, H z⟫_ℝ) =ᵐ[pairLaw δ step π] fun z => g z.1 * h z.2 := by
    have a1 := Lp.coeFn_compMeasurePreserving g (fst_pres (π := π) (δ := δ) hs)
    have a2 := Lp.coeFn_compMeasurePreserving ((memLp_of_bound hh hC).toLp h) (snd_pres hs hinv)
    have a3 := (snd_pres hs hinv).quasiMeasurePreserving.ae_eq_comp ((memLp_of_bound (π := π) hh hC).coeFn_toLp)
    filter_upwards [a1, a2, a3] with z b1 b2 b3
    rw [hG, hH, b1, b2, b3]
    simp [mul_comm]
  rw [integral_congr_ae e1]
  have hg : Integrable (fun x => g x) π := (Lp.memLp g).integrable (by norm_num)
  have hgm : AEStronglyMeasurable (fun z : X × X => g z.1 * h z.2) (pairLaw δ step π) := by
    refine AEStronglyMeasurable.mul ?_ (hh.comp measurable_snd).aestronglyMeasurable
    exact (Lp.aestronglyMeasurable g).comp_measurePreserving (fst_pres hs)
  have hint : Integrable (fun z : X × D => g z.1 * h (step z.1 z.2)) (π.prod δ) := by
    have h5 : Integrable (fun z : X × D => g z.1) (π.prod δ) := hg.comp_fst δ
    have h6 := h5.bdd_mul (c := C) (f := fun z : X × D => h (step z.1 z.2)) (hh.comp hs).aestronglyMeasurable (.of_forall fun z => hC _)
    exact h6.congr (.of_forall fun z => mul_comm _ _)
  have e2 : ∫ z, g z.1 * h z.2 ∂pairLaw δ step π = ∫ z : X × D, g z.1 * h (step z.1 z.2) ∂(π.prod δ) := integral_map hm.aemeasurable hgm
  rw [e2, integral_prod _ hint]
  refine integral_congr_ae ?_
  filter_upwards [(memLp_of_bound (π := π) (measurable_next (δ := δ) hs hh) (abs_next_le hC)).coeFn_toLp] with x hx
  rw [hx, integral_const_mul]
  simp [next, mul_comm]

omit [IsProbabilityMeasure π] in
include hs hinv in
theorem integral_next [IsFiniteMeasure π] {h : X → ℝ} (hh : Measurable h) {C : ℝ} (hC : ∀ x, |h x| ≤ C) : ∫ x, next δ step h x ∂π = ∫ x, h x ∂π := by
  have hm : Measurable fun z : X × D => (z.1, step z.1 z.2) := measurable_fst.prodMk hs
  have e1 : ∫ x, h x ∂π = ∫ z, h z.2 ∂(pairLaw δ step π) := by
    have e := (snd_pres hs hinv).map_eq
    conv_lhs => rw [← e]
    exact integral_map measurable_snd.aemeasurable hh.aestronglyMeasurable
  have e2 : ∫ z, h z.2 ∂(pairLaw δ step π) = ∫ z : X × D, h (step z.1 z.2) ∂(π.prod δ) := integral_map hm.aemeasurable (hh.comp measurable_snd).aestronglyMeasurable
  rw [e1, e2, integral_prod]
  · rfl
  · exact Integrable.of_bound (hh.comp hs).aestronglyMeasurable C (.of_forall fun _ => hC _)

include hs hf hB in
/-- The mean sums are the ergodic sums of the operator. -/
theorem toLp_sum1 (n : ℕ) : (memLp_of_bound (π := π) (measurable_sum1 (δ := δ) hs hf n) (abs_sum1_le hB n)).toLp (sum1 δ step f n)
    = birkhoffSum (op (fst_pres (π := π) (δ := δ) hs) (snd_pres hs hinv)) _root_.id n ((memLp_of_bound hf hB).toLp f) := by
  induction n with
  | zero =>
    rw [birkhoffSum_zero]
    exact (memLp_of_bound (π := π) (measurable_sum1 (δ := δ) hs hf 0) (abs_sum1_le hB 0)).toLp_zero
  | succ n ih =>
    rw [birkhoffSum_succ']
    have e1 : birkhoffSum (op (fst_pres (π := π) (δ := δ) hs) (snd_pres hs hinv)) _root_.id n (op (fst_pres (π := π) (δ := δ) hs) (snd_pres hs hinv) ((memLp_of_bound hf hB).toLp f))
        = op (fst_pres (π := π) (δ := δ) hs) (snd_pres hs hinv) (birkhoffSum (op (fst_pres (π := π) (δ := δ) hs) (snd_pres hs hinv)) _root_.id n ((memLp_of_bound hf hB).toLp f)) := by
      simp only [birkhoffSum, _root_.id, map_sum]
      refine Finset.sum_congr rfl fun k _ => ?_
      rw [← Function.iterate_succ_apply, Function.iterate_succ_apply']
    rw [e1, ← ih, op_toLp hs hinv (measurable_sum1 hs hf n) (abs_sum1_le hB n)]
    exact (memLp_of_bound (π := π) hf hB).toLp_add _

include hs hf hB hinv in
/-- The mean square of the sum of a centred function grows slower than the square of the length, from a stationary start. -/
theorem stationary_tendsto (hirr : Irreducible δ step π) (h0 : ∫ x, f x ∂π = 0) :
    Tendsto (fun n : ℕ => (∫ x, sum2 δ step f n x ∂π) / (n : ℝ) ^ 2) atTop (𝓝 0) := by
  set T := op (fst_pres (π := π) (δ := δ) hs) (snd_pres hs hinv) with hT
  set F := (memLp_of_bound (π := π) hf hB).toLp f with hF
  have hF0 : ∫ x, F x ∂π = 0 := by rw [integral_congr_ae (memLp_of_bound (π := π) hf hB).coeFn_toLp, h0]
  have hav := average_tendsto (fst_pres (π := π) (δ := δ) hs) (snd_pres hs hinv) (fun h hh => hirr.fixed hs hinv hh) hF0
  have hinner : ∀ n, ∫ x, f x * sum1 δ step f n x ∂π = ⟪F, birkhoffSum T _root_.id n F⟫_ℝ := fun n => by
    rw [hT, hF, ← toLp_sum1 hs hf hB hinv n, L2.inner_def]
    refine integral_congr_ae ?_
    filter_upwards [(memLp_of_bound (π := π) hf hB).coeFn_toLp, (memLp_of_bound (π := π) (measurable_sum1 (δ := δ) hs hf n) (abs_sum1_le hB n)).coeFn_toLp] with x h1 h2
    rw [h1, h2]
    simp [mul_comm]
  set b : ℕ → ℝ := fun n => 2 * ⟪F, birkhoffSum T _root_.id (n + 1) F⟫_ℝ - ∫ x, f x ^ 2 ∂π with hb
  have hint : ∀ {g : X → ℝ}, Measurable g → ∀ {C : ℝ}, (∀ x, |g x| ≤ C) → Integrable g π := fun hg C hC => Integrable.of_bound hg.aestronglyMeasurable C (.of_forall hC)
  have hrec : ∀ n, ∫ x, sum2 δ step f (n + 1) x ∂π = (∫ x, sum2 δ step f n x ∂π) + b n := fun n => by
    have i1 : Integrable (fun x => f x ^ 2) π := hint (hf.pow_const 2) (C := B ^ 2) fun x => by rw [abs_pow]; exact pow_le_pow_left₀ (abs_nonneg _) (hB x) 2
    have m1 := measurable_sum1 (δ := δ) hs hf (n + 1)
    have i2 : Integrable (fun x => f x * sum1 δ step f (n + 1) x) π := (hint m1 (abs_sum1_le hB (n + 1))).bdd_mul (c := B) hf.aestronglyMeasurable (.of_forall hB)
    have i3 : Integrable (fun x => next δ step (sum2 δ step f n) x) π := hint (measurable_next hs (measurable_sum2 hs hf n)) (abs_next_le (abs_sum2_le hB n))
    have e : ∀ x, sum2 δ step f (n + 1) x = 2 * (f x * sum1 δ step f (n + 1) x) - f x ^ 2 + next δ step (sum2 δ step f n) x := fun x => by
      simp only [sum2, sum1]; ring
    simp_rw [e]
    have i4 : Integrable (fun x => 2 * (f x * sum1 δ step f (n + 1) x) - f x ^ 2) π := (i2.const_mul 2).sub i1
    rw [integral_add i4 i3, integral_sub (i2.const_mul 2) i1, integral_const_mul, hinner, integral_next hs hinv (measurable_sum2 hs hf n) (abs_sum2_le hB n)]
    ring
  have hsum : ∀ n, ∫ x, sum2 δ step f n x ∂π = ∑ k ∈ Finset.range n, b k := fun n => by
    induction n with
    | zero => simp [sum2]
    | succ n ih => rw [hrec, ih, Finset.sum_range_succ]
  have hbn : Tendsto (fun n : ℕ => |b n| / ((n : ℝ) + 1)) atTop (𝓝 0) := by
    have h1 : Tendsto (fun n : ℕ => 2 * (‖F‖ * ‖birkhoffAverage ℝ T _root_.id (n + 1) F‖) + |∫ x, f x ^ 2 ∂π| / ((n : ℝ) + 1)) atTop (𝓝 (2 * (‖F‖ * ‖(0 : Lp ℝ 2 π)‖) + 0)) := by
      refine Tendsto.add (Tendsto.const_mul _ (Tendsto.const_mul _ ((hav.comp (tendsto_add_atTop_nat 1)).norm))) ?_
      exact tendsto_const_nhds.div_atTop (tendsto_atTop_add_const_right _ _ tendsto_natCast_atTop_atTop)
    rw [norm_zero, mul_zero, mul_zero, add_zero] at h1
    refine squeeze_zero (fun n => by positivity) (fun n => ?_) h1
    have hn : (0 : ℝ) < (n : ℝ) + 1 := by positivity
    rw [div_le_iff₀ hn, add_mul, div_mul_cancel₀ _ hn.ne']
    have h2 : ‖birkhoffAverage ℝ T _root_.id (n + 1) F‖ * ((n : ℝ) + 1) = ‖birkhoffSum T _root_.id (n + 1) F‖ := by
      rw [birkhoffAverage, norm_smul, norm_inv, Real.norm_eq_abs]
      push_cast
      rw [abs_of_pos hn]
      field_simp
    have h3 : |⟪F, birkhoffSum T _root_.id (n + 1) F⟫_ℝ| ≤ ‖F‖ * ‖birkhoffSum T _root_.id (n + 1) F‖ := abs_real_inner_le_norm _ _
    calc |b n| ≤ |2 * ⟪F, birkhoffSum T _root_.id (n + 1) F⟫_ℝ| + |∫ x, f x ^ 2 ∂π| := abs_sub _ _
      _ ≤ 2 * (‖F‖ * ‖birkhoffSum T _root_.id (n + 1) F‖) + |∫ x, f x ^ 2 ∂π| := by rw [abs_mul, abs_two]; gcongr
      _ = _ := by rw [← h2]; ring
  have hces := Filter.Tendsto.cesaro hbn
  refine squeeze_zero_norm (fun n => ?_) hces
  rw [hsum, norm_div, Real.norm_eq_abs, Real.norm_eq_abs, abs_of_nonneg (by positivity : (0 : ℝ) ≤ (n : ℝ) ^ 2)]
  rcases Nat.eq_zero_or_pos n with rfl | hn
  · simp
  have hn' : (0 : ℝ) < n := by exact_mod_cast hn
  rw [div_le_iff₀ (by positivity)]
  refine (Finset.abs_sum_le_sum_abs _ _).trans ?_
  have e : (n : ℝ)⁻¹ * (∑ i ∈ Finset.range n, |b i| / ((i : ℝ) + 1)) * (n : ℝ) ^ 2 = ∑ i ∈ Finset.range n, |b i| / ((i : ℝ) + 1) * n := by
    rw [← Finset.sum_mul]; field_simp
  rw [e]
  refine Finset.sum_le_sum fun i hi => ?_
  have hi' : ((i : ℝ) + 1) ≤ n := by exact_mod_cast Finset.mem_range.mp hi
  have hi0 : (0 : ℝ) < (i : ℝ) + 1 := by positivity
  rw [div_mul_eq_mul_div, le_div_iff₀ hi0]
  exact mul_le_mul_of_nonneg_left hi' (abs_nonneg _)

/-! ## Other starts -/

omit [IsProbabilityMeasure π] in
/-- Convergence in mean of bounded functions passes to laws with a density. -/
theorem tendsto_of_ac {u : ℕ → X → ℝ} (hu : ∀ n, Measurable (u n)) (hu0 : ∀ n x, 0 ≤ u n x) {C : ℝ} (huC : ∀ n x, u n x ≤ C) [IsFiniteMeasure π]
    (h : Tendsto (fun n => ∫ x, u n x ∂π) atTop (𝓝 0)) {ν : Measure X} [IsFiniteMeasure ν] (hν : ν ≪ π) : Tendsto (fun n => ∫ x, u n x ∂ν) atTop (𝓝 0) := by
  have habs : ∀ n x, |u n x| ≤ C := fun n x => by rw [abs_of_nonneg (hu0 n x)]; exact huC n x
  have hi : ∀ n, Integrable (u n) π := fun n => Integrable.of_bound (hu n).aestronglyMeasurable C (.of_forall (habs n))
  have h1 : TendstoInMeasure π u atTop (fun _ => (0 : ℝ)) := by
    refine tendstoInMeasure_of_tendsto_eLpNorm (p := 1) one_ne_zero (fun n => (hu n).aestronglyMeasurable) aestronglyMeasurable_const ?_
    have e : ∀ n, eLpNorm (u n - fun _ => (0 : ℝ)) 1 π = ENNReal.ofReal (∫ x, u n x ∂π) := fun n => by
      rw [eLpNorm_one_eq_lintegral_enorm, ofReal_integral_eq_lintegral_ofReal (hi n) (.of_forall (hu0 n))]
      refine lintegral_congr fun x => ?_
      simp only [Pi.sub_apply, sub_zero]
      rw [Real.enorm_eq_ofReal (hu0 n x)]
    simp_rw [e]
    rw [← ENNReal.ofReal_zero]
    exact ENNReal.tendsto_ofReal h
  refine tendsto_of_subseq_tendsto fun ns hns => ?_
  have h2 : TendstoInMeasure π (fun n => u (ns n)) atTop (fun _ => (0 : ℝ)) := fun ε hε => (h1 ε hε).comp hns
  obtain ⟨ms, -, h3⟩ := h2.exists_seq_tendsto_ae
  refine ⟨ms, ?_⟩
  have h4 := tendsto_integral_of_dominated_convergence (μ := ν) (F := fun n => u (ns (ms n))) (f := fun _ => (0 : ℝ)) (fun _ => C)
    (fun n => (hu _).aestronglyMeasurable) (integrable_const _) (fun n => .of_forall fun x => habs _ x) (hν.ae_le h3)
  simpa using h4

include hs hf hB in
theorem sq_sum1_le (n : ℕ) (x : X) : sum1 δ step f n x ^ 2 ≤ sum2 δ step f n x := by
  induction n generalizing x with
  | zero => simp [sum1, sum2]
  | succ n ih =>
    have m1 := measurable_sum1 (δ := δ) hs hf n
    have b1 := abs_sum1_le (δ := δ) (step := step) hB n
    have i1 := integrable_step (δ := δ) hs m1 b1 x
    have i2 : Integrable (fun z => sum1 δ step f n (step x z) ^ 2) δ := integrable_step hs (m1.pow_const 2) (B := (n * B) ^ 2)
      (fun y => by rw [abs_pow]; exact pow_le_pow_left₀ (abs_nonneg _) (b1 y) 2) x
    have h1 : next δ step (sum1 δ step f n) x ^ 2 ≤ next δ step (sum2 δ step f n) x := by
      have h2 : ∫ z, sum1 δ step f n (step x z) ^ 2 ∂δ ≤ next δ step (sum2 δ step f n) x :=
        integral_mono i2 (integrable_step hs (measurable_sum2 hs hf n) (abs_sum2_le hB n) x) fun z => ih _
      refine le_trans ?_ h2
      set c := next δ step (sum1 δ step f n) x with hc
      have h3 : 0 ≤ ∫ z, (sum1 δ step f n (step x z) - c) ^ 2 ∂δ := integral_nonneg fun z => sq_nonneg _
      have h4 : ∫ z, (sum1 δ step f n (step x z) - c) ^ 2 ∂δ = (∫ z, sum1 δ step f n (step x z) ^ 2 ∂δ) - 2 * c * (∫ z, sum1 δ step f n (step x z) ∂δ) + c ^ 2 := by
        have e : ∀ z, (sum1 δ step f n (step x z) - c) ^ 2 = sum1 δ step f n (step x z) ^ 2 - 2 * c * sum1 δ step f n (step x z) + c ^ 2 := fun z => by ring
        simp_rw [e]
        have i3 : Integrable (fun z => sum1 δ step f n (step x z) ^ 2 - 2 * c * sum1 δ step f n (step x z)) δ := i2.sub (i1.const_mul _)
        rw [integral_add i3 (integrable_const _), integral_sub i2 (i1.const_mul _), integral_const_mul]
        simp
      have h5 : ∫ z, sum1 δ step f n (step x z) ∂δ = c := rfl
      rw [h4, h5] at h3
      nlinarith
    simp only [sum1, sum2]
    nlinarith

include hs hf hB in
theorem sum2_nonneg (n : ℕ) (x : X) : 0 ≤ sum2 δ step f n x := (sq_nonneg _).trans (sq_sum1_le hs hf hB n x)

end

/-! ## Chains on an ideal tape -/

section
open Mocat.Ideal Mocat.Meas

/-- `fresh` for bounded real functions. -/
theorem fresh_integral {α : Type*} [MeasurableSpace α] {S T : Set Site} (hST : Disjoint S T) {f : Tape → α} (hf : Measurable f) (hfS : DependsOn f S)
    {g : α → Tape → ℝ} (hg : Measurable (Function.uncurry g)) {B : ℝ} (hB : ∀ a ω, |g a ω| ≤ B) (hgT : ∀ a, DependsOn (g a) T) :
    ∫ ω, g (f ω) ω ∂ideal = ∫ ω, ∫ ω', g (f ω) ω' ∂ideal ∂ideal := by
  have hB0 : ∀ a ω, 0 ≤ g a ω + B := fun a ω => by linarith [neg_abs_le (g a ω), hB a ω]
  have hgB : Measurable (Function.uncurry fun a ω => g a ω + B) := hg.add_const B
  have hi : ∀ {h : Tape → ℝ}, Measurable h → (∀ ω, |h ω| ≤ B) → Integrable h ideal := fun hh hb => Integrable.of_bound hh.aestronglyMeasurable B (.of_forall hb)
  have m1 : Measurable fun ω => g (f ω) ω := hg.comp (hf.prodMk measurable_id)
  have m2 : ∀ a, Measurable (g a) := fun a => hg.comp measurable_prodMk_left
  have m3 : Measurable fun ω => ∫ ω', g (f ω) ω' ∂ideal :=
    ((StronglyMeasurable.integral_prod_right (f := fun ω ω' => g (f ω) ω') (hg.comp ((hf.comp measurable_fst).prodMk measurable_snd)).stronglyMeasurable)).measurable
  have b3 : ∀ ω, |∫ ω', g (f ω) ω' ∂ideal| ≤ B := fun ω => by
    have := norm_integral_le_of_norm_le_const (μ := ideal) (f := fun ω' => g (f ω) ω') (.of_forall fun ω' => hB _ _)
    simpa using this
  have e := fresh hST hf hfS (g := fun a ω => ENNReal.ofReal (g a ω + B)) (ENNReal.measurable_ofReal.comp hgB)
    (fun a ω ω' h => by simp only; rw [hgT a h])
  have i1 : Integrable (fun ω => g (f ω) ω + B) ideal := (hi m1 fun ω => hB _ _).add (integrable_const B)
  have i2 : ∀ a, Integrable (fun ω => g a ω + B) ideal := fun a => (hi (m2 a) fun ω => hB _ _).add (integrable_const B)
  have i3 : Integrable (fun ω => ∫ ω', g (f ω) ω' + B ∂ideal) ideal := by
    have : (fun ω => ∫ ω', g (f ω) ω' + B ∂ideal) = fun ω => (∫ ω', g (f ω) ω' ∂ideal) + B := by
      funext ω
      rw [integral_add (hi (m2 _) fun ω => hB _ _) (integrable_const B)]; simp
    rw [this]
    exact (hi m3 b3).add (integrable_const B)
  have l2 : ∀ a, ∫⁻ ω', ENNReal.ofReal (g a ω' + B) ∂ideal = ENNReal.ofReal (∫ ω', g a ω' + B ∂ideal) := fun a => (ofReal_integral_eq_lintegral_ofReal (i2 a) (.of_forall fun ω => hB0 a ω)).symm
  simp_rw [l2] at e
  rw [← ofReal_integral_eq_lintegral_ofReal i1 (.of_forall fun ω => hB0 _ ω), ← ofReal_integral_eq_lintegral_ofReal i3 (.of_forall fun ω => integral_nonneg fun ω' => hB0 _ _),
    ENNReal.ofReal_eq_ofReal_iff (integral_nonneg fun ω => hB0 _ _) (integral_nonneg fun ω => integral_nonneg fun ω' => hB0 _ _)] at e
  have e2 : ∀ ω, ∫ ω', g (f ω) ω' + B ∂ideal = (∫ ω', g (f ω) ω' ∂ideal) + B := fun ω => by
    rw [integral_add (hi (m2 _) fun ω => hB _ _) (integrable_const B)]; simp
  simp_rw [e2] at e
  rw [integral_add (hi m1 fun ω => hB _ _) (integrable_const B), integral_add (hi m3 b3) (integrable_const B)] at e
  exact add_right_cancel e

variable {X D : Type*}

/-- The sum of `f` over the first `n` states of the chain. -/
def pathSum (draw : Keys.Key → Tape → D) (nxt : Keys.Key → Keys.Key) (step : X → D → X) (f : X → ℝ) (n : ℕ) (k : Keys.Key) (x : X) (ω : Tape) : ℝ :=
  ∑ j ∈ Finset.range n, f (tapeIter draw nxt step j k x ω)

theorem pathSum_succ (draw : Keys.Key → Tape → D) (nxt : Keys.Key → Keys.Key) (step : X → D → X) (f : X → ℝ) (n : ℕ) (k : Keys.Key) (x : X) (ω : Tape) :
    pathSum draw nxt step f (n + 1) k x ω = f x + pathSum draw nxt step f n (nxt k) (step x (draw k ω)) ω := by
  unfold pathSum
  rw [Finset.sum_range_succ', add_comm]
  rfl

variable [MeasurableSpace X] [MeasurableSpace D] {draw : Keys.Key → Tape → D} {nxt : Keys.Key → Keys.Key} {δ : Measure D} [IsProbabilityMeasure δ] {step : X → D → X}
  (hd : Draws draw nxt δ) (hs : Measurable (Function.uncurry step)) {f : X → ℝ} (hf : Measurable f) {B : ℝ} (hB : ∀ x, |f x| ≤ B)

omit [IsProbabilityMeasure δ] in
include hd hs hf in
theorem measurable_pathSum (n : ℕ) (k : Keys.Key) : Measurable fun z : X × Tape => pathSum draw nxt step f n k z.1 z.2 :=
  Finset.measurable_sum _ fun j _ => hf.comp (measurable_tapeIter hd hs j k)

omit [MeasurableSpace X] [MeasurableSpace D] in
include hB in
theorem abs_pathSum_le (n : ℕ) (k : Keys.Key) (x : X) (ω : Tape) : |pathSum draw nxt step f n k x ω| ≤ n * B := by
  refine (Finset.abs_sum_le_sum_abs _ _).trans ((Finset.sum_le_sum fun j _ => hB _).trans ?_)
  simp

omit [MeasurableSpace X] [IsProbabilityMeasure δ] in
include hd in
theorem pathSum_dependsOn (n : ℕ) (k : Keys.Key) (x : X) : DependsOn (pathSum draw nxt step f n k x) (below k) := fun ω ω' h =>
  Finset.sum_congr rfl fun j _ => by rw [tapeIter_dependsOn hd step j k x h]

include hd hs hf hB in
theorem integral_pathSum (n : ℕ) : ∀ (k : Keys.Key) (x : X), ∫ ω, pathSum draw nxt step f n k x ω ∂ideal = sum1 δ step f n x ∧
    ∫ ω, pathSum draw nxt step f n k x ω ^ 2 ∂ideal = sum2 δ step f n x := by
  induction n with
  | zero => intro k x; simp [pathSum, sum1, sum2]
  | succ n ih =>
    intro k x
    obtain ⟨S, h1, -, h3⟩ := hd.reads k
    have hsx : Measurable fun z => step x z := hs.comp measurable_prodMk_left
    have hm : Measurable fun ω => step x (draw k ω) := hsx.comp (hd.measurable k)
    have hmP : Measurable (Function.uncurry fun a ω => pathSum draw nxt step f n (nxt k) a ω) := measurable_pathSum hd hs hf n (nxt k)
    have e1 := fresh_integral h3 (f := fun ω => step x (draw k ω)) (g := fun a ω => pathSum draw nxt step f n (nxt k) a ω) hm (fun ω ω' hω => by simp only; rw [h1 hω]) hmP
      (abs_pathSum_le hB n (nxt k)) (pathSum_dependsOn hd n (nxt k))
    have b2 : ∀ a ω, |pathSum draw nxt step f n (nxt k) a ω ^ 2| ≤ (n * B) ^ 2 := fun a ω => by
      rw [abs_pow]; exact pow_le_pow_left₀ (abs_nonneg _) (abs_pathSum_le hB n (nxt k) a ω) 2
    have e2 := fresh_integral h3 (f := fun ω => step x (draw k ω)) (g := fun a ω => pathSum draw nxt step f n (nxt k) a ω ^ 2) hm (fun ω ω' hω => by simp only; rw [h1 hω]) (hmP.pow_const 2)
      b2 (fun a ω ω' h => by simp only; rw [pathSum_dependsOn hd n (nxt k) a h])
    simp_rw [(ih (nxt k) _).1] at e1
    simp_rw [(ih (nxt k) _).2] at e2
    have hmap : ∀ {h : X → ℝ}, Measurable h → ∫ ω, h (step x (draw k ω)) ∂ideal = next δ step h x := fun {h} hh => by
      rw [next, ← hd.law k]
      exact (integral_map (hd.measurable k).aemeasurable (hh.comp hsx).aestronglyMeasurable).symm
    rw [hmap (measurable_sum1 hs hf n)] at e1
    rw [hmap (measurable_sum2 hs hf n)] at e2
    have mm : Measurable fun ω => pathSum draw nxt step f n (nxt k) (step x (draw k ω)) ω := hmP.comp (hm.prodMk measurable_id)
    have i1 : Integrable (fun ω => pathSum draw nxt step f n (nxt k) (step x (draw k ω)) ω) ideal :=
      Integrable.of_bound mm.aestronglyMeasurable _ (.of_forall fun ω => abs_pathSum_le hB n (nxt k) _ ω)
    have i2 : Integrable (fun ω => pathSum draw nxt step f n (nxt k) (step x (draw k ω)) ω ^ 2) ideal :=
      Integrable.of_bound (mm.pow_const 2).aestronglyMeasurable _ (.of_forall fun ω => b2 _ ω)
    constructor
    · simp_rw [pathSum_succ]
      rw [integral_add (integrable_const _) i1, e1]
      simp [sum1]
    · have e : ∀ ω, pathSum draw nxt step f (n + 1) k x ω ^ 2 = f x ^ 2 + 2 * f x * pathSum draw nxt step f n (nxt k) (step x (draw k ω)) ω
          + pathSum draw nxt step f n (nxt k) (step x (draw k ω)) ω ^ 2 := fun ω => by rw [pathSum_succ]; ring
      simp_rw [e]
      have i3 : Integrable (fun ω => f x ^ 2 + 2 * f x * pathSum draw nxt step f n (nxt k) (step x (draw k ω)) ω) ideal := (integrable_const _).add (i1.const_mul _)
      rw [integral_add i3 i2, integral_add (integrable_const _) (i1.const_mul _), integral_const_mul, e1, e2]
      simp [sum2]

/-- The mean square of the average of a centred bounded function, from a stationary start. -/
theorem stationary_average {π : Measure X} [IsProbabilityMeasure π] (hd : Draws draw nxt δ) (hs : Measurable (Function.uncurry step)) (hinv : ∀ f : X → ℝ≥0∞, Measurable f → ∫⁻ x, ∫⁻ w, f (step x w) ∂δ ∂π = ∫⁻ x, f x ∂π)
    (hirr : Irreducible δ step π) (hf : Measurable f) (hB : ∀ x, |f x| ≤ B) {ε : ℝ} (hε : 0 < ε) (k : Keys.Key) :
    Tendsto (fun n : ℕ => ∫⁻ x, ideal {ω | ε ≤ |pathSum draw nxt step f n k x ω / n - ∫ x, f x ∂π|} ∂π) atTop (𝓝 0) := by
  set m := ∫ x, f x ∂π with hm
  have hfi : Integrable f π := Integrable.of_bound hf.aestronglyMeasurable B (.of_forall hB)
  have hgm : Measurable fun x => f x - m := hf.sub_const m
  have hgB : ∀ x, |f x - m| ≤ B + |m| := fun x => (abs_sub _ _).trans (by linarith [hB x])
  have hg0 : ∫ x, (f x - m) ∂π = 0 := by rw [integral_sub hfi (integrable_const _)]; simp [hm]
  have h1 := stationary_tendsto hs hgm hgB hinv hirr hg0
  have h2 : Tendsto (fun n : ℕ => ENNReal.ofReal ((∫ x, sum2 δ step (fun x => f x - m) n x ∂π) / (n : ℝ) ^ 2) / ENNReal.ofReal (ε ^ 2)) atTop (𝓝 0) := by
    have := ENNReal.Tendsto.div_const (b := ENNReal.ofReal (ε ^ 2)) (ENNReal.tendsto_ofReal h1) (Or.inr (ENNReal.ofReal_pos.mpr (by positivity)).ne')
    simpa using this
  refine tendsto_of_tendsto_of_tendsto_of_le_of_le' tendsto_const_nhds h2 (.of_forall fun _ => zero_le) ?_
  filter_upwards [eventually_gt_atTop 0] with n hn
  have hn' : (0 : ℝ) < n := by exact_mod_cast hn
  have e1 : ∀ x ω, pathSum draw nxt step f n k x ω / n - m = pathSum draw nxt step (fun x => f x - m) n k x ω / n := fun x ω => by
    simp only [pathSum, Finset.sum_sub_distrib, Finset.sum_const, Finset.card_range, nsmul_eq_mul]
    field_simp
  simp_rw [e1]
  have hpt : ∀ x, ideal {ω | ε ≤ |pathSum draw nxt step (fun x => f x - m) n k x ω / n|} ≤ ENNReal.ofReal (sum2 δ step (fun x => f x - m) n x / (n : ℝ) ^ 2) / ENNReal.ofReal (ε ^ 2) := by
    intro x
    have hmp : Measurable fun ω => pathSum draw nxt step (fun x => f x - m) n k x ω := (measurable_pathSum hd hs hgm n k).comp measurable_prodMk_left
    have hmy : Measurable fun ω => ENNReal.ofReal ((pathSum draw nxt step (fun x => f x - m) n k x ω / n) ^ 2) := ENNReal.measurable_ofReal.comp ((hmp.div_const _).pow_const 2)
    have h3 := meas_ge_le_lintegral_div (μ := ideal) hmy.aemeasurable (ε := ENNReal.ofReal (ε ^ 2)) (ENNReal.ofReal_pos.mpr (by positivity)).ne' ENNReal.ofReal_ne_top
    have hi : Integrable (fun ω => (pathSum draw nxt step (fun x => f x - m) n k x ω / n) ^ 2) ideal :=
      Integrable.of_bound ((hmp.div_const _).pow_const 2).aestronglyMeasurable ((n * (B + |m|) / n) ^ 2) (.of_forall fun ω => by
        rw [Real.norm_eq_abs, abs_pow, abs_div, abs_of_pos hn']
        exact pow_le_pow_left₀ (by positivity) (div_le_div_of_nonneg_right (abs_pathSum_le hgB n _ _ ω) hn'.le) 2)
    rw [← ofReal_integral_eq_lintegral_ofReal hi (.of_forall fun ω => sq_nonneg _)] at h3
    have e2 : ∫ ω, (pathSum draw nxt step (fun x => f x - m) n k x ω / n) ^ 2 ∂ideal = sum2 δ step (fun x => f x - m) n x / (n : ℝ) ^ 2 := by
      simp_rw [div_pow]
      rw [integral_div, (integral_pathSum hd hs hgm hgB n k x).2]
    rw [e2] at h3
    refine le_trans (measure_mono fun ω hω => ?_) h3
    simp only [Set.mem_ofPred_eq] at hω ⊢
    refine ENNReal.ofReal_le_ofReal ?_
    rw [← sq_abs (pathSum _ _ _ _ _ _ _ _ / _)]
    exact pow_le_pow_left₀ hε.le hω 2
  refine (lintegral_mono hpt).trans (le_of_eq ?_)
  have m2 := measurable_sum2 (δ := δ) hs hgm n
  have i2 : Integrable (fun x => sum2 δ step (fun x => f x - m) n x / (n : ℝ) ^ 2) π :=
    (Integrable.of_bound m2.aestronglyMeasurable _ (.of_forall (abs_sum2_le hgB n))).div_const _
  simp_rw [div_eq_mul_inv (ENNReal.ofReal _)]
  have m3 : Measurable fun x => ENNReal.ofReal (sum2 δ step (fun x => f x - m) n x / (n : ℝ) ^ 2) := ENNReal.measurable_ofReal.comp (m2.div_const _)
  rw [lintegral_mul_const _ m3, ← integral_div,
    ofReal_integral_eq_lintegral_ofReal i2 (.of_forall fun x => div_nonneg (sum2_nonneg hs hgm hgB n x) (by positivity))]

/-! ## Integrable functions, any start -/

omit [IsProbabilityMeasure δ] in
/-- The law of the sum does not depend on the key. -/
theorem lintegral_pathSum_succ_of (hd : Draws draw nxt δ) (hs : Measurable (Function.uncurry step)) (hf : Measurable f) {n : ℕ}
    (hki : ∀ {h : ℝ → ℝ≥0∞}, Measurable h → ∀ k k' x, ∫⁻ ω, h (pathSum draw nxt step f n k x ω) ∂ideal = ∫⁻ ω, h (pathSum draw nxt step f n k' x ω) ∂ideal)
    {h : ℝ → ℝ≥0∞} (hh : Measurable h) (k k' : Keys.Key) (x : X) :
    ∫⁻ ω, h (pathSum draw nxt step f (n + 1) k x ω) ∂ideal = ∫⁻ z, ∫⁻ ω, h (f x + pathSum draw nxt step f n k' (step x z) ω) ∂ideal ∂δ := by
  obtain ⟨S, h1, -, h3⟩ := hd.reads k
  have hsx : Measurable fun z => step x z := hs.comp measurable_prodMk_left
  have hm : Measurable fun ω => step x (draw k ω) := hsx.comp (hd.measurable k)
  have hh' : Measurable fun s => h (f x + s) := hh.comp (measurable_const_add _)
  have hmP : ∀ k, Measurable fun z : X × Tape => h (f x + pathSum draw nxt step f n k z.1 z.2) := fun k => hh'.comp (measurable_pathSum hd hs hf n k)
  have e1 := fresh h3 (f := fun ω => step x (draw k ω)) (g := fun a ω => h (f x + pathSum draw nxt step f n (nxt k) a ω)) hm (fun ω ω' hω => by simp only; rw [h1 hω]) (hmP (nxt k))
    (fun a ω ω' hω => by simp only; rw [pathSum_dependsOn hd n (nxt k) a hω])
  simp_rw [pathSum_succ]
  rw [e1]
  simp_rw [hki hh' (nxt k) k']
  have mφ : Measurable fun y => ∫⁻ ω, h (f x + pathSum draw nxt step f n k' y ω) ∂ideal := Measurable.lintegral_prod_right (hmP k')
  rw [← hd.law k]
  exact (lintegral_map (mφ.comp hsx) (hd.measurable k)).symm

omit [IsProbabilityMeasure δ] in
theorem lintegral_pathSum_key (hd : Draws draw nxt δ) (hs : Measurable (Function.uncurry step)) (hf : Measurable f) (n : ℕ) :
    ∀ {h : ℝ → ℝ≥0∞}, Measurable h → ∀ k k' x, ∫⁻ ω, h (pathSum draw nxt step f n k x ω) ∂ideal = ∫⁻ ω, h (pathSum draw nxt step f n k' x ω) ∂ideal := by
  induction n with
  | zero => intro h _ k k' x; simp [pathSum]
  | succ n ih =>
    intro h hh k k' x
    rw [lintegral_pathSum_succ_of hd hs hf ih hh k k x, lintegral_pathSum_succ_of hd hs hf ih hh k' k x]

/-- The probability that the average over `n` states is not within `ε` of `m`. -/
noncomputable def tail (draw : Keys.Key → Tape → D) (nxt : Keys.Key → Keys.Key) (step : X → D → X) (f : X → ℝ) (m : ℝ) (n : ℕ) (ε : ℝ) (k : Keys.Key) (x : X) : ℝ≥0∞ :=
  ideal {ω | ε ≤ |pathSum draw nxt step f n k x ω / n - m|}

omit [IsProbabilityMeasure δ] in
theorem tail_eq (hd : Draws draw nxt δ) (hs : Measurable (Function.uncurry step)) (hf : Measurable f) (m : ℝ) (n : ℕ) (ε : ℝ) (k : Keys.Key) (x : X) :
    tail draw nxt step f m n ε k x = ∫⁻ ω, Set.indicator {s : ℝ | ε ≤ |s / n - m|} 1 (pathSum draw nxt step f n k x ω) ∂ideal := by
  have hS : MeasurableSet {s : ℝ | ε ≤ |s / n - m|} := measurableSet_le measurable_const (by fun_prop)
  have hmp : Measurable fun ω => pathSum draw nxt step f n k x ω := (measurable_pathSum hd hs hf n k).comp measurable_prodMk_left
  have hA : MeasurableSet {ω | ε ≤ |pathSum draw nxt step f n k x ω / n - m|} := hmp hS
  rw [tail, ← lintegral_indicator_one hA]
  rfl

omit [IsProbabilityMeasure δ] in
theorem measurable_tail (hd : Draws draw nxt δ) (hs : Measurable (Function.uncurry step)) (hf : Measurable f) (m : ℝ) (n : ℕ) (ε : ℝ) (k : Keys.Key) :
    Measurable (tail draw nxt step f m n ε k) := by
  have hS : MeasurableSet {s : ℝ | ε ≤ |s / n - m|} := measurableSet_le measurable_const (by fun_prop)
  have hA : MeasurableSet {z : X × Tape | ε ≤ |pathSum draw nxt step f n k z.1 z.2 / n - m|} := measurable_pathSum hd hs hf n k hS
  exact measurable_measure_prodMk_left hA

omit [MeasurableSpace X] [MeasurableSpace D] [IsProbabilityMeasure δ] in
theorem tail_le_one (m : ℝ) (n : ℕ) (ε : ℝ) (k : Keys.Key) (x : X) : tail draw nxt step f m n ε k x ≤ 1 := prob_le_one

omit [IsProbabilityMeasure δ] in
theorem tail_key (hd : Draws draw nxt δ) (hs : Measurable (Function.uncurry step)) (hf : Measurable f) (m : ℝ) (n : ℕ) (ε : ℝ) (k k' : Keys.Key) (x : X) :
    tail draw nxt step f m n ε k x = tail draw nxt step f m n ε k' x := by
  have hS : MeasurableSet {s : ℝ | ε ≤ |s / n - m|} := measurableSet_le measurable_const (by fun_prop)
  rw [tail_eq hd hs hf, tail_eq hd hs hf]
  exact lintegral_pathSum_key hd hs hf n (measurable_one.indicator hS) k k' x

omit [IsProbabilityMeasure δ] in
/-- The first state matters little. -/
theorem tail_succ (hd : Draws draw nxt δ) (hs : Measurable (Function.uncurry step)) (hf : Measurable f) (m : ℝ) (x : X) {ε ε' : ℝ} (hε : ε' < ε) (k : Keys.Key) :
    ∀ᶠ n : ℕ in atTop, tail draw nxt step f m (n + 1) ε k x ≤ ∫⁻ z, tail draw nxt step f m n ε' k (step x z) ∂δ := by
  have hlim : Tendsto (fun n : ℕ => |f x - m| / ((n : ℝ) + 1)) atTop (𝓝 0) :=
    tendsto_const_nhds.div_atTop (tendsto_atTop_add_const_right _ _ tendsto_natCast_atTop_atTop)
  filter_upwards [hlim.eventually (gt_mem_nhds (sub_pos.mpr hε)), eventually_gt_atTop 0] with n hn hn0
  have hS : MeasurableSet {s : ℝ | ε ≤ |s / ((n + 1 : ℕ) : ℝ) - m|} := measurableSet_le measurable_const (by fun_prop)
  rw [tail_eq hd hs hf, lintegral_pathSum_succ_of hd hs hf (lintegral_pathSum_key hd hs hf n) (measurable_one.indicator hS) k k x]
  refine lintegral_mono fun z => ?_
  rw [tail_eq hd hs hf]
  refine lintegral_mono fun ω => ?_
  set s := pathSum draw nxt step f n k (step x z) ω
  have hcast : (((n + 1 : ℕ) : ℝ)) = (n : ℝ) + 1 := by push_cast; ring
  have hn1 : (0 : ℝ) < (n : ℝ) + 1 := by positivity
  have hn' : (0 : ℝ) < n := by exact_mod_cast hn0
  by_cases hs : f x + s ∈ {s : ℝ | ε ≤ |s / ((n + 1 : ℕ) : ℝ) - m|}
  · rw [Set.indicator_of_mem hs, Set.indicator_of_mem (s := {s : ℝ | ε' ≤ |s / (n : ℝ) - m|})]
    · rfl
    simp only [Set.mem_ofPred_eq, hcast] at hs ⊢
    have e : (f x + s) / ((n : ℝ) + 1) - m = (f x - m) / ((n : ℝ) + 1) + (s / n - m) * (n / ((n : ℝ) + 1)) := by
      field_simp; ring
    have h1 : |(f x + s) / ((n : ℝ) + 1) - m| ≤ |f x - m| / ((n : ℝ) + 1) + |s / n - m| := by
      rw [e]
      refine (abs_add_le _ _).trans (add_le_add (by rw [abs_div, abs_of_pos hn1]) ?_)
      rw [abs_mul, abs_of_pos (by positivity : (0 : ℝ) < n / ((n : ℝ) + 1))]
      exact mul_le_of_le_one_right (abs_nonneg _) ((div_le_one hn1).mpr (by linarith))
    linarith
  · rw [Set.indicator_of_notMem hs]; exact zero_le

theorem tail_stationary {π : Measure X} [IsProbabilityMeasure π] (hd : Draws draw nxt δ) (hs : Measurable (Function.uncurry step))
    (hinv : ∀ f : X → ℝ≥0∞, Measurable f → ∫⁻ x, ∫⁻ w, f (step x w) ∂δ ∂π = ∫⁻ x, f x ∂π) (hirr : Irreducible δ step π) (hf : Measurable f) (hfi : Integrable f π)
    {ε : ℝ} (hε : 0 < ε) (k : Keys.Key) : Tendsto (fun n : ℕ => ∫⁻ x, tail draw nxt step f (∫ x, f x ∂π) n ε k x ∂π) atTop (𝓝 0) := by
  rw [ENNReal.tendsto_nhds_zero]
  intro η hη
  set c := ENNReal.ofReal (ε / 3) with hc
  have hc0 : c ≠ 0 := (ENNReal.ofReal_pos.mpr (by positivity)).ne'
  have hcT : c ≠ ∞ := ENNReal.ofReal_ne_top
  have hκ : min c (η / 2 * c) ≠ 0 := by
    refine (lt_min (pos_iff_ne_zero.mpr hc0) (pos_iff_ne_zero.mpr (mul_ne_zero ?_ hc0))).ne'
    exact (ENNReal.div_pos hη.ne' (by norm_num)).ne'
  obtain ⟨g, hg, -⟩ := (memLp_one_iff_integrable.mpr hfi).exists_simpleFunc_eLpNorm_sub_lt ENNReal.one_ne_top hκ
  obtain ⟨C, hC⟩ := g.exists_forall_norm_le
  have hgm : Measurable g := g.measurable
  have hgi : Integrable g π := Integrable.of_bound hgm.aestronglyMeasurable C (.of_forall hC)
  have hh : Measurable fun x => f x - g x := hf.sub hgm
  have hnorm : ∫⁻ x, ‖f x - g x‖ₑ ∂π < min c (η / 2 * c) := by
    rw [eLpNorm_one_eq_lintegral_enorm] at hg
    exact hg
  have hdiff : |(∫ x, f x ∂π) - ∫ x, g x ∂π| < ε / 3 := by
    rw [← integral_sub hfi hgi]
    have h1 : ‖∫ x, (f x - g x) ∂π‖ₑ < c := lt_of_le_of_lt (enorm_integral_le_lintegral_enorm _) (hnorm.trans_le (min_le_left _ _))
    rw [Real.enorm_eq_ofReal_abs, hc] at h1
    exact (ENNReal.ofReal_lt_ofReal_iff (by positivity)).mp h1
  have hbd := stationary_average hd hs hinv hirr hgm hC (show 0 < ε / 3 by positivity) k
  have hη2 : 0 < η / 2 := ENNReal.div_pos hη.ne' (by norm_num)
  filter_upwards [(ENNReal.tendsto_nhds_zero.mp hbd) (η / 2) hη2, eventually_gt_atTop 0] with n hn hn0
  have hn' : (0 : ℝ) < n := by exact_mod_cast hn0
  have hnE : (n : ℝ≥0∞) ≠ 0 := by exact_mod_cast hn0.ne'
  have hpt : ∀ x, tail draw nxt step f (∫ x, f x ∂π) n ε k x
      ≤ ideal {ω | ε / 3 ≤ |pathSum draw nxt step g n k x ω / n - ∫ x, g x ∂π|} + (n : ℝ≥0∞)⁻¹ * (∑ j ∈ Finset.range n, (stepOp δ step)^[j] (fun x => ‖f x - g x‖ₑ) x) / c := by
    intro x
    have hsplit : ∀ ω, pathSum draw nxt step f n k x ω = pathSum draw nxt step g n k x ω + pathSum draw nxt step (fun x => f x - g x) n k x ω := fun ω => by
      simp only [pathSum, ← Finset.sum_add_distrib, add_sub_cancel]
    have hsub : {ω | ε ≤ |pathSum draw nxt step f n k x ω / n - ∫ x, f x ∂π|}
        ⊆ {ω | ε / 3 ≤ |pathSum draw nxt step g n k x ω / n - ∫ x, g x ∂π|} ∪ {ω | c ≤ ENNReal.ofReal |pathSum draw nxt step (fun x => f x - g x) n k x ω / n|} := by
      intro ω hω
      by_contra hcon
      simp only [Set.mem_union, Set.mem_ofPred_eq, not_or, not_le, hc] at hω hcon
      have h2 := (ENNReal.ofReal_lt_ofReal_iff (by positivity)).mp hcon.2
      have h3 : pathSum draw nxt step f n k x ω / n - ∫ x, f x ∂π = (pathSum draw nxt step g n k x ω / n - ∫ x, g x ∂π) + pathSum draw nxt step (fun x => f x - g x) n k x ω / n
          - ((∫ x, f x ∂π) - ∫ x, g x ∂π) := by rw [hsplit, add_div]; ring
      rw [h3] at hω
      have h4 := abs_sub (pathSum draw nxt step g n k x ω / n - ∫ x, g x ∂π + pathSum draw nxt step (fun x => f x - g x) n k x ω / n) ((∫ x, f x ∂π) - ∫ x, g x ∂π)
      have h5 := abs_add_le (pathSum draw nxt step g n k x ω / n - ∫ x, g x ∂π) (pathSum draw nxt step (fun x => f x - g x) n k x ω / n)
      linarith
    refine (measure_mono hsub).trans ((measure_union_le _ _).trans (add_le_add le_rfl ?_))
    have hmp : Measurable fun ω => pathSum draw nxt step (fun x => f x - g x) n k x ω := (measurable_pathSum hd hs hh n k).comp measurable_prodMk_left
    have hmy : Measurable fun ω => ENNReal.ofReal |pathSum draw nxt step (fun x => f x - g x) n k x ω / n| := ENNReal.measurable_ofReal.comp (hmp.div_const _).abs
    refine (meas_ge_le_lintegral_div (μ := ideal) hmy.aemeasurable hc0 hcT).trans (ENNReal.div_le_div_right ?_ _)
    have hterm : ∀ j, Measurable fun ω => ‖f (tapeIter draw nxt step j k x ω) - g (tapeIter draw nxt step j k x ω)‖ₑ := fun j =>
      hh.enorm.comp ((measurable_tapeIter hd hs j k).comp measurable_prodMk_left)
    have hle : ∀ ω, ENNReal.ofReal |pathSum draw nxt step (fun x => f x - g x) n k x ω / n|
        ≤ (n : ℝ≥0∞)⁻¹ * ∑ j ∈ Finset.range n, ‖f (tapeIter draw nxt step j k x ω) - g (tapeIter draw nxt step j k x ω)‖ₑ := fun ω => by
      rw [← Real.enorm_eq_ofReal_abs, div_eq_inv_mul, enorm_mul]
      refine mul_le_mul' (le_of_eq ?_) (enorm_sum_le _ _)
      rw [Real.enorm_eq_ofReal (by positivity), ENNReal.ofReal_inv_of_pos hn', ENNReal.ofReal_natCast]
    refine (lintegral_mono hle).trans (le_of_eq ?_)
    rw [lintegral_const_mul _ (Finset.measurable_sum _ fun j _ => hterm j), lintegral_finsetSum _ fun j _ => hterm j]
    congr 1
    exact Finset.sum_congr rfl fun j _ => lintegral_tapeIter hd hs j k x hh.enorm
  have hmS : ∀ j, Measurable ((stepOp δ step)^[j] (fun x => ‖f x - g x‖ₑ)) := fun j => measurable_stepOp_iterate hs j hh.enorm
  have hmg : Measurable fun x => ideal {ω | ε / 3 ≤ |pathSum draw nxt step g n k x ω / n - ∫ x, g x ∂π|} := measurable_tail hd hs hgm _ n _ k
  have hmS2 : Measurable fun x => (n : ℝ≥0∞)⁻¹ * (∑ j ∈ Finset.range n, (stepOp δ step)^[j] (fun x => ‖f x - g x‖ₑ) x) := (Finset.measurable_sum _ fun j _ => hmS j).const_mul _
  refine (lintegral_mono hpt).trans ?_
  rw [lintegral_add_left hmg]
  have hsecond : ∫⁻ x, (n : ℝ≥0∞)⁻¹ * (∑ j ∈ Finset.range n, (stepOp δ step)^[j] (fun x => ‖f x - g x‖ₑ) x) / c ∂π ≤ η / 2 := by
    simp_rw [div_eq_mul_inv _ c]
    rw [lintegral_mul_const _ hmS2, lintegral_const_mul _ (Finset.measurable_sum _ fun j _ => hmS j), lintegral_finsetSum _ fun j _ => hmS j]
    simp_rw [stepOp_invariant hs hinv _ hh.enorm]
    rw [Finset.sum_const, Finset.card_range, nsmul_eq_mul, ← mul_assoc, ENNReal.inv_mul_cancel hnE (ENNReal.natCast_ne_top n), one_mul, ← div_eq_mul_inv]
    exact ENNReal.div_le_of_le_mul (hnorm.le.trans (min_le_right _ _))
  calc _ ≤ η / 2 + η / 2 := add_le_add hn hsecond
    _ = η := ENNReal.add_halves η

theorem tail_ac {π : Measure X} [IsProbabilityMeasure π] (hd : Draws draw nxt δ) (hs : Measurable (Function.uncurry step))
    (hinv : ∀ f : X → ℝ≥0∞, Measurable f → ∫⁻ x, ∫⁻ w, f (step x w) ∂δ ∂π = ∫⁻ x, f x ∂π) (hirr : Irreducible δ step π) (hf : Measurable f) (hfi : Integrable f π)
    {ν : Measure X} [IsFiniteMeasure ν] (hν : ν ≪ π) {ε : ℝ} (hε : 0 < ε) (k : Keys.Key) : Tendsto (fun n : ℕ => ∫⁻ x, tail draw nxt step f (∫ x, f x ∂π) n ε k x ∂ν) atTop (𝓝 0) := by
  set m := ∫ x, f x ∂π with hm
  have mt := fun n => measurable_tail hd hs hf m n ε k
  have ht1 : ∀ n x, tail draw nxt step f m n ε k x ≠ ∞ := fun n x => ((tail_le_one m n ε k x).trans_lt ENNReal.one_lt_top).ne
  have h1 : ∀ (ρ : Measure X) [IsFiniteMeasure ρ] n, ∫⁻ x, tail draw nxt step f m n ε k x ∂ρ = ENNReal.ofReal (∫ x, (tail draw nxt step f m n ε k x).toReal ∂ρ) := fun ρ _ n => by
    rw [integral_toReal (mt n).aemeasurable (.of_forall fun x => (ht1 n x).lt_top), ENNReal.ofReal_toReal]
    refine ne_top_of_le_ne_top (measure_ne_top ρ Set.univ) ?_
    calc _ ≤ ∫⁻ _, 1 ∂ρ := lintegral_mono fun x => tail_le_one m n ε k x
      _ = _ := by simp
  have h2 := tail_stationary hd hs hinv hirr hf hfi hε k
  simp_rw [← hm, h1 π] at h2
  have h3 : Tendsto (fun n => ∫ x, (tail draw nxt step f m n ε k x).toReal ∂π) atTop (𝓝 0) := by
    have := (ENNReal.tendsto_toReal ENNReal.zero_ne_top).comp h2
    simp only [ENNReal.toReal_zero] at this
    refine this.congr fun n => ?_
    simp only [Function.comp]
    rw [ENNReal.toReal_ofReal (integral_nonneg fun x => ENNReal.toReal_nonneg)]
  have h4 := tendsto_of_ac (fun n => (mt n).ennreal_toReal) (fun n x => ENNReal.toReal_nonneg) (C := 1)
    (fun n x => ENNReal.toReal_le_of_le_ofReal zero_le_one (by rw [ENNReal.ofReal_one]; exact tail_le_one m n ε k x)) h3 hν
  simp_rw [h1 ν]
  rw [← ENNReal.ofReal_zero]
  exact ENNReal.tendsto_ofReal h4

/-- Averages of an integrable function along the chain tend in probability to its mean under the invariant law, from every start that is left, with a density, with positive probability. -/
theorem average_prob {π : Measure X} [IsProbabilityMeasure π] (hd : Draws draw nxt δ) (hs : Measurable (Function.uncurry step))
    (hinv : ∀ f : X → ℝ≥0∞, Measurable f → ∫⁻ x, ∫⁻ w, f (step x w) ∂δ ∂π = ∫⁻ x, f x ∂π) (hirr : Irreducible δ step π) (hf : Measurable f) (hfi : Integrable f π)
    {x0 : X} {r : ℝ≥0∞} (hr : r < 1) {ν : Measure X} [IsFiniteMeasure ν] (hν : ν ≪ π)
    (hle : δ.map (step x0) ≤ r • Measure.dirac x0 + ν) {ε : ℝ} (hε : 0 < ε) (k : Keys.Key) :
    Tendsto (fun n : ℕ => ideal {ω | ε ≤ |pathSum draw nxt step f n k x0 ω / n - ∫ x, f x ∂π|}) atTop (𝓝 0) := by
  set m := ∫ x, f x ∂π with hm
  have hac : ∀ {ε : ℝ}, 0 < ε → Tendsto (fun n : ℕ => ∫⁻ x, tail draw nxt step f m n ε k x ∂ν) atTop (𝓝 0) := fun hε => tail_ac hd hs hinv hirr hf hfi hν hε k
  have hx : Measurable (step x0) := hs.comp measurable_prodMk_left
  have hstep : ∀ {ε ε' : ℝ}, ε' < ε → ∀ᶠ n : ℕ in atTop, tail draw nxt step f m (n + 1) ε k x0 ≤ r * tail draw nxt step f m n ε' k x0 + ∫⁻ x, tail draw nxt step f m n ε' k x ∂ν := by
    intro ε ε' hε'
    filter_upwards [tail_succ hd hs hf m x0 hε' k] with n hn
    refine hn.trans ?_
    have mt := measurable_tail hd hs hf m n ε' k
    rw [← lintegral_map mt hx]
    refine (lintegral_mono' hle le_rfl).trans (le_of_eq ?_)
    rw [lintegral_add_measure, lintegral_smul_measure, lintegral_dirac' _ mt, smul_eq_mul]
  have hpow : ∀ (j : ℕ) {ε : ℝ}, 0 < ε → ∀ η : ℝ≥0∞, 0 < η → ∀ᶠ n : ℕ in atTop, tail draw nxt step f m n ε k x0 ≤ r ^ j + η := by
    intro j
    induction j with
    | zero => intro ε _ η _; exact .of_forall fun n => (tail_le_one m n ε k x0).trans (by simp)
    | succ j ih =>
      intro ε hε η hη
      have hη2 : 0 < η / 2 := ENNReal.div_pos hη.ne' (by norm_num)
      have h1 : ∀ᶠ n : ℕ in atTop, tail draw nxt step f m (n + 1) ε k x0 ≤ r ^ (j + 1) + η := by
        filter_upwards [hstep (half_lt_self hε), ih (half_pos hε) (η / 2) hη2, (ENNReal.tendsto_nhds_zero.mp (hac (half_pos hε))) (η / 2) hη2] with n a1 a2 a3
        calc _ ≤ _ := a1
          _ ≤ r * (r ^ j + η / 2) + η / 2 := add_le_add (mul_le_mul' le_rfl a2) a3
          _ ≤ r ^ (j + 1) + η / 2 + η / 2 := by
            rw [mul_add, pow_succ' r j]
            exact add_le_add (add_le_add le_rfl (mul_le_of_le_one_left' hr.le)) le_rfl
          _ = _ := by rw [add_assoc, ENNReal.add_halves]
      obtain ⟨N, hN⟩ := eventually_atTop.mp h1
      refine eventually_atTop.mpr ⟨N + 1, fun n hn => ?_⟩
      obtain ⟨i, rfl⟩ : ∃ i, n = i + 1 := ⟨n - 1, by omega⟩
      exact hN i (by omega)
  rw [ENNReal.tendsto_nhds_zero]
  intro η hη
  have hη2 : 0 < η / 2 := ENNReal.div_pos hη.ne' (by norm_num)
  obtain ⟨j, hj⟩ := ((ENNReal.tendsto_nhds_zero.mp (ENNReal.tendsto_pow_atTop_nhds_zero_of_lt_one hr)) (η / 2) hη2).exists
  filter_upwards [hpow j hε (η / 2) hη2] with n hn
  calc _ ≤ r ^ j + η / 2 := hn
    _ ≤ η / 2 + η / 2 := add_le_add hj le_rfl
    _ = η := ENNReal.add_halves η

/-! ## Starts that are left, in some number of steps, for a law with a density, up to a small probability -/

omit [MeasurableSpace X] [MeasurableSpace D] in
theorem pathSum_add (draw : Keys.Key → Tape → D) (nxt : Keys.Key → Keys.Key) (step : X → D → X) (f : X → ℝ) (m n : ℕ) (k : Keys.Key) (x : X) (ω : Tape) :
    pathSum draw nxt step f (m + n) k x ω = pathSum draw nxt step f m k x ω + pathSum draw nxt step f n (nxt^[m] k) (tapeIter draw nxt step m k x ω) ω := by
  induction m generalizing k x with
  | zero => simp [pathSum, tapeIter]
  | succ m ih =>
    rw [show m + 1 + n = (m + n) + 1 by ring, pathSum_succ, pathSum_succ, ih, add_assoc]
    rfl

omit [IsProbabilityMeasure δ] in
theorem below_iterate (hd : Draws draw nxt δ) (m : ℕ) (k : Keys.Key) : below (nxt^[m] k) ⊆ below k := by
  induction m generalizing k with
  | zero => exact subset_rfl
  | succ m ih => exact (ih (nxt k)).trans (hd.next k)

omit [IsProbabilityMeasure δ] in
/-- What happens after `m` steps. -/
theorem tail_restart (hd : Draws draw nxt δ) (hs : Measurable (Function.uncurry step)) (hf : Measurable f) [SFinite δ] (c : ℝ) (n : ℕ) (ε : ℝ) (k0 : Keys.Key) (m : ℕ) (k : Keys.Key) (x : X) :
    ideal {ω | ε ≤ |pathSum draw nxt step f n (nxt^[m] k) (tapeIter draw nxt step m k x ω) ω / n - c|} = (stepOp δ step)^[m] (tail draw nxt step f c n ε k0) x := by
  induction m generalizing k x with
  | zero => exact tail_key hd hs hf c n ε k k0 x
  | succ m ih =>
    obtain ⟨S, h1, -, h3⟩ := hd.reads k
    have hsx : Measurable fun z => step x z := hs.comp measurable_prodMk_left
    have hm : Measurable fun ω => step x (draw k ω) := hsx.comp (hd.measurable k)
    have hS : MeasurableSet {s : ℝ | ε ≤ |s / n - c|} := measurableSet_le measurable_const (by fun_prop)
    have mP : Measurable fun z : X × Tape => pathSum draw nxt step f n (nxt^[m] (nxt k)) (tapeIter draw nxt step m (nxt k) z.1 z.2) z.2 :=
      (measurable_pathSum hd hs hf n (nxt^[m] (nxt k))).comp ((measurable_tapeIter hd hs m (nxt k)).prodMk measurable_snd)
    have mG : Measurable fun z : X × Tape => Set.indicator {s : ℝ | ε ≤ |s / n - c|} (1 : ℝ → ℝ≥0∞) (pathSum draw nxt step f n (nxt^[m] (nxt k)) (tapeIter draw nxt step m (nxt k) z.1 z.2) z.2) :=
      (measurable_one.indicator hS).comp mP
    have hset : ∀ y, ideal {ω | ε ≤ |pathSum draw nxt step f n (nxt^[m] (nxt k)) (tapeIter draw nxt step m (nxt k) y ω) ω / n - c|}
        = ∫⁻ ω, Set.indicator {s : ℝ | ε ≤ |s / n - c|} (1 : ℝ → ℝ≥0∞) (pathSum draw nxt step f n (nxt^[m] (nxt k)) (tapeIter draw nxt step m (nxt k) y ω) ω) ∂ideal := fun y => by
      have hA : MeasurableSet {ω | ε ≤ |pathSum draw nxt step f n (nxt^[m] (nxt k)) (tapeIter draw nxt step m (nxt k) y ω) ω / n - c|} := (mP.comp measurable_prodMk_left) hS
      rw [← lintegral_indicator_one hA]
      rfl
    have e := fresh h3 (f := fun ω => step x (draw k ω)) (g := fun a ω => Set.indicator {s : ℝ | ε ≤ |s / n - c|} (1 : ℝ → ℝ≥0∞)
        (pathSum draw nxt step f n (nxt^[m] (nxt k)) (tapeIter draw nxt step m (nxt k) a ω) ω)) hm (fun ω ω' hω => by simp only; rw [h1 hω]) mG (fun a ω ω' hω => by
          simp only
          rw [tapeIter_dependsOn hd step m _ a hω, pathSum_dependsOn hd n _ _ fun s hs => hω s (below_iterate hd m _ hs)])
    simp_rw [← hset, ih] at e
    rw [Function.iterate_succ_apply' (stepOp δ step)]
    change _ = ∫⁻ w, (stepOp δ step)^[m] (tail draw nxt step f c n ε k0) (step x w) ∂δ
    have hF : ∀ F : X → ℝ≥0∞, Measurable F → ∫⁻ w, F (step x w) ∂δ = ∫⁻ ω, F (step x (draw k ω)) ∂ideal := fun F hF => by
      rw [← hd.law k]
      exact lintegral_map (hF.comp hsx) (hd.measurable k)
    rw [hF _ (measurable_stepOp_iterate hs m (measurable_tail hd hs hf c n ε k0)), ← e]
    have hA : MeasurableSet {ω | ε ≤ |pathSum draw nxt step f n (nxt^[m] (nxt k)) (tapeIter draw nxt step m (nxt k) (step x (draw k ω)) ω) ω / n - c|} :=
      (mP.comp (hm.prodMk measurable_id)) hS
    change ideal {ω | ε ≤ |pathSum draw nxt step f n (nxt^[m] (nxt k)) (tapeIter draw nxt step m (nxt k) (step x (draw k ω)) ω) ω / n - c|} = _
    rw [← lintegral_indicator_one hA]
    rfl

/-- The law after `m` steps from `x0` has a density with respect to `π`, up to a mass that is small for some `m`. -/
def Regular (δ : Measure D) (step : X → D → X) (π : Measure X) (x0 : X) : Prop :=
  ∀ η : ℝ≥0∞, 0 < η → ∃ m, ∀ N, MeasurableSet N → π N = 0 → (stepOp δ step)^[m] (N.indicator 1) x0 ≤ η

/-- Its law after some number of steps is that of a density, up to a small mass. -/
theorem Regular.split {π : Measure X} [SigmaFinite π] (hs : Measurable (Function.uncurry step)) {x0 : X} (h : Regular δ step π x0) {η : ℝ≥0∞} (hη : 0 < η) :
    ∃ (m : ℕ) (ν : Measure X), ν ≪ π ∧ ν Set.univ ≤ 1 ∧ ∀ F : X → ℝ≥0∞, Measurable F → (∀ x, F x ≤ 1) → (stepOp δ step)^[m] F x0 ≤ ∫⁻ x, F x ∂ν + η := by
  obtain ⟨m, hm⟩ := h η hη
  -- the law after `m` steps
  have hlaw : ∀ j x, ∃ μ : Measure X, ∀ F : X → ℝ≥0∞, Measurable F → (stepOp δ step)^[j] F x = ∫⁻ y, F y ∂μ := by
    have key : ∀ j, ∃ κ : Kernel X X, ∀ x, ∀ F : X → ℝ≥0∞, Measurable F → (stepOp δ step)^[j] F x = ∫⁻ y, F y ∂(κ x) := by
      intro j
      induction j with
      | zero => exact ⟨Kernel.id, fun x F hF => by rw [Kernel.id_apply, lintegral_dirac' _ hF]; rfl⟩
      | succ j ih =>
        obtain ⟨κ, hκ⟩ := ih
        set κ1 : Kernel X X := Kernel.map (Kernel.id ×ₖ Kernel.const X δ) (Function.uncurry step) with hκ1
        refine ⟨κ ∘ₖ κ1, fun x F hF => ?_⟩
        rw [Kernel.lintegral_comp _ _ _ hF, Function.iterate_succ_apply', stepOp]
        have e : (fun y => ∫⁻ z, F z ∂(κ y)) = (stepOp δ step)^[j] F := funext fun y => (hκ y F hF).symm
        have mF := measurable_stepOp_iterate (δ := δ) hs j hF
        rw [e, hκ1, Kernel.lintegral_map _ hs _ mF]
        have mc : Measurable fun z : X × D => (stepOp δ step)^[j] F (Function.uncurry step z) := mF.comp hs
        rw [Kernel.lintegral_prod _ _ _ mc, Kernel.lintegral_id']
        · rfl
        · exact Measurable.lintegral_prod_right' mc
    intro j x
    obtain ⟨κ, hκ⟩ := key j
    exact ⟨κ x, hκ x⟩
  obtain ⟨μ, hμ⟩ := hlaw m x0
  have hone : ∀ j, (stepOp δ step)^[j] (fun _ => (1 : ℝ≥0∞)) x0 = 1 := by
    have : ∀ j, (stepOp δ step)^[j] (fun _ => (1 : ℝ≥0∞)) = fun _ => 1 := fun j => by
      induction j with
      | zero => rfl
      | succ j ih => rw [Function.iterate_succ_apply', ih]; funext x; simp [stepOp]
    intro j; rw [this]
  have hμ1 : μ Set.univ = 1 := by
    have := hμ (fun _ => 1) measurable_const
    rw [hone] at this
    simpa using this.symm
  have hfin : IsFiniteMeasure μ := ⟨by rw [hμ1]; exact ENNReal.one_lt_top⟩
  refine ⟨m, π.withDensity (μ.rnDeriv π), withDensity_absolutelyContinuous _ _, ?_, fun F hF hF1 => ?_⟩
  · rw [← hμ1]
    exact Measure.withDensity_rnDeriv_le μ π _
  · rw [hμ F hF]
    conv_lhs => rw [μ.haveLebesgueDecomposition_add π, lintegral_add_measure, add_comm]
    refine add_le_add le_rfl ?_
    obtain ⟨N, hN, hN1, hN2⟩ := μ.mutuallySingular_singularPart π
    calc ∫⁻ x, F x ∂(μ.singularPart π) ≤ ∫⁻ _, 1 ∂(μ.singularPart π) := lintegral_mono hF1
      _ = μ.singularPart π Set.univ := by simp
      _ ≤ μ.singularPart π Nᶜ := by
        rw [← Set.union_compl_self N]
        refine (measure_union_le _ _).trans ?_
        rw [hN1, zero_add]
      _ ≤ μ Nᶜ := Measure.singularPart_le μ π _
      _ = (stepOp δ step)^[m] (Nᶜ.indicator 1) x0 := by rw [hμ _ (measurable_one.indicator hN.compl), lintegral_indicator_one hN.compl]
      _ ≤ η := hm _ hN.compl hN2

/-- Averages of an integrable function, from every regular start. -/
theorem average_regular {π : Measure X} [IsProbabilityMeasure π] (hd : Draws draw nxt δ) (hs : Measurable (Function.uncurry step))
    (hinv : ∀ f : X → ℝ≥0∞, Measurable f → ∫⁻ x, ∫⁻ w, f (step x w) ∂δ ∂π = ∫⁻ x, f x ∂π) (hirr : Irreducible δ step π) (hf : Measurable f) (hfi : Integrable f π)
    {x0 : X} (hreg : Regular δ step π x0) {ε : ℝ} (hε : 0 < ε) (k : Keys.Key) :
    Tendsto (fun n : ℕ => ideal {ω | ε ≤ |pathSum draw nxt step f n k x0 ω / n - ∫ x, f x ∂π|}) atTop (𝓝 0) := by
  set c := ∫ x, f x ∂π with hc
  rw [ENNReal.tendsto_nhds_zero]
  intro η hη
  have hη3 : 0 < η / 3 := ENNReal.div_pos hη.ne' (by norm_num)
  obtain ⟨m, ν, hν, hν1, hle⟩ := hreg.split hs hη3
  have hfin : IsFiniteMeasure ν := ⟨hν1.trans_lt ENNReal.one_lt_top⟩
  have h1 := (ENNReal.tendsto_nhds_zero.mp (tail_ac hd hs hinv hirr hf hfi hν (half_pos hε) k)) (η / 3) hη3
  -- the first states matter little
  have mS : Measurable fun ω => pathSum draw nxt step f m k x0 ω - m * c := ((measurable_pathSum hd hs hf m k).comp measurable_prodMk_left).sub_const _
  have h2 : Tendsto (fun n : ℕ => ideal {ω | ε / 2 ≤ dist ((pathSum draw nxt step f m k x0 ω - m * c) / ((m + n : ℕ) : ℝ)) 0}) atTop (𝓝 0) := by
    have : TendstoInMeasure ideal (fun (n : ℕ) ω => (pathSum draw nxt step f m k x0 ω - m * c) / ((m + n : ℕ) : ℝ)) atTop fun _ => (0 : ℝ) := by
      refine tendstoInMeasure_of_tendsto_ae (fun n => (mS.div_const _).aestronglyMeasurable) (.of_forall fun ω => ?_)
      refine tendsto_const_nhds.div_atTop ?_
      push_cast
      exact tendsto_atTop_add_const_left _ _ tendsto_natCast_atTop_atTop
    exact tendstoInMeasure_iff_dist.mp this _ (half_pos hε)
  have h3 := (ENNReal.tendsto_nhds_zero.mp h2) (η / 3) hη3
  have h4 : ∀ᶠ n : ℕ in atTop, ideal {ω | ε ≤ |pathSum draw nxt step f (m + n) k x0 ω / ((m + n : ℕ) : ℝ) - c|} ≤ η := by
    filter_upwards [h1, h3, eventually_gt_atTop 0] with n a1 a2 hn
    have hsub : {ω | ε ≤ |pathSum draw nxt step f (m + n) k x0 ω / ((m + n : ℕ) : ℝ) - c|} ⊆ {ω | ε / 2 ≤ dist ((pathSum draw nxt step f m k x0 ω - m * c) / ((m + n : ℕ) : ℝ)) 0}
        ∪ {ω | ε / 2 ≤ |pathSum draw nxt step f n (nxt^[m] k) (tapeIter draw nxt step m k x0 ω) ω / n - c|} := by
      intro ω hω
      by_contra hcon
      simp only [Set.mem_union, Set.mem_ofPred_eq, not_or, not_le, dist_zero_right, Real.norm_eq_abs] at hω hcon
      obtain ⟨b1, b2⟩ := hcon
      set s := pathSum draw nxt step f n (nxt^[m] k) (tapeIter draw nxt step m k x0 ω) ω with hs'
      have hn' : (0 : ℝ) < n := by exact_mod_cast hn
      have hmn : (0 : ℝ) < (m : ℝ) + n := by positivity
      rw [pathSum_add] at hω
      push_cast at hω b1
      have e : (pathSum draw nxt step f m k x0 ω + s) / ((m : ℝ) + n) - c = (pathSum draw nxt step f m k x0 ω - m * c) / ((m : ℝ) + n) + (s / n - c) * (n / ((m : ℝ) + n)) := by
        field_simp; ring
      rw [← hs', e] at hω
      have b3 : |(s / n - c) * (n / ((m : ℝ) + n))| ≤ |s / n - c| := by
        rw [abs_mul, abs_of_pos (by positivity : (0 : ℝ) < n / ((m : ℝ) + n))]
        exact mul_le_of_le_one_right (abs_nonneg _) ((div_le_one hmn).mpr (by linarith [(Nat.cast_nonneg m : (0 : ℝ) ≤ m)]))
      have := abs_add_le ((pathSum draw nxt step f m k x0 ω - m * c) / ((m : ℝ) + n)) ((s / n - c) * (n / ((m : ℝ) + n)))
      linarith
    have hr := tail_restart hd hs hf c n (ε / 2) k m k x0
    have hF := hle _ (measurable_tail hd hs hf c n (ε / 2) k) (fun x => tail_le_one c n (ε / 2) k x)
    calc _ ≤ _ := measure_mono hsub
      _ ≤ η / 3 + (η / 3 + η / 3) := (measure_union_le _ _).trans (add_le_add a2 (by rw [hr]; exact hF.trans (add_le_add a1 le_rfl)))
      _ = η := by rw [← add_assoc]; exact ENNReal.add_thirds η
  obtain ⟨N, hN⟩ := eventually_atTop.mp h4
  refine eventually_atTop.mpr ⟨m + N, fun n hn => ?_⟩
  obtain ⟨i, rfl⟩ : ∃ i, n = m + i := ⟨n - m, by omega⟩
  exact hN i (by omega)

end

end Mocat.Ergodic
