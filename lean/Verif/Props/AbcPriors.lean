import Verif.Props.Transformed
import Verif.Lemmas.TapeMoves
import Verif.Lemmas.NormalDraw
import Verif.Lemmas.ExpDraw
import Mathlib.Analysis.SpecialFunctions.ImproperIntegrals
/-!
# C120: prior samples of the ABC scenarios come from the prior that `prior_potential` describes
-/
namespace Mocat.Props
open Mocat Mocat.AbcScenarios Mocat.Ideal Mocat.Meas MeasureTheory ProbabilityTheory
open scoped ENNReal

/-! ## Specification -/

/-- `random.uniform(key, (d,))` on a tape. -/
def uniformAt (d : ℕ) (ω : Tape) (k : Keys.Key) (j : Fin d) : ℝ := ω (k, j)

/-- `exp(-potential)` -/
noncomputable def expNegFl : Fl → ℝ≥0∞
  | .fin u => ENNReal.ofReal (Real.exp (-u))
  | .pinf => 0
  | _ => ⊤

/-- `prob A` is, within `ε` for every event `A`, the probability of `A` under the density `exp(-pot)` on `S`, normalised. -/
def DrawnFrom {d : ℕ} (prob : Set (Fin d → ℝ) → ℝ) (pot : (Fin d → ℝ) → Fl) (S : Set (Fin d → ℝ)) (ε : ℝ) : Prop :=
  ∃ Z : ℝ, 0 < Z ∧ ENNReal.ofReal Z * ∫⁻ x in S, expNegFl (pot x) = 1 ∧
    ∀ A, MeasurableSet A → |prob A - (ENNReal.ofReal Z * ∫⁻ x in A ∩ S, expNegFl (pot x)).toReal| ≤ ε

/-! ## Uniform draws -/

variable {d : ℕ}

theorem measurable_uniformAt (k : Keys.Key) : Measurable fun ω => uniformAt d ω k :=
  measurable_pi_lambda _ fun _ => measurable_pi_apply _

theorem map_uniformAt (k : Keys.Key) : ideal.map (fun ω => uniformAt d ω k) = Measure.pi fun _ : Fin d => unif := by
  have h1 : iIndepFun (fun (s : Site) (ω : Tape) => ω s) ideal := iIndepFun_infinitePi (X := fun _ x => x) fun _ => measurable_id
  have hinj : Function.Injective fun j : Fin d => ((k, (j : ℕ)) : Site) := fun a b h => Fin.ext (Prod.mk.inj h).2
  have h2 := h1.precomp hinj
  have h3 := (iIndepFun_iff_map_fun_eq_pi_map (fun j => (measurable_pi_apply _).aemeasurable)).mp h2
  refine h3.trans ?_
  congr 1
  funext j
  exact (measurePreserving_eval_infinitePi (fun _ : Site => unif) _).map_eq

theorem pi_unif_rot {ε : ℝ} (h0 : 0 ≤ ε) (h1 : ε ≤ 1) : (Measure.pi fun _ : Fin d => unif).map (fun u i => rot ε (u i)) = Measure.pi fun _ : Fin d => unif := by
  have := Measure.pi_map_pi (μ := fun _ : Fin d => unif) (f := fun _ => rot ε) fun _ => (measurable_rot ε).aemeasurable
  rw [this]
  simp only [unif_map_rot h0 h1]

theorem measurableSet_bad (ε : ℝ) : MeasurableSet {u : ℝ | u < 0 ∨ 1 ≤ u + ε} :=
  (measurableSet_lt measurable_id measurable_const).union (measurableSet_le measurable_const (measurable_add_const ε))

theorem unif_bad {ε : ℝ} (h1 : ε ≤ 1) : unif {u | u < 0 ∨ 1 ≤ u + ε} = ENNReal.ofReal ε := by
  unfold unif
  rw [Measure.restrict_apply (measurableSet_bad ε)]
  have : {u : ℝ | u < 0 ∨ 1 ≤ u + ε} ∩ Set.Ico 0 1 = Set.Ico (1 - ε) 1 := by
    ext u
    simp only [Set.mem_inter_iff, Set.mem_ofPred_eq, Set.mem_Ico]
    constructor
    · rintro ⟨a | a, b, c⟩
      · linarith
      · exact ⟨by linarith, c⟩
    · rintro ⟨a, b⟩; exact ⟨.inr (by linarith), by linarith, b⟩
  rw [this, Real.volume_Ico]
  ring_nf

/-- Two events that agree unless one of `d` uniforms is within `ε` of 1. -/
theorem pi_unif_close {ε : ℝ} (h0 : 0 ≤ ε) (h1 : ε ≤ 1) {P Q : Set (Fin d → ℝ)} (h : ∀ u, (∀ i, 0 ≤ u i ∧ u i + ε < 1) → (u ∈ P ↔ u ∈ Q)) :
    |((Measure.pi fun _ : Fin d => unif) P).toReal - ((Measure.pi fun _ : Fin d => unif) Q).toReal| ≤ d * ε := by
  have hsub : ∀ {X Y : Set (Fin d → ℝ)}, (∀ u, (∀ i, 0 ≤ u i ∧ u i + ε < 1) → u ∈ X → u ∈ Y) →
      ((Measure.pi fun _ : Fin d => unif) X).toReal ≤ ((Measure.pi fun _ : Fin d => unif) Y).toReal + d * ε := by
    intro X Y h
    have : (Measure.pi fun _ : Fin d => unif) X ≤ (Measure.pi fun _ : Fin d => unif) Y + ENNReal.ofReal (d * ε) := by
      calc (Measure.pi fun _ : Fin d => unif) X ≤ (Measure.pi fun _ : Fin d => unif) (Y ∪ ⋃ i, (fun u : Fin d → ℝ => u i) ⁻¹' {v | v < 0 ∨ 1 ≤ v + ε}) := by
            refine measure_mono fun u hu => ?_
            by_cases hc : ∀ i, 0 ≤ u i ∧ u i + ε < 1
            · exact .inl (h u hc hu)
            · push Not at hc
              obtain ⟨i, hi⟩ := hc
              refine .inr (Set.mem_iUnion.2 ⟨i, ?_⟩)
              by_cases h0 : 0 ≤ u i
              · exact .inr (hi h0)
              · exact .inl (not_le.1 h0)
        _ ≤ (Measure.pi fun _ : Fin d => unif) Y + (Measure.pi fun _ : Fin d => unif) (⋃ i, (fun u : Fin d → ℝ => u i) ⁻¹' {v | v < 0 ∨ 1 ≤ v + ε}) := measure_union_le _ _
        _ ≤ _ := by
            gcongr
            refine (measure_iUnion_le _).trans ?_
            rw [tsum_fintype]
            have : ∀ i : Fin d, (Measure.pi fun _ : Fin d => unif) ((fun u : Fin d → ℝ => u i) ⁻¹' {v | v < 0 ∨ 1 ≤ v + ε}) = ENNReal.ofReal ε := by
              intro i
              rw [(measurePreserving_eval (fun _ : Fin d => unif) i).measure_preimage (measurableSet_bad ε).nullMeasurableSet, unif_bad h1]
            simp only [this, Finset.sum_const, Finset.card_univ, Fintype.card_fin, nsmul_eq_mul]
            rw [ENNReal.ofReal_mul (by positivity), ENNReal.ofReal_natCast]
    have := ENNReal.toReal_mono (by finiteness) this
    rwa [ENNReal.toReal_add (by finiteness) (by finiteness), ENNReal.toReal_ofReal (by positivity)] at this
  rw [abs_sub_le_iff]
  exact ⟨by linarith [hsub fun u hu hx => (h u hu).1 hx], by linarith [hsub fun u hu hx => (h u hu).2 hx]⟩

/-! ## Exponential priors -/

theorem pi_unif_eq : (Measure.pi fun _ : Fin d => unif) = volume.restrict (Set.pi Set.univ fun _ : Fin d => Set.Ioo (0 : ℝ) 1) := by
  have h : (Measure.pi fun _ : Fin d => unif) = volume.restrict (Set.pi Set.univ fun _ : Fin d => Set.Ico (0 : ℝ) 1) := by
    rw [volume_pi, Measure.restrict_pi_pi]
    rfl
  rw [h]
  exact Measure.restrict_congr_set (Measure.univ_pi_Ico_ae_eq_Icc.trans Measure.univ_pi_Ioo_ae_eq_Icc.symm)

theorem measurableSet_orthant : MeasurableSet {x : Fin d → ℝ | ∀ i, 0 < x i} := by
  rw [show {x : Fin d → ℝ | ∀ i, 0 < x i} = Set.pi Set.univ fun _ => Set.Ioi 0 by ext; simp]
  exact MeasurableSet.univ_pi fun i => measurableSet_Ioi

/-- Inverse transform sampling of independent exponentials. -/
theorem exact_exp {rates : Fin d → ℝ} (hr : ∀ i, 0 < rates i) {A : Set (Fin d → ℝ)} (hA : MeasurableSet A) :
    (Measure.pi fun _ : Fin d => unif) {u | (fun i => -Real.log (u i) / rates i) ∈ A} =
      ENNReal.ofReal (∏ i, rates i) * ∫⁻ x in A ∩ {x | ∀ i, 0 < x i}, ENNReal.ofReal (Real.exp (-priorPotential rates x)) := by
  classical
  have hm : MeasurableSet {u : Fin d → ℝ | (fun i => -Real.log (u i) / rates i) ∈ A} :=
    (measurable_pi_lambda (fun (u : Fin d → ℝ) i => -Real.log (u i) / rates i) fun i => by fun_prop) hA
  have hbox : MeasurableSet (Set.pi Set.univ fun _ : Fin d => Set.Ioo (0 : ℝ) 1) := MeasurableSet.univ_pi fun _ => measurableSet_Ioo
  set E : Set (Fin d → ℝ) := {u | (fun i => -Real.log (u i) / rates i) ∈ A} ∩ Set.pi Set.univ fun _ : Fin d => Set.Ioo (0 : ℝ) 1 with hE
  have hcoord := lintegral_coord (d := d) (fun i y => Real.exp (-(rates i * y))) (fun i y => Real.exp (-(rates i * y)) * -(rates i * 1))
    (fun i y => (((hasDerivAt_id y).const_mul (rates i)).neg).exp) (fun i a b h => by
      have := Real.exp_injective h
      exact mul_left_cancel₀ (hr i).ne' (neg_injective this)) (E.indicator 1)
  have hset : {u : Fin d → ℝ | ∀ i, u i ∈ Set.range fun y => Real.exp (-(rates i * y))} = {u | ∀ i, 0 < u i} := by
    ext u
    refine forall_congr' fun i => ⟨?_, fun h => ⟨-Real.log (u i) / rates i, ?_⟩⟩
    · rintro ⟨y, hy⟩
      rw [← hy]
      exact Real.exp_pos _
    · have hr' := (hr i).ne'
      simp only
      rw [mul_div_cancel₀ _ hr', neg_neg, Real.exp_log h]
  rw [hset] at hcoord
  have hsub : E ⊆ {u | ∀ i, 0 < u i} := fun u hu i => (hu.2 i trivial).1
  rw [pi_unif_eq, Measure.restrict_apply hm, ← hE]
  have h1 : ∫⁻ u in {u : Fin d → ℝ | ∀ i, 0 < u i}, E.indicator 1 u = volume E := by
    rw [lintegral_indicator_one (hm.inter hbox), Measure.restrict_apply (hm.inter hbox), Set.inter_eq_left.2 hsub]
  rw [← h1, hcoord, ← lintegral_const_mul _ (by unfold priorPotential; fun_prop), ← lintegral_indicator (hA.inter measurableSet_orthant)]
  refine lintegral_congr fun y => ?_
  have hlog : (fun i => -Real.log (Real.exp (-(rates i * y i))) / rates i) = y := by
    funext i
    rw [Real.log_exp, neg_neg, mul_div_cancel_left₀ _ (hr i).ne']
  have hiff : (fun i => Real.exp (-(rates i * y i))) ∈ E ↔ y ∈ A ∩ {x | ∀ i, 0 < x i} := by
    rw [hE]
    refine and_congr ?_ ?_
    · rw [Set.mem_ofPred_eq, hlog]
    · simp only [Set.mem_pi, Set.mem_univ, true_imp_iff, Set.mem_Ioo, Set.mem_ofPred_eq]
      refine forall_congr' fun i => ?_
      rw [and_iff_right (Real.exp_pos _), Real.exp_lt_one_iff, neg_lt_zero, mul_pos_iff_of_pos_left (hr i)]
  by_cases hy : y ∈ A ∩ {x | ∀ i, 0 < x i}
  · rw [Set.indicator_of_mem (hiff.2 hy), Set.indicator_of_mem hy, Pi.one_apply, mul_one, ← ENNReal.ofReal_mul (Finset.prod_nonneg fun i _ => (hr i).le)]
    congr 1
    rw [Finset.abs_prod, priorPotential, ← Finset.sum_neg_distrib, Real.exp_sum, ← Finset.prod_mul_distrib]
    refine Finset.prod_congr rfl fun i _ => ?_
    rw [abs_mul, abs_of_pos (Real.exp_pos _), mul_one, abs_neg, abs_of_pos (hr i), mul_comm]
  · rw [Set.indicator_of_notMem (fun h => hy (hiff.1 h)), Set.indicator_of_notMem hy, mul_zero]

theorem ideal_uniformAt (k : Keys.Key) {P : Set (Fin d → ℝ)} (hP : MeasurableSet P) : ideal {ω | uniformAt d ω k ∈ P} = (Measure.pi fun _ : Fin d => unif) P := by
  rw [← map_uniformAt k, Measure.map_apply (measurable_uniformAt k) hP]
  rfl

/-- The draw with shifted uniforms, against the exact one. -/
theorem shifted_close {P : Set (Fin d → ℝ)} {f : (Fin d → ℝ) → Fin d → ℝ} (hf : Measurable f) {A : Set (Fin d → ℝ)} (hA : MeasurableSet A)
    (h : ∀ u, (∀ i, 0 ≤ u i ∧ u i + 1e-6 < 1) → (u ∈ P ↔ f (fun i => 1e-6 + u i) ∈ A)) :
    |((Measure.pi fun _ : Fin d => unif) P).toReal - ((Measure.pi fun _ : Fin d => unif) {u | f u ∈ A}).toReal| ≤ d * 1e-6 := by
  have hmr : Measurable fun (u : Fin d → ℝ) i => rot 1e-6 (u i) := measurable_pi_lambda _ fun i => (measurable_rot _).comp (measurable_pi_apply i)
  have hfA : MeasurableSet {u | f u ∈ A} := hf hA
  have : (Measure.pi fun _ : Fin d => unif) {u | f u ∈ A} = (Measure.pi fun _ : Fin d => unif) {u | f (fun i => rot 1e-6 (u i)) ∈ A} := by
    conv_lhs => rw [← pi_unif_rot (d := d) (ε := 1e-6) (by norm_num) (by norm_num)]
    rw [Measure.map_apply hmr hfA]
    rfl
  rw [this]
  refine pi_unif_close (by norm_num) (by norm_num) fun u hu => ?_
  rw [h u hu, Set.mem_ofPred_eq]
  have : (fun i => rot 1e-6 (u i)) = fun i => 1e-6 + u i := by
    funext i
    rw [rot, if_pos (hu i).2, add_comm]
  rw [this]

theorem measurable_exactExp (rates : Fin d → ℝ) : Measurable fun (u : Fin d → ℝ) i => -Real.log (u i) / rates i :=
  measurable_pi_lambda _ fun i => by fun_prop

/-! ## C120 -/

/-- C120, SIR and Lotka-Volterra: prior samples have, up to `1e-6` per parameter and for every event, the density `exp(-prior_potential)` on the positive parameters. (Missing: the potential does not exclude the others, `C120_fails_negative`.) -/
theorem C120_exponential_partial {rates : Fin d → ℝ} (hr : ∀ i, 0 < rates i) (key : Keys.Key) :
    DrawnFrom (fun A => (ideal {ω | priorSample rates (uniformAt d ω key) ∈ A}).toReal) (fun x => .fin (priorPotential rates x)) {x | ∀ i, 0 < x i} (d * 1e-6) := by
  refine ⟨∏ i, rates i, Finset.prod_pos fun i _ => hr i, ?_, fun A hA => ?_⟩
  · have := exact_exp hr (A := Set.univ) MeasurableSet.univ
    rw [Set.univ_inter] at this
    simp only [expNegFl]
    rw [← this]
    exact measure_univ
  · have hm : Measurable (priorSample rates) := measurable_pi_lambda _ fun i => by unfold priorSample negLog; fun_prop
    have hP : MeasurableSet {u | priorSample rates u ∈ A} := hm hA
    have e : {ω : Tape | priorSample rates (uniformAt d ω key) ∈ A} = {ω | uniformAt d ω key ∈ {u | priorSample rates u ∈ A}} := rfl
    have h := exact_exp hr hA
    simp only [expNegFl]
    rw [e, ideal_uniformAt key hP, ← h]
    exact shifted_close (measurable_exactExp rates) hA fun u hu => Iff.rfl

/-- C120 fails for SIR and Lotka-Volterra with untransformed parameters: `exp(-prior_potential)` is not the density of any distribution, because negative parameters have negative potential. -/
theorem C120_fails_negative [NeZero d] {rates : Fin d → ℝ} (hr : ∀ i, 0 < rates i) : ∫⁻ x, expNegFl (.fin (priorPotential rates x)) = ⊤ := by
  have hm : MeasurableSet (Set.pi Set.univ fun _ : Fin d => Set.Iic (0 : ℝ)) := MeasurableSet.univ_pi fun _ => measurableSet_Iic
  have hv : (volume : Measure (Fin d → ℝ)) (Set.pi Set.univ fun _ : Fin d => Set.Iic (0 : ℝ)) = ⊤ := by
    rw [volume_pi, Measure.pi_pi]
    simp [NeZero.ne d]
  rw [← top_le_iff, ← hv, ← lintegral_indicator_one hm]
  refine lintegral_mono fun x => ?_
  by_cases hx : x ∈ Set.pi Set.univ fun _ : Fin d => Set.Iic (0 : ℝ)
  swap
  · rw [Set.indicator_of_notMem hx]; exact bot_le
  rw [Set.indicator_of_mem hx, Pi.one_apply, expNegFl, ENNReal.one_le_ofReal, Real.one_le_exp_iff, neg_nonneg]
  exact Finset.sum_nonpos fun i _ => mul_nonpos_of_nonneg_of_nonpos (hr i).le (hx i trivial)

/-- C120, the transformed SIR and Lotka-Volterra scenarios: a prior sample is, up to `1e-6` per parameter and for every event, drawn from `exp(-prior_potential)`. (The event is that the sample is a real vector in `A`.) -/
theorem C120_transformed {rates : Fin d → ℝ} (hr : ∀ i, 0 < rates i) (key : Keys.Key) :
    DrawnFrom (fun A => (ideal {ω | ∃ x ∈ A, transformedPriorSample rates (uniformAt d ω key) = fun i => .fin (x i)}).toReal) (fun x => .fin (transformedPriorPotential rates x)) Set.univ (d * 1e-6) := by
  classical
  have hlogm : Measurable fun (y : Fin d → ℝ) i => Real.log (y i) := measurable_pi_lambda _ fun i => by fun_prop
  have hlogA : ∀ {A : Set (Fin d → ℝ)}, MeasurableSet A → MeasurableSet {y : Fin d → ℝ | (fun i => Real.log (y i)) ∈ A} := fun hA => hlogm hA
  have hexact : ∀ A, MeasurableSet A → (Measure.pi fun _ : Fin d => unif) {u | (fun i => -Real.log (u i) / rates i) ∈ {y | (fun i => Real.log (y i)) ∈ A} ∩ {y | ∀ i, 0 < y i}} =
      ENNReal.ofReal (∏ i, rates i) * ∫⁻ x in A ∩ Set.univ, expNegFl (.fin (transformedPriorPotential rates x)) := by
    intro A hA
    have hA' : MeasurableSet ({y : Fin d → ℝ | (fun i => Real.log (y i)) ∈ A} ∩ {y | ∀ i, 0 < y i}) := (hlogm hA).inter measurableSet_orthant
    rw [exact_exp hr hA', Set.inter_assoc, Set.inter_self, Set.inter_univ]
    congr 1
    have hc := C67_exp_change rates (({y : Fin d → ℝ | (fun i => Real.log (y i)) ∈ A}).indicator 1)
    rw [← lintegral_indicator hA, ← Measure.restrict_restrict (hlogA hA), ← lintegral_indicator (hlogA hA)]
    refine Eq.trans (lintegral_congr fun y => ?_) (hc.symm.trans (lintegral_congr fun x => ?_))
    · by_cases hy : y ∈ {y : Fin d → ℝ | (fun i => Real.log (y i)) ∈ A}
      · rw [Set.indicator_of_mem hy, Set.indicator_of_mem hy, Pi.one_apply, one_mul]
      · rw [Set.indicator_of_notMem hy, Set.indicator_of_notMem hy, zero_mul]
    · have hx : constrainExp x ∈ {y : Fin d → ℝ | (fun i => Real.log (y i)) ∈ A} ↔ x ∈ A := by
        rw [Set.mem_ofPred_eq]
        simp only [constrainExp, Real.log_exp]
      by_cases h : x ∈ A
      · rw [Set.indicator_of_mem (hx.2 h), Set.indicator_of_mem h, Pi.one_apply, one_mul]; rfl
      · rw [Set.indicator_of_notMem (fun h' => h (hx.1 h')), Set.indicator_of_notMem h, zero_mul]
  refine ⟨∏ i, rates i, Finset.prod_pos fun i _ => hr i, ?_, fun A hA => ?_⟩
  · have h1 := hexact Set.univ MeasurableSet.univ
    rw [Set.univ_inter] at h1
    have h2 := exact_exp hr (A := Set.univ) MeasurableSet.univ
    have h3 := exact_exp hr (A := {y | (fun i => Real.log (y i)) ∈ Set.univ} ∩ {y : Fin d → ℝ | ∀ i, 0 < y i}) ((hlogA MeasurableSet.univ).inter measurableSet_orthant)
    have e : {y : Fin d → ℝ | (fun i => Real.log (y i)) ∈ Set.univ} = Set.univ := by ext; simp
    rw [← h1, h3, e, Set.univ_inter, Set.inter_self]
    rw [Set.univ_inter] at h2
    rw [← h2]
    exact measure_univ
  · have hm : Measurable (priorSample rates) := measurable_pi_lambda _ fun i => by unfold priorSample negLog; fun_prop
    have hA' : MeasurableSet ({y : Fin d → ℝ | (fun i => Real.log (y i)) ∈ A} ∩ {y | ∀ i, 0 < y i}) := (hlogA hA).inter measurableSet_orthant
    have e : {ω : Tape | ∃ x ∈ A, transformedPriorSample rates (uniformAt d ω key) = fun i => .fin (x i)} =
        {ω | uniformAt d ω key ∈ {u | priorSample rates u ∈ {y : Fin d → ℝ | (fun i => Real.log (y i)) ∈ A} ∩ {y | ∀ i, 0 < y i}}} := by
      ext ω
      rw [Set.mem_ofPred_eq, Set.mem_ofPred_eq]
      generalize uniformAt d ω key = u
      constructor
      · rintro ⟨x, hx, h⟩
        have hi : ∀ i, 0 < priorSample rates u i ∧ Real.log (priorSample rates u i) = x i := by
          intro i
          have := congrFun h i
          simp only [transformedPriorSample, unconstrainLog, flog] at this
          split_ifs at this with h1 h2
          exact ⟨lt_of_le_of_ne (not_lt.1 h1) (Ne.symm h2), Fl.fin.inj this⟩
        refine ⟨?_, fun i => (hi i).1⟩
        rw [Set.mem_ofPred_eq, show (fun i => Real.log (priorSample rates u i)) = x from funext fun i => (hi i).2]
        exact hx
      · rintro ⟨h1, h2⟩
        refine ⟨_, h1, funext fun i => ?_⟩
        have := h2 i
        simp only [transformedPriorSample, unconstrainLog, flog, if_neg this.le.not_gt, if_neg this.ne']
    have hP : MeasurableSet {u | priorSample rates u ∈ {y : Fin d → ℝ | (fun i => Real.log (y i)) ∈ A} ∩ {y | ∀ i, 0 < y i}} := hm hA'
    simp only
    rw [e, ideal_uniformAt key hP, ← hexact A hA]
    exact shifted_close (measurable_exactExp rates) hA' fun u hu => Iff.rfl

/-- C120, g-and-k with a uniform prior: prior samples are drawn from `exp(-prior_potential)`. -/
theorem C120_gk_uniform (mins maxs : Fin d → ℝ) (hbox : ∀ i, mins i < maxs i) (key : Keys.Key) :
    DrawnFrom (fun A => (ideal {ω | gkUniformSample mins maxs (uniformAt d ω key) ∈ A}).toReal) (gkUniformPotential mins maxs) Set.univ 0 := by
  obtain ⟨C, hC, h⟩ := C67_gk_sample mins maxs hbox
  have hpot : ∀ y, ENNReal.ofReal (match gkUniformPotential mins maxs y with | .fin v => Real.exp (-v) | _ => 0) = expNegFl (gkUniformPotential mins maxs y) := by
    intro y
    unfold gkUniformPotential
    simp only
    split_ifs <;> simp [expNegFl]
  have hm : Measurable (gkUniformSample mins maxs) := measurable_pi_lambda _ fun i => by unfold gkUniformSample; fun_prop
  have hbox' : {u : Fin d → ℝ | (∀ i, 0 < u i) ∧ ∀ i, u i < 1} = Set.pi Set.univ fun _ => Set.Ioo (0 : ℝ) 1 := by
    ext u; simp [Set.mem_pi, forall_and]
  have hlaw : ∀ A, MeasurableSet A → ideal {ω | gkUniformSample mins maxs (uniformAt d ω key) ∈ A} = ENNReal.ofReal C * ∫⁻ x in A ∩ Set.univ, expNegFl (gkUniformPotential mins maxs x) := by
    intro A hA
    have hP : MeasurableSet {u | gkUniformSample mins maxs u ∈ A} := hm hA
    have e : {ω : Tape | gkUniformSample mins maxs (uniformAt d ω key) ∈ A} = {ω | uniformAt d ω key ∈ {u | gkUniformSample mins maxs u ∈ A}} := rfl
    have hA1 := h (A.indicator 1)
    rw [e, ideal_uniformAt key hP, pi_unif_eq, ← hbox', ← lintegral_indicator_one hP, Set.inter_univ, ← lintegral_indicator hA]
    refine Eq.trans ?_ (hA1.trans ?_)
    · refine lintegral_congr fun u => ?_
      rfl
    · congr 1
      refine lintegral_congr fun y => ?_
      refine (congrArg (A.indicator 1 y * ·) (hpot y)).trans ?_
      by_cases hy : y ∈ A
      · rw [Set.indicator_of_mem hy, Set.indicator_of_mem hy, Pi.one_apply, one_mul]
      · rw [Set.indicator_of_notMem hy, Set.indicator_of_notMem hy, zero_mul]
  refine ⟨C, hC, ?_, fun A hA => by simp only; rw [hlaw A hA]; simp⟩
  have := hlaw Set.univ MeasurableSet.univ
  rw [Set.univ_inter] at this
  rw [← this]
  simp

/-- C120, g-and-k with transformed parameters: prior samples are drawn from `exp(-prior_potential)`. -/
theorem C120_gk_transformed {q : ℝ → ℝ} (hq : IsNormalDraw q) (key : Keys.Key) :
    DrawnFrom (fun A => (ideal {ω | normalAt q d ω key ∈ A}).toReal) (fun x => .fin (gkTransformedPotential x)) Set.univ 0 := by
  have hpi : 0 < √(2 * Real.pi) := by positivity
  have hdens : ∀ x : Fin d → ℝ, ENNReal.ofReal (∏ i, gaussianPDFReal 0 1 (x i)) = ENNReal.ofReal ((√(2 * Real.pi) ^ d)⁻¹) * expNegFl (.fin (gkTransformedPotential x)) := by
    intro x
    have : ∏ i, gaussianPDFReal 0 1 (x i) = (√(2 * Real.pi) ^ d)⁻¹ * Real.exp (-gkTransformedPotential x) := by
      simp only [gaussianPDFReal, NNReal.coe_one, mul_one, sub_zero]
      rw [Finset.prod_mul_distrib, Finset.prod_const, Finset.card_univ, Fintype.card_fin, ← Real.exp_sum, inv_pow]
      congr 2
      rw [gkTransformedPotential, Finset.mul_sum, ← Finset.sum_neg_distrib]
      apply Finset.sum_congr rfl; intro i _; ring
    rw [this, ENNReal.ofReal_mul (by positivity)]
    rfl
  have hlaw : ∀ A, MeasurableSet A → ideal {ω | normalAt q d ω key ∈ A} = ENNReal.ofReal ((√(2 * Real.pi) ^ d)⁻¹) * ∫⁻ x in A ∩ Set.univ, expNegFl (.fin (gkTransformedPotential x)) := by
    intro A hA
    have h1 : ideal {ω | normalAt q d ω key ∈ A} = stdNormal d A := by
      rw [← map_normalAt hq key, Measure.map_apply (measurable_normalAt hq key) hA]
      rfl
    rw [h1, stdNormal_eq_withDensity, withDensity_apply _ hA, Set.inter_univ, ← lintegral_const_mul' _ _ ENNReal.ofReal_ne_top]
    exact lintegral_congr fun x => hdens x
  refine ⟨(√(2 * Real.pi) ^ d)⁻¹, by positivity, ?_, fun A hA => by simp only; rw [hlaw A hA, sub_self, abs_zero]⟩
  have := hlaw Set.univ MeasurableSet.univ
  rw [Set.univ_inter] at this
  simp only
  rw [← this]
  simp

/-- The hypotheses can be met: the default rates (one) and box (0 to 10). -/
example : (∀ i : Fin 3, (0 : ℝ) < (fun _ => 1 : Fin 3 → ℝ) i) ∧ (∀ i : Fin 4, (fun _ => 0 : Fin 4 → ℝ) i < (fun _ => 10 : Fin 4 → ℝ) i) ∧ ∃ q, IsNormalDraw q :=
  ⟨fun _ => one_pos, fun _ => by norm_num, exists_isNormalDraw⟩

end Mocat.Props
