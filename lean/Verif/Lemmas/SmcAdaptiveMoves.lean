import Verif.Lemmas.SmcAdaptiveRun
import Verif.Lemmas.NormalDraw
/-! `RandomWalk` moves depend continuously on the temperature, on average over the prior. -/
namespace Mocat.Smc
open Mocat Mocat.Ideal Mocat.Meas Mocat.Mcmc Mocat.Spec MeasureTheory Filter Topology
open scoped ENNReal

variable {d : ℕ}

theorem measurable_tapeIter_param {Θ X D : Type*} [MeasurableSpace Θ] [MeasurableSpace X] [MeasurableSpace D] {draw : Keys.Key → Tape → D} {next : Keys.Key → Keys.Key} {δ : Measure D}
    (hd : Draws draw next δ) {step : Θ → X → D → X} (hs : Measurable fun z : (Θ × X) × D => step z.1.1 z.1.2 z.2) (m : ℕ) (k : Keys.Key) :
    Measurable fun z : (Θ × X) × Tape => tapeIter draw next (step z.1.1) m k z.1.2 z.2 := by
  induction m generalizing k with
  | zero => exact measurable_snd.comp measurable_fst
  | succ m ih =>
    have h1 : Measurable fun z : (Θ × X) × Tape => step z.1.1 z.1.2 (draw k z.2) := hs.comp (measurable_fst.prodMk ((hd.measurable k).comp measurable_snd))
    exact (ih (next k)).comp (((measurable_fst.comp measurable_fst).prodMk h1).prodMk measurable_snd)

/-- The moves of a `RandomWalk` at temperature `T`. -/
noncomputable def rwAt (prior lik : (Fin d → ℝ) → ℝ) (step : ℝ) (T : ℝ) : (Fin d → ℝ) → (Fin d → ℝ) × ℝ → Fin d → ℝ := rwMove Set.univ (fun x => prior x + T * lik x) step

theorem accOn_univ (V : (Fin d → ℝ) → ℝ) (x y : Fin d → ℝ) : accOn Set.univ V x y = min 1 (Real.exp (-V y + V x)) := by
  simp [accOn]

theorem measurable_rwAt {prior lik : (Fin d → ℝ) → ℝ} (hprior : Measurable prior) (hlik : Measurable lik) (step : ℝ) :
    Measurable fun z : (ℝ × (Fin d → ℝ)) × ((Fin d → ℝ) × ℝ) => rwAt prior lik step z.1.1 z.1.2 z.2 := by
  have mT := measurable_rwProp (d := d) (Real.sqrt step)
  have m0 : Measurable fun z : (ℝ × (Fin d → ℝ)) × ((Fin d → ℝ) × ℝ) => z.1.2 := measurable_snd.comp measurable_fst
  have mt : Measurable fun z : (ℝ × (Fin d → ℝ)) × ((Fin d → ℝ) × ℝ) => z.1.1 := measurable_fst.comp measurable_fst
  have m1 : Measurable fun z : (ℝ × (Fin d → ℝ)) × ((Fin d → ℝ) × ℝ) => rwProp (Real.sqrt step) (z.1.2, z.2.1) := mT.comp (m0.prodMk (measurable_fst.comp measurable_snd))
  have m2 : Measurable fun z : (ℝ × (Fin d → ℝ)) × ((Fin d → ℝ) × ℝ) => prior z.1.2 + z.1.1 * lik z.1.2 := (hprior.comp m0).add (mt.mul (hlik.comp m0))
  have m3 : Measurable fun z : (ℝ × (Fin d → ℝ)) × ((Fin d → ℝ) × ℝ) => prior (rwProp (Real.sqrt step) (z.1.2, z.2.1)) + z.1.1 * lik (rwProp (Real.sqrt step) (z.1.2, z.2.1)) :=
    (hprior.comp m1).add (mt.mul (hlik.comp m1))
  unfold rwAt rwMove
  refine Measurable.ite (measurableSet_lt (measurable_snd.comp measurable_snd) ?_) m1 m0
  simp only [accOn_univ]
  exact measurable_const.min (Real.measurable_exp.comp (m3.neg.add m2))

/-- The moves of the inner sampler. -/
theorem rw_moveLaw {q : ℝ → ℝ} (hq : IsNormalDraw q) {prior lik : (Fin d → ℝ) → ℝ} (hprior : Measurable prior) (hlik : Measurable lik) (step : ℝ) (m : ℕ) :
    MoveLaw (fun T k x ω => tapeIter (rwDraws q d) Keys.rwNext (rwMove Set.univ (fun x => prior x + T * lik x) step) m (0 :: k) x ω)
      (fun T => (stepOp ((stdNormal d).prod unif) (rwMove Set.univ (fun x => prior x + T * lik x) step))^[m]) where
  measurable k := measurable_tapeIter_param (rwDraws_draws hq) (step := rwAt prior lik step) (measurable_rwAt hprior hlik step) m (0 :: k)
  dependsOn _ k x := fun _ _ h => tapeIter_dependsOn (rwDraws_draws hq) _ m (0 :: k) x fun s hs => h s (mem_below_cons hs)
  law _ k x _ hh := lintegral_tapeIter (rwDraws_draws hq) (measurable_rwMove MeasurableSet.univ (hprior.add (measurable_const.mul hlik)) step) m (0 :: k) x hh

/-! ## The modulus -/

/-- How much one step can differ between temperatures `1 / (j + 1)` apart. -/
noncomputable def gap (lik : (Fin d → ℝ) → ℝ) (h : ℝ) (j : ℕ) (x : Fin d → ℝ) : ℝ≥0∞ :=
  ∫⁻ ζ, ENNReal.ofReal (min 1 (|lik (rwProp h (x, ζ)) - lik x| / ((j : ℝ) + 1))) ∂stdNormal d

/-- Averages over a proposal. -/
noncomputable def prOp (h : ℝ) (g : (Fin d → ℝ) → ℝ≥0∞) (x : Fin d → ℝ) : ℝ≥0∞ := ∫⁻ ζ, g (rwProp h (x, ζ)) ∂stdNormal d

/-- How much `m` steps can differ. -/
noncomputable def gaps (lik : (Fin d → ℝ) → ℝ) (h : ℝ) (b : ℝ≥0∞) (j : ℕ) : ℕ → (Fin d → ℝ) → ℝ≥0∞
  | 0, _ => 0
  | m + 1, x => prOp h (gaps lik h b j m) x + gaps lik h b j m x + b * gap lik h j x

theorem unif_between (a a' : ℝ) : unif {w | ¬ (w < a ↔ w < a')} ≤ ENNReal.ofReal |a - a'| := by
  refine (Measure.restrict_apply_le _ _).trans ?_
  have : {w : ℝ | ¬ (w < a ↔ w < a')} ⊆ Set.Ico (min a a') (max a a') := by
    intro w hw
    simp only [Set.mem_ofPred_eq, not_iff, not_lt] at hw
    rcases le_total a a' with h | h
    · rw [min_eq_left h, max_eq_right h]
      by_contra hc
      simp only [Set.mem_Ico, not_and_or, not_le, not_lt] at hc
      rcases hc with hc | hc
      · have := hw.2 (by linarith); linarith
      · have := hw.1 (by linarith); linarith
    · rw [min_eq_right h, max_eq_left h]
      by_contra hc
      simp only [Set.mem_Ico, not_and_or, not_le, not_lt] at hc
      rcases hc with hc | hc
      · have := hw.2 hc; linarith
      · have := hw.1 hc; linarith
  refine (measure_mono this).trans (le_of_eq ?_)
  rw [Real.volume_Ico, max_sub_min_eq_abs, abs_sub_comm]

theorem acc_diff (prior lik : (Fin d → ℝ) → ℝ) (u u' : ℝ) (x y : Fin d → ℝ) :
    |accOn Set.univ (fun x => prior x + u * lik x) x y - accOn Set.univ (fun x => prior x + u' * lik x) x y| ≤ min 1 (|u - u'| * |lik y - lik x|) := by
  have e : ∀ t : ℝ, min 1 (Real.exp t) = Real.exp (min 0 t) := fun t => by
    rcases le_total 0 t with h | h
    · rw [min_eq_left h, min_eq_left (Real.one_le_exp h), Real.exp_zero]
    · rw [min_eq_right h, min_eq_right (Real.exp_le_one_iff.2 h)]
  rw [accOn_univ, accOn_univ, e, e]
  have h1 : ∀ t : ℝ, Real.exp (min 0 t) ≤ 1 := fun t => Real.exp_le_one_iff.2 (min_le_left _ _)
  refine (exp_diff (h1 _) (h1 _)).trans ?_
  rw [one_mul]
  refine min_le_min le_rfl ?_
  have h2 := abs_min_sub_min_le_max 0 (-(prior y + u * lik y) + (prior x + u * lik x)) 0 (-(prior y + u' * lik y) + (prior x + u' * lik x))
  rw [sub_self, abs_zero, max_eq_right (abs_nonneg _)] at h2
  refine h2.trans (le_of_eq ?_)
  rw [← abs_mul, ← abs_neg]
  congr 1
  ring

section
variable {prior lik : (Fin d → ℝ) → ℝ} (hprior : Measurable prior) (hlik : Measurable lik) (step : ℝ)

include hlik in
theorem measurable_gap (h : ℝ) (j : ℕ) : Measurable (gap lik h j) := by
  have m1 : Measurable fun z : (Fin d → ℝ) × (Fin d → ℝ) => ENNReal.ofReal (min 1 (|lik (rwProp h (z.1, z.2)) - lik z.1| / ((j : ℝ) + 1))) :=
    ENNReal.measurable_ofReal.comp (measurable_const.min ((((hlik.comp (measurable_rwProp h)).sub (hlik.comp measurable_fst)).abs).div_const _))
  exact Measurable.lintegral_prod_right' m1

theorem gap_le_one (lik : (Fin d → ℝ) → ℝ) (h : ℝ) (j : ℕ) (x : Fin d → ℝ) : gap lik h j x ≤ 1 := by
  unfold gap
  refine (lintegral_mono (g := fun _ => 1) fun ζ => ?_).trans (le_of_eq (by rw [lintegral_const, measure_univ, mul_one]))
  exact ENNReal.ofReal_le_one.2 (min_le_left _ _)

include hlik in
theorem gap_tendsto (h : ℝ) (x : Fin d → ℝ) : Tendsto (fun j => gap lik h j x) atTop (𝓝 0) := by
  have m1 : ∀ j : ℕ, Measurable fun ζ : Fin d → ℝ => ENNReal.ofReal (min 1 (|lik (rwProp h (x, ζ)) - lik x| / ((j : ℝ) + 1))) := fun j =>
    ENNReal.measurable_ofReal.comp (measurable_const.min ((((hlik.comp ((measurable_rwProp h).comp measurable_prodMk_left)).sub measurable_const).abs).div_const _))
  have h := tendsto_lintegral_of_dominated_convergence (μ := stdNormal d) (F := fun (j : ℕ) ζ => ENNReal.ofReal (min 1 (|lik (rwProp h (x, ζ)) - lik x| / ((j : ℝ) + 1)))) (f := fun _ => 0) (fun _ => 1) m1
    (fun j => Filter.Eventually.of_forall fun ζ => ENNReal.ofReal_le_one.2 (min_le_left _ _)) (by rw [lintegral_const, measure_univ, mul_one]; exact ENNReal.one_ne_top)
    (Filter.Eventually.of_forall fun ζ => by
      have h1 : Tendsto (fun j : ℕ => |lik (rwProp h (x, ζ)) - lik x| / ((j : ℝ) + 1)) atTop (𝓝 0) := tendsto_const_nhds.div_atTop (tendsto_atTop_add_const_right _ _ tendsto_natCast_atTop_atTop)
      have h2 : Tendsto (fun j : ℕ => min 1 (|lik (rwProp h (x, ζ)) - lik x| / ((j : ℝ) + 1))) atTop (𝓝 (min 1 0)) := tendsto_const_nhds.min h1
      rw [min_eq_right zero_le_one] at h2
      have h3 := (ENNReal.continuous_ofReal.tendsto 0).comp h2
      rwa [ENNReal.ofReal_zero] at h3)
  rwa [lintegral_zero] at h

include hlik in
theorem measurable_gaps (h : ℝ) (b : ℝ≥0∞) (j m : ℕ) : Measurable (gaps lik h b j m) := by
  induction m with
  | zero => exact measurable_const
  | succ m ih =>
    have m1 : Measurable (prOp h (gaps lik h b j m)) := Measurable.lintegral_prod_right' (f := fun z : (Fin d → ℝ) × (Fin d → ℝ) => gaps lik h b j m (rwProp h (z.1, z.2))) (ih.comp (measurable_rwProp h))
    exact (m1.add ih).add ((measurable_gap hlik h j).const_mul b)

theorem gaps_bounded (lik : (Fin d → ℝ) → ℝ) (h : ℝ) {b : ℝ≥0∞} (hb : b ≠ ∞) (m : ℕ) : ∃ c : ℝ≥0∞, c ≠ ∞ ∧ ∀ j x, gaps lik h b j m x ≤ c := by
  induction m with
  | zero => exact ⟨0, by simp, fun j x => le_rfl⟩
  | succ m ih =>
    obtain ⟨c, hc, h1⟩ := ih
    refine ⟨c + c + b * 1, by simp [hc, hb], fun j x => add_le_add (add_le_add ?_ (h1 j x)) (mul_le_mul' le_rfl (gap_le_one lik h j x))⟩
    unfold prOp
    refine (lintegral_mono fun ζ => h1 j _).trans (le_of_eq ?_)
    rw [lintegral_const, measure_univ, mul_one]

include hlik in
theorem gaps_tendsto (h : ℝ) {b : ℝ≥0∞} (hb : b ≠ ∞) (m : ℕ) (x : Fin d → ℝ) : Tendsto (fun j => gaps lik h b j m x) atTop (𝓝 0) := by
  induction m generalizing x with
  | zero => exact tendsto_const_nhds
  | succ m ih =>
    obtain ⟨c, hc, h1⟩ := gaps_bounded lik h hb m
    have h2 := tendsto_lintegral_of_dominated_convergence (μ := stdNormal d) (F := fun (j : ℕ) ζ => gaps lik h b j m (rwProp h (x, ζ))) (f := fun _ => 0) (fun _ => c)
      (fun j => (measurable_gaps hlik h b j m).comp ((measurable_rwProp h).comp measurable_prodMk_left)) (fun j => Filter.Eventually.of_forall fun ζ => h1 j _)
      (by rw [lintegral_const, measure_univ, mul_one]; exact hc) (Filter.Eventually.of_forall fun ζ => ih _)
    rw [lintegral_zero] at h2
    have h3 := (h2.add (ih x)).add (ENNReal.Tendsto.const_mul (gap_tendsto hlik h x) (Or.inr hb))
    rw [mul_zero, add_zero, add_zero] at h3
    exact h3

omit hprior hlik in
/-- Two randomised choices with close probabilities. -/
theorem choice_diff {Y : Type*} [MeasurableSpace Y] (ν : Measure Y) [IsProbabilityMeasure ν] {a a' : Y → ℝ} (ha : Measurable a) (ha' : Measurable a') {A : Y → ℝ≥0∞} (hA : Measurable A)
    {b C : ℝ≥0∞} (hAb : ∀ y, A y ≤ b) (hCb : C ≤ b) :
    ∫⁻ z, (if z.2 < a z.1 then A z.1 else C) ∂ν.prod unif ≤ ∫⁻ z, (if z.2 < a' z.1 then A z.1 else C) ∂ν.prod unif + b * ∫⁻ y, ENNReal.ofReal |a y - a' y| ∂ν := by
  obtain ⟨E, hE⟩ : ∃ E : Set (Y × ℝ), E = {z | ¬ (z.2 < a z.1 ↔ z.2 < a' z.1)} := ⟨_, rfl⟩
  have h1 : MeasurableSet {z : Y × ℝ | z.2 < a z.1} := measurableSet_lt measurable_snd (ha.comp measurable_fst)
  have h2 : MeasurableSet {z : Y × ℝ | z.2 < a' z.1} := measurableSet_lt measurable_snd (ha'.comp measurable_fst)
  have hEm : MeasurableSet E := by
    have : E = (({z : Y × ℝ | z.2 < a z.1} ∩ {z : Y × ℝ | z.2 < a' z.1}) ∪ ({z : Y × ℝ | z.2 < a z.1}ᶜ ∩ {z : Y × ℝ | z.2 < a' z.1}ᶜ))ᶜ := by
      ext z
      simp only [hE, Set.mem_ofPred_eq, Set.mem_compl_iff, Set.mem_union, Set.mem_inter_iff]
      tauto
    rw [this]
    exact ((h1.inter h2).union (h1.compl.inter h2.compl)).compl
  have hpt : ∀ z : Y × ℝ, (if z.2 < a z.1 then A z.1 else C) ≤ (if z.2 < a' z.1 then A z.1 else C) + b * E.indicator 1 z := by
    intro z
    by_cases hz : z ∈ E
    · rw [Set.indicator_of_mem hz, Pi.one_apply, mul_one]
      refine le_trans ?_ le_add_self
      split
      · exact hAb _
      · exact hCb
    · have hz' : z.2 < a z.1 ↔ z.2 < a' z.1 := by simpa [hE] using hz
      rw [if_congr hz' rfl rfl]
      exact le_self_add
  have hm : Measurable fun z : Y × ℝ => if z.2 < a' z.1 then A z.1 else C := Measurable.ite h2 (hA.comp measurable_fst) measurable_const
  refine (lintegral_mono hpt).trans ?_
  rw [lintegral_add_left hm, lintegral_const_mul _ (measurable_one.indicator hEm), lintegral_indicator_one hEm, Measure.prod_apply hEm]
  refine add_le_add le_rfl (mul_le_mul' le_rfl (lintegral_mono fun y => ?_))
  rw [hE]
  exact unif_between (a y) (a' y)

include hprior hlik in
/-- One step at two temperatures. -/
theorem stepOp_diff {j : ℕ} {u u' : ℝ} (hu : |u - u'| ≤ 1 / ((j : ℝ) + 1)) {g : (Fin d → ℝ) → ℝ≥0∞} (hg : Measurable g) {b : ℝ≥0∞} (hb : ∀ x, g x ≤ b) (x : Fin d → ℝ) :
    stepOp ((stdNormal d).prod unif) (rwAt prior lik step u) g x ≤ stepOp ((stdNormal d).prod unif) (rwAt prior lik step u') g x + b * gap lik (Real.sqrt step) j x := by
  have ham : ∀ t : ℝ, Measurable fun ζ => accOn Set.univ (fun x => prior x + t * lik x) x (rwProp (Real.sqrt step) (x, ζ)) := fun t => by
    have h1 : Measurable fun x => prior x + t * lik x := hprior.add (measurable_const.mul hlik)
    have h2 : Measurable fun ζ => rwProp (Real.sqrt step) (x, ζ) := (measurable_rwProp _).comp measurable_prodMk_left
    simp only [accOn_univ]
    exact measurable_const.min (Real.measurable_exp.comp ((h1.comp h2).neg.add measurable_const))
  have e : ∀ t, stepOp ((stdNormal d).prod unif) (rwAt prior lik step t) g x = ∫⁻ z, (if z.2 < accOn Set.univ (fun x => prior x + t * lik x) x (rwProp (Real.sqrt step) (x, z.1))
      then g (rwProp (Real.sqrt step) (x, z.1)) else g x) ∂(stdNormal d).prod unif := fun t => lintegral_congr fun z => by
    unfold rwAt rwMove
    exact apply_ite g _ _ _
  have hA : Measurable fun ζ => g (rwProp (Real.sqrt step) (x, ζ)) := hg.comp ((measurable_rwProp _).comp measurable_prodMk_left)
  rw [e, e]
  refine (choice_diff (stdNormal d) (ham u) (ham u') hA (fun ζ => hb _) (hb x)).trans (add_le_add le_rfl (mul_le_mul' le_rfl (lintegral_mono fun ζ => ENNReal.ofReal_le_ofReal ?_)))
  refine (acc_diff prior lik u u' x (rwProp (Real.sqrt step) (x, ζ))).trans (min_le_min le_rfl ?_)
  rw [div_eq_inv_mul, ← one_div]
  exact mul_le_mul_of_nonneg_right hu (abs_nonneg _)

omit hprior hlik in
/-- A step stays or goes to the proposal. -/
theorem stepOp_le (u : ℝ) {g : (Fin d → ℝ) → ℝ≥0∞} (hg : Measurable g) (x : Fin d → ℝ) :
    stepOp ((stdNormal d).prod unif) (rwAt prior lik step u) g x ≤ prOp (Real.sqrt step) g x + g x := by
  have hm : Measurable fun z : (Fin d → ℝ) × ℝ => g (rwProp (Real.sqrt step) (x, z.1)) := hg.comp ((measurable_rwProp _).comp (measurable_const.prodMk measurable_fst))
  unfold stepOp
  refine (lintegral_mono (g := fun z : (Fin d → ℝ) × ℝ => g (rwProp (Real.sqrt step) (x, z.1)) + g x) fun z => ?_).trans (le_of_eq ?_)
  · simp only [rwAt, rwMove]
    split
    · exact le_self_add
    · exact le_add_self
  · rw [lintegral_add_left hm, lintegral_const, measure_univ, mul_one, lintegral_prod _ hm.aemeasurable]
    simp only [lintegral_const, measure_univ, mul_one]
    rfl

include hprior hlik in
/-- `m` steps at two temperatures. -/
theorem iterate_diff {j : ℕ} {u u' : ℝ} (hu : |u - u'| ≤ 1 / ((j : ℝ) + 1)) {g : (Fin d → ℝ) → ℝ≥0∞} (hg : Measurable g) {b : ℝ≥0∞} (hb : ∀ x, g x ≤ b) (m : ℕ) (x : Fin d → ℝ) :
    (stepOp ((stdNormal d).prod unif) (rwAt prior lik step u))^[m] g x ≤ (stepOp ((stdNormal d).prod unif) (rwAt prior lik step u'))^[m] g x + gaps lik (Real.sqrt step) b j m x := by
  have hs : ∀ t, Measurable (Function.uncurry (rwAt prior lik step t)) := fun t => measurable_rwMove MeasurableSet.univ (hprior.add (measurable_const.mul hlik)) step
  have hle : ∀ t (m : ℕ) x, (stepOp ((stdNormal d).prod unif) (rwAt prior lik step t))^[m] g x ≤ b := by
    intro t m
    induction m with
    | zero => exact hb
    | succ m ih =>
      intro x
      rw [Function.iterate_succ_apply']
      unfold stepOp at ih ⊢
      refine (lintegral_mono fun z => ih _).trans (le_of_eq ?_)
      rw [lintegral_const, measure_univ, mul_one]
  induction m generalizing x with
  | zero => exact le_self_add
  | succ m ih =>
    set G' := (stepOp ((stdNormal d).prod unif) (rwAt prior lik step u'))^[m] g with hG'
    have hG'm : Measurable G' := measurable_stepOp_iterate (hs u') m hg
    have hgm := measurable_gaps hlik (Real.sqrt step) b j m
    rw [Function.iterate_succ_apply', Function.iterate_succ_apply']
    have h1 : stepOp ((stdNormal d).prod unif) (rwAt prior lik step u) ((stepOp ((stdNormal d).prod unif) (rwAt prior lik step u))^[m] g) x
        ≤ stepOp ((stdNormal d).prod unif) (rwAt prior lik step u) G' x + stepOp ((stdNormal d).prod unif) (rwAt prior lik step u) (gaps lik (Real.sqrt step) b j m) x := by
      have hm : Measurable fun z : (Fin d → ℝ) × ℝ => G' (rwAt prior lik step u x z) := hG'm.comp ((hs u).comp measurable_prodMk_left)
      refine (lintegral_mono fun z => ih (rwAt prior lik step u x z)).trans (le_of_eq ?_)
      rw [lintegral_add_left hm]
      rfl
    have h2 := stepOp_diff hprior hlik step hu hG'm (hle u' m) x
    have h3 := stepOp_le (prior := prior) (lik := lik) step u hgm x
    refine h1.trans ((add_le_add h2 h3).trans (le_of_eq ?_))
    rw [gaps]
    ring

include hprior hlik in
theorem rw_family (μ0 : Measure (Fin d → ℝ)) [IsProbabilityMeasure μ0] (M : ℝ) (m : ℕ) {f : (Fin d → ℝ) → ℝ} (hf : Measurable f) {B : ℝ} (hB : ∀ x, f x ≤ B) :
    Family μ0 M fun T => PR (fun T => (stepOp ((stdNormal d).prod unif) (rwMove Set.univ (fun x => prior x + T * lik x) step))^[m]) T f := by
  obtain ⟨q, hq⟩ := exists_isNormalDraw
  have hM := rw_moveLaw (d := d) hq hprior hlik step m
  have hg : Measurable fun x => ENNReal.ofReal (f x) := ENNReal.measurable_ofReal.comp hf
  have hgB : ∀ x, ENNReal.ofReal (f x) ≤ ENNReal.ofReal B := fun x => ENNReal.ofReal_le_ofReal (hB x)
  have hP := fun T x => hM.le hg hgB T x
  have hPt := fun T x => ne_top_of_le_ne_top ENNReal.ofReal_ne_top (hP T x)
  obtain ⟨c, hc, hcb⟩ := gaps_bounded lik (Real.sqrt step) (b := ENNReal.ofReal B) ENNReal.ofReal_ne_top m
  have hDt : ∀ j x, gaps lik (Real.sqrt step) (ENNReal.ofReal B) j m x ≠ ∞ := fun j x => ne_top_of_le_ne_top hc (hcb j x)
  have hDm : ∀ j, Measurable fun x => (gaps lik (Real.sqrt step) (ENNReal.ofReal B) j m x).toReal := fun j => (measurable_gaps hlik _ _ j m).ennreal_toReal
  have hDc : ∀ j x, (gaps lik (Real.sqrt step) (ENNReal.ofReal B) j m x).toReal ≤ c.toReal := fun j x => ENNReal.toReal_mono hc (hcb j x)
  refine ⟨fun u => ?_, fun u x => ENNReal.toReal_nonneg, ⟨(ENNReal.ofReal B).toReal, fun u _ x => ENNReal.toReal_mono ENNReal.ofReal_ne_top (hP u x)⟩,
    fun j x => (gaps lik (Real.sqrt step) (ENNReal.ofReal B) j m x).toReal, c.toReal, hDm, fun j x => ENNReal.toReal_nonneg, hDc, fun j u _ u' _ huu x => ?_, ?_⟩
  · have h1 := ((hM.op hg).comp (f := fun x : Fin d → ℝ => (u, x)) measurable_prodMk_left).ennreal_toReal
    exact h1
  · have key : ∀ {u u' : ℝ}, |u - u'| ≤ 1 / ((j : ℝ) + 1) → ((stepOp ((stdNormal d).prod unif) (rwMove Set.univ (fun x => prior x + u * lik x) step))^[m] (fun x => ENNReal.ofReal (f x)) x).toReal
        ≤ ((stepOp ((stdNormal d).prod unif) (rwMove Set.univ (fun x => prior x + u' * lik x) step))^[m] (fun x => ENNReal.ofReal (f x)) x).toReal
          + (gaps lik (Real.sqrt step) (ENNReal.ofReal B) j m x).toReal := by
      intro u u' h
      rw [← ENNReal.toReal_add (hPt u' x) (hDt j x)]
      exact ENNReal.toReal_mono (ENNReal.add_ne_top.2 ⟨hPt u' x, hDt j x⟩) (iterate_diff hprior hlik step h hg hgB m x)
    have h1 := key huu
    have h2 := key (u := u') (u' := u) (by rwa [abs_sub_comm])
    rw [abs_le]
    unfold PR
    constructor <;> linarith
  · have h := tendsto_integral_of_dominated_convergence (μ := μ0) (F := fun (j : ℕ) x => (gaps lik (Real.sqrt step) (ENNReal.ofReal B) j m x).toReal) (f := fun _ => 0) (fun _ => c.toReal)
      (fun j => (hDm j).aestronglyMeasurable) (integrable_const _) (fun j => Filter.Eventually.of_forall fun x => by
        rw [Real.norm_eq_abs, abs_of_nonneg ENNReal.toReal_nonneg]; exact hDc j x) (Filter.Eventually.of_forall fun x => by
        have h1 := (ENNReal.tendsto_toReal (ENNReal.zero_ne_top)).comp (gaps_tendsto hlik (Real.sqrt step) (b := ENNReal.ofReal B) ENNReal.ofReal_ne_top m x)
        exact h1)
    rwa [integral_zero] at h

end

end Mocat.Smc
