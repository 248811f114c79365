import Verif.Lemmas.Ergodic
/-! Averages along Metropolis chains whose proposals have a positive density where they can be accepted. -/
namespace Mocat.Ergodic
open Mocat Mocat.Ideal Mocat.Meas MeasureTheory ProbabilityTheory Filter
open scoped ENNReal Topology

section
variable {X Z : Type*} [MeasurableSpace X] [MeasurableSpace Z] {γ : Measure Z} [IsProbabilityMeasure γ] {T : X → Z → X} {a : X → Z → ℝ}

/-- The accepted moves from `x`. -/
noncomputable def accepted (γ : Measure Z) (T : X → Z → X) (a : X → Z → ℝ) (x : X) : Measure X := (γ.withDensity fun z => ENNReal.ofReal (a x z)).map (T x)

/-- Metropolis: move if the uniform is below the acceptance probability. -/
noncomputable def metro (T : X → Z → X) (a : X → Z → ℝ) (x : X) (w : Z × ℝ) : X := if w.2 < a x w.1 then T x w.1 else x

omit [IsProbabilityMeasure γ] in
theorem metro_map (hT : Measurable (Function.uncurry T)) (ha : Measurable (Function.uncurry a)) (ha0 : ∀ x z, 0 ≤ a x z) (ha1 : ∀ x z, a x z ≤ 1) (x : X) :
    (γ.prod unif).map (metro T a x) = (∫⁻ z, ENNReal.ofReal (1 - a x z) ∂γ) • Measure.dirac x + accepted γ T a x := by
  have mT : Measurable (T x) := hT.comp measurable_prodMk_left
  have ma : Measurable (a x) := ha.comp measurable_prodMk_left
  have mm : Measurable (metro T a x) := Measurable.ite (measurableSet_lt measurable_snd (ma.comp measurable_fst)) (mT.comp measurable_fst) measurable_const
  have mA : Measurable fun z => ENNReal.ofReal (a x z) := ENNReal.measurable_ofReal.comp ma
  have mB : Measurable fun z => ENNReal.ofReal (1 - a x z) := ENNReal.measurable_ofReal.comp (measurable_const.sub ma)
  refine Measure.ext_of_lintegral _ fun f hf => ?_
  have mf : Measurable fun w => f (metro T a x w) := hf.comp mm
  have mg : Measurable fun z => f (T x z) := hf.comp mT
  rw [lintegral_map hf mm, lintegral_prod _ mf.aemeasurable, lintegral_add_measure, lintegral_smul_measure, lintegral_dirac' _ hf, accepted, lintegral_map hf mT,
    lintegral_withDensity_eq_lintegral_mul _ mA mg, smul_eq_mul, ← lintegral_mul_const _ mB, ← lintegral_add_left (mB.mul_const _)]
  refine lintegral_congr fun z => ?_
  have : ∀ u, f (metro T a x (z, u)) = if u < a x z then f (T x z) else f x := fun u => by simp only [metro]; split_ifs <;> rfl
  simp_rw [this]
  rw [accept_lintegral _ (ha0 x z) (ha1 x z), add_comm]
  rfl

theorem measurable_metro (hT : Measurable (Function.uncurry T)) (ha : Measurable (Function.uncurry a)) : Measurable (Function.uncurry (metro T a)) := by
  have m : Measurable fun p : X × (Z × ℝ) => (p.1, p.2.1) := measurable_fst.prodMk (measurable_fst.comp measurable_snd)
  exact Measurable.ite (measurableSet_lt (measurable_snd.comp measurable_snd) (ha.comp m)) (hT.comp m) measurable_fst

theorem accepted_finite (ha1 : ∀ x z, a x z ≤ 1) (x0 : X) : IsFiniteMeasure (accepted γ T a x0) := by
  have : IsFiniteMeasure (γ.withDensity fun z => ENNReal.ofReal (a x0 z)) := by
    refine isFiniteMeasure_withDensity ?_
    refine ne_top_of_le_ne_top ENNReal.one_ne_top ?_
    calc _ ≤ ∫⁻ _, 1 ∂γ := lintegral_mono fun z => ENNReal.ofReal_le_one.mpr (ha1 x0 z)
      _ = 1 := by simp
  unfold accepted; infer_instance

theorem reject_lt_one {π : Measure X} [IsProbabilityMeasure π] (hT : Measurable (Function.uncurry T)) (ha : Measurable (Function.uncurry a)) (ha0 : ∀ x z, 0 ≤ a x z) (ha1 : ∀ x z, a x z ≤ 1)
    {x0 : X} (hca : π ≪ accepted γ T a x0) : ∫⁻ z, ENNReal.ofReal (1 - a x0 z) ∂γ < 1 := by
  have mA : Measurable fun z => ENNReal.ofReal (a x0 z) := ENNReal.measurable_ofReal.comp (ha.comp measurable_prodMk_left)
  have hpos : ∫⁻ z, ENNReal.ofReal (a x0 z) ∂γ ≠ 0 := fun h0 => by
    have : accepted γ T a x0 Set.univ = 0 := by
      have mT : Measurable (T x0) := hT.comp measurable_prodMk_left
      rw [accepted, Measure.map_apply mT .univ, Set.preimage_univ, withDensity_apply _ .univ, Measure.restrict_univ, h0]
    have := hca this
    simp at this
  have hsum : (∫⁻ z, ENNReal.ofReal (a x0 z) ∂γ) + ∫⁻ z, ENNReal.ofReal (1 - a x0 z) ∂γ = 1 := by
    rw [← lintegral_add_left mA]
    have : ∀ z, ENNReal.ofReal (a x0 z) + ENNReal.ofReal (1 - a x0 z) = 1 := fun z => by
      rw [← ENNReal.ofReal_add (ha0 x0 z) (by linarith [ha1 x0 z]), add_sub_cancel, ENNReal.ofReal_one]
    simp [this]
  by_contra hge
  rw [not_lt] at hge
  have h2 : (∫⁻ z, ENNReal.ofReal (a x0 z) ∂γ) + 1 ≤ 0 + 1 := by
    calc _ ≤ _ := add_le_add le_rfl hge
      _ = _ := by rw [hsum, zero_add]
  exact hpos (le_antisymm ((ENNReal.add_le_add_iff_right ENNReal.one_ne_top).mp h2) zero_le)

/-- Averages along a Metropolis chain, from every start. -/
theorem metropolis_average {draw : Keys.Key → Tape → Z × ℝ} {nxt : Keys.Key → Keys.Key} {π : Measure X} [IsProbabilityMeasure π]
    (hd : Draws draw nxt (γ.prod unif)) (hT : Measurable (Function.uncurry T)) (ha : Measurable (Function.uncurry a)) (ha0 : ∀ x z, 0 ≤ a x z) (ha1 : ∀ x z, a x z ≤ 1)
    (hinv : ∀ f : X → ℝ≥0∞, Measurable f → ∫⁻ x, ∫⁻ w, f (metro T a x w) ∂(γ.prod unif) ∂π = ∫⁻ x, f x ∂π)
    (hac : ∀ x, accepted γ T a x ≪ π) (hca : ∀ x, π ≪ accepted γ T a x) {f : X → ℝ} (hf : Measurable f) (hfi : Integrable f π)
    (x0 : X) {ε : ℝ} (hε : 0 < ε) (k : Keys.Key) :
    Tendsto (fun n : ℕ => ideal {ω | ε ≤ |pathSum draw nxt (metro T a) f n k x0 ω / n - ∫ x, f x ∂π|}) atTop (𝓝 0) := by
  have hfin : IsFiniteMeasure (accepted γ T a x0) := accepted_finite ha1 x0
  refine average_prob hd (measurable_metro hT ha) hinv (irreducible_of_reach (measurable_metro hT ha) (.of_forall fun x => ?_)) hf hfi (r := ∫⁻ z, ENNReal.ofReal (1 - a x0 z) ∂γ) (reject_lt_one hT ha ha0 ha1 (hca x0)) (hac x0)
    (metro_map hT ha ha0 ha1 x0).le hε k
  rw [metro_map hT ha ha0 ha1 x]
  exact (hca x).trans (Measure.absolutelyContinuous_of_le (Measure.le_add_left le_rfl))

end

section
variable {d : ℕ}

theorem volume_affine (c : Fin d → ℝ) {h : ℝ} (hh : h ≠ 0) (A : Set (Fin d → ℝ)) : volume ((fun (z : Fin d → ℝ) i => c i + h * z i) ⁻¹' A) = 0 ↔ volume A = 0 := by
  have e : (fun (z : Fin d → ℝ) i => c i + h * z i) ⁻¹' A = (fun z : Fin d → ℝ => h • z) ⁻¹' ((fun y => c + y) ⁻¹' A) := rfl
  rw [e, Measure.addHaar_preimage_smul volume hh, measure_preimage_add, mul_eq_zero]
  simp only [ENNReal.ofReal_eq_zero, or_iff_right_iff_imp]
  intro h0
  exact absurd h0 (not_le.mpr (by positivity))

theorem volume_scale (c s : Fin d → ℝ) (hs : ∀ i, s i ≠ 0) (A : Set (Fin d → ℝ)) : volume ((fun (z : Fin d → ℝ) i => c i + s i * z i) ⁻¹' A) = 0 ↔ volume A = 0 := by
  have hdet : (Matrix.diagonal s).det ≠ 0 := by rw [Matrix.det_diagonal]; exact Finset.prod_ne_zero_iff.mpr fun i _ => hs i
  have e : (fun (z : Fin d → ℝ) i => c i + s i * z i) ⁻¹' A = Matrix.toLin' (Matrix.diagonal s) ⁻¹' ((fun y => c + y) ⁻¹' A) := by
    ext z
    simp only [Set.mem_preimage, Matrix.toLin'_apply]
    have : (fun i => c i + s i * z i) = c + (Matrix.diagonal s).mulVec z := by
      funext i; simp [Matrix.mulVec_diagonal]
    rw [this]
  rw [e, Measure.addHaar_preimage_linearMap volume (by rwa [LinearMap.det_toLin']), measure_preimage_add, mul_eq_zero]
  simp only [ENNReal.ofReal_eq_zero, or_iff_right_iff_imp]
  intro h0
  refine absurd h0 (not_le.mpr (abs_pos.mpr (inv_ne_zero ?_)))
  rwa [LinearMap.det_toLin']

theorem stdNormal_null (A : Set (Fin d → ℝ)) : stdNormal d A = 0 ↔ volume A = 0 := by
  have mp : Measurable fun x : Fin d → ℝ => ENNReal.ofReal (∏ i, gaussianPDFReal 0 1 (x i)) := by
    refine ENNReal.measurable_ofReal.comp (Finset.measurable_prod _ fun i _ => (measurable_gaussianPDFReal 0 1).comp (measurable_pi_apply i))
  rw [stdNormal_eq_withDensity, withDensity_apply_eq_zero mp]
  have : {x : Fin d → ℝ | ENNReal.ofReal (∏ i, gaussianPDFReal 0 1 (x i)) ≠ 0} = Set.univ := by
    ext x
    simp only [ne_eq, Set.mem_ofPred_eq, ENNReal.ofReal_eq_zero, not_le, Set.mem_univ, iff_true]
    exact Finset.prod_pos fun i _ => gaussianPDFReal_pos 0 1 _ one_ne_zero
  rw [this, Set.univ_inter]

/-- Gaussian proposals, accepted with positive probability exactly on `S`. -/
theorem accepted_null {c : (Fin d → ℝ) → Fin d → ℝ} {h : ℝ} (hh : h ≠ 0) {T : (Fin d → ℝ) → (Fin d → ℝ) → Fin d → ℝ} (hT : ∀ x z, T x z = fun i => c x i + h * z i)
    {a : (Fin d → ℝ) → (Fin d → ℝ) → ℝ} (ha : Measurable (Function.uncurry a)) {S : Set (Fin d → ℝ)} (hpos : ∀ x z, 0 < a x z ↔ T x z ∈ S)
    (x : Fin d → ℝ) {A : Set (Fin d → ℝ)} (hA : MeasurableSet A) : accepted (stdNormal d) T a x A = 0 ↔ volume (S ∩ A) = 0 := by
  have e : T x = fun (z : Fin d → ℝ) i => c x i + h * z i := funext fun z => hT x z
  have mT : Measurable (T x) := by rw [e]; fun_prop
  have mA : Measurable fun z => ENNReal.ofReal (a x z) := ENNReal.measurable_ofReal.comp (ha.comp measurable_prodMk_left)
  rw [accepted, Measure.map_apply mT hA, withDensity_apply_eq_zero mA]
  have hset : {z | ENNReal.ofReal (a x z) ≠ 0} ∩ T x ⁻¹' A = T x ⁻¹' (S ∩ A) := by
    ext z
    simp only [ne_eq, ENNReal.ofReal_eq_zero, not_le, Set.mem_inter_iff, Set.mem_ofPred_eq, Set.mem_preimage, hpos]
  rw [hset, stdNormal_null, e, volume_affine _ hh]

end

end Mocat.Ergodic
