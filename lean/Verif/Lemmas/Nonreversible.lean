import Verif.Lemmas.Reversible
/-! Convergence in total variation of chains that need not be reversible. -/
namespace Mocat.Ergodic
open Mocat Mocat.Ideal Mocat.Meas MeasureTheory ProbabilityTheory Filter Topology
open scoped ENNReal InnerProductSpace

/-! ## Powers of a contraction tend weakly to zero away from the vectors it keeps -/

section
variable {H : Type*} [NormedAddCommGroup H] [InnerProductSpace ℝ H] [CompleteSpace H] {Q : H →L[ℝ] H}

theorem weak_decay (hQ : ‖Q‖ ≤ 1) (f : H) (hker : ∀ v, ContinuousLinearMap.adjoint Q (Q v) = v → ∀ n, ⟪v, Q^[n] f⟫_ℝ = 0) (h : H) :
    Tendsto (fun n => ⟪h, Q^[n] f⟫_ℝ) atTop (𝓝 0) := by
  have hle : ∀ v, ‖Q v‖ ≤ ‖v‖ := fun v => (Q.le_opNorm v).trans (mul_le_of_le_one_left (norm_nonneg _) hQ)
  have hle' : ∀ v, ‖ContinuousLinearMap.adjoint Q v‖ ≤ ‖v‖ := fun v =>
    ((ContinuousLinearMap.adjoint Q).le_opNorm v).trans (mul_le_of_le_one_left (norm_nonneg _) (by rw [LinearIsometryEquiv.norm_map]; exact hQ))
  set R : H →L[ℝ] H := 1 - (ContinuousLinearMap.adjoint Q).comp Q with hR
  have hRv : ∀ v, R v = v - ContinuousLinearMap.adjoint Q (Q v) := fun v => rfl
  have hRs : ∀ u v, ⟪R u, v⟫_ℝ = ⟪u, R v⟫_ℝ := fun u v => by
    rw [hRv, hRv, inner_sub_left, inner_sub_right, ContinuousLinearMap.adjoint_inner_left, ContinuousLinearMap.adjoint_inner_right]
  have hRn : ∀ v, ‖R v‖ ^ 2 ≤ ‖v‖ ^ 2 - ‖Q v‖ ^ 2 := fun v => by
    rw [hRv, norm_sub_sq_real, ContinuousLinearMap.adjoint_inner_right, real_inner_self_eq_norm_sq]
    have := pow_le_pow_left₀ (norm_nonneg _) (hle' (Q v)) 2
    linarith
  set a : ℕ → ℝ := fun n => ‖Q^[n] f‖ ^ 2 with ha
  have hanti : Antitone a := antitone_nat_of_succ_le fun n => by
    simp only [ha]
    rw [Function.iterate_succ_apply']
    exact pow_le_pow_left₀ (norm_nonneg _) (hle _) 2
  obtain ⟨l, hl⟩ : ∃ l, Tendsto a atTop (𝓝 l) := ⟨_, tendsto_atTop_ciInf hanti ⟨0, by rintro _ ⟨n, rfl⟩; positivity⟩⟩
  have hRg : Tendsto (fun n => ‖R (Q^[n] f)‖) atTop (𝓝 0) := by
    have h1 : Tendsto (fun n => a n - a (n + 1)) atTop (𝓝 0) := by
      have := hl.sub (hl.comp (tendsto_add_atTop_nat 1))
      simpa using this
    have h2 : Tendsto (fun n => ‖R (Q^[n] f)‖ ^ 2) atTop (𝓝 0) := squeeze_zero (fun n => by positivity) (fun n => by
      have := hRn (Q^[n] f)
      rwa [← Function.iterate_succ_apply' (f := Q)] at this) h1
    have h3 := h2.sqrt
    simpa using h3
  have hbd : ∀ n, ‖Q^[n] f‖ ≤ ‖f‖ := fun n => by
    induction n with
    | zero => exact le_rfl
    | succ n ih => rw [Function.iterate_succ_apply']; exact (hle _).trans ih
  -- split `h` along the kernel of `R`
  have hperp : h - R.ker.starProjection h ∈ R.range.topologicalClosure := by
    rw [← Submodule.orthogonal_orthogonal_eq_closure, ContinuousLinearMap.orthogonal_range]
    have : ContinuousLinearMap.adjoint R = R := by
      symm
      rw [ContinuousLinearMap.eq_adjoint_iff]
      exact hRs
    rw [this]
    exact Submodule.sub_starProjection_mem_orthogonal h
  have hz : ∀ n, ⟪R.ker.starProjection h, Q^[n] f⟫_ℝ = 0 := fun n => by
    refine hker _ ?_ n
    have : R (R.ker.starProjection h) = 0 := Submodule.starProjection_apply_mem R.ker h
    rw [hRv, sub_eq_zero] at this
    exact this.symm
  rw [Metric.tendsto_atTop]
  intro ε hε
  set B := ‖f‖ + 1 with hB
  have hB0 : 0 < B := by positivity
  obtain ⟨w, ⟨u, rfl⟩, hw⟩ : ∃ w ∈ (R.range : Set H), dist (h - R.ker.starProjection h) w < ε / (2 * B) :=
    Metric.mem_closure_iff.mp hperp _ (by positivity)
  have hu := hRg.const_mul (‖u‖ + 1)
  rw [mul_zero, Metric.tendsto_atTop] at hu
  obtain ⟨N, hN⟩ := hu (ε / 2) (by positivity)
  refine ⟨N, fun n hn => ?_⟩
  have h1 := hN n hn
  rw [Real.dist_eq, sub_zero, abs_of_nonneg (by positivity)] at h1
  rw [Real.dist_eq, sub_zero]
  have e : ⟪h, Q^[n] f⟫_ℝ = ⟪h - R.ker.starProjection h - R u, Q^[n] f⟫_ℝ + ⟪u, R (Q^[n] f)⟫_ℝ := by
    rw [inner_sub_left, inner_sub_left, hz, hRs]; ring
  rw [e]
  have h2 := abs_real_inner_le_norm (h - R.ker.starProjection h - R u) (Q^[n] f)
  have h3 := abs_real_inner_le_norm u (R (Q^[n] f))
  have h4 : ‖h - R.ker.starProjection h - R u‖ * ‖Q^[n] f‖ ≤ ε / (2 * B) * B := by
    rw [dist_eq_norm] at hw
    exact mul_le_mul hw.le ((hbd n).trans (by linarith)) (norm_nonneg _) (by positivity)
  have h5 : ε / (2 * B) * B = ε / 2 := by field_simp
  have h6 : ‖u‖ * ‖R (Q^[n] f)‖ ≤ (‖u‖ + 1) * ‖R (Q^[n] f)‖ := by gcongr; linarith
  calc _ ≤ _ := abs_add_le _ _
    _ < ε := by linarith

end

/-! ## The adjoint on densities -/

section
variable {X : Type*} [MeasurableSpace X] {J : Measure (X × X)} {π : Measure X} [IsProbabilityMeasure π]
  (h1 : MeasurePreserving Prod.fst J π) (h2 : MeasurePreserving Prod.snd J π)

/-- The adjoint of the transition operator, which moves densities. -/
noncomputable def adj : Lp ℝ 2 π →L[ℝ] Lp ℝ 2 π := ContinuousLinearMap.adjoint (op h1 h2)

omit [IsProbabilityMeasure π] in
theorem norm_adj_le : ‖adj h1 h2‖ ≤ 1 := by
  unfold adj
  rw [LinearIsometryEquiv.norm_map]
  exact norm_op_le h1 h2

/-- A density whose norm is kept is constant. -/
theorem adj_isometric (hac : π.prod π ≪ J) {v : Lp ℝ 2 π} (hv : ContinuousLinearMap.adjoint (adj h1 h2) (adj h1 h2 v) = v) : ∃ c : ℝ, v =ᵐ[π] fun _ => c := by
  set Q := adj h1 h2 with hQ
  have hn : ‖Q v‖ ^ 2 = ‖v‖ ^ 2 := by
    rw [← real_inner_self_eq_norm_sq, ← ContinuousLinearMap.adjoint_inner_right, hv, real_inner_self_eq_norm_sq]
  have e := inner_op h1 h2 v (Q v)
  have e' : ⟪v, op h1 h2 (Q v)⟫_ℝ = ‖Q v‖ ^ 2 := by
    rw [← ContinuousLinearMap.adjoint_inner_left, ← real_inner_self_eq_norm_sq]; rfl
  have e0 : Lp.compMeasurePreserving Prod.fst h1 v = Lp.compMeasurePreserving Prod.snd h2 (Q v) := by
    rw [← sub_eq_zero, ← norm_eq_zero, ← sq_eq_zero_iff, norm_sub_sq_real, ← e, e', Lp.norm_compMeasurePreserving, Lp.norm_compMeasurePreserving, hn]
    ring
  have e1 := Lp.coeFn_compMeasurePreserving v h1
  have e2 := Lp.coeFn_compMeasurePreserving (Q v) h2
  rw [← e0] at e2
  have e3 : ∀ᵐ z ∂(π.prod π), v z.1 = Q v z.2 := hac.ae_le (by
    filter_upwards [e1, e2] with z a b
    exact a.symm.trans b)
  have e4 : ∀ᵐ x ∂π, ∀ᵐ y ∂π, v x = Q v y := Measure.ae_ae_of_ae_prod e3
  obtain ⟨x, hx⟩ := e4.exists
  refine ⟨v x, ?_⟩
  filter_upwards [e4] with x' hx'
  obtain ⟨y, hy, hy'⟩ := (hx.and hx').exists
  rw [hy, hy']

theorem inner_adj {h : X → ℝ} (hh : Measurable h) {C : ℝ} (hC : ∀ x, |h x| ≤ C) (g : Lp ℝ 2 π) :
    ∫ y, h y * adj h1 h2 g y ∂π = ∫ z, g z.1 * h z.2 ∂J := by
  have e1 : ∫ y, h y * adj h1 h2 g y ∂π = ⟪adj h1 h2 g, (memLp_of_bound (π := π) hh hC).toLp h⟫_ℝ := by
    rw [L2.inner_def]
    refine integral_congr_ae ?_
    filter_upwards [(memLp_of_bound (π := π) hh hC).coeFn_toLp] with y hy
    rw [hy]; simp
  rw [e1, adj, ContinuousLinearMap.adjoint_inner_left, inner_op, L2.inner_def]
  refine integral_congr_ae ?_
  filter_upwards [Lp.coeFn_compMeasurePreserving g h1, Lp.coeFn_compMeasurePreserving ((memLp_of_bound hh hC).toLp h) h2,
    h2.quasiMeasurePreserving.ae_eq_comp ((memLp_of_bound (π := π) hh hC).coeFn_toLp)] with z b1 b2 b3
  rw [b1, b2, b3]
  simp [mul_comm]

theorem integrable_Lp (g : Lp ℝ 2 π) : Integrable (fun x => g x) π := (Lp.memLp g).integrable (by norm_num)

/-- The law of two successive states contains a bounded positive density. -/
theorem exists_kernel [IsFiniteMeasure J] (hac : π.prod π ≪ J) : ∃ (k : X × X → ℝ) (ρ : Measure (X × X)), Measurable k ∧ (∀ z, 0 ≤ k z) ∧ (∀ z, k z ≤ 1) ∧ (∀ᵐ z ∂(π.prod π), 0 < k z)
    ∧ J = (π.prod π).withDensity (fun z => ENNReal.ofReal (k z)) + ρ := by
  set r := J.rnDeriv (π.prod π) with hr
  have mr : Measurable r := Measure.measurable_rnDeriv _ _
  have hmin : ∀ z, min (r z) 1 ≠ ∞ := fun z => ((min_le_right _ _).trans_lt ENNReal.one_lt_top).ne
  refine ⟨fun z => (min (r z) 1).toReal, (π.prod π).withDensity (fun z => r z - min (r z) 1) + J.singularPart (π.prod π), (mr.min measurable_const).ennreal_toReal,
    fun z => ENNReal.toReal_nonneg, fun z => ?_, ?_, ?_⟩
  · exact ENNReal.toReal_le_of_le_ofReal zero_le_one (by rw [ENNReal.ofReal_one]; exact min_le_right _ _)
  · filter_upwards [Measure.rnDeriv_pos' hac] with z hz
    exact ENNReal.toReal_pos (lt_min hz one_pos).ne' (hmin z)
  · have mm : Measurable fun z => ENNReal.ofReal ((fun z => (min (r z) 1).toReal) z) := ENNReal.measurable_ofReal.comp (mr.min measurable_const).ennreal_toReal
    rw [← add_assoc, ← withDensity_add_left mm]
    have : ((fun z => ENNReal.ofReal (min (r z) 1).toReal) + fun z => r z - min (r z) 1) = r := by
      funext z
      simp only [Pi.add_apply]
      rw [ENNReal.ofReal_toReal (hmin z), add_tsub_cancel_of_le (min_le_left _ _)]
    rw [this]
    exact (Measure.rnDeriv_add_singularPart J (π.prod π)).symm

variable {h1 h2}

/-- How much mass one step removes. -/
theorem l1_step {k : X × X → ℝ} {ρ : Measure (X × X)} (mk : Measurable k) (k0 : ∀ z, 0 ≤ k z) (k1 : ∀ z, k z ≤ 1)
    (hJ : J = (π.prod π).withDensity (fun z => ENNReal.ofReal (k z)) + ρ) (g : Lp ℝ 2 π) :
    ∫ y, |adj h1 h2 g y| ∂π + ∫ x, |g x| * (∫ y, k (x, y) ∂π) ∂π ≤ ∫ y, |∫ x, k (x, y) * g x ∂π| ∂π + ∫ x, |g x| ∂π := by
  set h : X → ℝ := fun y => SignType.sign (adj h1 h2 g y) with hh
  have mh : Measurable h := by
    have m0 : Measurable fun y => (adj h1 h2 g y : ℝ) := (Lp.stronglyMeasurable _).measurable
    have : h = fun y => if 0 < adj h1 h2 g y then (1 : ℝ) else if adj h1 h2 g y < 0 then -1 else 0 := by
      funext y
      simp only [hh, sign_apply]
      split_ifs <;> simp
    rw [this]
    exact Measurable.ite (measurableSet_lt measurable_const m0) measurable_const (Measurable.ite (measurableSet_lt m0 measurable_const) measurable_const measurable_const)
  have bh : ∀ y, |h y| ≤ 1 := fun y => by
    simp only [hh, sign_apply]
    split_ifs <;> simp
  have e1 : ∫ y, |adj h1 h2 g y| ∂π = ∫ z, g z.1 * h z.2 ∂J := by
    rw [← inner_adj h1 h2 mh bh g]
    refine integral_congr_ae (.of_forall fun y => ?_)
    simp only [hh]
    exact (sign_mul_self _).symm
  have hg := integrable_Lp g
  have mg : Measurable fun x => (g x : ℝ) := (Lp.stronglyMeasurable _).measurable
  have mg1 : Measurable fun z : X × X => (g z.1 : ℝ) := mg.comp measurable_fst
  have mgh : Measurable fun z : X × X => g z.1 * h z.2 := mg1.mul (mh.comp measurable_snd)
  have iJ : Integrable (fun z : X × X => |g z.1|) J := (h1.integrable_comp_of_integrable hg.abs)
  have iJh : Integrable (fun z : X × X => g z.1 * h z.2) J := by
    refine iJ.mono mgh.aestronglyMeasurable (.of_forall fun z => ?_)
    rw [norm_mul, Real.norm_eq_abs, Real.norm_eq_abs, Real.norm_eq_abs, abs_abs]
    exact mul_le_of_le_one_right (abs_nonneg _) (bh _)
  set W := (π.prod π).withDensity (fun z => ENNReal.ofReal (k z)) with hW
  have hWJ : W ≤ J := by rw [hJ]; exact Measure.le_add_right le_rfl
  have hρJ : ρ ≤ J := by rw [hJ]; exact Measure.le_add_left le_rfl
  have e2 : ∫ z, g z.1 * h z.2 ∂J = ∫ z, g z.1 * h z.2 ∂W + ∫ z, g z.1 * h z.2 ∂ρ := by
    have := integral_add_measure (iJh.mono_measure hWJ) (iJh.mono_measure hρJ)
    rw [← hJ] at this
    exact this
  have e3 : ∫ x, |g x| ∂π = ∫ z, |g z.1| ∂W + ∫ z, |g z.1| ∂ρ := by
    have := integral_add_measure (iJ.mono_measure hWJ) (iJ.mono_measure hρJ)
    rw [← hJ] at this
    rw [← this]
    have e : ∀ F : X → ℝ, Measurable F → ∫ x, F x ∂π = ∫ z, F z.1 ∂J := fun F hF => by
      conv_lhs => rw [← h1.map_eq]
      exact integral_map measurable_fst.aemeasurable hF.aestronglyMeasurable
    exact e _ mg.abs
  have hρ : ∫ z, g z.1 * h z.2 ∂ρ ≤ ∫ z, |g z.1| ∂ρ := by
    refine integral_mono (iJh.mono_measure hρJ) (iJ.mono_measure hρJ) fun z => ?_
    refine (le_abs_self _).trans ?_
    rw [abs_mul]
    exact mul_le_of_le_one_right (abs_nonneg _) (bh _)
  have hden : ∀ F : X × X → ℝ, ∫ z, F z ∂W = ∫ z, k z * F z ∂(π.prod π) := fun F => by
    have mE : Measurable fun z => ENNReal.ofReal (k z) := ENNReal.measurable_ofReal.comp mk
    rw [hW, integral_withDensity_eq_integral_toReal_smul mE (.of_forall fun z => ENNReal.ofReal_lt_top)]
    refine integral_congr_ae (.of_forall fun z => ?_)
    simp only [ENNReal.toReal_ofReal (k0 z), smul_eq_mul]
  have ig : Integrable (fun z : X × X => g z.1) (π.prod π) := hg.comp_fst π
  have ikg : Integrable (fun z : X × X => k z * g z.1) (π.prod π) := ig.bdd_mul (c := 1) mk.aestronglyMeasurable (.of_forall fun z => by
    rw [Real.norm_eq_abs, abs_of_nonneg (k0 z)]; exact k1 z)
  have ikgh : Integrable (fun z : X × X => k z * (g z.1 * h z.2)) (π.prod π) := by
    have := ikg.bdd_mul (c := 1) (f := fun z : X × X => h z.2) (mh.comp measurable_snd).aestronglyMeasurable (.of_forall fun z => bh _)
    exact this.congr (.of_forall fun z => by simp only; ring)
  have hWh : ∫ z, g z.1 * h z.2 ∂W ≤ ∫ y, |∫ x, k (x, y) * g x ∂π| ∂π := by
    rw [hden, integral_prod_symm _ ikgh]
    have i2 := ikg.integral_prod_right
    refine integral_mono ikgh.integral_prod_right i2.abs fun y => ?_
    have : ∫ x, k (x, y) * (g x * h y) ∂π = (∫ x, k (x, y) * g x ∂π) * h y := by
      rw [← integral_mul_const]
      exact integral_congr_ae (.of_forall fun x => by simp only; ring)
    simp only
    rw [this]
    refine (le_abs_self _).trans ?_
    rw [abs_mul]
    exact mul_le_of_le_one_right (abs_nonneg _) (bh _)
  have hWg : ∫ z, |g z.1| ∂W = ∫ x, |g x| * (∫ y, k (x, y) ∂π) ∂π := by
    have ika : Integrable (fun z : X × X => k z * |g z.1|) (π.prod π) := ikg.abs.congr (.of_forall fun z => by simp only; rw [abs_mul, abs_of_nonneg (k0 z)])
    rw [hden, integral_prod _ ika]
    refine integral_congr_ae (.of_forall fun x => ?_)
    simp only
    rw [integral_mul_const, mul_comm]
  rw [e1, e2, e3, ← hWg]
  linarith

theorem l1_le_norm (g : Lp ℝ 2 π) {h : X → ℝ} (hh : Measurable h) {C : ℝ} (hC : ∀ x, |h x| ≤ C) : ∫ x, |g x| * h x ∂π ≤ ‖g‖ * ‖(memLp_of_bound (π := π) hh hC).toLp h‖ := by
  have hm : MemLp (fun x => |(g x : ℝ)|) 2 π := (Lp.memLp g).norm
  have e : ∫ x, |g x| * h x ∂π = ⟪hm.toLp _, (memLp_of_bound (π := π) hh hC).toLp h⟫_ℝ := by
    rw [L2.inner_def]
    refine integral_congr_ae ?_
    filter_upwards [(memLp_of_bound (π := π) hh hC).coeFn_toLp, hm.coeFn_toLp] with x a b
    rw [a, b]; simp [mul_comm]
  have e2 : ‖hm.toLp _‖ = ‖g‖ := by
    rw [Lp.norm_toLp, Lp.norm_def]
    congr 1
    exact eLpNorm_congr_norm_ae (.of_forall fun x => by simp)
  rw [e, ← e2]
  exact (le_abs_self _).trans (abs_real_inner_le_norm _ _)

/-- Densities tend to their mean in mean. -/
theorem adj_l1 [IsFiniteMeasure J] (hac : π.prod π ≪ J) {f : Lp ℝ 2 π} (h0 : ∀ n, ∫ x, (adj h1 h2)^[n] f x ∂π = 0) :
    Tendsto (fun n => ∫ x, |(adj h1 h2)^[n] f x| ∂π) atTop (𝓝 0) := by
  set Q := adj h1 h2 with hQ
  obtain ⟨k, ρ, mk, k0, k1, kpos, hJ⟩ := exists_kernel (J := J) hac
  have hle : ∀ v, ‖Q v‖ ≤ ‖v‖ := fun v => (Q.le_opNorm v).trans (mul_le_of_le_one_left (norm_nonneg _) (norm_adj_le h1 h2))
  have hbd : ∀ n, ‖Q^[n] f‖ ≤ ‖f‖ := fun n => by
    induction n with
    | zero => exact le_rfl
    | succ n ih => rw [Function.iterate_succ_apply']; exact (hle _).trans ih
  have hweak : ∀ h, Tendsto (fun n => ⟪h, Q^[n] f⟫_ℝ) atTop (𝓝 0) := weak_decay (norm_adj_le h1 h2) f fun v hv n => by
    obtain ⟨c, hc⟩ := adj_isometric h1 h2 hac hv
    rw [L2.inner_def]
    have : (fun a => ⟪v a, Q^[n] f a⟫_ℝ) =ᵐ[π] fun a => c * Q^[n] f a := by
      filter_upwards [hc] with a ha
      rw [ha]; simp [mul_comm]
    rw [integral_congr_ae this, integral_const_mul, h0, mul_zero]
  have habs : ∀ z, |k z| ≤ 1 := fun z => by rw [abs_of_nonneg (k0 z)]; exact k1 z
  have h1bd : ∀ n, ∫ x, |Q^[n] f x| ∂π ≤ ‖f‖ := fun n => by
    have := l1_le_norm (Q^[n] f) (measurable_const (a := (1 : ℝ))) (C := 1) (fun _ => by simp)
    simp only [mul_one] at this
    refine this.trans ?_
    have hn : ‖(memLp_of_bound (π := π) (measurable_const (a := (1 : ℝ))) (B := 1) (fun _ => by simp)).toLp (fun _ : X => (1 : ℝ))‖ ≤ 1 := by
      rw [Lp.norm_toLp]
      refine ENNReal.toReal_le_of_le_ofReal zero_le_one ?_
      refine (eLpNorm_le_of_ae_bound (C := 1) (.of_forall fun _ => by simp)).trans ?_
      simp
    calc _ ≤ ‖f‖ * 1 := mul_le_mul (hbd n) hn (norm_nonneg _) (norm_nonneg _)
      _ = _ := mul_one _
  -- the smoothed densities vanish
  have mky : ∀ y, Measurable fun x => k (x, y) := fun y => mk.comp measurable_prodMk_right
  have hK : Tendsto (fun n => ∫ y, |∫ x, k (x, y) * Q^[n] f x ∂π| ∂π) atTop (𝓝 0) := by
    have hb : ∀ n y, |∫ x, k (x, y) * Q^[n] f x ∂π| ≤ ‖f‖ := fun n y => by
      refine (norm_integral_le_integral_norm (μ := π) fun x => k (x, y) * Q^[n] f x).trans (le_trans ?_ (h1bd n))
      refine integral_mono_of_nonneg (.of_forall fun x => norm_nonneg _) (integrable_Lp _).abs (.of_forall fun x => ?_)
      simp only
      rw [norm_mul, Real.norm_eq_abs, Real.norm_eq_abs]
      exact mul_le_of_le_one_left (abs_nonneg _) (habs _)
    have := tendsto_integral_of_dominated_convergence (μ := π) (F := fun n y => |∫ x, k (x, y) * Q^[n] f x ∂π|) (f := fun _ => (0 : ℝ)) (fun _ => ‖f‖) (fun n => ?_) (integrable_const _)
      (fun n => .of_forall fun y => by rw [Real.norm_eq_abs, abs_abs]; exact hb n y) (.of_forall fun y => ?_)
    · simpa using this
    · have mQ : Measurable fun x => (Q^[n] f x : ℝ) := (Lp.stronglyMeasurable _).measurable
      have : StronglyMeasurable fun y => ∫ x, k (x, y) * Q^[n] f x ∂π := StronglyMeasurable.integral_prod_left' (f := fun z : X × X => k z * Q^[n] f z.1)
        (mk.mul (mQ.comp measurable_fst)).stronglyMeasurable
      exact this.measurable.abs.aestronglyMeasurable
    · have hw := hweak ((memLp_of_bound (π := π) (mky y) fun x => habs _).toLp _)
      have e : ∀ n, ⟪(memLp_of_bound (π := π) (mky y) fun x => habs _).toLp _, Q^[n] f⟫_ℝ = ∫ x, k (x, y) * Q^[n] f x ∂π := fun n => by
        rw [L2.inner_def]
        refine integral_congr_ae ?_
        filter_upwards [(memLp_of_bound (π := π) (mky y) fun x => habs _).coeFn_toLp] with x hx
        rw [hx]; simp [mul_comm]
      simp_rw [e] at hw
      have := hw.abs
      rwa [abs_zero] at this
  -- the mass left converges
  set a : ℕ → ℝ := fun n => ∫ x, |Q^[n] f x| ∂π with ha
  set κ : X → ℝ := fun x => ∫ y, k (x, y) ∂π with hκ
  have mκ : Measurable κ := (StronglyMeasurable.integral_prod_right' (f := k) mk.stronglyMeasurable).measurable
  have κ0 : ∀ x, 0 ≤ κ x := fun x => integral_nonneg fun y => k0 _
  have hstep : ∀ n, a (n + 1) + ∫ x, |Q^[n] f x| * κ x ∂π ≤ (∫ y, |∫ x, k (x, y) * Q^[n] f x ∂π| ∂π) + a n := fun n => by
    have := l1_step (h1 := h1) (h2 := h2) mk k0 k1 hJ (Q^[n] f)
    simp only [ha]
    rw [Function.iterate_succ_apply']
    exact this
  have hanti : Antitone a := antitone_nat_of_succ_le fun n => by
    have := l1_step (h1 := h1) (h2 := h2) (k := 0) (ρ := J) measurable_zero (fun _ => le_rfl) (fun _ => zero_le_one) (by simp) (Q^[n] f)
    simp only [Pi.zero_apply, integral_zero, zero_mul, mul_zero, add_zero, abs_zero, zero_add] at this
    simp only [ha]
    rw [Function.iterate_succ_apply']
    exact this
  obtain ⟨l, hl⟩ : ∃ l, Tendsto a atTop (𝓝 l) := ⟨_, tendsto_atTop_ciInf hanti ⟨0, by rintro _ ⟨n, rfl⟩; exact integral_nonneg fun x => abs_nonneg _⟩⟩
  have hκ0 : Tendsto (fun n => ∫ x, |Q^[n] f x| * κ x ∂π) atTop (𝓝 0) := by
    have h1 : Tendsto (fun n => (∫ y, |∫ x, k (x, y) * Q^[n] f x ∂π| ∂π) + (a n - a (n + 1))) atTop (𝓝 0) := by
      have := hK.add (hl.sub (hl.comp (tendsto_add_atTop_nat 1)))
      simpa using this
    exact squeeze_zero (fun n => integral_nonneg fun x => mul_nonneg (abs_nonneg _) (κ0 x)) (fun n => by linarith [hstep n]) h1
  -- from the weighted mass to the mass
  set c : ℕ → X → ℝ := fun N x => 1 - min 1 (N * κ x) with hc
  have mc : ∀ N, Measurable (c N) := fun N => measurable_const.sub (measurable_const.min (mκ.const_mul _))
  have c0 : ∀ N x, 0 ≤ c N x := fun N x => sub_nonneg.mpr (min_le_left _ _)
  have c1 : ∀ N x, |c N x| ≤ 1 := fun N x => by
    rw [abs_of_nonneg (c0 N x)]
    have : 0 ≤ min 1 (N * κ x) := le_min zero_le_one (mul_nonneg (Nat.cast_nonneg N) (κ0 x))
    simp only [hc]; linarith
  have hκpos : ∀ᵐ x ∂π, 0 < κ x := by
    filter_upwards [Measure.ae_ae_of_ae_prod kpos] with x hx
    have ik : Integrable (fun y => k (x, y)) π := Integrable.of_bound (mk.comp measurable_prodMk_left).aestronglyMeasurable 1 (.of_forall fun y => habs _)
    refine lt_of_le_of_ne (κ0 x) fun h => ?_
    have h2 := (integral_eq_zero_iff_of_nonneg (fun y => k0 (x, y)) ik).mp h.symm
    obtain ⟨y, hy1, hy2⟩ := (hx.and h2).exists
    exact hy1.ne' hy2
  have hcn : Tendsto (fun N => ‖(memLp_of_bound (π := π) (mc N) (c1 N)).toLp (c N)‖) atTop (𝓝 0) := by
    have hsq : Tendsto (fun N => ∫ x, c N x ^ 2 ∂π) atTop (𝓝 0) := by
      have := tendsto_integral_of_dominated_convergence (μ := π) (F := fun N x => c N x ^ 2) (f := fun _ => (0 : ℝ)) (fun _ => 1) (fun N => ((mc N).pow_const 2).aestronglyMeasurable) (integrable_const _)
        (fun N => .of_forall fun x => by rw [Real.norm_eq_abs, abs_pow]; exact pow_le_one₀ (abs_nonneg _) (c1 N x)) ?_
      · simpa using this
      · filter_upwards [hκpos] with x hx
        refine tendsto_const_nhds.congr' ?_
        obtain ⟨M, hM⟩ := exists_nat_gt (1 / κ x)
        filter_upwards [eventually_ge_atTop M] with N hN
        have : 1 ≤ (N : ℝ) * κ x := by
          have h3 : (1 / κ x) ≤ N := hM.le.trans (by exact_mod_cast hN)
          rwa [div_le_iff₀ hx] at h3
        simp [hc, min_eq_left this]
    have e : ∀ N, ‖(memLp_of_bound (π := π) (mc N) (c1 N)).toLp (c N)‖ = Real.sqrt (∫ x, c N x ^ 2 ∂π) := fun N => by
      rw [← Real.sqrt_sq (norm_nonneg _), ← real_inner_self_eq_norm_sq, L2.inner_def]
      congr 1
      refine integral_congr_ae ?_
      filter_upwards [(memLp_of_bound (π := π) (mc N) (c1 N)).coeFn_toLp] with x hx
      rw [hx]; simp [sq]
    simp_rw [e]
    have := hsq.sqrt
    simpa using this
  rw [Metric.tendsto_atTop]
  intro ε hε
  obtain ⟨N, hN⟩ := (Metric.tendsto_atTop.mp hcn) (ε / (2 * (‖f‖ + 1))) (by positivity)
  have hN' := hN N le_rfl
  rw [dist_zero_right, norm_norm] at hN'
  obtain ⟨M, hM⟩ := (Metric.tendsto_atTop.mp hκ0) (ε / (2 * (N + 1))) (by positivity)
  refine ⟨M, fun n hn => ?_⟩
  have hMn := hM n hn
  rw [Real.dist_eq, sub_zero, abs_of_nonneg (integral_nonneg fun x => mul_nonneg (abs_nonneg _) (κ0 x))] at hMn
  rw [Real.dist_eq, sub_zero, abs_of_nonneg (integral_nonneg fun x => abs_nonneg _)]
  have ig := (integrable_Lp (Q^[n] f)).abs
  have κ1 : ∀ x, |κ x| ≤ 1 := fun x => by
    have := norm_integral_le_of_norm_le_const (μ := π) (f := fun y => k (x, y)) (.of_forall fun y => habs _)
    simpa using this
  have igκ : Integrable (fun x => |Q^[n] f x| * κ x) π := (ig.bdd_mul (c := 1) mκ.aestronglyMeasurable (.of_forall κ1)).congr (.of_forall fun x => mul_comm _ _)
  have igc : Integrable (fun x => |Q^[n] f x| * c N x) π := (ig.bdd_mul (c := 1) (mc N).aestronglyMeasurable (.of_forall (c1 N))).congr (.of_forall fun x => mul_comm _ _)
  have h3 : ∫ x, |Q^[n] f x| ∂π ≤ N * (∫ x, |Q^[n] f x| * κ x ∂π) + ∫ x, |Q^[n] f x| * c N x ∂π := by
    rw [← integral_const_mul, ← integral_add (igκ.const_mul _) igc]
    refine integral_mono ig ((igκ.const_mul _).add igc) fun x => ?_
    simp only
    have : 1 ≤ N * κ x + c N x := by simp only [hc]; linarith [min_le_right 1 (N * κ x)]
    nlinarith [abs_nonneg (Q^[n] f x)]
  have h4 := l1_le_norm (Q^[n] f) (mc N) (c1 N)
  have h5 : ‖Q^[n] f‖ * ‖(memLp_of_bound (π := π) (mc N) (c1 N)).toLp (c N)‖ ≤ (‖f‖ + 1) * (ε / (2 * (‖f‖ + 1))) :=
    mul_le_mul ((hbd n).trans (by linarith)) hN'.le (norm_nonneg _) (by positivity)
  have h6 : (‖f‖ + 1) * (ε / (2 * (‖f‖ + 1))) = ε / 2 := by field_simp
  have h7 : N * (∫ x, |Q^[n] f x| * κ x ∂π) < ε / 2 := by
    have hp : (0 : ℝ) < N + 1 := by positivity
    have h8 : (N + 1) * (∫ x, |Q^[n] f x| * κ x ∂π) < (N + 1) * (ε / (2 * (N + 1))) := mul_lt_mul_of_pos_left hMn hp
    have h9 : ((N : ℝ) + 1) * (ε / (2 * (N + 1))) = ε / 2 := by field_simp
    have h10 : 0 ≤ ∫ x, |Q^[n] f x| * κ x ∂π := integral_nonneg fun x => mul_nonneg (abs_nonneg _) (κ0 x)
    linarith
  linarith

end

/-! ## Total variation -/

section
variable {X D : Type*} [MeasurableSpace X] [MeasurableSpace D] {δ : Measure D} [IsProbabilityMeasure δ] {step : X → D → X} {π : Measure X} [IsProbabilityMeasure π]

omit [IsProbabilityMeasure π] in
theorem inner_adj_iterate {J : Measure (X × X)} (h1 : MeasurePreserving Prod.fst J π) (h2 : MeasurePreserving Prod.snd J π) (n : ℕ) (u v : Lp ℝ 2 π) :
    ⟪(adj h1 h2)^[n] u, v⟫_ℝ = ⟪u, (op h1 h2)^[n] v⟫_ℝ := by
  induction n generalizing v with
  | zero => rfl
  | succ n ih => rw [Function.iterate_succ_apply', adj, ContinuousLinearMap.adjoint_inner_left, ← adj, ih, Function.iterate_succ_apply]

/-- From a start with a bounded density. -/
theorem tv_bounded_nr (hs : Measurable (Function.uncurry step)) (hinv : ∀ f : X → ℝ≥0∞, Measurable f → ∫⁻ x, ∫⁻ w, f (step x w) ∂δ ∂π = ∫⁻ x, f x ∂π)
    (hreach : ∀ᵐ x ∂π, π ≪ δ.map (step x)) {g : X → ℝ} (hg : Measurable g) {C : ℝ} (hC : ∀ x, |g x| ≤ C)
    {ε : ℝ} (hε : 0 < ε) : ∃ N, ∀ n ≥ N, ∀ A, MeasurableSet A → |(∫ x, g x * hit δ step A n x ∂π) - (∫ x, g x ∂π) * (π A).toReal| ≤ ε := by
  set h1 := fst_pres (π := π) (δ := δ) hs with hh1
  set h2 := snd_pres hs hinv with hh2
  set T := op h1 h2 with hT
  set m := ∫ x, g x ∂π with hm
  have hint : ∀ {h : X → ℝ}, Measurable h → ∀ {C : ℝ}, (∀ x, |h x| ≤ C) → Integrable h π := fun hg C hC => Integrable.of_bound hg.aestronglyMeasurable C (.of_forall hC)
  have hgm : Measurable fun x => g x - m := hg.sub_const m
  have hC' : ∀ x, |g x - m| ≤ C + |m| := fun x => (abs_sub _ _).trans (by linarith [hC x])
  set G := (memLp_of_bound (π := π) hgm hC').toLp (fun x => g x - m) with hG
  have hG0 : ∫ x, G x ∂π = 0 := by
    rw [integral_congr_ae (memLp_of_bound (π := π) hgm hC').coeFn_toLp, integral_sub (hint hg hC) (integrable_const m), integral_const]
    simp [hm]
  have hind1 : ∀ A : Set X, ∀ x, |A.indicator (1 : X → ℝ) x| ≤ 1 := fun A => abs_hit_le (δ := δ) (step := step) A 0
  have hindm : ∀ {A : Set X}, MeasurableSet A → Measurable (A.indicator (1 : X → ℝ)) := fun hA => measurable_one.indicator hA
  have hpow : ∀ {A : Set X} (hA : MeasurableSet A) (n : ℕ), T^[n] ((memLp_of_bound (π := π) (hindm hA) (hind1 A)).toLp _)
      = (memLp_of_bound (π := π) (measurable_hit (δ := δ) hs hA n) (abs_hit_le A n)).toLp (hit δ step A n) := by
    intro A hA n
    induction n with
    | zero => rfl
    | succ n ih =>
      rw [Function.iterate_succ_apply', ih, hT, op_toLp hs hinv (measurable_hit hs hA n) (abs_hit_le A n)]
      refine (MemLp.toLp_eq_toLp_iff _ _).mpr (.of_forall fun x => ?_)
      rw [hit_succ]
  have hmean : ∀ {A : Set X} (_ : MeasurableSet A) n, ∫ x, hit δ step A n x ∂π = (π A).toReal := by
    intro A hA n
    induction n with
    | zero => simp only [hit, Function.iterate_zero, _root_.id]; rw [integral_indicator_one hA]; rfl
    | succ n ih => rw [hit_succ, integral_next hs hinv (measurable_hit hs hA n) (abs_hit_le A n), ih]
  have e1 : ∀ {A : Set X} (hA : MeasurableSet A) (n : ℕ), (∫ x, g x * hit δ step A n x ∂π) - m * (π A).toReal = ⟪(adj h1 h2)^[n] G, (memLp_of_bound (π := π) (hindm hA) (hind1 A)).toLp _⟫_ℝ := by
    intro A hA n
    rw [inner_adj_iterate, hpow hA, L2.inner_def, ← hmean hA n, ← integral_const_mul, ← integral_sub]
    · refine integral_congr_ae ?_
      filter_upwards [(memLp_of_bound (π := π) hgm hC').coeFn_toLp, (memLp_of_bound (π := π) (measurable_hit (δ := δ) hs hA n) (abs_hit_le A n)).coeFn_toLp] with x a b
      rw [a, b]
      simp
      ring
    · exact (hint (measurable_hit hs hA n) (abs_hit_le A n)).bdd_mul (c := C) hg.aestronglyMeasurable (.of_forall hC)
    · exact (hint (measurable_hit hs hA n) (abs_hit_le A n)).const_mul m
  have e2 : ∀ {A : Set X} (hA : MeasurableSet A) (v : Lp ℝ 2 π), ⟪v, (memLp_of_bound (π := π) (hindm hA) (hind1 A)).toLp _⟫_ℝ = ∫ x, v x * A.indicator 1 x ∂π := by
    intro A hA v
    rw [L2.inner_def]
    refine integral_congr_ae ?_
    filter_upwards [(memLp_of_bound (π := π) (hindm hA) (hind1 A)).coeFn_toLp] with x hx
    rw [hx]; simp [mul_comm]
  have hit_univ : ∀ n, hit δ step Set.univ n = fun _ => 1 := fun n => by
    induction n with
    | zero => funext x; simp [hit]
    | succ n ih => rw [hit_succ, ih]; funext x; simp [next]
  have h0 : ∀ n, ∫ x, (adj h1 h2)^[n] G x ∂π = 0 := fun n => by
    have a1 := e1 MeasurableSet.univ n
    rw [e2 MeasurableSet.univ] at a1
    simp only [Set.indicator_univ, Pi.one_apply, mul_one] at a1
    rw [← a1, hit_univ]
    simp [hm]
  have hfin : IsFiniteMeasure (pairLaw δ step π) := by unfold pairLaw; infer_instance
  have hlim := adj_l1 (h1 := h1) (h2 := h2) (prod_ac_pairLaw hs hreach) h0
  obtain ⟨N, hN⟩ := (Metric.tendsto_atTop.mp hlim) ε hε
  refine ⟨N, fun n hn A hA => ?_⟩
  have h3 := hN n hn
  rw [Real.dist_eq, sub_zero, abs_of_nonneg (integral_nonneg fun x => abs_nonneg _)] at h3
  rw [e1 hA, e2 hA]
  refine (norm_integral_le_integral_norm (μ := π) fun x => (adj h1 h2)^[n] G x * A.indicator 1 x).trans (le_trans ?_ h3.le)
  refine integral_mono_of_nonneg (.of_forall fun x => norm_nonneg _) (integrable_Lp _).abs (.of_forall fun x => ?_)
  simp only
  rw [norm_mul, Real.norm_eq_abs, Real.norm_eq_abs]
  exact mul_le_of_le_one_right (abs_nonneg _) (hind1 A x)

/-- From a start with a density. -/
theorem tv_ac_nr (hs : Measurable (Function.uncurry step)) (hinv : ∀ f : X → ℝ≥0∞, Measurable f → ∫⁻ x, ∫⁻ w, f (step x w) ∂δ ∂π = ∫⁻ x, f x ∂π)
    (hreach : ∀ᵐ x ∂π, π ≪ δ.map (step x)) {ν : Measure X} [IsFiniteMeasure ν] (hν : ν ≪ π) {ε : ℝ} (hε : 0 < ε) :
    ∃ N, ∀ n ≥ N, ∀ A, MeasurableSet A → |(∫ x, hit δ step A n x ∂ν) - (ν Set.univ).toReal * (π A).toReal| ≤ ε :=
  tv_ac_of hs (fun _ hg _ hC _ hε => tv_bounded_nr hs hinv hreach hg hC hε) hν hε

/-! ### Two steps at a time -/

/-- Two steps. -/
def step2 (step : X → D → X) : X → D × D → X := fun x w => step (step x w.1) w.2

omit [IsProbabilityMeasure δ] [IsProbabilityMeasure π] in
theorem measurable_step2 (hs : Measurable (Function.uncurry step)) : Measurable (Function.uncurry (step2 step)) := by
  have h1 : Measurable fun z : X × D × D => step z.1 z.2.1 := hs.comp (measurable_fst.prodMk (measurable_fst.comp measurable_snd))
  exact hs.comp (h1.prodMk (measurable_snd.comp measurable_snd))

theorem hit_step2 (hs : Measurable (Function.uncurry step)) {A : Set X} (hA : MeasurableSet A) (n : ℕ) : hit δ step A (2 * n) = hit (δ.prod δ) (step2 step) A n := by
  induction n with
  | zero => rfl
  | succ n ih =>
    rw [show 2 * (n + 1) = 2 * n + 1 + 1 by ring, hit_succ, hit_succ, hit_succ, ih]
    funext x
    have mh := measurable_hit (δ := δ.prod δ) (measurable_step2 hs) hA n
    have m2 : Measurable fun w : D × D => hit (δ.prod δ) (step2 step) A n (step (step x w.1) w.2) := mh.comp ((measurable_step2 hs).comp measurable_prodMk_left)
    have i2 : Integrable (fun w : D × D => hit (δ.prod δ) (step2 step) A n (step (step x w.1) w.2)) (δ.prod δ) := Integrable.of_bound m2.aestronglyMeasurable 1 (.of_forall fun w => abs_hit_le A n _)
    exact (integral_prod _ i2).symm

theorem tv_ac2 (hs : Measurable (Function.uncurry step)) (hinv : ∀ f : X → ℝ≥0∞, Measurable f → ∫⁻ x, ∫⁻ w, f (step x w) ∂δ ∂π = ∫⁻ x, f x ∂π)
    (hreach : ∀ᵐ x ∂π, π ≪ (δ.prod δ).map (step2 step x)) {ν : Measure X} [IsFiniteMeasure ν] (hν : ν ≪ π) {ε : ℝ} (hε : 0 < ε) :
    ∃ N, ∀ n ≥ N, ∀ A, MeasurableSet A → |(∫ x, hit δ step A n x ∂ν) - (ν Set.univ).toReal * (π A).toReal| ≤ ε := by
  have hs2 := measurable_step2 hs
  have hinv2 : ∀ f : X → ℝ≥0∞, Measurable f → ∫⁻ x, ∫⁻ w, f (step2 step x w) ∂(δ.prod δ) ∂π = ∫⁻ x, f x ∂π := by
    intro f hf
    have e : ∀ x, ∫⁻ w, f (step2 step x w) ∂(δ.prod δ) = ∫⁻ w, (stepOp δ step f) (step x w) ∂δ := fun x => by
      have m2 : Measurable fun w : D × D => f (step2 step x w) := hf.comp (hs2.comp measurable_prodMk_left)
      rw [lintegral_prod _ m2.aemeasurable]
      rfl
    simp_rw [e]
    rw [hinv _ (measurable_stepOp hs hf)]
    exact hinv f hf
  set ν' := (ν.prod δ).map (Function.uncurry step) with hν'
  have hac : ν' ≪ π := by
    refine Measure.AbsolutelyContinuous.mk fun A hA h0 => ?_
    have mi : Measurable (A.indicator (1 : X → ℝ≥0∞)) := measurable_one.indicator hA
    have mc : Measurable fun z : X × D => A.indicator (1 : X → ℝ≥0∞) (Function.uncurry step z) := mi.comp hs
    have mi' : Measurable fun x => ∫⁻ w, A.indicator (1 : X → ℝ≥0∞) (step x w) ∂δ := Measurable.lintegral_prod_right' mc
    have h1 := hinv _ mi
    rw [lintegral_indicator_one hA, h0, lintegral_eq_zero_iff mi'] at h1
    rw [← lintegral_indicator_one hA, hν', lintegral_map mi hs, lintegral_prod _ mc.aemeasurable]
    exact (lintegral_eq_zero_iff mi').mpr (hν.ae_le h1)
  have hmass : ν' Set.univ = ν Set.univ := by
    rw [hν', Measure.map_apply hs .univ, Set.preimage_univ, ← Set.univ_prod_univ, Measure.prod_prod]
    simp
  obtain ⟨N1, hN1⟩ := tv_ac_nr hs2 hinv2 hreach hν hε
  obtain ⟨N2, hN2⟩ := tv_ac_nr hs2 hinv2 hreach hac hε
  refine ⟨2 * (N1 + N2) + 1, fun n hn A hA => ?_⟩
  rcases Nat.even_or_odd' n with ⟨j, rfl | rfl⟩
  · rw [hit_step2 hs hA]
    exact hN1 j (by omega) A hA
  · have h := hN2 j (by omega) A hA
    rw [hmass] at h
    have mh := measurable_hit (δ := δ.prod δ) hs2 hA j
    have mc : Measurable fun z : X × D => hit (δ.prod δ) (step2 step) A j (Function.uncurry step z) := mh.comp hs
    have ic : Integrable (fun z : X × D => hit (δ.prod δ) (step2 step) A j (Function.uncurry step z)) (ν.prod δ) := Integrable.of_bound mc.aestronglyMeasurable 1 (.of_forall fun w => abs_hit_le A j _)
    rw [hν', integral_map hs.aemeasurable mh.aestronglyMeasurable, integral_prod _ ic] at h
    rw [hit_succ, hit_step2 hs hA]
    exact h

/-! ### From a point -/

theorem hit_compl (hs : Measurable (Function.uncurry step)) {A : Set X} (hA : MeasurableSet A) (n : ℕ) (x : X) : hit δ step Aᶜ n x = 1 - hit δ step A n x := by
  induction n generalizing x with
  | zero =>
    simp only [hit, Function.iterate_zero, _root_.id]
    by_cases h : x ∈ A <;> simp [h]
  | succ n ih =>
    rw [hit_succ, hit_succ]
    simp only [next, ih]
    rw [integral_sub (integrable_const _) (integrable_step hs (measurable_hit hs hA n) (abs_hit_le A n) x)]
    simp

theorem tv_regular (hs : Measurable (Function.uncurry step))
    (hac : ∀ (ν : Measure X) [IsFiniteMeasure ν], ν ≪ π → ∀ ε : ℝ, 0 < ε → ∃ N, ∀ n ≥ N, ∀ A, MeasurableSet A → |(∫ x, hit δ step A n x ∂ν) - (ν Set.univ).toReal * (π A).toReal| ≤ ε)
    {x0 : X} (hreg : Regular δ step π x0) {ε : ℝ} (hε : 0 < ε) : ∃ N, ∀ n ≥ N, ∀ A, MeasurableSet A → |hit δ step A n x0 - (π A).toReal| ≤ ε := by
  obtain ⟨m, ν, hν, hν1, hle⟩ := hreg.split hs (ENNReal.ofReal_pos.mpr (half_pos hε))
  have hfin : IsFiniteMeasure ν := ⟨hν1.trans_lt ENNReal.one_lt_top⟩
  obtain ⟨N, hN⟩ := hac ν hν (ε / 2) (half_pos hε)
  have hν1' : (ν Set.univ).toReal ≤ 1 := ENNReal.toReal_le_of_le_ofReal zero_le_one (by rwa [ENNReal.ofReal_one])
  have key : ∀ n ≥ m + N, ∀ A, MeasurableSet A → hit δ step A n x0 - (π A).toReal ≤ ε := by
    intro n hn A hA
    obtain ⟨j, rfl⟩ : ∃ j, n = m + j := ⟨n - m, by omega⟩
    have mh := measurable_hit (δ := δ) hs hA j
    have h1 := hle (fun x => ENNReal.ofReal (hit δ step A j x)) (ENNReal.measurable_ofReal.comp mh) (fun x => by
      rw [← ENNReal.ofReal_one]; exact ENNReal.ofReal_le_ofReal ((le_abs_self _).trans (abs_hit_le A j x)))
    have e : (fun x => ENNReal.ofReal (hit δ step A j x)) = (stepOp δ step)^[j] (A.indicator 1) := funext fun x => ofReal_hit hs hA j x
    rw [← ofReal_integral_eq_lintegral_ofReal (Integrable.of_bound mh.aestronglyMeasurable 1 (.of_forall (abs_hit_le A j))) (.of_forall fun x => hit_nonneg A j x), e,
      ← Function.iterate_add_apply, ← ofReal_hit hs hA, ← ENNReal.ofReal_add (integral_nonneg fun x => hit_nonneg A j x) (half_pos hε).le,
      ENNReal.ofReal_le_ofReal_iff (add_nonneg (integral_nonneg fun x => hit_nonneg A j x) (half_pos hε).le)] at h1
    have h2 := (abs_le.mp (hN j (by omega) A hA)).2
    have h3 : (ν Set.univ).toReal * (π A).toReal ≤ (π A).toReal := mul_le_of_le_one_left ENNReal.toReal_nonneg hν1'
    linarith
  refine ⟨m + N, fun n hn A hA => abs_le.mpr ⟨?_, key n hn A hA⟩⟩
  have h := key n hn Aᶜ hA.compl
  rw [hit_compl hs hA, prob_compl_eq_one_sub hA, ENNReal.toReal_sub_of_le prob_le_one ENNReal.one_ne_top, ENNReal.toReal_one] at h
  linarith

end

end Mocat.Ergodic
