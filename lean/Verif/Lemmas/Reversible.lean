import Verif.Lemmas.MetropolisErgodic
import Mathlib.MeasureTheory.Measure.Decomposition.IntegralRNDeriv
/-! Convergence in total variation of reversible chains. -/
namespace Mocat.Ergodic
open Mocat Mocat.Ideal Mocat.Meas MeasureTheory ProbabilityTheory Filter Topology
open scoped ENNReal InnerProductSpace

/-! ## Even powers of a symmetric contraction -/

section
variable {H : Type*} [NormedAddCommGroup H] [InnerProductSpace ℝ H] [CompleteSpace H] {T : H →L[ℝ] H}

omit [CompleteSpace H] in
theorem inner_iterate (hsym : ∀ u v, ⟪T u, v⟫_ℝ = ⟪u, T v⟫_ℝ) (n m : ℕ) (u v : H) : ⟪T^[n + m] u, v⟫_ℝ = ⟪T^[n] u, T^[m] v⟫_ℝ := by
  induction m generalizing v with
  | zero => rfl
  | succ m ih => rw [← Nat.add_assoc, Function.iterate_succ_apply', hsym, ih, Function.iterate_succ_apply]

theorem even_powers (hsym : ∀ u v, ⟪T u, v⟫_ℝ = ⟪u, T v⟫_ℝ) (hT : ‖T‖ ≤ 1) (u : H) : ∃ g, T (T g) = g ∧ Tendsto (fun n => T^[2 * n] u) atTop (𝓝 g) := by
  have hle : ∀ v, ‖T v‖ ≤ ‖v‖ := fun v => (T.le_opNorm v).trans (mul_le_of_le_one_left (norm_nonneg _) hT)
  set a : ℕ → ℝ := fun n => ‖T^[n] u‖ ^ 2 with ha
  have hanti : Antitone a := antitone_nat_of_succ_le fun n => by
    simp only [ha]
    rw [Function.iterate_succ_apply']
    exact pow_le_pow_left₀ (norm_nonneg _) (hle _) 2
  obtain ⟨l, hl⟩ : ∃ l, Tendsto a atTop (𝓝 l) := ⟨_, tendsto_atTop_ciInf hanti ⟨0, by rintro _ ⟨n, rfl⟩; positivity⟩⟩
  have hinner : ∀ n m, ⟪T^[2 * n] u, T^[2 * m] u⟫_ℝ = a (n + m) := fun n m => by
    rw [ha, ← inner_iterate hsym, show 2 * n + 2 * m = (n + m) + (n + m) by ring, inner_iterate hsym, real_inner_self_eq_norm_sq]
  have hdist : ∀ n m, ‖T^[2 * n] u - T^[2 * m] u‖ ^ 2 = a (2 * n) + a (2 * m) - 2 * a (n + m) := fun n m => by
    rw [norm_sub_sq_real, hinner]; ring
  have hc : CauchySeq fun n => T^[2 * n] u := by
    rw [Metric.cauchySeq_iff]
    intro ε hε
    obtain ⟨N, hN⟩ := (Metric.tendsto_atTop.mp hl) (ε ^ 2 / 4) (by positivity)
    refine ⟨N, fun m hm n hn => ?_⟩
    rw [dist_eq_norm]
    refine lt_of_pow_lt_pow_left₀ 2 hε.le ?_
    rw [hdist]
    have h1 := hN (2 * m) (by omega)
    have h2 := hN (2 * n) (by omega)
    have h3 := hN (m + n) (by omega)
    rw [Real.dist_eq, abs_lt] at h1 h2 h3
    linarith [h1.1, h1.2, h2.1, h2.2, h3.1, h3.2]
  obtain ⟨g, hg⟩ := cauchySeq_tendsto_of_complete hc
  refine ⟨g, ?_, hg⟩
  have h1 : Tendsto (fun n => T (T (T^[2 * n] u))) atTop (𝓝 (T (T g))) := ((T.continuous.comp T.continuous).tendsto g).comp hg
  have h2 : Tendsto (fun n => T^[2 * (n + 1)] u) atTop (𝓝 g) := hg.comp (tendsto_add_atTop_nat 1)
  refine tendsto_nhds_unique h1 (h2.congr fun n => ?_)
  rw [show 2 * (n + 1) = 2 * n + 1 + 1 by ring, Function.iterate_succ_apply', Function.iterate_succ_apply']

end

/-! ## The transition operator -/

section
variable {X : Type*} [MeasurableSpace X] {J : Measure (X × X)} {π : Measure X} (h1 : MeasurePreserving Prod.fst J π) (h2 : MeasurePreserving Prod.snd J π)

theorem op_symm (hJ : J.map Prod.swap = J) (u v : Lp ℝ 2 π) : ⟪op h1 h2 u, v⟫_ℝ = ⟪u, op h1 h2 v⟫_ℝ := by
  rw [real_inner_comm, inner_op, inner_op, L2.inner_def, L2.inner_def]
  have hsw : MeasurePreserving Prod.swap J J := ⟨measurable_swap, hJ⟩
  have e : ∀ p q : Lp ℝ 2 π, (fun z => ⟪(Lp.compMeasurePreserving Prod.fst h1 p) z, (Lp.compMeasurePreserving Prod.snd h2 q) z⟫_ℝ) =ᵐ[J] fun z => p z.1 * q z.2 := by
    intro p q
    filter_upwards [Lp.coeFn_compMeasurePreserving p h1, Lp.coeFn_compMeasurePreserving q h2] with z a b
    rw [a, b]; simp [mul_comm]
  rw [integral_congr_ae (e v u), integral_congr_ae (e u v), ← hsw.integral_comp MeasurableEquiv.prodComm.measurableEmbedding]
  simp [mul_comm]

theorem op_flip [IsProbabilityMeasure π] (hac : π.prod π ≪ J) {v : Lp ℝ 2 π} (hv : op h1 h2 v = -v) : v = 0 := by
  have e := inner_op h1 h2 v v
  rw [hv, inner_neg_right, real_inner_self_eq_norm_sq] at e
  have e0 : Lp.compMeasurePreserving Prod.fst h1 v + Lp.compMeasurePreserving Prod.snd h2 v = 0 := by
    rw [← norm_eq_zero, ← sq_eq_zero_iff, norm_add_sq_real, ← e, Lp.norm_compMeasurePreserving, Lp.norm_compMeasurePreserving]
    ring
  have e1 := Lp.coeFn_compMeasurePreserving v h1
  have e2 := Lp.coeFn_compMeasurePreserving v h2
  have e4 := Lp.coeFn_add (Lp.compMeasurePreserving Prod.fst h1 v) (Lp.compMeasurePreserving Prod.snd h2 v)
  rw [e0] at e4
  have e3 : ∀ᵐ z ∂(π.prod π), v z.1 + v z.2 = 0 := hac.ae_le (by
    filter_upwards [e1, e2, e4, Lp.coeFn_zero ℝ 2 J] with z a b c d
    have : v z.1 = (Lp.compMeasurePreserving Prod.fst h1 v : X × X → ℝ) z := a.symm
    have h' : v z.2 = (Lp.compMeasurePreserving Prod.snd h2 v : X × X → ℝ) z := b.symm
    rw [this, h']
    rw [d] at c
    exact c.symm)
  have e5 := Measure.ae_ae_of_ae_prod e3
  obtain ⟨x, hx⟩ := e5.exists
  have hconst : ∀ᵐ y ∂π, v y = -v x := by filter_upwards [hx] with y hy; linarith
  obtain ⟨y, hy1, hy2⟩ := (e5.and hconst).exists
  obtain ⟨w, hw1, hw2⟩ := (hy1.and hconst).exists
  have hz : v x = 0 := by linarith
  refine (Lp.eq_zero_iff_ae_eq_zero (f := v)).mpr ?_
  filter_upwards [hconst] with y hy
  simp [hy, hz]

/-- Powers of the operator of a reversible chain. -/
theorem powers_tendsto [IsProbabilityMeasure π] (hac : π.prod π ≪ J) (hJ : J.map Prod.swap = J) {h : Lp ℝ 2 π} (h0 : ∫ x, h x ∂π = 0) :
    Tendsto (fun n => (op h1 h2)^[n] h) atTop (𝓝 0) := by
  set T := op h1 h2 with hT
  have hsym := op_symm h1 h2 hJ
  obtain ⟨g, hg, hlim⟩ := even_powers hsym (norm_op_le h1 h2) h
  have hv : T (g - T g) = -(g - T g) := by rw [map_sub, hg]; abel
  have hfix : T g = g := by
    have := op_flip h1 h2 hac hv
    exact (sub_eq_zero.mp this).symm
  obtain ⟨c, hc⟩ := op_fixed_const h1 h2 hac hfix
  -- the mean is kept
  have hgp : ⟪g, h⟫_ℝ = 0 := by
    rw [L2.inner_def]
    have : (fun a => ⟪g a, h a⟫_ℝ) =ᵐ[π] fun a => c * h a := by
      filter_upwards [hc] with a ha
      rw [ha]; simp [mul_comm]
    rw [integral_congr_ae this, integral_const_mul, h0, mul_zero]
  have hgi : ∀ n, ⟪g, T^[n] h⟫_ℝ = 0 := by
    intro n
    induction n with
    | zero => exact hgp
    | succ n ih => rw [Function.iterate_succ_apply', ← hsym, hfix, ih]
  have hg0 : g = 0 := by
    have h3 : Tendsto (fun n => ⟪g, T^[2 * n] h⟫_ℝ) atTop (𝓝 ⟪g, g⟫_ℝ) := tendsto_const_nhds.inner hlim
    simp only [hgi] at h3
    exact inner_self_eq_zero.mp (tendsto_nhds_unique h3 tendsto_const_nhds)
  rw [hg0] at hlim
  have hle : ∀ v, ‖T v‖ ≤ ‖v‖ := fun v => (T.le_opNorm v).trans (mul_le_of_le_one_left (norm_nonneg _) (norm_op_le h1 h2))
  have hanti : Antitone fun n => ‖T^[n] h‖ := antitone_nat_of_succ_le fun n => by
    rw [Function.iterate_succ_apply']; exact hle _
  rw [tendsto_zero_iff_norm_tendsto_zero] at hlim ⊢
  rw [Metric.tendsto_atTop] at hlim ⊢
  intro ε hε
  obtain ⟨N, hN⟩ := hlim ε hε
  refine ⟨2 * N, fun n hn => lt_of_le_of_lt ?_ (hN N le_rfl)⟩
  simp only [dist_zero_right, norm_norm]
  exact hanti hn

end

/-! ## Total variation -/

section
variable {X D : Type*} [MeasurableSpace X] [MeasurableSpace D] {δ : Measure D} [IsProbabilityMeasure δ] {step : X → D → X} {π : Measure X} [IsProbabilityMeasure π]

/-- Probability of `A` after `n` steps from `x`. -/
noncomputable def hit (δ : Measure D) (step : X → D → X) (A : Set X) (n : ℕ) : X → ℝ := (next δ step)^[n] (A.indicator 1)

omit [MeasurableSpace X] [IsProbabilityMeasure δ] in
theorem hit_succ (A : Set X) (n : ℕ) : hit δ step A (n + 1) = next δ step (hit δ step A n) := by unfold hit; rw [Function.iterate_succ_apply']

theorem measurable_hit (hs : Measurable (Function.uncurry step)) {A : Set X} (hA : MeasurableSet A) (n : ℕ) : Measurable (hit δ step A n) := by
  induction n with
  | zero => exact measurable_one.indicator hA
  | succ n ih => rw [hit_succ]; exact measurable_next hs ih

omit [MeasurableSpace X] in
theorem abs_hit_le (A : Set X) (n : ℕ) (x : X) : |hit δ step A n x| ≤ 1 := by
  induction n generalizing x with
  | zero =>
    simp only [hit, Function.iterate_zero, _root_.id]
    by_cases h : x ∈ A
    · rw [Set.indicator_of_mem h]; simp
    · rw [Set.indicator_of_notMem h]; simp
  | succ n ih => rw [hit_succ]; exact abs_next_le ih x

omit [MeasurableSpace X] [IsProbabilityMeasure δ] in
theorem hit_nonneg (A : Set X) (n : ℕ) (x : X) : 0 ≤ hit δ step A n x := by
  induction n generalizing x with
  | zero => exact Set.indicator_nonneg (fun _ _ => zero_le_one) x
  | succ n ih => rw [hit_succ]; exact integral_nonneg fun z => ih _

theorem ofReal_hit (hs : Measurable (Function.uncurry step)) {A : Set X} (hA : MeasurableSet A) (n : ℕ) (x : X) :
    ENNReal.ofReal (hit δ step A n x) = (stepOp δ step)^[n] (A.indicator 1) x := by
  induction n generalizing x with
  | zero =>
    simp only [hit, Function.iterate_zero, _root_.id]
    by_cases h : x ∈ A
    · rw [Set.indicator_of_mem h, Set.indicator_of_mem h]; simp
    · rw [Set.indicator_of_notMem h, Set.indicator_of_notMem h]; simp
  | succ n ih =>
    rw [hit_succ, Function.iterate_succ_apply', next, ofReal_integral_eq_lintegral_ofReal (integrable_step hs (measurable_hit hs hA n) (abs_hit_le A n) x)
      (.of_forall fun z => hit_nonneg A n _)]
    simp_rw [ih]
    rfl

theorem prob_tapeIter {draw : Keys.Key → Tape → D} {nxt : Keys.Key → Keys.Key} (hd : Draws draw nxt δ) (hs : Measurable (Function.uncurry step)) {A : Set X} (hA : MeasurableSet A)
    (n : ℕ) (k : Keys.Key) (x : X) : (ideal {ω | tapeIter draw nxt step n k x ω ∈ A}).toReal = hit δ step A n x := by
  have h := lintegral_tapeIter hd hs n k x (measurable_one.indicator hA)
  rw [← ofReal_hit hs hA] at h
  have hm : MeasurableSet {ω | tapeIter draw nxt step n k x ω ∈ A} := ((measurable_tapeIter hd hs n k).comp measurable_prodMk_left) hA
  rw [← lintegral_indicator_one hm]
  have e : ∀ ω, {ω | tapeIter draw nxt step n k x ω ∈ A}.indicator (1 : Tape → ℝ≥0∞) ω = A.indicator 1 (tapeIter draw nxt step n k x ω) := fun ω => rfl
  simp_rw [e]
  rw [h, ENNReal.toReal_ofReal (hit_nonneg A n x)]

/-- Detailed balance. -/
def Reversible (δ : Measure D) (step : X → D → X) (π : Measure X) : Prop :=
  ∀ f g : X → ℝ≥0∞, Measurable f → Measurable g → ∫⁻ x, f x * ∫⁻ w, g (step x w) ∂δ ∂π = ∫⁻ x, g x * ∫⁻ w, f (step x w) ∂δ ∂π

omit [IsProbabilityMeasure π] in
theorem Reversible.invariant (hr : Reversible δ step π) (f : X → ℝ≥0∞) (hf : Measurable f) : ∫⁻ x, ∫⁻ w, f (step x w) ∂δ ∂π = ∫⁻ x, f x ∂π := by
  have := hr 1 f measurable_one hf
  simpa using this

theorem Reversible.swap (hr : Reversible δ step π) (hs : Measurable (Function.uncurry step)) : (pairLaw δ step π).map Prod.swap = pairLaw δ step π := by
  have hm : Measurable fun z : X × D => (z.1, step z.1 z.2) := measurable_fst.prodMk hs
  have hfin : IsFiniteMeasure (pairLaw δ step π) := by unfold pairLaw; infer_instance
  have key : ∀ A B : Set X, MeasurableSet A → MeasurableSet B → pairLaw δ step π (A ×ˢ B) = ∫⁻ x, A.indicator 1 x * ∫⁻ w, B.indicator 1 (step x w) ∂δ ∂π := by
    intro A B hA hB
    have mAB : Measurable ((A ×ˢ B).indicator (1 : X × X → ℝ≥0∞)) := measurable_one.indicator (hA.prod hB)
    have mc : Measurable fun z : X × D => (A ×ˢ B).indicator (1 : X × X → ℝ≥0∞) (z.1, step z.1 z.2) := mAB.comp hm
    rw [← lintegral_indicator_one (hA.prod hB), pairLaw, lintegral_map mAB hm, lintegral_prod _ mc.aemeasurable]
    refine lintegral_congr fun x => ?_
    by_cases hx : x ∈ A
    · rw [Set.indicator_of_mem hx]
      simp only [Pi.one_apply, one_mul]
      refine lintegral_congr fun w => ?_
      by_cases hw : step x w ∈ B <;> simp [hx, hw]
    · rw [Set.indicator_of_notMem hx, zero_mul]
      simp [hx]
  refine Measure.ext_prod fun {A B} hA hB => ?_
  rw [Measure.map_apply measurable_swap (hA.prod hB), Set.preimage_swap_prod, key B A hB hA, key A B hA hB]
  exact hr _ _ (measurable_one.indicator hB) (measurable_one.indicator hA)

/-- From a start with a bounded density. -/
theorem tv_bounded (hs : Measurable (Function.uncurry step)) (hr : Reversible δ step π) (hreach : ∀ᵐ x ∂π, π ≪ δ.map (step x)) {g : X → ℝ} (hg : Measurable g) {C : ℝ} (hC : ∀ x, |g x| ≤ C)
    {ε : ℝ} (hε : 0 < ε) : ∃ N, ∀ n ≥ N, ∀ A, MeasurableSet A → |(∫ x, g x * hit δ step A n x ∂π) - (∫ x, g x ∂π) * (π A).toReal| ≤ ε := by
  have hinv := hr.invariant
  set T := op (fst_pres (π := π) (δ := δ) hs) (snd_pres hs hinv) with hT
  have hsym := op_symm (fst_pres (π := π) (δ := δ) hs) (snd_pres hs hinv) (hr.swap hs)
  set m := ∫ x, g x ∂π with hm
  have hint : ∀ {h : X → ℝ}, Measurable h → ∀ {C : ℝ}, (∀ x, |h x| ≤ C) → Integrable h π := fun hg C hC => Integrable.of_bound hg.aestronglyMeasurable C (.of_forall hC)
  have hgm : Measurable fun x => g x - m := hg.sub_const m
  have hC' : ∀ x, |g x - m| ≤ C + |m| := fun x => (abs_sub _ _).trans (by linarith [hC x])
  set G := (memLp_of_bound (π := π) hgm hC').toLp (fun x => g x - m) with hG
  have hG0 : ∫ x, G x ∂π = 0 := by
    rw [integral_congr_ae (memLp_of_bound (π := π) hgm hC').coeFn_toLp, integral_sub (hint hg hC) (integrable_const m), integral_const]
    simp [hm]
  have hlim := powers_tendsto (fst_pres (π := π) (δ := δ) hs) (snd_pres hs hinv) (prod_ac_pairLaw hs hreach) (hr.swap hs) hG0
  rw [tendsto_zero_iff_norm_tendsto_zero, Metric.tendsto_atTop] at hlim
  obtain ⟨N, hN⟩ := hlim ε hε
  refine ⟨N, fun n hn A hA => ?_⟩
  have hA1 : ∀ x, |A.indicator (1 : X → ℝ) x| ≤ 1 := abs_hit_le (δ := δ) (step := step) A 0
  have hAm : Measurable (A.indicator (1 : X → ℝ)) := measurable_one.indicator hA
  have hpow : ∀ n, T^[n] ((memLp_of_bound (π := π) hAm hA1).toLp _) = (memLp_of_bound (π := π) (measurable_hit (δ := δ) hs hA n) (abs_hit_le A n)).toLp (hit δ step A n) := by
    intro n
    induction n with
    | zero => rfl
    | succ n ih =>
      rw [Function.iterate_succ_apply', ih, hT, op_toLp hs hinv (measurable_hit hs hA n) (abs_hit_le A n)]
      refine (MemLp.toLp_eq_toLp_iff _ _).mpr (.of_forall fun x => ?_)
      rw [hit_succ]
  have hmean : ∀ n, ∫ x, hit δ step A n x ∂π = (π A).toReal := by
    intro n
    induction n with
    | zero => simp only [hit, Function.iterate_zero, _root_.id]; rw [integral_indicator_one hA]; rfl
    | succ n ih => rw [hit_succ, integral_next hs hinv (measurable_hit hs hA n) (abs_hit_le A n), ih]
  have e1 : (∫ x, g x * hit δ step A n x ∂π) - m * (π A).toReal = ⟪T^[n] G, (memLp_of_bound (π := π) hAm hA1).toLp _⟫_ℝ := by
    have : ⟪T^[n] G, (memLp_of_bound (π := π) hAm hA1).toLp _⟫_ℝ = ⟪G, T^[n] ((memLp_of_bound (π := π) hAm hA1).toLp _)⟫_ℝ := by
      have := inner_iterate hsym 0 n G ((memLp_of_bound (π := π) hAm hA1).toLp _)
      rwa [zero_add] at this
    rw [this, hpow, L2.inner_def, ← hmean n, ← integral_const_mul, ← integral_sub]
    · refine integral_congr_ae ?_
      filter_upwards [(memLp_of_bound (π := π) hgm hC').coeFn_toLp, (memLp_of_bound (π := π) (measurable_hit (δ := δ) hs hA n) (abs_hit_le A n)).coeFn_toLp] with x a b
      rw [a, b]
      simp
      ring
    · exact (hint (measurable_hit hs hA n) (abs_hit_le A n)).bdd_mul (c := C) hg.aestronglyMeasurable (.of_forall hC)
    · exact (hint (measurable_hit hs hA n) (abs_hit_le A n)).const_mul m
  rw [e1]
  have hnorm : ‖(memLp_of_bound (π := π) hAm hA1).toLp (A.indicator (1 : X → ℝ))‖ ≤ 1 := by
    rw [Lp.norm_toLp]
    refine ENNReal.toReal_le_of_le_ofReal zero_le_one ?_
    refine (eLpNorm_le_of_ae_bound (C := 1) (.of_forall hA1)).trans ?_
    simp
  have h3 := hN n hn
  rw [dist_zero_right, norm_norm] at h3
  calc _ ≤ ‖T^[n] G‖ * ‖(memLp_of_bound (π := π) hAm hA1).toLp (A.indicator (1 : X → ℝ))‖ := abs_real_inner_le_norm _ _
    _ ≤ ε * 1 := mul_le_mul h3.le hnorm (norm_nonneg _) hε.le
    _ = ε := mul_one ε

/-- From a start with a density. -/
theorem tv_ac_of (hs : Measurable (Function.uncurry step)) (hb : ∀ (g : X → ℝ), Measurable g → ∀ C : ℝ, (∀ x, |g x| ≤ C) → ∀ ε : ℝ, 0 < ε →
      ∃ N, ∀ n ≥ N, ∀ A, MeasurableSet A → |(∫ x, g x * hit δ step A n x ∂π) - (∫ x, g x ∂π) * (π A).toReal| ≤ ε)
    {ν : Measure X} [IsFiniteMeasure ν] (hν : ν ≪ π) {ε : ℝ} (hε : 0 < ε) :
    ∃ N, ∀ n ≥ N, ∀ A, MeasurableSet A → |(∫ x, hit δ step A n x ∂ν) - (ν Set.univ).toReal * (π A).toReal| ≤ ε := by
  set g : X → ℝ := fun x => (ν.rnDeriv π x).toReal with hg
  have hgi : Integrable g π := Measure.integrable_toReal_rnDeriv
  obtain ⟨s, hs1, -⟩ := (memLp_one_iff_integrable.mpr hgi).exists_simpleFunc_eLpNorm_sub_lt ENNReal.one_ne_top (ε := ENNReal.ofReal (ε / 3)) (ENNReal.ofReal_pos.mpr (by positivity)).ne'
  obtain ⟨C, hC⟩ := s.exists_forall_norm_le
  have hsi : Integrable s π := Integrable.of_bound s.measurable.aestronglyMeasurable C (.of_forall hC)
  obtain ⟨N, hN⟩ := hb s s.measurable C hC (ε / 3) (show 0 < ε / 3 by positivity)
  have hdiff : ∫ x, |g x - s x| ∂π ≤ ε / 3 := by
    have h1 : Integrable (fun x => g x - s x) π := hgi.sub hsi
    have h2 := h1.norm
    rw [eLpNorm_one_eq_lintegral_enorm] at hs1
    have h3 : ENNReal.ofReal (∫ x, ‖g x - s x‖ ∂π) = ∫⁻ x, ‖g x - s x‖ₑ ∂π := ofReal_integral_norm_eq_lintegral_enorm h1
    have h4 : ENNReal.ofReal (∫ x, ‖g x - s x‖ ∂π) < ENNReal.ofReal (ε / 3) := by rw [h3]; exact hs1
    exact ((ENNReal.ofReal_lt_ofReal_iff (by positivity)).mp h4).le
  refine ⟨N, fun n hn A hA => ?_⟩
  have hmh := measurable_hit (δ := δ) hs hA n
  have hhi : ∀ {h : X → ℝ}, Integrable h π → Integrable (fun x => h x * hit δ step A n x) π := fun hi => by
    have := hi.bdd_mul (c := 1) hmh.aestronglyMeasurable (.of_forall (abs_hit_le A n))
    exact this.congr (.of_forall fun x => mul_comm _ _)
  have e1 : ∫ x, hit δ step A n x ∂ν = ∫ x, g x * hit δ step A n x ∂π := by
    rw [← integral_rnDeriv_smul hν]; rfl
  have e2 : (ν Set.univ).toReal = ∫ x, g x ∂π := by rw [hg, Measure.integral_toReal_rnDeriv hν]; rfl
  have e3 : |(∫ x, g x * hit δ step A n x ∂π) - ∫ x, s x * hit δ step A n x ∂π| ≤ ε / 3 := by
    rw [← integral_sub (hhi hgi) (hhi hsi)]
    refine (norm_integral_le_integral_norm (μ := π) (fun x => g x * hit δ step A n x - s x * hit δ step A n x)).trans (le_trans ?_ hdiff)
    refine integral_mono (((hhi hgi).sub (hhi hsi)).norm) (hgi.sub hsi).norm fun x => ?_
    simp only [Real.norm_eq_abs]
    rw [← sub_mul, abs_mul]
    exact mul_le_of_le_one_right (abs_nonneg _) (abs_hit_le A n x)
  have e4 : |(∫ x, g x ∂π) - ∫ x, s x ∂π| ≤ ε / 3 := by
    rw [← integral_sub hgi hsi]
    exact (norm_integral_le_integral_norm (μ := π) (fun x => g x - s x)).trans hdiff
  have hA1 : (π A).toReal ≤ 1 := ENNReal.toReal_le_of_le_ofReal zero_le_one (by rw [ENNReal.ofReal_one]; exact prob_le_one)
  have hA0 : 0 ≤ (π A).toReal := ENNReal.toReal_nonneg
  have e5 : |((∫ x, g x ∂π) - ∫ x, s x ∂π) * (π A).toReal| ≤ ε / 3 := by
    rw [abs_mul, abs_of_nonneg hA0]
    exact (mul_le_of_le_one_right (abs_nonneg _) hA1).trans e4
  have e6 := hN n hn A hA
  rw [e1, e2]
  have hsplit : (∫ x, g x * hit δ step A n x ∂π) - (∫ x, g x ∂π) * (π A).toReal = ((∫ x, g x * hit δ step A n x ∂π) - ∫ x, s x * hit δ step A n x ∂π)
      + ((∫ x, s x * hit δ step A n x ∂π) - (∫ x, s x ∂π) * (π A).toReal) - ((∫ x, g x ∂π) - ∫ x, s x ∂π) * (π A).toReal := by ring
  rw [hsplit]
  refine (abs_sub _ _).trans ?_
  have := abs_add_le ((∫ x, g x * hit δ step A n x ∂π) - ∫ x, s x * hit δ step A n x ∂π) ((∫ x, s x * hit δ step A n x ∂π) - (∫ x, s x ∂π) * (π A).toReal)
  linarith

theorem tv_ac (hs : Measurable (Function.uncurry step)) (hr : Reversible δ step π) (hreach : ∀ᵐ x ∂π, π ≪ δ.map (step x)) {ν : Measure X} [IsFiniteMeasure ν] (hν : ν ≪ π) {ε : ℝ} (hε : 0 < ε) :
    ∃ N, ∀ n ≥ N, ∀ A, MeasurableSet A → |(∫ x, hit δ step A n x ∂ν) - (ν Set.univ).toReal * (π A).toReal| ≤ ε :=
  tv_ac_of hs (fun _ hg _ hC _ hε => tv_bounded hs hr hreach hg hC hε) hν hε

/-- From any point that is left, with a density, with positive probability. -/
theorem tv_start (hs : Measurable (Function.uncurry step)) (hr : Reversible δ step π) (hreach : ∀ᵐ x ∂π, π ≪ δ.map (step x)) {ν : Measure X} [IsFiniteMeasure ν] (hν : ν ≪ π)
    {x0 : X} {r : ℝ≥0∞} (hr1 : r < 1) (hmap : δ.map (step x0) = r • Measure.dirac x0 + ν) {ε : ℝ} (hε : 0 < ε) :
    ∃ N, ∀ n ≥ N, ∀ A, MeasurableSet A → |hit δ step A n x0 - (π A).toReal| ≤ ε := by
  have hrT : r ≠ ∞ := (hr1.trans ENNReal.one_lt_top).ne
  set ρ := r.toReal with hρ
  have hρ0 : 0 ≤ ρ := ENNReal.toReal_nonneg
  have hρ1 : ρ < 1 := by rw [hρ, ← ENNReal.toReal_one]; exact (ENNReal.toReal_lt_toReal hrT ENNReal.one_ne_top).mpr hr1
  have hx : Measurable (step x0) := hs.comp measurable_prodMk_left
  have hmass : ρ + (ν Set.univ).toReal = 1 := by
    have h1 : δ.map (step x0) Set.univ = 1 := by rw [Measure.map_apply hx .univ]; simp
    rw [hmap] at h1
    simp only [Measure.add_apply, Measure.smul_apply, measure_univ, smul_eq_mul, mul_one] at h1
    rw [hρ, ← ENNReal.toReal_add hrT (measure_ne_top ν _), h1, ENNReal.toReal_one]
  have hrec : ∀ A, MeasurableSet A → ∀ n, hit δ step A (n + 1) x0 = ρ * hit δ step A n x0 + ∫ x, hit δ step A n x ∂ν := by
    intro A hA n
    have mh := measurable_hit (δ := δ) hs hA n
    have hi : ∀ (μ : Measure X) [IsFiniteMeasure μ], Integrable (hit δ step A n) μ := fun μ _ => Integrable.of_bound mh.aestronglyMeasurable 1 (.of_forall (abs_hit_le A n))
    rw [hit_succ, next, ← integral_map hx.aemeasurable mh.aestronglyMeasurable, hmap, integral_add_measure ((hi (Measure.dirac x0)).smul_measure hrT) (hi ν), integral_smul_measure,
      integral_dirac' _ _ mh.stronglyMeasurable]
    rfl
  obtain ⟨N, hN⟩ := tv_ac hs hr hreach hν (show 0 < (1 - ρ) * (ε / 2) from mul_pos (by linarith) (by positivity))
  have hind : ∀ j A, MeasurableSet A → |hit δ step A (N + j) x0 - (π A).toReal| ≤ ρ ^ j * 1 + ε / 2 := by
    intro j
    induction j with
    | zero =>
      intro A hA
      have h1 := hit_nonneg (δ := δ) (step := step) A N x0
      have h2 := (abs_le.mp (abs_hit_le (δ := δ) (step := step) A N x0)).2
      have hA1 : (π A).toReal ≤ 1 := ENNReal.toReal_le_of_le_ofReal zero_le_one (by rw [ENNReal.ofReal_one]; exact prob_le_one)
      have hA0 : 0 ≤ (π A).toReal := ENNReal.toReal_nonneg
      rw [Nat.add_zero, pow_zero, abs_le]
      constructor <;> linarith
    | succ j ih =>
      intro A hA
      have h1 := ih A hA
      have h2 := hN (N + j) (by omega) A hA
      rw [← Nat.add_assoc, hrec A hA]
      have e : ρ * hit δ step A (N + j) x0 + (∫ x, hit δ step A (N + j) x ∂ν) - (π A).toReal
          = ρ * (hit δ step A (N + j) x0 - (π A).toReal) + ((∫ x, hit δ step A (N + j) x ∂ν) - (ν Set.univ).toReal * (π A).toReal) := by
        have : (ν Set.univ).toReal = 1 - ρ := by linarith
        rw [this]; ring
      rw [e]
      refine (abs_add_le _ _).trans ?_
      rw [abs_mul, abs_of_nonneg hρ0, pow_succ]
      have h3 := mul_le_mul_of_nonneg_left h1 hρ0
      nlinarith
  obtain ⟨j, hj⟩ := exists_pow_lt_of_lt_one (show 0 < ε / 2 by positivity) hρ1
  refine ⟨N + j, fun n hn A hA => ?_⟩
  obtain ⟨i, rfl⟩ : ∃ i, n = N + (j + i) := ⟨n - N - j, by omega⟩
  have h1 := hind (j + i) A hA
  have h2 : ρ ^ (j + i) ≤ ρ ^ j := pow_le_pow_of_le_one hρ0 hρ1.le (by omega)
  linarith

end

/-! ## Uniqueness -/

section
variable {X D : Type*} [MeasurableSpace X] [MeasurableSpace D] {δ : Measure D} [IsProbabilityMeasure δ] {step : X → D → X} {π : Measure X} [IsProbabilityMeasure π]

theorem unique_of_tv (hs : Measurable (Function.uncurry step)) (htv : ∀ x0, ∀ ε > 0, ∃ N, ∀ n ≥ N, ∀ A, MeasurableSet A → |hit δ step A n x0 - (π A).toReal| ≤ ε)
    {ν : Measure X} [IsProbabilityMeasure ν] (hν : ∀ A, MeasurableSet A → ∫⁻ x, ENNReal.ofReal (hit δ step A 1 x) ∂ν = ν A) : ν = π := by
  have hmap : (ν.prod δ).map (Function.uncurry step) = ν := by
    refine Measure.ext fun A hA => ?_
    have hi : Measurable (A.indicator (1 : X → ℝ≥0∞)) := measurable_one.indicator hA
    have hc : Measurable fun z : X × D => A.indicator (1 : X → ℝ≥0∞) (Function.uncurry step z) := hi.comp hs
    rw [← hν A hA, ← lintegral_indicator_one hA, lintegral_map hi hs, lintegral_prod _ hc.aemeasurable]
    refine lintegral_congr fun x => ?_
    rw [ofReal_hit hs hA]
    rfl
  have hinv : ∀ f : X → ℝ≥0∞, Measurable f → ∫⁻ x, ∫⁻ w, f (step x w) ∂δ ∂ν = ∫⁻ x, f x ∂ν := by
    intro f hf
    have hc : Measurable fun z : X × D => f (Function.uncurry step z) := hf.comp hs
    conv_rhs => rw [← hmap, lintegral_map hf hs, lintegral_prod _ hc.aemeasurable]
    rfl
  refine Measure.ext fun A hA => ?_
  have hmean : ∀ n, ∫ x, hit δ step A n x ∂ν = (ν A).toReal := by
    intro n
    induction n with
    | zero => simp only [hit, Function.iterate_zero, _root_.id]; rw [integral_indicator_one hA]; rfl
    | succ n ih => rw [hit_succ, integral_next hs hinv (measurable_hit hs hA n) (abs_hit_le A n), ih]
  have hlim : Tendsto (fun n => ∫ x, hit δ step A n x ∂ν) atTop (𝓝 (∫ _, (π A).toReal ∂ν)) := by
    refine tendsto_integral_of_dominated_convergence (fun _ => 1) (fun n => (measurable_hit hs hA n).aestronglyMeasurable) (integrable_const 1)
      (fun n => .of_forall fun x => abs_hit_le A n x) (.of_forall fun x => ?_)
    rw [Metric.tendsto_atTop]
    intro ε hε
    obtain ⟨N, hN⟩ := htv x (ε / 2) (by positivity)
    exact ⟨N, fun n hn => by rw [Real.dist_eq]; exact lt_of_le_of_lt (hN n hn A hA) (by linarith)⟩
  simp only [hmean, integral_const, probReal_univ, one_smul] at hlim
  have := tendsto_nhds_unique tendsto_const_nhds hlim
  exact (ENNReal.toReal_eq_toReal_iff' (measure_ne_top ν A) (measure_ne_top π A)).mp this

end

/-! ## Metropolis -/

section
variable {X Z : Type*} [MeasurableSpace X] [MeasurableSpace Z] {γ : Measure Z} [IsProbabilityMeasure γ] {T : X → Z → X} {a : X → Z → ℝ}

/-- Detailed balance of the accepted moves is enough. -/
theorem metro_reversible {μ : Measure X} (hT : Measurable (Function.uncurry T)) (ha : Measurable (Function.uncurry a)) (ha0 : ∀ x z, 0 ≤ a x z) (ha1 : ∀ x z, a x z ≤ 1)
    (hflow : ∀ f g : X → ℝ≥0∞, Measurable f → Measurable g → ∫⁻ x, f x * ∫⁻ z, ENNReal.ofReal (a x z) * g (T x z) ∂γ ∂μ = ∫⁻ x, g x * ∫⁻ z, ENNReal.ofReal (a x z) * f (T x z) ∂γ ∂μ) :
    Reversible (γ.prod unif) (metro T a) μ := by
  have key : ∀ (g : X → ℝ≥0∞), Measurable g → ∀ x, ∫⁻ w, g (metro T a x w) ∂(γ.prod unif) = (∫⁻ z, ENNReal.ofReal (1 - a x z) ∂γ) * g x + ∫⁻ z, ENNReal.ofReal (a x z) * g (T x z) ∂γ := by
    intro g hg x
    have mT : Measurable (T x) := hT.comp measurable_prodMk_left
    have mA : Measurable fun z => ENNReal.ofReal (a x z) := ENNReal.measurable_ofReal.comp (ha.comp measurable_prodMk_left)
    have mm : Measurable (metro T a x) := (measurable_metro hT ha).comp measurable_prodMk_left
    have mg : Measurable fun z => g (T x z) := hg.comp mT
    rw [← lintegral_map hg mm, metro_map hT ha ha0 ha1 x, lintegral_add_measure, lintegral_smul_measure, lintegral_dirac' _ hg, accepted, lintegral_map hg mT,
      lintegral_withDensity_eq_lintegral_mul _ mA mg]
    rfl
  have mR : Measurable fun x => ∫⁻ z, ENNReal.ofReal (1 - a x z) ∂γ :=
    Measurable.lintegral_prod_right' (f := fun p : X × Z => ENNReal.ofReal (1 - a p.1 p.2)) (ENNReal.measurable_ofReal.comp (measurable_const.sub ha))
  have split : ∀ f g : X → ℝ≥0∞, Measurable f → Measurable g → ∫⁻ x, f x * ∫⁻ w, g (metro T a x w) ∂(γ.prod unif) ∂μ
      = ∫⁻ x, f x * ((∫⁻ z, ENNReal.ofReal (1 - a x z) ∂γ) * g x) ∂μ + ∫⁻ x, f x * ∫⁻ z, ENNReal.ofReal (a x z) * g (T x z) ∂γ ∂μ := by
    intro f g hf hg
    have m1 : Measurable fun x => f x * ((∫⁻ z, ENNReal.ofReal (1 - a x z) ∂γ) * g x) := hf.mul (mR.mul hg)
    rw [← lintegral_add_left m1]
    refine lintegral_congr fun x => ?_
    rw [key g hg, mul_add]
  intro f g hf hg
  rw [split f g hf hg, split g f hg hf, hflow f g hf hg]
  congr 1
  refine lintegral_congr fun x => ?_
  ring

theorem Reversible.smul {X D : Type*} [MeasurableSpace X] [MeasurableSpace D] {δ : Measure D} {step : X → D → X} {μ : Measure X} (h : Reversible δ step μ) (c : ℝ≥0∞) :
    Reversible δ step (c • μ) := by
  intro f g hf hg
  rw [lintegral_smul_measure, lintegral_smul_measure, h f g hf hg]

/-- Total variation along a Metropolis chain, from every start. -/
theorem metropolis_tv {draw : Keys.Key → Tape → Z × ℝ} {nxt : Keys.Key → Keys.Key} {π : Measure X} [IsProbabilityMeasure π]
    (hd : Draws draw nxt (γ.prod unif)) (hT : Measurable (Function.uncurry T)) (ha : Measurable (Function.uncurry a)) (ha0 : ∀ x z, 0 ≤ a x z) (ha1 : ∀ x z, a x z ≤ 1)
    (hrev : Reversible (γ.prod unif) (metro T a) π) (hac : ∀ x, accepted γ T a x ≪ π) (hca : ∀ x, π ≪ accepted γ T a x) (x0 : X) {ε : ℝ} (hε : 0 < ε) :
    ∃ N, ∀ n ≥ N, ∀ k A, MeasurableSet A → |(ideal {ω | tapeIter draw nxt (metro T a) n k x0 ω ∈ A}).toReal - (π A).toReal| ≤ ε := by
  have hfin : IsFiniteMeasure (accepted γ T a x0) := accepted_finite ha1 x0
  obtain ⟨N, hN⟩ := tv_start (measurable_metro hT ha) hrev (.of_forall fun x => by
    rw [metro_map hT ha ha0 ha1 x]
    exact (hca x).trans (Measure.absolutelyContinuous_of_le (Measure.le_add_left le_rfl))) (hac x0) (reject_lt_one hT ha ha0 ha1 (hca x0)) (metro_map hT ha ha0 ha1 x0) hε
  exact ⟨N, fun n hn k A hA => by rw [prob_tapeIter hd (measurable_metro hT ha) hA]; exact hN n hn A hA⟩

/-- The target is the only distribution that a Metropolis step keeps. -/
theorem metropolis_unique {draw : Keys.Key → Tape → Z × ℝ} {nxt : Keys.Key → Keys.Key} {π : Measure X} [IsProbabilityMeasure π]
    (hd : Draws draw nxt (γ.prod unif)) (hT : Measurable (Function.uncurry T)) (ha : Measurable (Function.uncurry a)) (ha0 : ∀ x z, 0 ≤ a x z) (ha1 : ∀ x z, a x z ≤ 1)
    (hrev : Reversible (γ.prod unif) (metro T a) π) (hac : ∀ x, accepted γ T a x ≪ π) (hca : ∀ x, π ≪ accepted γ T a x)
    {ν : Measure X} [IsProbabilityMeasure ν] (k : Keys.Key) (hν : ∀ A, MeasurableSet A → ∫⁻ x, ideal {ω | tapeIter draw nxt (metro T a) 1 k x ω ∈ A} ∂ν = ν A) : ν = π := by
  have hs := measurable_metro hT ha
  refine unique_of_tv (δ := γ.prod unif) hs (fun x0 ε hε => ?_) fun A hA => ?_
  · obtain ⟨N, hN⟩ := metropolis_tv hd hT ha ha0 ha1 hrev hac hca x0 hε
    exact ⟨N, fun n hn A hA => by rw [← prob_tapeIter hd hs hA n k x0]; exact hN n hn k A hA⟩
  · rw [← hν A hA]
    refine lintegral_congr fun x => ?_
    rw [← prob_tapeIter hd hs hA 1 k x, ENNReal.ofReal_toReal (measure_ne_top _ _)]

end

end Mocat.Ergodic
