import Verif.Props.PooledSmc
import Verif.Lemmas.SubtapeRuns
/-!
# C165: error bars across runs of tempered SMC with separate keys
-/
namespace Mocat.Props
open Mocat Mocat.Smc Mocat.Ideal Mocat.Meas MeasureTheory ProbabilityTheory
open scoped ENNReal

variable {n d : ℕ} {X ρ π : Type*} [NeZero n]

/-! ## Independent starts and separate keys -/

/-- Pairs of independent families on the two factors of a product are independent. -/
theorem iIndepFun_prod {E F Y Z : Type*} [MeasurableSpace E] [MeasurableSpace F] [MeasurableSpace Y] [MeasurableSpace Z] {μ : Measure E} {ν : Measure F} [IsProbabilityMeasure μ] [IsProbabilityMeasure ν]
    {A : ℕ → E → Y} {B : ℕ → F → Z} (hA : ∀ r, Measurable (A r)) (hB : ∀ r, Measurable (B r)) (hAi : iIndepFun A μ) (hBi : iIndepFun B ν) :
    iIndepFun (fun r (z : E × F) => (A r z.1, B r z.2)) (μ.prod ν) := by
  set C : ℕ → Set (Set (E × F)) := fun r => {s | ∃ a b, MeasurableSet a ∧ MeasurableSet b ∧ s = (A r ⁻¹' a) ×ˢ (B r ⁻¹' b)} with hC
  have hgen : ∀ r, MeasurableSpace.comap (fun z : E × F => (A r z.1, B r z.2)) inferInstance = MeasurableSpace.generateFrom (C r) := fun r => by
    rw [← generateFrom_prod, MeasurableSpace.comap_generateFrom]
    congr 1
    ext s
    simp only [Set.mem_image, Set.mem_image2, hC, Set.mem_ofPred_eq]
    constructor
    · rintro ⟨_, ⟨a, ha, b, hb, rfl⟩, rfl⟩
      exact ⟨a, b, ha, hb, rfl⟩
    · rintro ⟨a, b, ha, hb, rfl⟩
      exact ⟨_, ⟨a, ha, b, hb, rfl⟩, rfl⟩
  refine iIndepSets.iIndep (fun r => (((hA r).comp measurable_fst).prodMk ((hB r).comp measurable_snd)).comap_le) C (fun r => ?_) hgen ?_
  · rintro _ ⟨a, b, ha, hb, rfl⟩ _ ⟨a', b', ha', hb', rfl⟩ _
    exact ⟨a ∩ a', b ∩ b', ha.inter ha', hb.inter hb', by rw [Set.prod_inter_prod]; rfl⟩
  · rw [iIndepSets_iff]
    intro S f hf
    choose! a b ha hb he using hf
    have e1 : (⋂ i ∈ S, f i) = (⋂ i ∈ S, A i ⁻¹' a i) ×ˢ (⋂ i ∈ S, B i ⁻¹' b i) := by
      ext z
      simp only [Set.mem_iInter, Set.mem_prod]
      constructor
      · intro h
        exact ⟨fun i hi => by have := h i hi; rw [he i hi] at this; exact this.1, fun i hi => by have := h i hi; rw [he i hi] at this; exact this.2⟩
      · rintro ⟨h1, h2⟩ i hi
        rw [he i hi]
        exact ⟨h1 i hi, h2 i hi⟩
    rw [e1, Measure.prod_prod, hAi.measure_inter_preimage_eq_mul S fun i hi => ha i hi, hBi.measure_inter_preimage_eq_mul S fun i hi => hb i hi, ← Finset.prod_mul_distrib]
    refine Finset.prod_congr rfl fun i hi => ?_
    rw [he i hi, Measure.prod_prod]

omit [NeZero n] in
theorem redIter_subtape {cat : (Fin n → ℝ) → ℝ → Fin n} (thr : ℝ) (lik : X → ℝ) (δ : ℕ → ℝ) {mv : ℕ → Keys.Key → X → Tape → X} {κ : Keys.Key} {ω : Tape} (hm : ∀ t k x, mv t (k ++ κ) x ω = mv t k x (subtape κ ω))
    (a : Keys.Key) (R : Red n X) (k : ℕ) : redIter cat thr lik δ mv (a ++ κ) R k ω = redIter cat thr lik δ mv a R k (subtape κ ω) := by
  induction k with
  | zero => rfl
  | succ k ih =>
    rw [redIter, redIter, ih]
    unfold smcStep redStep redValue
    have e : ∀ (i : Fin n) x, mv k ((i : ℕ) :: keyAt n (a ++ κ) k) x ω = mv k ((i : ℕ) :: keyAt n a k) x (subtape κ ω) := fun i x => by rw [keyAt_append]; exact hm k ((i : ℕ) :: keyAt n a k) x
    have e' : ∀ i : ℕ, ω (n :: keyAt n (a ++ κ) k, i) = subtape κ ω (n :: keyAt n a k, i) := fun i => by rw [keyAt_append]; rfl
    simp only [e, e']

section
variable [MeasurableSpace X] (μ0 : Measure X) [IsProbabilityMeasure μ0]

/-- A start of independent draws from `μ0` and an ideal generator: what one run sees. -/
noncomputable def oneRun (n : ℕ) : Measure ((Fin n → X) × Tape) := (Measure.pi fun _ : Fin n => μ0).prod ideal

omit [NeZero n] in
theorem ae_oneRun (κ : Keys.Key) {A : (Fin n → X) × Tape → Prop} (h : ∀ᵐ z ∂(oneRun μ0 n), A z) : ∀ᵐ z ∂(oneRun μ0 n), A (z.1, subtape κ z.2) := by
  have e : (oneRun μ0 n).map (Prod.map id (subtape κ)) = oneRun μ0 n := by
    unfold oneRun
    rw [← Measure.map_prod_map _ _ measurable_id (measurable_subtape κ), Measure.map_id, map_subtape]
  rw [← e] at h
  exact ae_of_ae_map (measurable_id.prodMap (measurable_subtape κ)).aemeasurable h

omit [NeZero n] in
theorem runs_independent (keys : ℕ → Keys.Key) (hk : ∀ a b, a ≠ b → Disjoint (below (keys a)) (below (keys b))) :
    iIndepFun (fun r (z : (ℕ → Fin n → X) × Tape) => (z.1 r, subtape (keys r) z.2)) (manyRuns n μ0) :=
  iIndepFun_prod (fun r => measurable_pi_apply r) (fun r => measurable_subtape (keys r)) (iIndepFun_infinitePi (P := fun _ : ℕ => Measure.pi fun _ : Fin n => μ0) (X := fun _ x => x) fun _ => measurable_id)
    (iIndepFun_of_dependsOn (S := fun r => below (keys r)) hk (fun r => measurable_subtape (keys r)) fun _ _ _ h => subtape_dependsOn _ h)

omit [NeZero n] in
theorem runs_law (κ : Keys.Key) (r : ℕ) : (manyRuns n μ0).map (fun z : (ℕ → Fin n → X) × Tape => (z.1 r, subtape κ z.2)) = oneRun μ0 n := by
  have h1 : (Measure.infinitePi fun _ : ℕ => Measure.pi fun _ : Fin n => μ0).map (fun x => x r) = Measure.pi fun _ : Fin n => μ0 := (measurePreserving_eval_infinitePi (fun _ : ℕ => Measure.pi fun _ : Fin n => μ0) r).map_eq
  unfold manyRuns oneRun
  conv_rhs => rw [← h1, ← map_subtape κ]
  rw [Measure.map_prod_map _ _ (measurable_pi_apply r) (measurable_subtape κ)]
  rfl

instance : IsProbabilityMeasure (oneRun μ0 n) := by unfold oneRun; infer_instance

end

/-! ## Any inner sampler -/

section
variable [MeasurableSpace X] {kern : Tape → Kernel Keys.Key π X ρ} {prior lik : X → ℝ} {p : Params} {par : π} {mv : ℝ → Keys.Key → X → Tape → X}
  {P : ℝ → (X → ℝ≥0∞) → X → ℝ≥0∞} (hI : InnerLaw kern prior lik p par mv P) (hmv : ∀ T k κ x ω, mv T (k ++ κ) x ω = mv T k x (subtape κ ω)) (c : Config) (alpha0 : ℝ) (rest0 : ρ)
include hI hmv

/-- The final particle system of a run. -/
theorem smc_run_red {cat : (Fin n → ℝ) → ℝ → Fin n} (hcat : IsCategoricalReal cat) (hlik : Measurable lik) (l : List ℝ) (hl : c.schedule = some l) (hpos : ∀ j, 0 < scheduleAt l j)
    (hmono : Monotone (scheduleAt l)) {w : ℝ} (hw : ∀ x, w ≤ lik x) (μ0 : Measure X) [IsProbabilityMeasure μ0] (hinv : ∀ T {h : X → ℝ≥0∞}, Measurable h →
      ∫⁻ x, ENNReal.ofReal (Real.exp (-(T * lik x))) * P T h x ∂μ0 = ∫⁻ x, ENNReal.ofReal (Real.exp (-(T * lik x))) * h x ∂μ0) (k : ℕ) :
    ∃ G : (Fin n → X) × Tape → Red n X, Measurable G ∧ (∀ z, Real.exp (G z).2.2 ≤ Real.exp (scheduleAt l k * |w|) ^ (k + 1)) ∧
      (∀ g : X → ℝ≥0∞, Measurable g → ∫⁻ z, Q g (G z) ∂(oneRun μ0 n) = ∫⁻ x, ENNReal.ofReal (Real.exp (-(scheduleAt l k * lik x))) * g x ∂μ0) ∧
      ∀ key x0 ω, redOf ((tapeSmc cat kern prior lik c p par alpha0 rest0 key x0 ω).state k).1 = G (x0, subtape key ω) := by
  have hne : ∀ j, scheduleAt l j ≠ 0 := fun j => (hpos j).ne'
  set W := Real.exp (scheduleAt l k * |w|) with hWdef
  have hbound : ∀ (t : ℝ) x, 0 ≤ t → t ≤ scheduleAt l k → Real.exp (-t * lik x) ≤ W := fun t x h0 h1 => by
    rw [hWdef, Real.exp_le_exp]
    have h2 : -lik x ≤ |w| := by have := hw x; have := neg_abs_le w; linarith
    have h3 := mul_le_mul_of_nonneg_left h2 h0
    have h4 := mul_le_mul_of_nonneg_right h1 (abs_nonneg w)
    linarith
  set G : Keys.Key → (Fin n → X) × Tape → Red n X := fun key z => redIter cat p.essThresholdResample lik (fun k => scheduleAt l (k + 1) - scheduleAt l k) (fun k => mv (scheduleAt l k)) (0 :: key)
        (startAt (fun x => -scheduleAt l 0 * lik x) z.1) k z.2 with hG
  have hred : ∀ key x0 ω, redOf ((tapeSmc cat kern prior lik c p par alpha0 rest0 key x0 ω).state k).1 = G key (x0, ω) := fun key x0 ω =>
    tapeSmc_iter hI cat c alpha0 rest0 key x0 ω l hl hne k
  have hGm : Measurable (G []) := by
    have h := (measurable_redIter_joint hcat p.essThresholdResample hlik (fun k => scheduleAt l (k + 1) - scheduleAt l k) (mv := fun k => mv (scheduleAt l k))
        (fun t κ => hI.measurable _ κ) (fun t κ x => hI.dependsOn _ κ x) (P := fun t => P (scheduleAt l t)) (fun t κ x _ hh => hI.law _ κ x hh)
        (fun t _ hh => hI.op _ hh) [0] k).comp ((((measurable_startAt (n := n) (g := fun x => -scheduleAt l 0 * lik x) (measurable_const.mul hlik)).comp measurable_fst).prodMk
          (measurable_snd (α := Fin n → X) (β := Tape))))
    exact h
  refine ⟨G [], hGm, fun z => ?_, fun g hg => ?_, fun key x0 ω => ?_⟩
  · have h := spread_redIter (cat := cat) (thr := p.essThresholdResample) (lik := lik) (δ := fun k => scheduleAt l (k + 1) - scheduleAt l k) (mv := fun k => mv (scheduleAt l k)) (κ := [0])
      (R := startAt (fun x => -scheduleAt l 0 * lik x) z.1) (Real.exp_pos _).le (Real.exp_pos _).le
      (spread_startAt (fun x => hbound _ x (hpos 0).le (hmono (Nat.zero_le k))) z.1) k
      (fun j hj x => hbound _ x (sub_nonneg.mpr (hmono (Nat.le_succ j))) (by have h1 := hmono (show j + 1 ≤ k from hj); have h2 := (hpos j).le; linarith)) z.2
    rw [← pow_succ'] at h
    exact exp_le_of_spread h
  · have hm : Measurable fun z => Q g (G [] z) := (measurable_Q hg).comp hGm
    rw [oneRun, lintegral_prod _ hm.aemeasurable, ← smc_unbiased hI c alpha0 rest0 [] hcat hlik l hl hne μ0 hinv (Measure.pi fun _ : Fin n => μ0) (pi_marginal μ0) k g hg]
    refine lintegral_congr fun x0 => lintegral_congr fun ω => ?_
    rw [smcEstimate_eq, hred [] x0 ω]
  · rw [hred]
    exact redIter_subtape _ _ _ (fun t k x => hmv _ k key x ω) [0] _ k

/-- Error bars, for any inner sampler that leaves the tempered laws invariant. -/
theorem honest_smc {cat : (Fin n → ℝ) → ℝ → Fin n} (hcat : IsCategoricalReal cat) (hlik : Measurable lik) (l : List ℝ) (hl : c.schedule = some l) (hpos : ∀ j, 0 < scheduleAt l j)
    (hmono : Monotone (scheduleAt l)) {w : ℝ} (hw : ∀ x, w ≤ lik x) (μ0 : Measure X) [IsProbabilityMeasure μ0] (hinv : ∀ T {h : X → ℝ≥0∞}, Measurable h →
      ∫⁻ x, ENNReal.ofReal (Real.exp (-(T * lik x))) * P T h x ∂μ0 = ∫⁻ x, ENNReal.ofReal (Real.exp (-(T * lik x))) * h x ∂μ0) (k : ℕ) {f : X → ℝ} (hf : Measurable f) {B : ℝ} (hB : ∀ x, |f x| ≤ B)
    (keys : ℕ → Keys.Key) (hk : ∀ a b, a ≠ b → Disjoint (below (keys a)) (below (keys b))) (key : Keys.Key) :
    ((¬∃ v : ℝ, ∀ᵐ z ∂(oneRun μ0 n), Real.exp (((tapeSmc cat kern prior lik c p par alpha0 rest0 key z.1 z.2).state k).1 0).logNorm = v) →
      HonestRuns (manyRuns n μ0) (∫ x, Real.exp (-(scheduleAt l k * lik x)) ∂μ0) (fun _ _ => 1) fun r z => Real.exp (((tapeSmc cat kern prior lik c p par alpha0 rest0 (keys r) (z.1 r) z.2).state k).1 0).logNorm) ∧
    ((¬∀ᵐ z ∂(oneRun μ0 n), smcMean f ((tapeSmc cat kern prior lik c p par alpha0 rest0 key z.1 z.2).state k).1 = temperedMean μ0 lik (scheduleAt l k) f) →
      HonestRuns (manyRuns n μ0) (temperedMean μ0 lik (scheduleAt l k) f) (fun r z => Real.exp (((tapeSmc cat kern prior lik c p par alpha0 rest0 (keys r) (z.1 r) z.2).state k).1 0).logNorm)
        fun r z => smcMean f ((tapeSmc cat kern prior lik c p par alpha0 rest0 (keys r) (z.1 r) z.2).state k).1) := by
  obtain ⟨G, hGm, hM, hmom, hred⟩ := smc_run_red hI hmv c alpha0 rest0 hcat hlik l hl hpos hmono hw μ0 hinv k
  obtain ⟨M, hMd⟩ : ∃ M, M = Real.exp (scheduleAt l k * |w|) ^ (k + 1) := ⟨_, rfl⟩
  rw [← hMd] at hM
  have hexpR : Measurable fun x => Real.exp (-(scheduleAt l k * lik x)) := Real.measurable_exp.comp (measurable_const.mul hlik).neg
  have hexp : Measurable fun x => ENNReal.ofReal (Real.exp (-(scheduleAt l k * lik x))) := ENNReal.measurable_ofReal.comp hexpR
  set Γ : Measure X := μ0.withDensity fun x => ENNReal.ofReal (Real.exp (-(scheduleAt l k * lik x))) with hΓ
  have hint : Integrable (fun x => Real.exp (-(scheduleAt l k * lik x))) μ0 :=
    Integrable.of_bound hexpR.aestronglyMeasurable (Real.exp (scheduleAt l k * |w|)) (Filter.Eventually.of_forall fun x => by
      rw [Real.norm_eq_abs, abs_of_pos (Real.exp_pos _), Real.exp_le_exp, ← mul_neg]
      exact mul_le_mul_of_nonneg_left (by have := hw x; have := neg_abs_le w; linarith) (hpos k).le)
  have hfinΓ : IsFiniteMeasure Γ := isFiniteMeasure_withDensity_ofReal hint.2
  have hmom' : ∀ {g : X → ℝ≥0∞}, Measurable g → ∫⁻ z, Q g (G z) ∂(oneRun μ0 n) = ∫⁻ x, g x ∂Γ := fun {g} hg => by
    rw [hmom g hg, hΓ, lintegral_withDensity_eq_lintegral_mul _ hexp hg]
    rfl
  have hΓf : ∀ g : X → ℝ, ∫ x, g x ∂Γ = ∫ x, Real.exp (-(scheduleAt l k * lik x)) * g x ∂μ0 := fun g => by
    rw [hΓ, integral_withDensity_eq_integral_toReal_smul hexp (Filter.Eventually.of_forall fun x => ENNReal.ofReal_lt_top)]
    refine integral_congr_ae (Filter.Eventually.of_forall fun x => ?_)
    simp only [smul_eq_mul, ENNReal.toReal_ofReal (Real.exp_pos _).le]
  have hone : ∀ z, Qr (fun _ => 1) (G z) = Real.exp (G z).2.2 := fun z => by
    unfold Qr
    rw [← Smc.share_sum (G z)]
    simp
  have hM1 : ∀ z, |Qr (fun _ : X => (1 : ℝ)) (G z)| ≤ M := fun z => by rw [hone, abs_of_pos (Real.exp_pos _)]; exact hM z
  have hEn : ∫ z, Qr f (G z) ∂(oneRun μ0 n) = ∫ x, Real.exp (-(scheduleAt l k * lik x)) * f x ∂μ0 := by
    rw [Qr_mean hGm hM1 hmom' hf (abs_nonneg B) fun x => (hB x).trans (le_abs_self B), hΓf]
  have hEl : ∫ z, Real.exp (G z).2.2 ∂(oneRun μ0 n) = ∫ x, Real.exp (-(scheduleAt l k * lik x)) ∂μ0 := by
    have h1 := Qr_mean hGm hM1 hmom' (g := fun _ => 1) measurable_const zero_le_one fun _ => by simp
    simp only [hone] at h1
    rw [h1, hΓf]
    simp
  have hlm : Measurable fun z => Real.exp (G z).2.2 := Real.measurable_exp.comp (measurable_snd.comp (measurable_snd.comp hGm))
  have hnm : Measurable fun z => Qr f (G z) := (Smc.measurable_Qr hf).comp hGm
  have hl2 : MemLp (fun z => Real.exp (G z).2.2) 2 (oneRun μ0 n) := MemLp.of_bound hlm.aestronglyMeasurable _ (ae_of_all _ fun z => by rw [Real.norm_eq_abs, abs_of_pos (Real.exp_pos _)]; exact hM z)
  have hn2 : MemLp (fun z => Qr f (G z)) 2 (oneRun μ0 n) := MemLp.of_bound hnm.aestronglyMeasurable (|B| * M) (ae_of_all _ fun z =>
    (Qr_abs_le (fun x => (hB x).trans (le_abs_self B)) _).trans (mul_le_mul_of_nonneg_left (hM z) (abs_nonneg B)))
  have hZ : 0 < ∫ z, Real.exp (G z).2.2 ∂(oneRun μ0 n) := by
    rw [integral_pos_iff_support_of_nonneg (fun z => (Real.exp_pos _).le) (hl2.integrable one_le_two)]
    have : Function.support (fun z => Real.exp (G z).2.2) = Set.univ := by
      ext z
      simp
    rw [this, measure_univ]
    exact one_pos
  have hnorm : ∀ key x0 ω, (((tapeSmc cat kern prior lik c p par alpha0 rest0 key x0 ω).state k).1 0).logNorm = (G (x0, subtape key ω)).2.2 := fun key x0 ω => by
    rw [← hred key x0 ω]
    rfl
  have hprod : ∀ key x0 ω, Real.exp (G (x0, subtape key ω)).2.2 * smcMean f ((tapeSmc cat kern prior lik c p par alpha0 rest0 key x0 ω).state k).1 = Qr f (G (x0, subtape key ω)) := fun key x0 ω => by
    have e : smcMean f ((tapeSmc cat kern prior lik c p par alpha0 rest0 key x0 ω).state k).1
        = (∑ i, Real.exp ((G (x0, subtape key ω)).2.1 i) * f ((G (x0, subtape key ω)).1 i)) / ∑ i, Real.exp ((G (x0, subtape key ω)).2.1 i) := by
      rw [← hred key x0 ω]
      rfl
    rw [e]
    unfold Qr share
    rw [Finset.sum_div, Finset.mul_sum]
    exact Finset.sum_congr rfl fun i _ => by ring
  have hTm : ∀ r, Measurable fun z : (ℕ → Fin n → X) × Tape => (z.1 r, subtape (keys r) z.2) := fun r => ((measurable_pi_apply r).comp measurable_fst).prodMk ((measurable_subtape _).comp measurable_snd)
  refine ⟨fun hne => ?_, fun hne => ?_⟩
  · rw [← hEl]
    refine honestRuns_of_copies (l := fun _ => 1) (n := fun z => Real.exp (G z).2.2) measurable_const hlm (memLp_const 1) hl2 hTm (runs_independent μ0 keys hk) (fun r => runs_law μ0 (keys r) r) (fun _ _ => rfl)
      (fun r z => by rw [one_mul, hnorm]) (fun _ h => absurd h one_ne_zero) (by simp) (by simp) fun h => hne ⟨∫ z, Real.exp (G z).2.2 ∂(oneRun μ0 n), ?_⟩
    filter_upwards [ae_oneRun μ0 key h] with z hz
    rw [hnorm]
    linarith
  · refine honestRuns_of_copies (l := fun z => Real.exp (G z).2.2) (n := fun z => Qr f (G z)) hlm hnm hl2 hn2 hTm (runs_independent μ0 keys hk) (fun r => runs_law μ0 (keys r) r) (fun r z => by rw [hnorm])
      (fun r z => by rw [hnorm, hprod]) (fun z h => absurd h (Real.exp_pos _).ne') hZ ?_ fun h => hne ?_
    · rw [temperedMean, hEn, hEl, div_mul_cancel₀]
      rw [← hEl]
      exact hZ.ne'
    · filter_upwards [ae_oneRun μ0 key h] with z hz
      rw [← hprod, mul_comm _ (Real.exp _), ← mul_sub] at hz
      have := (mul_eq_zero.1 hz).resolve_left (Real.exp_pos _).ne'
      linarith

end

/-! ## Properties -/

theorem rwMoves_subtape (q : ℝ → ℝ) (step : (Fin d → ℝ) → (Fin d → ℝ) × ℝ → Fin d → ℝ) (m : ℕ) (k κ : Keys.Key) (x : Fin d → ℝ) (ω : Tape) :
    tapeIter (rwDraws q d) Keys.rwNext step m (0 :: (k ++ κ)) x ω = tapeIter (rwDraws q d) Keys.rwNext step m (0 :: k) x (subtape κ ω) :=
  tapeIter_subtape (κ := κ) (fun _ => rfl) (fun _ => rfl) step m (0 :: k) x

theorem udMoves_subtape (q : ℝ → ℝ) (step : (Fin d → ℝ) → (Fin d → ℝ) × ℝ → Fin d → ℝ) (m : ℕ) (k κ : Keys.Key) (x : Fin d → ℝ) (ω : Tape) :
    tapeIter (udDrawsAt q d) Keys.udNext step m (0 :: (k ++ κ)) x ω = tapeIter (udDrawsAt q d) Keys.udNext step m (0 :: k) x (subtape κ ω) :=
  tapeIter_subtape (κ := κ) (fun _ => rfl) (fun _ => rfl) step m (0 :: k) x

section
variable {q : ℝ → ℝ} (hq : IsNormalDraw q) (l : List ℝ) (hpos : ∀ j, 0 < scheduleAt l j) (hmono : Monotone (scheduleAt l)) (μ0 : Measure (Fin d → ℝ)) [IsProbabilityMeasure μ0] (a : ℝ≥0∞) (k : ℕ)
  (f : (Fin d → ℝ) → ℝ) (hf : Measurable f) (B : ℝ) (hB : ∀ x, |f x| ≤ B) {cat : (Fin n → ℝ) → ℝ → Fin n} (hcat : IsCategoricalReal cat) (c : Config) (hl : c.schedule = some l) (p : Params)
  (keys : ℕ → Keys.Key) (hk : ∀ a b, a ≠ b → Disjoint (below (keys a)) (below (keys b))) (key : Keys.Key)
include hq hpos hmono hf hB hcat hl hk

/-- C165 for tempered SMC with the inner sampler `RandomWalk`, a prior that is a probability law, a likelihood potential that is bounded below and an increasing schedule of positive temperatures: over runs from independent draws of the
prior, plain averages of `exp (log_norm_constant)`, and weighted means of a bounded `f` pooled with these numbers as weights, have honest error bars after every number of updates, unless the number (the mean) of a run is a constant (is
exact). -/
theorem C165_smc_randomWalk {prior lik : (Fin d → ℝ) → ℝ} (hprior : Measurable prior) (hlik : Measurable lik) (w : ℝ) (hw : ∀ x, w ≤ lik x) (hμ : μ0 = a • volume.withDensity fun x => ENNReal.ofReal (Real.exp (-prior x)))
    (step alpha0 rest0 : ℝ) :
    ((¬∃ v : ℝ, ∀ᵐ z ∂(oneRun μ0 n), Real.exp (((tapeSmc cat (rwTape q prior lik) prior lik c p step alpha0 rest0 key z.1 z.2).state k).1 0).logNorm = v) →
      HonestRuns (manyRuns n μ0) (∫ x, Real.exp (-(scheduleAt l k * lik x)) ∂μ0) (fun _ _ => 1) fun r z => Real.exp (((tapeSmc cat (rwTape q prior lik) prior lik c p step alpha0 rest0 (keys r) (z.1 r) z.2).state k).1 0).logNorm) ∧
    ((¬∀ᵐ z ∂(oneRun μ0 n), smcMean f ((tapeSmc cat (rwTape q prior lik) prior lik c p step alpha0 rest0 key z.1 z.2).state k).1 = temperedMean μ0 lik (scheduleAt l k) f) →
      HonestRuns (manyRuns n μ0) (temperedMean μ0 lik (scheduleAt l k) f) (fun r z => Real.exp (((tapeSmc cat (rwTape q prior lik) prior lik c p step alpha0 rest0 (keys r) (z.1 r) z.2).state k).1 0).logNorm)
        fun r z => smcMean f ((tapeSmc cat (rwTape q prior lik) prior lik c p step alpha0 rest0 (keys r) (z.1 r) z.2).state k).1) :=
  honest_smc (rwTape_inner q prior lik p step hq hprior hlik) (fun _ _ _ _ _ => rwMoves_subtape _ _ _ _ _ _ _) c alpha0 rest0 hcat hlik l hl hpos hmono hw μ0
    (fun T _ hh => rw_tempered_invariant hprior hlik p step hμ T hh) k hf hB keys hk key

/-- C165 for the inner sampler `Underdamped` with infinite friction (its default). -/
theorem C165_smc_underdamped {prior lik : (Fin d → ℝ) → ℝ × (Fin d → ℝ)} (hprior : Measurable prior) (hlik : Measurable lik) (w : ℝ) (hw : ∀ x, w ≤ (lik x).1)
    (hμ : μ0 = a • volume.withDensity fun x => ENNReal.ofReal (Real.exp (-(prior x).1))) (L : ℕ) (stepsize : ℝ) (hstep : 0 < stepsize) (alpha0 : ℝ) (rest0 : Mcmc.LfState d × ℝ) :
    let S := fun key (x0 : Fin n → Fin d → ℝ) ω => ((tapeSmc cat (udTape q prior lik L) (fun x => (prior x).1) (fun x => (lik x).1) c p ⟨stepsize, none⟩ alpha0 rest0 key x0 ω).state k).1
    ((¬∃ v : ℝ, ∀ᵐ z ∂(oneRun μ0 n), Real.exp (S key z.1 z.2 0).logNorm = v) →
      HonestRuns (manyRuns n μ0) (∫ x, Real.exp (-(scheduleAt l k * (lik x).1)) ∂μ0) (fun _ _ => 1) fun r z => Real.exp (S (keys r) (z.1 r) z.2 0).logNorm) ∧
    ((¬∀ᵐ z ∂(oneRun μ0 n), smcMean f (S key z.1 z.2) = temperedMean μ0 (fun x => (lik x).1) (scheduleAt l k) f) →
      HonestRuns (manyRuns n μ0) (temperedMean μ0 (fun x => (lik x).1) (scheduleAt l k) f) (fun r z => Real.exp (S (keys r) (z.1 r) z.2 0).logNorm) fun r z => smcMean f (S (keys r) (z.1 r) z.2)) :=
  honest_smc (udTape_inner q prior lik L p ⟨stepsize, none⟩ hq hprior hlik rfl) (fun _ _ _ _ _ => udMoves_subtape _ _ _ _ _ _ _) c alpha0 rest0 hcat (measurable_fst.comp hlik) l hl hpos hmono hw μ0
    (fun T h hh => by
      have hg : Measurable (gradField prior lik T) := by unfold gradField; fun_prop
      have hU : Measurable (potAt prior lik T) := by unfold potAt; fun_prop
      have hs := measurable_udMove hg hU L ⟨stepsize, none⟩
      have hp1 : Measurable fun x => (prior x).1 := measurable_fst.comp hprior
      have hl1 : Measurable fun x => (lik x).1 := measurable_fst.comp hlik
      rw [hμ, tempered_eq hp1 hl1 a T (measurable_stepOp_iterate hs _ hh), tempered_eq hp1 hl1 a T hh]
      congr 1
      exact stepOp_invariant hs (fun f hf => udMove_invariant hg hU L ⟨stepsize, none⟩ rfl hstep f hf) _ hh)
    k hf hB keys hk key

end

/-! ## A case: runs of one particle from a standard normal prior -/

theorem not_ae_start {v : ℝ → ℝ} (hv : Measurable v) {b : ℝ} {U : Set ℝ} (hU : IsOpen U) (hne : U.Nonempty) (h : ∀ x ∈ U, v x ≠ b) : ¬∀ᵐ z ∂(oneRun (stdNormal 1) 1), v (z.1 0 0) = b := fun h0 => by
  have e : (oneRun (stdNormal 1) 1).map (fun z => z.1 0 0) = gaussianReal 0 1 := by
    have h1 : (Measure.pi fun _ : Fin 1 => stdNormal 1).map (fun x => x 0) = stdNormal 1 := (measurePreserving_eval (fun _ : Fin 1 => stdNormal 1) 0).map_eq
    have h2 : (stdNormal 1).map (fun x => x 0) = gaussianReal 0 1 := (measurePreserving_eval (fun _ : Fin 1 => gaussianReal 0 1) 0).map_eq
    have h3 : (oneRun (stdNormal 1) 1).map Prod.fst = Measure.pi fun _ : Fin 1 => stdNormal 1 := by unfold oneRun; rw [Measure.map_fst_prod, measure_univ, one_smul]
    have h4 : ((oneRun (stdNormal 1) 1).map Prod.fst).map (fun x => x 0) = (oneRun (stdNormal 1) 1).map fun z => z.1 0 := Measure.map_map (measurable_pi_apply 0) measurable_fst
    have h5 : ((oneRun (stdNormal 1) 1).map fun z => z.1 0).map (fun x => x 0) = (oneRun (stdNormal 1) 1).map fun z => z.1 0 0 := Measure.map_map (measurable_pi_apply 0) ((measurable_pi_apply 0).comp measurable_fst)
    rw [← h5, ← h4, h3, h1, h2]
  have hm : Measurable fun z : (Fin 1 → Fin 1 → ℝ) × Tape => z.1 0 0 := (measurable_pi_apply 0).comp ((measurable_pi_apply 0).comp measurable_fst)
  have h1 : ∀ᵐ x ∂(gaussianReal 0 1), v x = b := by
    rw [← e]
    exact (ae_map_iff hm.aemeasurable (hv (measurableSet_singleton b))).2 h0
  have h2 := (gaussianReal_absolutelyContinuous' 0 (one_ne_zero : (1 : NNReal) ≠ 0)).ae_le h1
  exact hU.measure_ne_zero volume hne (measure_mono_null (fun x hx => h x hx) h2)

/-- Both statements hold for runs of one particle with a standard normal prior and a Gaussian likelihood: the normalising constant and the probability of a positive coordinate get honest error bars. -/
example (key : Keys.Key) (cat : (Fin 1 → ℝ) → ℝ → Fin 1) (hcat : IsCategoricalReal cat) : ∃ q : ℝ → ℝ, IsNormalDraw q ∧
    let S := fun key x ω => ((tapeSmc cat (rwTape (d := 1) q (fun x => x 0 ^ 2 / 2) (fun x => (x 0 - 1) ^ 2 / 2)) (fun x => x 0 ^ 2 / 2) (fun x => (x 0 - 1) ^ 2 / 2) ⟨some [1 / 2, 1], 1, 2⟩ ⟨3, 0.9, 0.5, 0.00001, 1000⟩ 1 1 0
      key x ω).state 0).1
    HonestRuns (manyRuns 1 (stdNormal 1)) (∫ x, Real.exp (-(1 / 2 * ((x 0 - 1) ^ 2 / 2))) ∂(stdNormal 1)) (fun _ _ => 1) (fun r z => Real.exp (S (r :: key) (z.1 r) z.2 0).logNorm) ∧
      HonestRuns (manyRuns 1 (stdNormal 1)) (temperedMean (stdNormal 1) (fun x => (x 0 - 1) ^ 2 / 2) (1 / 2) (Set.indicator {x | 0 < x 0} 1)) (fun r z => Real.exp (S (r :: key) (z.1 r) z.2 0).logNorm)
        fun r z => smcMean (Set.indicator {x | 0 < x 0} 1) (S (r :: key) (z.1 r) z.2) := by
  obtain ⟨q, hq⟩ := exists_isNormalDraw
  refine ⟨q, hq, ?_⟩
  have h0 : ∀ j, scheduleAt [1 / 2, 1] j = if j = 0 then 1 / 2 else 1 := by
    intro j
    rcases j with _ | j <;> simp [scheduleAt]
  have hS : MeasurableSet {x : Fin 1 → ℝ | 0 < x 0} := measurableSet_lt measurable_const (measurable_pi_apply 0)
  have hpos : ∀ j, 0 < scheduleAt [1 / 2, 1] j := fun j => by rw [h0]; split <;> norm_num
  have hmain := C165_smc_randomWalk (d := 1) (n := 1) hq [1 / 2, 1] hpos (fun i j hij => by rw [h0, h0]; split <;> split <;> first | omega | norm_num) (stdNormal 1) (ENNReal.ofReal (Real.sqrt (2 * Real.pi))⁻¹) 0
    (Set.indicator {x | 0 < x 0} 1) (measurable_one.indicator hS) 1 (fun x => by
      by_cases hx : x ∈ {x : Fin 1 → ℝ | 0 < x 0}
      · rw [Set.indicator_of_mem hx]; simp
      · rw [Set.indicator_of_notMem hx]; simp) hcat ⟨some [1 / 2, 1], 1, 2⟩ rfl ⟨3, 0.9, 0.5, 0.00001, 1000⟩ (fun r => r :: key) (fun _ _ h => below_disjoint h) []
    (prior := fun x => x 0 ^ 2 / 2) (lik := fun x => (x 0 - 1) ^ 2 / 2) (by fun_prop) (by fun_prop) 0 (fun x => by positivity) (by
      rw [stdNormal_eq_withDensity, ← withDensity_smul _ (by fun_prop)]
      congr 1
      funext x
      simp only [Finset.univ_unique, Finset.prod_singleton, Pi.smul_apply, smul_eq_mul]
      rw [← ENNReal.ofReal_mul (by positivity), ProbabilityTheory.gaussianPDFReal]
      congr 1
      simp
      exact Or.inl (by ring)) 1 1 0
  have hsing := fun x ω => smc_single (d := 1) hq (prior := fun x => x 0 ^ 2 / 2) (lik := fun x => (x 0 - 1) ^ 2 / 2) (by fun_prop) (by fun_prop) cat ⟨some [1 / 2, 1], 1, 2⟩ [1 / 2, 1] rfl (fun j => (hpos j).ne')
    ⟨3, 0.9, 0.5, 0.00001, 1000⟩ 1 1 0 [] x ω (Set.indicator {x | 0 < x 0} 1)
  have e0 : scheduleAt [1 / 2, 1] 0 = (1 / 2 : ℝ) := by rw [h0]; simp
  rw [e0] at hmain
  simp only [e0] at hsing
  refine ⟨hmain.1 ?_, hmain.2 fun hv => ?_⟩
  · rintro ⟨v, hv⟩
    simp only [fun x ω => (hsing x ω).1] at hv
    have hc : Continuous fun t : ℝ => Real.exp (-(1 / 2) * ((t - 1) ^ 2 / 2)) := by fun_prop
    refine not_ae_start hc.measurable (isOpen_ne_fun hc continuous_const) ?_ (fun x hx => hx) hv
    by_cases h1 : v = 1
    · refine ⟨2, ?_⟩
      show Real.exp (-(1 / 2) * ((2 - 1) ^ 2 / 2)) ≠ v
      rw [h1]
      rw [Ne, Real.exp_eq_one_iff]
      norm_num
    · refine ⟨1, ?_⟩
      show Real.exp (-(1 / 2) * ((1 - 1) ^ 2 / 2)) ≠ v
      norm_num
      exact Ne.symm h1
  · simp only [fun x ω => (hsing x ω).2] at hv
    obtain ⟨b, hb⟩ : ∃ b : ℝ, ∀ᵐ z ∂(oneRun (stdNormal 1) 1), Set.indicator (Set.Ioi 0) (fun _ => (1 : ℝ)) (z.1 0 0) = b :=
      ⟨temperedMean (stdNormal 1) (fun x => (x 0 - 1) ^ 2 / 2) (1 / 2) (Set.indicator {x | 0 < x 0} 1), by
        filter_upwards [hv] with z hz
        exact hz⟩
    have hm : Measurable (Set.indicator (Set.Ioi 0) fun _ : ℝ => (1 : ℝ)) := measurable_const.indicator measurableSet_Ioi
    by_cases h1 : b = 1
    · refine not_ae_start hm (U := Set.Iio 0) isOpen_Iio ⟨-1, by simp⟩ (fun x hx => ?_) hb
      rw [h1, Set.indicator_of_notMem (by simpa using (Set.mem_Iio.1 hx).le)]
      exact zero_ne_one
    · refine not_ae_start hm (U := Set.Ioi 0) isOpen_Ioi ⟨1, by simp⟩ (fun x hx => ?_) hb
      rw [Set.indicator_of_mem hx]
      exact Ne.symm h1

end Mocat.Props
