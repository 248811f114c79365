import Verif.Props.RunErrorBarsSmc
import Verif.Lemmas.RunTails
/-!
# C166: large errors of averages over runs of tempered SMC are exponentially rare
-/
namespace Mocat.Props
open Mocat Mocat.Smc Mocat.Ideal Mocat.Meas MeasureTheory ProbabilityTheory
open scoped ENNReal

variable {n d : ℕ} {X ρ π : Type*} [NeZero n]

section
variable [MeasurableSpace X] {kern : Tape → Kernel Keys.Key π X ρ} {prior lik : X → ℝ} {p : Params} {par : π} {mv : ℝ → Keys.Key → X → Tape → X}
  {P : ℝ → (X → ℝ≥0∞) → X → ℝ≥0∞} (hI : InnerLaw kern prior lik p par mv P) (hmv : ∀ T k κ x ω, mv T (k ++ κ) x ω = mv T k x (subtape κ ω)) (c : Config) (alpha0 : ℝ) (rest0 : ρ)
include hI hmv

/-- Any inner sampler that leaves the tempered laws invariant. -/
theorem rare_smc {cat : (Fin n → ℝ) → ℝ → Fin n} (hcat : IsCategoricalReal cat) (hlik : Measurable lik) (l : List ℝ) (hl : c.schedule = some l) (hpos : ∀ j, 0 < scheduleAt l j)
    (hmono : Monotone (scheduleAt l)) {w : ℝ} (hw : ∀ x, w ≤ lik x) (μ0 : Measure X) [IsProbabilityMeasure μ0] (hinv : ∀ T {h : X → ℝ≥0∞}, Measurable h →
      ∫⁻ x, ENNReal.ofReal (Real.exp (-(T * lik x))) * P T h x ∂μ0 = ∫⁻ x, ENNReal.ofReal (Real.exp (-(T * lik x))) * h x ∂μ0) (k : ℕ) {f : X → ℝ} (hf : Measurable f) {B : ℝ} (hB0 : 0 ≤ B) (hB : ∀ x, |f x| ≤ B)
    (keys : ℕ → Keys.Key) (hk : ∀ a b, a ≠ b → Disjoint (below (keys a)) (below (keys b))) :
    RareErrors (manyRuns n μ0) (∫ x, Real.exp (-(scheduleAt l k * lik x)) ∂μ0) (fun ε => 2 * ε ^ 2 / (Real.exp (scheduleAt l k * |w|) ^ (k + 1)) ^ 2) (fun _ _ => 1) (fun r z => Real.exp (((tapeSmc cat kern prior lik c p par alpha0 rest0 (keys r) (z.1 r) z.2).state k).1 0).logNorm) ∧
    RareErrors (manyRuns n μ0) (temperedMean μ0 lik (scheduleAt l k) f)
      (fun ε => ((∫ x, Real.exp (-(scheduleAt l k * lik x)) ∂μ0) * ε) ^ 2 / (2 * (Real.exp (scheduleAt l k * |w|) ^ (k + 1) * (2 * B + ε)) ^ 2))
      (fun r z => Real.exp (((tapeSmc cat kern prior lik c p par alpha0 rest0 (keys r) (z.1 r) z.2).state k).1 0).logNorm) fun r z => smcMean f (((tapeSmc cat kern prior lik c p par alpha0 rest0 (keys r) (z.1 r) z.2).state k).1) := by
  obtain ⟨G, hGm, hM, hmom, hred⟩ := smc_run_red hI hmv c alpha0 rest0 hcat hlik l hl hpos hmono hw μ0 hinv k
  obtain ⟨M, hMd⟩ : ∃ M, M = Real.exp (scheduleAt l k * |w|) ^ (k + 1) := ⟨_, rfl⟩
  rw [← hMd] at hM ⊢
  have hexpR : Measurable fun x => Real.exp (-(scheduleAt l k * lik x)) := Real.measurable_exp.comp (measurable_const.mul hlik).neg
  have hexp : Measurable fun x => ENNReal.ofReal (Real.exp (-(scheduleAt l k * lik x))) := ENNReal.measurable_ofReal.comp hexpR
  set Γ : Measure X := μ0.withDensity fun x => ENNReal.ofReal (Real.exp (-(scheduleAt l k * lik x))) with hΓ
  have hint : Integrable (fun x => Real.exp (-(scheduleAt l k * lik x))) μ0 :=
    Integrable.of_bound hexpR.aestronglyMeasurable (Real.exp (scheduleAt l k * |w|)) (Filter.Eventually.of_forall fun x => by
      rw [Real.norm_eq_abs, abs_of_pos (Real.exp_pos _), Real.exp_le_exp, ← mul_neg]
      exact mul_le_mul_of_nonneg_left (by have := hw x; have := neg_abs_le w; linarith) (hpos k).le)
  have hfinΓ : IsFiniteMeasure Γ := isFiniteMeasure_withDensity_ofReal hint.2
  have hmom' : ∀ {g : X → ℝ≥0∞}, Measurable g → ∫⁻ z, Q g (G z) ∂(oneRun μ0 n) = ∫⁻ x, g x ∂Γ := fun {g} hg => by
    rw [hmom g hg, hΓ, lintegral_withDensity_eq_lintegral_mul _ hexp hg]
    rfl
  have hΓf : ∀ g : X → ℝ, ∫ x, g x ∂Γ = ∫ x, Real.exp (-(scheduleAt l k * lik x)) * g x ∂μ0 := fun g => by
    rw [hΓ, integral_withDensity_eq_integral_toReal_smul hexp (Filter.Eventually.of_forall fun x => ENNReal.ofReal_lt_top)]
    refine integral_congr_ae (Filter.Eventually.of_forall fun x => ?_)
    simp only [smul_eq_mul, ENNReal.toReal_ofReal (Real.exp_pos _).le]
  have hone : ∀ z, Qr (fun _ => 1) (G z) = Real.exp (G z).2.2 := fun z => by
    unfold Qr
    rw [← Smc.share_sum (G z)]
    simp
  have hM1 : ∀ z, |Qr (fun _ : X => (1 : ℝ)) (G z)| ≤ M := fun z => by rw [hone, abs_of_pos (Real.exp_pos _)]; exact hM z
  have hEn : ∫ z, Qr f (G z) ∂(oneRun μ0 n) = ∫ x, Real.exp (-(scheduleAt l k * lik x)) * f x ∂μ0 := by
    rw [Qr_mean hGm hM1 hmom' hf hB0 hB, hΓf]
  have hEl : ∫ z, Real.exp (G z).2.2 ∂(oneRun μ0 n) = ∫ x, Real.exp (-(scheduleAt l k * lik x)) ∂μ0 := by
    have h1 := Qr_mean hGm hM1 hmom' (g := fun _ => 1) measurable_const zero_le_one fun _ => by simp
    simp only [hone] at h1
    rw [h1, hΓf]
    simp
  have hlm : Measurable fun z => Real.exp (G z).2.2 := Real.measurable_exp.comp (measurable_snd.comp (measurable_snd.comp hGm))
  have hnm : Measurable fun z => Qr f (G z) := (Smc.measurable_Qr hf).comp hGm
  have hli : Integrable (fun z => Real.exp (G z).2.2) (oneRun μ0 n) := Integrable.of_bound hlm.aestronglyMeasurable _ (ae_of_all _ fun z => by rw [Real.norm_eq_abs, abs_of_pos (Real.exp_pos _)]; exact hM z)
  have hZ : 0 < ∫ z, Real.exp (G z).2.2 ∂(oneRun μ0 n) := integral_exp_pos hli
  rw [hEl] at hZ
  have hnB : ∀ z, |Qr f (G z)| ≤ B * Real.exp (G z).2.2 := fun z => Qr_abs_le hB _
  have hθB : |temperedMean μ0 lik (scheduleAt l k) f| ≤ B := by
    rw [temperedMean, abs_div, abs_of_pos hZ, div_le_iff₀ hZ, ← hEn, ← hEl, ← integral_const_mul]
    exact abs_integral_le_integral_abs.trans (integral_mono_of_nonneg (ae_of_all _ fun ω => abs_nonneg _) (hli.const_mul B) (ae_of_all _ hnB))
  have hnorm : ∀ key x0 ω, (((tapeSmc cat kern prior lik c p par alpha0 rest0 key x0 ω).state k).1 0).logNorm = (G (x0, subtape key ω)).2.2 := fun key x0 ω => by
    rw [← hred key x0 ω]
    rfl
  have hprod : ∀ key x0 ω, Real.exp (G (x0, subtape key ω)).2.2 * smcMean f ((tapeSmc cat kern prior lik c p par alpha0 rest0 key x0 ω).state k).1 = Qr f (G (x0, subtape key ω)) := fun key x0 ω => by
    have e : smcMean f ((tapeSmc cat kern prior lik c p par alpha0 rest0 key x0 ω).state k).1
        = (∑ i, Real.exp ((G (x0, subtape key ω)).2.1 i) * f ((G (x0, subtape key ω)).1 i)) / ∑ i, Real.exp ((G (x0, subtape key ω)).2.1 i) := by
      rw [← hred key x0 ω]
      rfl
    rw [e]
    unfold Qr share
    rw [Finset.sum_div, Finset.mul_sum]
    exact Finset.sum_congr rfl fun i _ => by ring
  have hTm : ∀ r, Measurable fun z : (ℕ → Fin n → X) × Tape => (z.1 r, subtape (keys r) z.2) := fun r => ((measurable_pi_apply r).comp measurable_fst).prodMk ((measurable_subtape _).comp measurable_snd)
  refine ⟨?_, ?_⟩
  · exact rareErrors_one hTm (runs_independent μ0 keys hk) (fun r => runs_law μ0 (keys r) r) hlm (fun z => (Real.exp_pos _).le) hM (fun r z => by rw [hnorm]) hEl
  · exact rareErrors_of_copies hTm (runs_independent μ0 keys hk) (fun r => runs_law μ0 (keys r) r) hlm hnm (fun z => (Real.exp_pos _).le) hM hnB (fun r z => by rw [hnorm])
      (fun r z => by rw [hnorm, hprod]) hB0 hθB hEl (by rw [temperedMean, hEn, div_mul_cancel₀ _ hZ.ne'])

end

/-! ## Properties -/

section
variable {q : ℝ → ℝ} (hq : IsNormalDraw q) (l : List ℝ) (hpos : ∀ j, 0 < scheduleAt l j) (hmono : Monotone (scheduleAt l)) (μ0 : Measure (Fin d → ℝ)) [IsProbabilityMeasure μ0] (a : ℝ≥0∞) (k : ℕ)
  (f : (Fin d → ℝ) → ℝ) (hf : Measurable f) (B : ℝ) (hB0 : 0 ≤ B) (hB : ∀ x, |f x| ≤ B) {cat : (Fin n → ℝ) → ℝ → Fin n} (hcat : IsCategoricalReal cat) (c : Config) (hl : c.schedule = some l) (p : Params)
  (keys : ℕ → Keys.Key) (hk : ∀ a b, a ≠ b → Disjoint (below (keys a)) (below (keys b)))
include hq hpos hmono hf hB0 hB hcat hl hk

/-- C166 for tempered SMC with the inner sampler `RandomWalk`, a prior that is a probability law, a likelihood potential that is at least `w` and an increasing schedule of positive temperatures. With `T` the temperature after `k` updates,
`Z` the normalising constant at `T` and `M = exp (T |w|) ^ (k + 1)`: for every number `R` of runs from independent draws of the prior, the average of `exp (log_norm_constant)` over `R` runs is off by `ε` or more with probability at most
`2 exp (-2 R ε² / M²)`, and the pooled mean of an `f` with values in `[-B, B]` with probability at most `2 exp (-R (Z ε)² / (2 (M (2 B + ε))²))`. -/
theorem C166_smc_randomWalk {prior lik : (Fin d → ℝ) → ℝ} (hprior : Measurable prior) (hlik : Measurable lik) (w : ℝ) (hw : ∀ x, w ≤ lik x) (hμ : μ0 = a • volume.withDensity fun x => ENNReal.ofReal (Real.exp (-prior x)))
    (step alpha0 rest0 : ℝ) :
    RareErrors (manyRuns n μ0) (∫ x, Real.exp (-(scheduleAt l k * lik x)) ∂μ0) (fun ε => 2 * ε ^ 2 / (Real.exp (scheduleAt l k * |w|) ^ (k + 1)) ^ 2) (fun _ _ => 1) (fun r z => Real.exp (((tapeSmc cat (rwTape q prior lik) prior lik c p step alpha0 rest0 (keys r) (z.1 r) z.2).state k).1 0).logNorm) ∧
    RareErrors (manyRuns n μ0) (temperedMean μ0 lik (scheduleAt l k) f)
      (fun ε => ((∫ x, Real.exp (-(scheduleAt l k * lik x)) ∂μ0) * ε) ^ 2 / (2 * (Real.exp (scheduleAt l k * |w|) ^ (k + 1) * (2 * B + ε)) ^ 2))
      (fun r z => Real.exp (((tapeSmc cat (rwTape q prior lik) prior lik c p step alpha0 rest0 (keys r) (z.1 r) z.2).state k).1 0).logNorm) fun r z => smcMean f (((tapeSmc cat (rwTape q prior lik) prior lik c p step alpha0 rest0 (keys r) (z.1 r) z.2).state k).1) :=
  rare_smc (rwTape_inner q prior lik p step hq hprior hlik) (fun _ _ _ _ _ => rwMoves_subtape _ _ _ _ _ _ _) c alpha0 rest0 hcat hlik l hl hpos hmono hw μ0
    (fun T _ hh => rw_tempered_invariant hprior hlik p step hμ T hh) k hf hB0 hB keys hk

/-- C166 for the inner sampler `Underdamped` with infinite friction (its default). -/
theorem C166_smc_underdamped {prior lik : (Fin d → ℝ) → ℝ × (Fin d → ℝ)} (hprior : Measurable prior) (hlik : Measurable lik) (w : ℝ) (hw : ∀ x, w ≤ (lik x).1)
    (hμ : μ0 = a • volume.withDensity fun x => ENNReal.ofReal (Real.exp (-(prior x).1))) (L : ℕ) (stepsize : ℝ) (hstep : 0 < stepsize) (alpha0 : ℝ) (rest0 : Mcmc.LfState d × ℝ) :
    RareErrors (manyRuns n μ0) (∫ x, Real.exp (-(scheduleAt l k * (lik x).1)) ∂μ0) (fun ε => 2 * ε ^ 2 / (Real.exp (scheduleAt l k * |w|) ^ (k + 1)) ^ 2) (fun _ _ => 1) (fun r z => Real.exp (((tapeSmc cat (udTape q prior lik L) (fun x => (prior x).1) (fun x => (lik x).1) c p ⟨stepsize, none⟩ alpha0 rest0 (keys r) (z.1 r) z.2).state k).1 0).logNorm) ∧
    RareErrors (manyRuns n μ0) (temperedMean μ0 (fun x => (lik x).1) (scheduleAt l k) f)
      (fun ε => ((∫ x, Real.exp (-(scheduleAt l k * (lik x).1)) ∂μ0) * ε) ^ 2 / (2 * (Real.exp (scheduleAt l k * |w|) ^ (k + 1) * (2 * B + ε)) ^ 2))
      (fun r z => Real.exp (((tapeSmc cat (udTape q prior lik L) (fun x => (prior x).1) (fun x => (lik x).1) c p ⟨stepsize, none⟩ alpha0 rest0 (keys r) (z.1 r) z.2).state k).1 0).logNorm) fun r z => smcMean f (((tapeSmc cat (udTape q prior lik L) (fun x => (prior x).1) (fun x => (lik x).1) c p ⟨stepsize, none⟩ alpha0 rest0 (keys r) (z.1 r) z.2).state k).1) :=
  rare_smc (udTape_inner q prior lik L p ⟨stepsize, none⟩ hq hprior hlik rfl) (fun _ _ _ _ _ => udMoves_subtape _ _ _ _ _ _ _) c alpha0 rest0 hcat (measurable_fst.comp hlik) l hl hpos hmono hw μ0
    (fun T h hh => by
      have hg : Measurable (gradField prior lik T) := by unfold gradField; fun_prop
      have hU : Measurable (potAt prior lik T) := by unfold potAt; fun_prop
      have hs := measurable_udMove hg hU L ⟨stepsize, none⟩
      have hp1 : Measurable fun x => (prior x).1 := measurable_fst.comp hprior
      have hl1 : Measurable fun x => (lik x).1 := measurable_fst.comp hlik
      rw [hμ, tempered_eq hp1 hl1 a T (measurable_stepOp_iterate hs _ hh), tempered_eq hp1 hl1 a T hh]
      congr 1
      exact stepOp_invariant hs (fun f hf => udMove_invariant hg hU L ⟨stepsize, none⟩ rfl hstep f hf) _ hh)
    k hf hB0 hB keys hk

end

/-! ## A case -/

/-- Ten particles, a standard normal prior, a Gaussian likelihood potential (at least 0, so that `M = 1`), temperatures 1/2 and 1, three random-walk steps per update: after any number of updates, the average of `exp (log_norm_constant)`
over 200 runs is off by 0.1 or more with probability at most `2 exp (-4)`. -/
example (key : Keys.Key) (cat : (Fin 10 → ℝ) → ℝ → Fin 10) (hcat : IsCategoricalReal cat) (k : ℕ) : ∃ q : ℝ → ℝ, IsNormalDraw q ∧
    let S := fun key x ω => ((tapeSmc cat (rwTape (d := 1) q (fun x => x 0 ^ 2 / 2) (fun x => (x 0 - 1) ^ 2 / 2)) (fun x => x 0 ^ 2 / 2) (fun x => (x 0 - 1) ^ 2 / 2) ⟨some [1 / 2, 1], 1, 2⟩ ⟨3, 0.9, 0.5, 0.00001, 1000⟩ 1 1 0
      key x ω).state k).1
    (manyRuns 10 (stdNormal 1)).real {z | 1 / 10 ≤ |runsMean (fun _ => 1) (fun r => Real.exp (S (r :: key) (z.1 r) z.2 0).logNorm) 200 - ∫ x, Real.exp (-(scheduleAt [1 / 2, 1] k * ((x 0 - 1) ^ 2 / 2))) ∂(stdNormal 1)|}
      ≤ 2 * Real.exp (-4) := by
  obtain ⟨q, hq⟩ := exists_isNormalDraw
  refine ⟨q, hq, ?_⟩
  have h0 : ∀ j, scheduleAt [1 / 2, 1] j = if j = 0 then 1 / 2 else 1 := by
    intro j
    rcases j with _ | j <;> simp [scheduleAt]
  have hpos : ∀ j, 0 < scheduleAt [1 / 2, 1] j := fun j => by rw [h0]; split <;> norm_num
  have hmain := (C166_smc_randomWalk (d := 1) (n := 10) hq [1 / 2, 1] hpos (fun i j hij => by rw [h0, h0]; split <;> split <;> first | omega | norm_num) (stdNormal 1) (ENNReal.ofReal (Real.sqrt (2 * Real.pi))⁻¹) k
    (fun _ => 1) measurable_const 1 zero_le_one (fun x => by simp) hcat ⟨some [1 / 2, 1], 1, 2⟩ rfl ⟨3, 0.9, 0.5, 0.00001, 1000⟩ (fun r => r :: key) (fun _ _ h => below_disjoint h)
    (prior := fun x => x 0 ^ 2 / 2) (lik := fun x => (x 0 - 1) ^ 2 / 2) (by fun_prop) (by fun_prop) 0 (fun x => by positivity) (by
      rw [stdNormal_eq_withDensity, ← withDensity_smul _ (by fun_prop)]
      congr 1
      funext x
      simp only [Finset.univ_unique, Finset.prod_singleton, Pi.smul_apply, smul_eq_mul]
      rw [← ENNReal.ofReal_mul (by positivity), ProbabilityTheory.gaussianPDFReal]
      congr 1
      simp
      exact Or.inl (by ring)) 1 1 0).1 200 (1 / 10) (by norm_num)
  refine hmain.trans_eq ?_
  rw [abs_zero, mul_zero, Real.exp_zero, one_pow, one_pow]
  norm_num

end Mocat.Props
