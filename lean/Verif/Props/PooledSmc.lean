import Verif.Props.SmcConsistency
import Verif.Lemmas.Pooling
import Mathlib.Probability.Independence.InfinitePi
/-!
# C163: tempered SMC runs with separate keys can be pooled
-/
namespace Mocat.Props
open Mocat Mocat.Smc Mocat.Ideal Mocat.Meas MeasureTheory ProbabilityTheory
open scoped ENNReal

variable {n d : ℕ} {X ρ π : Type*} [NeZero n]

/-! ## Specification -/

/-- The average over the first `R` runs of `exp (log_norm_constant)`. -/
noncomputable def pooledNorm (ens : ℕ → Ensemble n X ρ) (R : ℕ) : ℝ := (∑ r ∈ Finset.range R, Real.exp (ens r 0).logNorm) / R

/-- The average of the weighted means of `f` of the first `R` runs, each run weighted by `exp (log_norm_constant)`. -/
noncomputable def pooledSmcMean (f : X → ℝ) (ens : ℕ → Ensemble n X ρ) (R : ℕ) : ℝ :=
  (∑ r ∈ Finset.range R, Real.exp (ens r 0).logNorm * smcMean f (ens r)) / ∑ r ∈ Finset.range R, Real.exp (ens r 0).logNorm

/-- Independent initial ensembles for all runs, each of independent draws from `μ0`, and an ideal generator. -/
noncomputable def manyRuns [MeasurableSpace X] (n : ℕ) (μ0 : Measure X) [IsProbabilityMeasure μ0] : Measure ((ℕ → Fin n → X) × Tape) :=
  (Measure.infinitePi fun _ : ℕ => Measure.pi fun _ : Fin n => μ0).prod ideal

instance [MeasurableSpace X] (μ0 : Measure X) [IsProbabilityMeasure μ0] : IsProbabilityMeasure (manyRuns n μ0) := by unfold manyRuns; infer_instance

/-! ## Runs from independent starts that read separate parts of the tape -/

theorem tape_indep {E Y Z : Type*} [MeasurableSpace E] [MeasurableSpace Y] [MeasurableSpace Z] {ν : Measure E} [IsProbabilityMeasure ν] {a b : E → Y} (ha : Measurable a) (hb : Measurable b) (hab : IndepFun a b ν)
    {F G : Y × Tape → Z} (hF : Measurable F) (hG : Measurable G) {S T : Set Site} (hST : Disjoint S T) (hFS : ∀ y, DependsOn (fun ω => F (y, ω)) S) (hGT : ∀ y, DependsOn (fun ω => G (y, ω)) T) :
    IndepFun (fun z : E × Tape => F (a z.1, z.2)) (fun z => G (b z.1, z.2)) (ν.prod ideal) := by
  rw [indepFun_iff_measure_inter_preimage_eq_mul]
  intro A B hA hB
  have mF : Measurable fun z : E × Tape => F (a z.1, z.2) := hF.comp ((ha.comp measurable_fst).prodMk measurable_snd)
  have mG : Measurable fun z : E × Tape => G (b z.1, z.2) := hG.comp ((hb.comp measurable_fst).prodMk measurable_snd)
  have hu : Measurable fun y => ideal (Prod.mk y ⁻¹' (F ⁻¹' A)) := measurable_measure_prodMk_left (hF hA)
  have hv : Measurable fun y => ideal (Prod.mk y ⁻¹' (G ⁻¹' B)) := measurable_measure_prodMk_left (hG hB)
  rw [Measure.prod_apply ((mF hA).inter (mG hB)), Measure.prod_apply (mF hA), Measure.prod_apply (mG hB)]
  have e : ∀ x, ideal (Prod.mk x ⁻¹' ((fun z : E × Tape => F (a z.1, z.2)) ⁻¹' A ∩ (fun z : E × Tape => G (b z.1, z.2)) ⁻¹' B))
      = ideal (Prod.mk (a x) ⁻¹' (F ⁻¹' A)) * ideal (Prod.mk (b x) ⁻¹' (G ⁻¹' B)) := fun x => by
    have h1 : MeasurableSet {ω | F (a x, ω) ∈ A} := (hF.comp measurable_prodMk_left) hA
    have h2 : MeasurableSet {ω | G (b x, ω) ∈ B} := (hG.comp measurable_prodMk_left) hB
    have h := inter hST h1 h2 (fun ω ω' h => congrArg (· ∈ A) (hFS (a x) h)) fun ω ω' h => congrArg (· ∈ B) (hGT (b x) h)
    exact h
  simp_rw [e]
  exact lintegral_mul_eq_lintegral_mul_lintegral_of_indepFun'' (hu.comp ha).aemeasurable (hv.comp hb).aemeasurable (hab.comp hu hv)

omit [NeZero n] in
theorem redIter_below [MeasurableSpace X] {cat : (Fin n → ℝ) → ℝ → Fin n} (thr : ℝ) {lik : X → ℝ} (hlik : Measurable lik) (δ : ℕ → ℝ) {mv : ℕ → Keys.Key → X → Tape → X} (hm : ∀ t k, Measurable fun z : X × Tape => mv t k z.1 z.2)
    (hd : ∀ t k x, DependsOn (mv t k x) (below k)) {P : ℕ → (X → ℝ≥0∞) → X → ℝ≥0∞} (hP : ∀ t k x {h : X → ℝ≥0∞}, Measurable h → ∫⁻ ω, h (mv t k x ω) ∂ideal = P t h x)
    (hPm : ∀ t {h : X → ℝ≥0∞}, Measurable h → Measurable (P t h)) (κ : Keys.Key) (R : Red n X) (k : ℕ) : DependsOn (redIter cat thr lik δ mv κ R k) (below κ) := by
  have hk : ∀ k, below (keyAt n κ k) ⊆ below κ := fun k => by
    induction k with
    | zero => exact subset_rfl
    | succ k ih => exact fun s hs => ih (mem_below_cons hs)
  induction k with
  | zero => intro _ _ _; rfl
  | succ k ih =>
    intro ω ω' h
    refine next_dependsOn (smcStep_law thr hlik (δ k) (hm k) (hd k) (hP k) (hPm k) (keyAt n κ k)) ih fun s hs => h s ?_
    rcases hs with hs | hs
    · exact hs
    · exact hk k (smcSites _ hs).1

/-! ## Any inner sampler -/

section
variable [MeasurableSpace X] {kern : Tape → Kernel Keys.Key π X ρ} {prior lik : X → ℝ} {p : Params} {par : π} {mv : ℝ → Keys.Key → X → Tape → X}
  {P : ℝ → (X → ℝ≥0∞) → X → ℝ≥0∞} (hI : InnerLaw kern prior lik p par mv P)
  (c : Config) (alpha0 : ℝ) (rest0 : ρ) (keys : ℕ → Keys.Key) (hk : ∀ a b, a ≠ b → Disjoint (below (keys a)) (below (keys b)))
include hI hk

/-- Pooling, for any inner sampler that leaves the tempered laws invariant. -/
theorem smc_pooled {cat : (Fin n → ℝ) → ℝ → Fin n} (hcat : IsCategoricalReal cat) (hlik : Measurable lik) (l : List ℝ) (hl : c.schedule = some l) (hpos : ∀ j, 0 < scheduleAt l j)
    (hmono : Monotone (scheduleAt l)) {w : ℝ} (hw : ∀ x, w ≤ lik x)
    (μ0 : Measure X) [IsProbabilityMeasure μ0] (hinv : ∀ T {h : X → ℝ≥0∞}, Measurable h →
      ∫⁻ x, ENNReal.ofReal (Real.exp (-(T * lik x))) * P T h x ∂μ0 = ∫⁻ x, ENNReal.ofReal (Real.exp (-(T * lik x))) * h x ∂μ0)
    (k : ℕ) {f : X → ℝ} (hf : Measurable f) {B : ℝ} (hB0 : 0 ≤ B) (hB : ∀ x, |f x| ≤ B) {ε : ℝ} (hε : 0 < ε) {R : ℕ} (hR : 1 ≤ R) :
    manyRuns n μ0 {z | ε ≤ |pooledNorm (fun r => ((tapeSmc cat kern prior lik c p par alpha0 rest0 (keys r) (z.1 r) z.2).state k).1) R - ∫ x, Real.exp (-(scheduleAt l k * lik x)) ∂μ0|}
      ≤ ENNReal.ofReal ((Real.exp (scheduleAt l k * |w|) ^ (k + 1)) ^ 2 / ε ^ 2 / R) ∧
    manyRuns n μ0 {z | ε ≤ |pooledSmcMean f (fun r => ((tapeSmc cat kern prior lik c p par alpha0 rest0 (keys r) (z.1 r) z.2).state k).1) R - temperedMean μ0 lik (scheduleAt l k) f|}
      ≤ ENNReal.ofReal (poolConst (Real.exp (scheduleAt l k * |w|) ^ (k + 1)) B (∫ x, Real.exp (-(scheduleAt l k * lik x)) ∂μ0) ε / R) := by
  have hne : ∀ j, scheduleAt l j ≠ 0 := fun j => (hpos j).ne'
  have hexpR : ∀ T : ℝ, Measurable fun x => Real.exp (-(T * lik x)) := fun T => Real.measurable_exp.comp (measurable_const.mul hlik).neg
  have hexp : ∀ T : ℝ, Measurable fun x => ENNReal.ofReal (Real.exp (-(T * lik x))) := fun T => ENNReal.measurable_ofReal.comp (hexpR T)
  set W := Real.exp (scheduleAt l k * |w|) with hWdef
  have hbound : ∀ (t : ℝ) x, 0 ≤ t → t ≤ scheduleAt l k → Real.exp (-t * lik x) ≤ W := fun t x h0 h1 => by
    rw [hWdef, Real.exp_le_exp]
    have h2 : -lik x ≤ |w| := by have := hw x; have := neg_abs_le w; linarith
    have h3 := mul_le_mul_of_nonneg_left h2 h0
    have h4 := mul_le_mul_of_nonneg_right h1 (abs_nonneg w)
    linarith
  set G : ℕ → (Fin n → X) × Tape → Red n X := fun r z => redIter cat p.essThresholdResample lik (fun k => scheduleAt l (k + 1) - scheduleAt l k) (fun k => mv (scheduleAt l k)) (0 :: keys r)
        (startAt (fun x => -scheduleAt l 0 * lik x) z.1) k z.2 with hG
  have hGm : ∀ r, Measurable (G r) := fun r => by
    have h := (measurable_redIter_joint hcat p.essThresholdResample hlik (fun k => scheduleAt l (k + 1) - scheduleAt l k) (mv := fun k => mv (scheduleAt l k))
        (fun t κ => hI.measurable _ κ) (fun t κ x => hI.dependsOn _ κ x) (P := fun t => P (scheduleAt l t)) (fun t κ x _ hh => hI.law _ κ x hh)
        (fun t _ hh => hI.op _ hh) (0 :: keys r) k).comp ((((measurable_startAt (n := n) (g := fun x => -scheduleAt l 0 * lik x) (measurable_const.mul hlik)).comp measurable_fst).prodMk
          (measurable_snd (α := Fin n → X) (β := Tape))))
    exact h
  have hGd : ∀ r y, DependsOn (fun ω => G r (y, ω)) (below (keys r)) := fun r y ω ω' h =>
    redIter_below p.essThresholdResample hlik (fun k => scheduleAt l (k + 1) - scheduleAt l k) (mv := fun k => mv (scheduleAt l k)) (fun t κ => hI.measurable _ κ) (fun t κ x => hI.dependsOn _ κ x)
      (P := fun t => P (scheduleAt l t)) (fun t κ x _ hh => hI.law _ κ x hh) (fun t _ hh => hI.op _ hh) (0 :: keys r) _ k fun s hs => h s (mem_below_cons hs)
  have hGs : ∀ r z, Spread (W ^ (k + 1)) (G r z) := fun r z => by
    have h := spread_redIter (cat := cat) (thr := p.essThresholdResample) (lik := lik) (δ := fun k => scheduleAt l (k + 1) - scheduleAt l k) (mv := fun k => mv (scheduleAt l k)) (κ := 0 :: keys r)
      (R := startAt (fun x => -scheduleAt l 0 * lik x) z.1) (Real.exp_pos _).le (Real.exp_pos _).le
      (spread_startAt (fun x => hbound _ x (hpos 0).le (hmono (Nat.zero_le k))) z.1) k
      (fun j hj x => hbound _ x (sub_nonneg.mpr (hmono (Nat.le_succ j))) (by have h1 := hmono (show j + 1 ≤ k from hj); have h2 := (hpos j).le; linarith)) z.2
    rwa [← pow_succ'] at h
  have hred : ∀ r (z : (Fin n → X) × Tape), redOf ((tapeSmc cat kern prior lik c p par alpha0 rest0 (keys r) z.1 z.2).state k).1 = G r z := fun r z =>
    tapeSmc_iter hI cat c alpha0 rest0 (keys r) z.1 z.2 l hl hne k
  set Γ : Measure X := μ0.withDensity fun x => ENNReal.ofReal (Real.exp (-(scheduleAt l k * lik x))) with hΓ
  have hint : Integrable (fun x => Real.exp (-(scheduleAt l k * lik x))) μ0 :=
    Integrable.of_bound (hexpR _).aestronglyMeasurable W (Filter.Eventually.of_forall fun x => by
      rw [Real.norm_eq_abs, abs_of_pos (Real.exp_pos _), ← neg_mul]; exact hbound _ x (hpos k).le le_rfl)
  have hfinΓ : IsFiniteMeasure Γ := isFiniteMeasure_withDensity_ofReal hint.2
  have hreal : Γ.real Set.univ = ∫ x, Real.exp (-(scheduleAt l k * lik x)) ∂μ0 := by
    rw [Measure.real, hΓ, withDensity_apply _ MeasurableSet.univ, Measure.restrict_univ, integral_eq_lintegral_of_nonneg_ae (Filter.Eventually.of_forall fun x => (Real.exp_pos _).le)
      (hexpR _).aestronglyMeasurable]
  have hΓint : ∀ g : X → ℝ≥0∞, Measurable g → ∫⁻ x, g x ∂Γ = ∫⁻ x, ENNReal.ofReal (Real.exp (-(scheduleAt l k * lik x))) * g x ∂μ0 := fun g hg => by
    rw [hΓ, lintegral_withDensity_eq_lintegral_mul _ (hexp _) hg]
    rfl
  have hΓf : ∫ x, f x ∂Γ = ∫ x, Real.exp (-(scheduleAt l k * lik x)) * f x ∂μ0 := by
    rw [hΓ, integral_withDensity_eq_integral_toReal_smul (hexp _) (Filter.Eventually.of_forall fun x => ENNReal.ofReal_lt_top)]
    refine integral_congr_ae (Filter.Eventually.of_forall fun x => ?_)
    simp only [smul_eq_mul, ENNReal.toReal_ofReal (Real.exp_pos _).le]
  have hev : ∀ r : ℕ, MeasurePreserving (fun x : ℕ → Fin n → X => x r) (Measure.infinitePi fun _ : ℕ => Measure.pi fun _ : Fin n => μ0) (Measure.pi fun _ : Fin n => μ0) := fun r =>
    measurePreserving_eval_infinitePi (fun _ : ℕ => Measure.pi fun _ : Fin n => μ0) r
  have main := pooled_systems (μ := manyRuns n μ0) (F := fun r z => G r (z.1 r, z.2)) (fun r => (hGm r).comp (((measurable_pi_apply r).comp measurable_fst).prodMk measurable_snd))
    (fun i j h => tape_indep (measurable_pi_apply i) (measurable_pi_apply j)
      ((iIndepFun_infinitePi (P := fun _ : ℕ => Measure.pi fun _ : Fin n => μ0) (X := fun _ x => x) fun _ => measurable_id).indepFun h) (hGm i) (hGm j) (hk i j h) (hGd i) (hGd j))
    (fun r z => exp_le_of_spread (hGs r (z.1 r, z.2))) (Φ := Γ)
    (fun r {g} hg => by
      have hm : Measurable fun z => Q g (G r z) := (measurable_Q hg).comp (hGm r)
      have hm2 : Measurable fun y : Fin n → X => ∫⁻ ω, Q g (G r (y, ω)) ∂ideal := hm.lintegral_prod_right'
      have hm3 : Measurable fun z : (ℕ → Fin n → X) × Tape => Q g (G r (z.1 r, z.2)) := hm.comp (((measurable_pi_apply r).comp measurable_fst).prodMk measurable_snd)
      rw [manyRuns, lintegral_prod _ hm3.aemeasurable, (hev r).lintegral_comp hm2, hΓint g hg]
      have h := smc_unbiased hI c alpha0 rest0 (keys r) hcat hlik l hl hne μ0 hinv (Measure.pi fun _ : Fin n => μ0) (pi_marginal μ0) k g hg
      rw [← h]
      refine lintegral_congr fun x0 => lintegral_congr fun ω => ?_
      rw [smcEstimate_eq, hred r (x0, ω)])
    hf hB0 hB hε hR
  rw [hreal, hΓf] at main
  have hnorm : ∀ r (z : (Fin n → X) × Tape), (((tapeSmc cat kern prior lik c p par alpha0 rest0 (keys r) z.1 z.2).state k).1 0).logNorm = (G r z).2.2 := fun r z => by
    rw [← hred r z]
    rfl
  have hprod : ∀ r (z : (Fin n → X) × Tape), Real.exp (G r z).2.2 * smcMean f ((tapeSmc cat kern prior lik c p par alpha0 rest0 (keys r) z.1 z.2).state k).1 = Qr f (G r z) := fun r z => by
    have e : smcMean f ((tapeSmc cat kern prior lik c p par alpha0 rest0 (keys r) z.1 z.2).state k).1 = (∑ i, Real.exp ((G r z).2.1 i) * f ((G r z).1 i)) / ∑ i, Real.exp ((G r z).2.1 i) := by
      rw [← hred r z]
      rfl
    rw [e]
    unfold Qr share
    rw [Finset.sum_div, Finset.mul_sum]
    exact Finset.sum_congr rfl fun i _ => by ring
  have hnorm' : ∀ r (x0 : Fin n → X) ω, (((tapeSmc cat kern prior lik c p par alpha0 rest0 (keys r) x0 ω).state k).1 0).logNorm = (G r (x0, ω)).2.2 := fun r x0 ω => hnorm r (x0, ω)
  have hprod' : ∀ r (x0 : Fin n → X) ω, Real.exp (G r (x0, ω)).2.2 * smcMean f ((tapeSmc cat kern prior lik c p par alpha0 rest0 (keys r) x0 ω).state k).1 = Qr f (G r (x0, ω)) := fun r x0 ω => hprod r (x0, ω)
  simp only [pooledNorm, pooledSmcMean, hnorm', hprod', temperedMean]
  exact main

end

/-! ## Properties -/

/-- C163: fix a prior that is a probability law, a likelihood potential that is bounded below, an increasing schedule of positive temperatures, a number of updates, a bounded measurable `f` and a tolerance `ε`. There is a
constant `C` such that for every number of particles, configuration of the sampler, family of separate keys and number `R` of runs from independent draws of the prior, the probability that the average of
`exp (log_norm_constant)` over the runs is `ε` or more away from the normalising constant is at most `C / R`, and so is the probability that the weighted mean of `f`, pooled over the runs with these numbers as weights, is `ε`
or more away from its expectation under the tempered posterior. Inner sampler: `RandomWalk`. -/
theorem C163_randomWalk {q : ℝ → ℝ} (hq : IsNormalDraw q) {prior lik : (Fin d → ℝ) → ℝ} (hprior : Measurable prior) (hlik : Measurable lik) (w : ℝ) (hw : ∀ x, w ≤ lik x)
    (l : List ℝ) (hpos : ∀ j, 0 < scheduleAt l j) (hmono : Monotone (scheduleAt l)) (μ0 : Measure (Fin d → ℝ)) [IsProbabilityMeasure μ0] (a : ℝ≥0∞)
    (hμ : μ0 = a • volume.withDensity fun x => ENNReal.ofReal (Real.exp (-prior x))) (k : ℕ) (f : (Fin d → ℝ) → ℝ) (hf : Measurable f) (B : ℝ) (hB : ∀ x, |f x| ≤ B) (ε : ℝ) (hε : 0 < ε) :
    ∃ C : ℝ, ∀ (n : ℕ) [NeZero n] (cat : (Fin n → ℝ) → ℝ → Fin n), IsCategoricalReal cat → ∀ c : Config, c.schedule = some l → ∀ (p : Params) (step alpha0 rest0 : ℝ) (keys : ℕ → Keys.Key),
      (∀ a b, a ≠ b → Disjoint (below (keys a)) (below (keys b))) → ∀ R : ℕ, 1 ≤ R →
      manyRuns n μ0 {z | ε ≤ |pooledNorm (fun r => ((tapeSmc cat (rwTape q prior lik) prior lik c p step alpha0 rest0 (keys r) (z.1 r) z.2).state k).1) R - ∫ x, Real.exp (-(scheduleAt l k * lik x)) ∂μ0|}
        ≤ ENNReal.ofReal (C / R) ∧
      manyRuns n μ0 {z | ε ≤ |pooledSmcMean f (fun r => ((tapeSmc cat (rwTape q prior lik) prior lik c p step alpha0 rest0 (keys r) (z.1 r) z.2).state k).1) R - temperedMean μ0 lik (scheduleAt l k) f|}
        ≤ ENNReal.ofReal (C / R) :=
  ⟨max _ _, fun _ _ _ hcat c hl p step alpha0 rest0 keys hk R hR =>
    have h := smc_pooled (rwTape_inner q prior lik p step hq hprior hlik) c alpha0 rest0 keys hk hcat hlik l hl hpos hmono hw μ0
      (fun T _ hh => rw_tempered_invariant hprior hlik p step hμ T hh) k hf ((abs_nonneg _).trans (hB 0)) hB hε hR
    ⟨h.1.trans (ENNReal.ofReal_le_ofReal (div_le_div_of_nonneg_right (le_max_left _ _) (Nat.cast_nonneg R))),
      h.2.trans (ENNReal.ofReal_le_ofReal (div_le_div_of_nonneg_right (le_max_right _ _) (Nat.cast_nonneg R)))⟩⟩

/-- C163 for the inner sampler `Underdamped` with infinite friction (its default). -/
theorem C163_underdamped {q : ℝ → ℝ} (hq : IsNormalDraw q) {prior lik : (Fin d → ℝ) → ℝ × (Fin d → ℝ)} (hprior : Measurable prior) (hlik : Measurable lik) (w : ℝ) (hw : ∀ x, w ≤ (lik x).1)
    (l : List ℝ) (hpos : ∀ j, 0 < scheduleAt l j) (hmono : Monotone (scheduleAt l)) (μ0 : Measure (Fin d → ℝ)) [IsProbabilityMeasure μ0] (a : ℝ≥0∞)
    (hμ : μ0 = a • volume.withDensity fun x => ENNReal.ofReal (Real.exp (-(prior x).1))) (k : ℕ) (f : (Fin d → ℝ) → ℝ) (hf : Measurable f) (B : ℝ) (hB : ∀ x, |f x| ≤ B) (ε : ℝ) (hε : 0 < ε) :
    ∃ C : ℝ, ∀ (n : ℕ) [NeZero n] (cat : (Fin n → ℝ) → ℝ → Fin n), IsCategoricalReal cat → ∀ c : Config, c.schedule = some l →
      ∀ (p : Params) (L : ℕ) (stepsize : ℝ), 0 < stepsize → ∀ (alpha0 : ℝ) (rest0 : Mcmc.LfState d × ℝ) (keys : ℕ → Keys.Key), (∀ a b, a ≠ b → Disjoint (below (keys a)) (below (keys b))) → ∀ R : ℕ, 1 ≤ R →
      manyRuns n μ0 {z | ε ≤ |pooledNorm (fun r => ((tapeSmc cat (udTape q prior lik L) (fun x => (prior x).1) (fun x => (lik x).1) c p ⟨stepsize, none⟩ alpha0 rest0 (keys r) (z.1 r) z.2).state k).1) R
          - ∫ x, Real.exp (-(scheduleAt l k * (lik x).1)) ∂μ0|}
        ≤ ENNReal.ofReal (C / R) ∧
      manyRuns n μ0 {z | ε ≤ |pooledSmcMean f (fun r => ((tapeSmc cat (udTape q prior lik L) (fun x => (prior x).1) (fun x => (lik x).1) c p ⟨stepsize, none⟩ alpha0 rest0 (keys r) (z.1 r) z.2).state k).1) R
          - temperedMean μ0 (fun x => (lik x).1) (scheduleAt l k) f|}
        ≤ ENNReal.ofReal (C / R) :=
  ⟨max _ _, fun _ _ _ hcat c hl p L stepsize hstep alpha0 rest0 keys hk R hR =>
    have h := smc_pooled (udTape_inner q prior lik L p ⟨stepsize, none⟩ hq hprior hlik rfl) c alpha0 rest0 keys hk hcat
      (measurable_fst.comp hlik) l hl hpos hmono hw μ0 (fun T h hh => by
        have hg : Measurable (gradField prior lik T) := by unfold gradField; fun_prop
        have hU : Measurable (potAt prior lik T) := by unfold potAt; fun_prop
        have hs := measurable_udMove hg hU L ⟨stepsize, none⟩
        have hp1 : Measurable fun x => (prior x).1 := measurable_fst.comp hprior
        have hl1 : Measurable fun x => (lik x).1 := measurable_fst.comp hlik
        rw [hμ, tempered_eq hp1 hl1 a T (measurable_stepOp_iterate hs _ hh), tempered_eq hp1 hl1 a T hh]
        congr 1
        exact stepOp_invariant hs (fun f hf => udMove_invariant hg hU L ⟨stepsize, none⟩ rfl hstep f hf) _ hh)
      k hf ((abs_nonneg _).trans (hB 0)) hB hε hR
    ⟨h.1.trans (ENNReal.ofReal_le_ofReal (div_le_div_of_nonneg_right (le_max_left _ _) (Nat.cast_nonneg R))),
      h.2.trans (ENNReal.ofReal_le_ofReal (div_le_div_of_nonneg_right (le_max_right _ _) (Nat.cast_nonneg R)))⟩⟩

/-- A run of one particle before its first update. -/
theorem smc_single {q : ℝ → ℝ} (hq : IsNormalDraw q) {prior lik : (Fin d → ℝ) → ℝ} (hprior : Measurable prior) (hlik : Measurable lik) (cat : (Fin 1 → ℝ) → ℝ → Fin 1) (c : Config) (l : List ℝ) (hl : c.schedule = some l)
    (hne : ∀ j, scheduleAt l j ≠ 0) (p : Params) (step alpha0 rest0 : ℝ) (key : Keys.Key) (x : Fin 1 → Fin d → ℝ) (ω : Tape) (f : (Fin d → ℝ) → ℝ) :
    Real.exp (((tapeSmc cat (rwTape q prior lik) prior lik c p step alpha0 rest0 key x ω).state 0).1 0).logNorm = Real.exp (-scheduleAt l 0 * lik (x 0)) ∧
      smcMean f ((tapeSmc cat (rwTape q prior lik) prior lik c p step alpha0 rest0 key x ω).state 0).1 = f (x 0) := by
  have h := tapeSmc_iter (rwTape_inner q prior lik p step hq hprior hlik) cat c alpha0 rest0 key x ω l hl hne 0
  rw [redIter] at h
  have h1 : (((tapeSmc cat (rwTape q prior lik) prior lik c p step alpha0 rest0 key x ω).state 0).1 0).logNorm = lseMean fun i => -scheduleAt l 0 * lik (x i) := congrArg (fun R => R.2.2) h
  have h2 : (((tapeSmc cat (rwTape q prior lik) prior lik c p step alpha0 rest0 key x ω).state 0).1 0).mc.value = x 0 := congrFun (congrArg (fun R => R.1) h) 0
  refine ⟨?_, ?_⟩
  · rw [h1]
    simp [lseMean]
  · simp only [smcMean, Finset.univ_unique, Finset.sum_singleton]
    rw [mul_div_assoc, mul_comm, div_mul_cancel₀ _ (Real.exp_pos _).ne']
    exact congrArg f h2

/-- Why the runs have to be weighted: for runs of one particle the weighted mean of `f` at the first temperature is the value of `f` at the draw from the prior, whatever the likelihood, so that the plain average of the means of the runs
is close to the prior expectation of `f` and not to the tempered one. -/
theorem C163_unweighted {q : ℝ → ℝ} (hq : IsNormalDraw q) {prior lik : (Fin d → ℝ) → ℝ} (hprior : Measurable prior) (hlik : Measurable lik) (cat : (Fin 1 → ℝ) → ℝ → Fin 1) (c : Config) (l : List ℝ) (hl : c.schedule = some l)
    (hne : ∀ j, scheduleAt l j ≠ 0) (p : Params) (step alpha0 rest0 : ℝ) (keys : ℕ → Keys.Key) (μ0 : Measure (Fin d → ℝ)) [IsProbabilityMeasure μ0] (f : (Fin d → ℝ) → ℝ) (hf : Measurable f) (B : ℝ)
    (hB : ∀ x, |f x| ≤ B) (ε : ℝ) (hε : 0 < ε) (R : ℕ) (hR : 1 ≤ R) :
    manyRuns 1 μ0 {z | ε ≤ |(∑ r ∈ Finset.range R, smcMean f ((tapeSmc cat (rwTape q prior lik) prior lik c p step alpha0 rest0 (keys r) (z.1 r) z.2).state 0).1) / R - ∫ x, f x ∂μ0|} ≤ ENNReal.ofReal (B ^ 2 / ε ^ 2 / R) := by
  have e : ∀ r (z : (ℕ → Fin 1 → Fin d → ℝ) × Tape), smcMean f ((tapeSmc cat (rwTape q prior lik) prior lik c p step alpha0 rest0 (keys r) (z.1 r) z.2).state 0).1 = f (z.1 r 0) := fun r z =>
    (smc_single hq hprior hlik cat c l hl hne p step alpha0 rest0 (keys r) (z.1 r) z.2 f).2
  simp only [e]
  have hev : ∀ r : ℕ, Measurable fun x : ℕ → Fin 1 → Fin d → ℝ => f (x r 0) := fun r => hf.comp ((measurable_pi_apply 0).comp (measurable_pi_apply r))
  refine average_bound (μ := manyRuns 1 μ0) (Y := fun r z => f (z.1 r 0)) (fun r => (hev r).comp measurable_fst) (fun i j h => ?_) (fun r z => hB _) (fun r => ?_) hε hR
  · refine tape_indep (ν := Measure.infinitePi fun _ : ℕ => Measure.pi fun _ : Fin 1 => μ0) (hev i) (hev j) ?_ (F := fun z => z.1) (G := fun z => z.1) measurable_fst measurable_fst (S := ∅) (T := ∅) (by simp)
      (fun _ _ _ _ => rfl) (fun _ _ _ _ => rfl)
    exact ((iIndepFun_infinitePi (P := fun _ : ℕ => Measure.pi fun _ : Fin 1 => μ0) (X := fun _ x => x) fun _ => measurable_id).indepFun h).comp (hf.comp (measurable_pi_apply 0)) (hf.comp (measurable_pi_apply 0))
  · have h1 : MeasurePreserving (fun x : ℕ → Fin 1 → Fin d → ℝ => x r 0) (Measure.infinitePi fun _ : ℕ => Measure.pi fun _ : Fin 1 => μ0) μ0 :=
      (measurePreserving_eval (fun _ : Fin 1 => μ0) 0).comp (measurePreserving_eval_infinitePi (fun _ : ℕ => Measure.pi fun _ : Fin 1 => μ0) r)
    have h2 : MeasurePreserving (fun z : (ℕ → Fin 1 → Fin d → ℝ) × Tape => z.1 r 0) (manyRuns 1 μ0) μ0 := h1.comp measurePreserving_fst
    have h3 := integral_map (μ := manyRuns 1 μ0) h2.measurable.aemeasurable (f := f) hf.aestronglyMeasurable
    rw [h2.map_eq] at h3
    exact h3.symm

/-- The hypotheses are met: standard normal prior, Gaussian likelihood, temperatures 1/2 and 1, the keys of one split; the probability of a positive coordinate. -/
example (key : Keys.Key) : ∃ q : ℝ → ℝ, IsNormalDraw q ∧ ∀ ε > 0, ∃ C : ℝ, ∀ (n : ℕ) [NeZero n] (cat : (Fin n → ℝ) → ℝ → Fin n), IsCategoricalReal cat → ∀ R : ℕ, 1 ≤ R →
    manyRuns n (stdNormal 1)
        {z | ε ≤ |pooledSmcMean (Set.indicator {x | 0 < x 0} 1) (fun r => ((tapeSmc cat (rwTape (d := 1) q (fun x => x 0 ^ 2 / 2) (fun x => (x 0 - 1) ^ 2 / 2)) (fun x => x 0 ^ 2 / 2) (fun x => (x 0 - 1) ^ 2 / 2)
          ⟨some [1 / 2, 1], 1, 2⟩ ⟨3, 0.9, 0.5, 0.00001, 1000⟩ 1 1 0 (r :: key) (z.1 r) z.2).state 1).1) R
          - temperedMean (stdNormal 1) (fun x => (x 0 - 1) ^ 2 / 2) 1 (Set.indicator {x | 0 < x 0} 1)|}
      ≤ ENNReal.ofReal (C / R) := by
  obtain ⟨q, hq⟩ := exists_isNormalDraw
  refine ⟨q, hq, fun ε hε => ?_⟩
  have h0 : ∀ j, scheduleAt [1 / 2, 1] j = if j = 0 then 1 / 2 else 1 := by
    intro j
    rcases j with _ | j <;> simp [scheduleAt]
  have hS : MeasurableSet {x : Fin 1 → ℝ | 0 < x 0} := measurableSet_lt measurable_const (measurable_pi_apply 0)
  obtain ⟨C, hC⟩ := C163_randomWalk (d := 1) hq (prior := fun x => x 0 ^ 2 / 2) (lik := fun x => (x 0 - 1) ^ 2 / 2) (by fun_prop) (by fun_prop) 0 (fun x => by positivity) [1 / 2, 1]
    (fun j => by rw [h0]; split <;> norm_num) (fun i j hij => by rw [h0, h0]; split <;> split <;> first | omega | norm_num) (stdNormal 1) (ENNReal.ofReal (Real.sqrt (2 * Real.pi))⁻¹) (by
      rw [stdNormal_eq_withDensity, ← withDensity_smul _ (by fun_prop)]
      congr 1
      funext x
      simp only [Finset.univ_unique, Finset.prod_singleton, Pi.smul_apply, smul_eq_mul]
      rw [← ENNReal.ofReal_mul (by positivity), ProbabilityTheory.gaussianPDFReal]
      congr 1
      simp
      exact Or.inl (by ring)) 1 (Set.indicator {x | 0 < x 0} 1) (measurable_one.indicator hS) 1 (fun x => by
      by_cases hx : x ∈ {x : Fin 1 → ℝ | 0 < x 0}
      · rw [Set.indicator_of_mem hx]; simp
      · rw [Set.indicator_of_notMem hx]; simp) ε hε
  refine ⟨C, fun n _ cat hcat R hR => ?_⟩
  have h1 := (hC n cat hcat ⟨some [1 / 2, 1], 1, 2⟩ rfl ⟨3, 0.9, 0.5, 0.00001, 1000⟩ 1 1 0 (fun r => r :: key) (fun _ _ h => below_disjoint h) R hR).2
  rw [h0] at h1
  exact h1

end Mocat.Props
