import Verif.Props.AbcSmcConsistency
import Verif.Lemmas.Pooling
import Verif.Lemmas.Subtape
/-!
# C164: ABC-SMC runs with separate keys can be pooled
-/
namespace Mocat.Props
open Mocat Mocat.Mcmc Mocat.Abc Mocat.AbcSmc Mocat.Ideal Mocat.Meas MeasureTheory ProbabilityTheory
open scoped ENNReal

variable {d : ℕ} {D : Type*}

/-! ## Specification -/

/-- The estimate of the probability of data within the threshold by one run: the product of the fractions of particles with weight at the resampling updates and of the last such fraction. -/
noncomputable def abcEvidence {n : ℕ} (thr : ℝ) (ens : ℕ → Ensemble n (Fin d → ℝ) D) (k : ℕ) : ℝ :=
  open Classical in
  (∏ j ∈ Finset.range k, if (liveSet (ens j)).Nonempty ∧ ((liveSet (ens j)).card : ℝ) < thr * n then ((liveSet (ens j)).card : ℝ) / n else 1) * ((liveSet (ens k)).card / n)

/-- The average of the estimates of the first `R` runs. -/
noncomputable def pooledAbcEvidence {n : ℕ} (thr : ℝ) (runs : ℕ → ℕ → Ensemble n (Fin d → ℝ) D) (k R : ℕ) : ℝ := (∑ r ∈ Finset.range R, abcEvidence thr (runs r) k) / R

/-- The average of the means of `f` of the first `R` runs, each run weighted by its estimate. -/
noncomputable def pooledAbcMean {n : ℕ} (thr : ℝ) (f : (Fin d → ℝ) × D → ℝ) (runs : ℕ → ℕ → Ensemble n (Fin d → ℝ) D) (k R : ℕ) : ℝ :=
  (∑ r ∈ Finset.range R, abcEvidence thr (runs r) k * abcMean f (runs r k)) / ∑ r ∈ Finset.range R, abcEvidence thr (runs r) k

/-! ## Ratios of averages of independent pairs -/

theorem pooled_ratio {Ω : Type*} [MeasurableSpace Ω] {μ : Measure Ω} [IsProbabilityMeasure μ] {L N : ℕ → Ω → ℝ} (hL : ∀ r, Measurable (L r)) (hN : ∀ r, Measurable (N r))
    (hind : Pairwise fun i j => IndepFun (fun ω => (L i ω, N i ω)) (fun ω => (L j ω, N j ω)) μ) {M B : ℝ} (hB0 : 0 ≤ B) (hL0 : ∀ r ω, 0 ≤ L r ω) (hLM : ∀ r ω, L r ω ≤ M) (hNB : ∀ r ω, |N r ω| ≤ B * L r ω)
    {Z Y : ℝ} (hEL : ∀ r, ∫ ω, L r ω ∂μ = Z) (hEN : ∀ r, ∫ ω, N r ω ∂μ = Y) (hZ0 : 0 < Z) {ε : ℝ} (hε : 0 < ε) {R : ℕ} (hR : 1 ≤ R) :
    μ {ω | ε ≤ |(∑ r ∈ Finset.range R, N r ω) / (∑ r ∈ Finset.range R, L r ω) - Y / Z|} ≤ ENNReal.ofReal (poolConst M B Z ε / R) := by
  have hLi : ∀ r, Integrable (L r) μ := fun r => Integrable.of_bound (hL r).aestronglyMeasurable M (ae_of_all _ fun ω => by rw [Real.norm_eq_abs, abs_of_nonneg (hL0 r ω)]; exact hLM r ω)
  have hNM : ∀ r ω, |N r ω| ≤ B * M := fun r ω => (hNB r ω).trans (mul_le_mul_of_nonneg_left (hLM r ω) hB0)
  have hNi : ∀ r, Integrable (N r) μ := fun r => Integrable.of_bound (hN r).aestronglyMeasurable (B * M) (ae_of_all _ fun ω => hNM r ω)
  have hR0 : (0 : ℝ) < R := by exact_mod_cast hR
  set θ := Y / Z with hθ
  have hθB : |θ| ≤ B := by
    rw [hθ, abs_div, abs_of_pos hZ0, div_le_iff₀ hZ0, ← hEN 0, ← hEL 0, ← integral_const_mul]
    exact (abs_integral_le_integral_abs).trans (integral_mono (hNi 0).abs ((hLi 0).const_mul B) fun ω => hNB 0 ω)
  have hLb := average_bound (Y := L) hL (fun i j h => (hind h).comp measurable_fst measurable_fst) (K := M) (c := Z) (fun r ω => by rw [abs_of_nonneg (hL0 r ω)]; exact hLM r ω) hEL (ε := Z / 2) (by positivity) hR
  have hmt : Measurable fun z : ℝ × ℝ => z.2 - θ * z.1 := measurable_snd.sub (measurable_fst.const_mul θ)
  have hDb := average_bound (Y := fun r ω => N r ω - θ * L r ω) (fun r => (hN r).sub ((hL r).const_mul θ)) (fun i j h => (hind h).comp hmt hmt) (K := 2 * B * M) (c := 0)
    (fun r ω => by
      refine (abs_sub _ _).trans ?_
      rw [abs_mul, abs_of_nonneg (hL0 r ω)]
      have h1 := mul_le_mul hθB (hLM r ω) (hL0 r ω) hB0
      linarith [hNM r ω])
    (fun r => by
      rw [integral_sub (hNi r) ((hLi r).const_mul θ), integral_const_mul, hEN, hEL, hθ]
      field_simp
      ring) (ε := ε * Z / 2) (by positivity) hR
  have hsub : {ω | ε ≤ |(∑ r ∈ Finset.range R, N r ω) / (∑ r ∈ Finset.range R, L r ω) - θ|}
      ⊆ {ω | Z / 2 ≤ |(∑ r ∈ Finset.range R, L r ω) / R - Z|} ∪ {ω | ε * Z / 2 ≤ |(∑ r ∈ Finset.range R, (N r ω - θ * L r ω)) / R - 0|} := by
    intro ω hω
    by_contra hn
    rw [Set.mem_union, not_or, Set.mem_ofPred_eq, Set.mem_ofPred_eq, not_le, not_le] at hn
    obtain ⟨h1, h2⟩ := hn
    rw [Set.mem_ofPred_eq] at hω
    rw [Finset.sum_sub_distrib, ← Finset.mul_sum, sub_zero] at h2
    generalize ∑ r ∈ Finset.range R, L r ω = a at *
    generalize ∑ r ∈ Finset.range R, N r ω = b at *
    have hL : Z / 2 < a / R := by have := (abs_lt.1 h1).1; linarith
    have ha : 0 < a := by
      have : 0 < a / R := by linarith
      exact (div_pos_iff_of_pos_right hR0).1 this
    have e2 : b - θ * a = (b / a - θ) * a := by field_simp
    rw [e2, mul_div_assoc, abs_mul, abs_of_pos (by positivity : 0 < a / R)] at h2
    have h3 : ε * (Z / 2) < ε * (a / R) := mul_lt_mul_of_pos_left hL hε
    have h4 : ε * (a / R) ≤ |b / a - θ| * (a / R) := mul_le_mul_of_nonneg_right hω (by positivity)
    linarith
  refine (measure_mono hsub).trans ((measure_union_le _ _).trans ((add_le_add hLb hDb).trans (le_of_eq ?_)))
  rw [← ENNReal.ofReal_add (by positivity) (by positivity), poolConst, add_div]

/-! ## Estimates of one run -/

theorem abcEvidence_eq {n : ℕ} (thr : ℝ) (ens : ℕ → Ensemble n (Fin d → ℝ) D) (k : ℕ) : (abcEstimate thr (fun _ => 1) ens k).toReal = abcEvidence thr ens k := by
  classical
  unfold abcEstimate abcEvidence
  rw [ENNReal.toReal_mul, ENNReal.toReal_mul, ENNReal.toReal_prod]
  congr 1
  · refine Finset.prod_congr rfl fun j _ => ?_
    split_ifs <;> simp
  · simp [div_eq_inv_mul]

theorem abcEvidence_nonneg {n : ℕ} (thr : ℝ) (ens : ℕ → Ensemble n (Fin d → ℝ) D) (k : ℕ) : 0 ≤ abcEvidence thr ens k := by
  rw [← abcEvidence_eq]
  exact ENNReal.toReal_nonneg

theorem abcEvidence_le_one {n : ℕ} (thr : ℝ) (ens : ℕ → Ensemble n (Fin d → ℝ) D) (k : ℕ) : abcEvidence thr ens k ≤ 1 := by
  classical
  have hc : ∀ j, ((liveSet (ens j)).card : ℝ) / n ≤ 1 := fun j => by
    have : ((liveSet (ens j)).card : ℝ) ≤ n := by exact_mod_cast (Finset.card_le_univ _).trans_eq (Fintype.card_fin n)
    exact div_le_one_of_le₀ this (Nat.cast_nonneg n)
  unfold abcEvidence
  refine mul_le_one₀ (Finset.prod_le_one (fun j _ => ?_) fun j _ => ?_) (by positivity) (hc k)
  · split_ifs <;> positivity
  · split_ifs
    · exact hc j
    · exact le_rfl

/-- The weighted mean of a run, through estimates of non-negative functions. -/
theorem abcEvidence_mul {n : ℕ} (thr : ℝ) (ens : ℕ → Ensemble n (Fin d → ℝ) D) (k : ℕ) {f : (Fin d → ℝ) × D → ℝ} {B : ℝ} (hB : ∀ z, |f z| ≤ B) :
    abcEvidence thr ens k * abcMean f (ens k) = (abcEstimate thr (fun z => ENNReal.ofReal (f z + B)) ens k).toReal - B * abcEvidence thr ens k := by
  obtain ⟨c, hc⟩ := abcEstimate_toReal thr ens k
  have h1 := hc (fun _ => 1) fun _ => zero_le_one
  simp only [ENNReal.ofReal_one] at h1
  rw [abcEvidence_eq] at h1
  rw [hc (fun z => f z + B) fun z => by have := (abs_le.1 (hB z)).1; linarith, h1]
  unfold abcMean
  rw [Finset.sum_add_distrib]
  simp only [Finset.sum_const, nsmul_eq_mul, mul_one]
  rcases (liveSet (ens k)).eq_empty_or_nonempty with h | h
  · simp [h]
  · have : ((liveSet (ens k)).card : ℝ) ≠ 0 := by exact_mod_cast h.card_pos.ne'
    field_simp
    ring

theorem abcMean_abs_le {n : ℕ} {f : (Fin d → ℝ) × D → ℝ} {B : ℝ} (hB0 : 0 ≤ B) (hB : ∀ z, |f z| ≤ B) (ens : Ensemble n (Fin d → ℝ) D) : |abcMean f ens| ≤ B := by
  unfold abcMean
  rw [abs_div, Nat.abs_cast]
  refine div_le_of_le_mul₀ (Nat.cast_nonneg _) hB0 ((Finset.abs_sum_le_sum_abs _ _).trans ((Finset.sum_le_sum fun i _ => hB _).trans (le_of_eq ?_)))
  rw [Finset.sum_const, nsmul_eq_mul, mul_comm]

section
variable {n : ℕ} [NeZero n] [MeasurableSpace D] {cat : (Fin n → Fl) → ℝ → Fin n} (hcat : IsCategorical cat) {q : ℝ → ℝ} (hq : IsNormalDraw q) {S : Set (Fin d → ℝ)} (hS : MeasurableSet S)
    {V : (Fin d → ℝ) → ℝ} (hV : Measurable V) {pri : Tape → Fin d → ℝ} {sim : (Fin d → ℝ) → Tape → D} (hsim : Measurable fun z : (Fin d → ℝ) × Tape => sim z.1 z.2) {dist : D → ℝ} (hdist : Measurable dist)
    (c : Config) (l : List ℝ) (hl : c.schedule = some (some l)) (p : Settings) (hR : 0 < p.mcmcSteps) (stp : Fin d → ℝ) (key : Keys.Key)
include hcat hq hS hV hsim hdist hl hR

/-- The estimates of a run depend on the tape below its key only. -/
theorem abcRunEst_below (k : ℕ) (f : (Fin d → ℝ) × D → ℝ≥0∞) :
    DependsOn (fun ω => abcEstimate p.essThresholdResample f (abcSmcRun cat S V pri sim dist q c p stp key ω) k) (below key) := by
  intro ω ω' h
  have e0 : abcStart (n := n) pri sim key ω = abcStart pri sim key ω' := by
    funext i
    have e1 := subtape_dependsOn ((i : ℕ) :: 1 :: key) fun s hs => h s (mem_below_cons (mem_below_cons hs))
    have e2 := subtape_dependsOn ((i : ℕ) :: n :: 0 :: key) fun s hs => h s (mem_below_cons (mem_below_cons (mem_below_cons hs)))
    unfold abcStart
    rw [e1, e2]
  have e3 := abcEst_below (n := n) (pri := pri) hcat hq hS hV hsim hdist c l hl p hR stp (n :: n :: 0 :: key) k f (abcStart pri sim key ω)
    (fun s hs => h s (mem_below_cons (mem_below_cons (mem_below_cons hs))))
  have e4 : abcEstimate p.essThresholdResample f (tapeAbcSmc cat S V pri sim dist q c p stp (n :: n :: 0 :: key) (abcStart pri sim key ω) ω) k
      = abcEstimate p.essThresholdResample f (tapeAbcSmc cat S V pri sim dist q c p stp (n :: n :: 0 :: key) (abcStart pri sim key ω') ω') k := by
    rw [← e0]
    exact e3
  exact e4

theorem abcEvidence_measurable (hpri : Measurable pri) (k : ℕ) : Measurable fun ω => abcEvidence p.essThresholdResample (abcSmcRun cat S V pri sim dist q c p stp key ω) k := by
  simp only [← abcEvidence_eq]
  exact (abcRunEst_measurable hcat hq hS hV hsim hdist c l hl p hR stp key hpri k measurable_const).ennreal_toReal

theorem abcNumerator_measurable (hpri : Measurable pri) (k : ℕ) {f : (Fin d → ℝ) × D → ℝ} (hf : Measurable f) {B : ℝ} (hB : ∀ z, |f z| ≤ B) :
    Measurable fun ω => abcEvidence p.essThresholdResample (abcSmcRun cat S V pri sim dist q c p stp key ω) k * abcMean f (abcSmcRun cat S V pri sim dist q c p stp key ω k) := by
  simp only [fun ω => abcEvidence_mul p.essThresholdResample (abcSmcRun cat S V pri sim dist q c p stp key ω) k hB]
  exact (abcRunEst_measurable hcat hq hS hV hsim hdist c l hl p hR stp key hpri k (hf.add_const B).ennreal_ofReal).ennreal_toReal.sub
    ((abcEvidence_measurable hcat hq hS hV hsim hdist c l hl p hR stp key hpri k).const_mul B)

theorem abcPair_below (k : ℕ) {f : (Fin d → ℝ) × D → ℝ} {B : ℝ} (hB : ∀ z, |f z| ≤ B) :
    DependsOn (fun ω => (abcEvidence p.essThresholdResample (abcSmcRun cat S V pri sim dist q c p stp key ω) k,
      abcEvidence p.essThresholdResample (abcSmcRun cat S V pri sim dist q c p stp key ω) k * abcMean f (abcSmcRun cat S V pri sim dist q c p stp key ω k))) (below key) := by
  intro ω ω' h
  simp only [fun ω => abcEvidence_mul p.essThresholdResample (abcSmcRun cat S V pri sim dist q c p stp key ω) k hB]
  simp only [← abcEvidence_eq]
  have h1 := abcRunEst_below hcat hq hS hV hsim hdist c l hl p hR stp key (pri := pri) k (fun _ => 1) h
  have h2 := abcRunEst_below hcat hq hS hV hsim hdist c l hl p hR stp key (pri := pri) k (fun z => ENNReal.ofReal (f z + B)) h
  beta_reduce at h1 h2
  rw [h1, h2]

/-- The expected estimates. -/
theorem abcRunEst_mean (hpri : Measurable pri) (a : ℝ≥0∞) (hprior : ideal.map pri = a • target S V) (hmono : ∀ j, AbcSmc.scheduleAt l (j + 1) ≤ AbcSmc.scheduleAt l j)
    (k : ℕ) (hatom : ∀ j < k, simulated (ideal.map pri) sim {z | dist z.2 = AbcSmc.scheduleAt l j} = 0) {g : (Fin d → ℝ) × D → ℝ} (hg : Measurable g) (hg0 : ∀ z, 0 ≤ g z) :
    ∫ ω, (abcEstimate p.essThresholdResample (fun z => ENNReal.ofReal (g z)) (abcSmcRun cat S V pri sim dist q c p stp key ω) k).toReal ∂ideal
      = ∫ z in {z | dist z.2 ≤ AbcSmc.scheduleAt l k}, g z ∂(simulated (ideal.map pri) sim) := by
  have h := C98_run_partial hcat hq hS hV hsim hdist c l hl p hR stp key hpri a hprior hmono k hatom _ hg.ennreal_ofReal
  rw [integral_eq_lintegral_of_nonneg_ae (ae_of_all _ hg0) hg.aestronglyMeasurable, ← h,
    integral_eq_lintegral_of_nonneg_ae (ae_of_all _ fun ω => ENNReal.toReal_nonneg) (abcRunEst_measurable hcat hq hS hV hsim hdist c l hl p hR stp key hpri k hg.ennreal_ofReal).ennreal_toReal.aestronglyMeasurable]
  congr 1
  refine lintegral_congr fun ω => ENNReal.ofReal_toReal ?_
  classical
  unfold abcEstimate
  refine ENNReal.mul_ne_top (ENNReal.prod_ne_top fun j _ => ?_) (ENNReal.mul_ne_top (ENNReal.inv_ne_top.2 (by exact_mod_cast NeZero.ne n)) (ENNReal.sum_ne_top.2 fun i _ => ENNReal.ofReal_ne_top))
  split_ifs
  · exact ENNReal.div_ne_top (ENNReal.natCast_ne_top _) (by exact_mod_cast NeZero.ne n)
  · exact ENNReal.one_ne_top

theorem abcEvidence_mean (hpri : Measurable pri) (a : ℝ≥0∞) (hprior : ideal.map pri = a • target S V) (hmono : ∀ j, AbcSmc.scheduleAt l (j + 1) ≤ AbcSmc.scheduleAt l j)
    (k : ℕ) (hatom : ∀ j < k, simulated (ideal.map pri) sim {z | dist z.2 = AbcSmc.scheduleAt l j} = 0) :
    ∫ ω, abcEvidence p.essThresholdResample (abcSmcRun cat S V pri sim dist q c p stp key ω) k ∂ideal = (simulated (ideal.map pri) sim).real {z | dist z.2 ≤ AbcSmc.scheduleAt l k} := by
  have h := abcRunEst_mean hcat hq hS hV hsim hdist c l hl p hR stp key hpri a hprior hmono k hatom (g := fun _ => 1) measurable_const fun _ => zero_le_one
  simp only [ENNReal.ofReal_one, abcEvidence_eq] at h
  rw [h]
  simp

theorem abcNumerator_mean (hpri : Measurable pri) (a : ℝ≥0∞) (hprior : ideal.map pri = a • target S V) (hmono : ∀ j, AbcSmc.scheduleAt l (j + 1) ≤ AbcSmc.scheduleAt l j)
    (k : ℕ) (hatom : ∀ j < k, simulated (ideal.map pri) sim {z | dist z.2 = AbcSmc.scheduleAt l j} = 0) {f : (Fin d → ℝ) × D → ℝ} (hf : Measurable f) {B : ℝ} (hB : ∀ z, |f z| ≤ B) :
    ∫ ω, abcEvidence p.essThresholdResample (abcSmcRun cat S V pri sim dist q c p stp key ω) k * abcMean f (abcSmcRun cat S V pri sim dist q c p stp key ω k) ∂ideal
      = ∫ z in {z | dist z.2 ≤ AbcSmc.scheduleAt l k}, f z ∂(simulated (ideal.map pri) sim) := by
  have hpair : Measurable fun z : (Fin d → ℝ) × Tape => (z.1, sim z.1 z.2) := measurable_fst.prodMk hsim
  have hprob : IsProbabilityMeasure (ideal.map pri) := Measure.isProbabilityMeasure_map hpri.aemeasurable
  have hprob2 : IsProbabilityMeasure (simulated (ideal.map pri) sim) := Measure.isProbabilityMeasure_map hpair.aemeasurable
  have hB0 : 0 ≤ B := (abs_nonneg _).trans (hB ((fun _ => 0 : Fin d → ℝ), sim (fun _ => 0) (fun _ => 0)))
  have hLm := abcEvidence_measurable hcat hq hS hV hsim hdist c l hl p hR stp key hpri k
  have hNm := abcNumerator_measurable hcat hq hS hV hsim hdist c l hl p hR stp key hpri k hf hB
  have hfi : Integrable f ((simulated (ideal.map pri) sim).restrict {z | dist z.2 ≤ AbcSmc.scheduleAt l k}) := Integrable.of_bound hf.aestronglyMeasurable B (ae_of_all _ fun z => hB z)
  have h := abcRunEst_mean hcat hq hS hV hsim hdist c l hl p hR stp key hpri a hprior hmono k hatom (g := fun z => f z + B) (hf.add_const B) fun z => by have := (abs_le.1 (hB z)).1; linarith
  have e : ∀ ω, (abcEstimate p.essThresholdResample (fun z => ENNReal.ofReal (f z + B)) (abcSmcRun cat S V pri sim dist q c p stp key ω) k).toReal
      = abcEvidence p.essThresholdResample (abcSmcRun cat S V pri sim dist q c p stp key ω) k * abcMean f (abcSmcRun cat S V pri sim dist q c p stp key ω k)
        + B * abcEvidence p.essThresholdResample (abcSmcRun cat S V pri sim dist q c p stp key ω) k := fun ω => by
    rw [abcEvidence_mul _ _ _ hB]
    ring
  simp only [e] at h
  have hLi : Integrable (fun ω => abcEvidence p.essThresholdResample (abcSmcRun cat S V pri sim dist q c p stp key ω) k) ideal :=
    Integrable.of_bound hLm.aestronglyMeasurable 1 (ae_of_all _ fun ω => by rw [Real.norm_eq_abs, abs_of_nonneg (abcEvidence_nonneg _ _ _)]; exact abcEvidence_le_one _ _ _)
  have hNi := Integrable.of_bound (μ := ideal) hNm.aestronglyMeasurable B (ae_of_all _ fun ω => by
    rw [Real.norm_eq_abs, abs_mul, abs_of_nonneg (abcEvidence_nonneg _ _ _)]
    exact (mul_le_mul (abcEvidence_le_one _ _ _) (abcMean_abs_le hB0 hB _) (abs_nonneg _) zero_le_one).trans_eq (one_mul B))
  rw [integral_add hNi (hLi.const_mul B), integral_const_mul, abcEvidence_mean hcat hq hS hV hsim hdist c l hl p hR stp key hpri a hprior hmono k hatom, integral_add hfi (integrable_const B), integral_const,
    measureReal_restrict_apply MeasurableSet.univ, Set.univ_inter, smul_eq_mul, mul_comm B] at h
  exact add_right_cancel h

end

/-! ## C164 -/

section
variable [MeasurableSpace D] {q : ℝ → ℝ} (hq : IsNormalDraw q) {S : Set (Fin d → ℝ)} (hS : MeasurableSet S)
    {V : (Fin d → ℝ) → ℝ} (hV : Measurable V) {pri : Tape → Fin d → ℝ} {sim : (Fin d → ℝ) → Tape → D} (hsim : Measurable fun z : (Fin d → ℝ) × Tape => sim z.1 z.2) {dist : D → ℝ} (hdist : Measurable dist)
    (l : List ℝ) (hpri : Measurable pri) (a : ℝ≥0∞) (hprior : ideal.map pri = a • target S V) (hmono : ∀ j, AbcSmc.scheduleAt l (j + 1) ≤ AbcSmc.scheduleAt l j)
    (k : ℕ) (hatom : ∀ j < k, simulated (ideal.map pri) sim {z | dist z.2 = AbcSmc.scheduleAt l j} = 0)
include hq hS hV hsim hdist hpri hprior hmono hatom

/-- C164, the probability of data within the threshold: for every number of particles, configuration, stepsizes and family of keys without common splits, and any number `R ≥ 1` of runs. -/
theorem C164_evidence (ε : ℝ) (hε : 0 < ε) (n : ℕ) [NeZero n] (cat : (Fin n → Fl) → ℝ → Fin n) (hcat : IsCategorical cat) (c : Config) (hl : c.schedule = some (some l)) (p : Settings) (hR : 0 < p.mcmcSteps)
    (stp : Fin d → ℝ) (keys : ℕ → Keys.Key) (hk : ∀ a b, a ≠ b → Disjoint (below (keys a)) (below (keys b))) (R : ℕ) (hR1 : 1 ≤ R) :
    ideal {ω | ε ≤ |pooledAbcEvidence p.essThresholdResample (fun r => abcSmcRun cat S V pri sim dist q c p stp (keys r) ω) k R
      - (simulated (ideal.map pri) sim).real {z | dist z.2 ≤ AbcSmc.scheduleAt l k}|} ≤ ENNReal.ofReal (1 / ε ^ 2 / R) := by
  have hE := fun r => abcEvidence_mean hcat hq hS hV hsim hdist c l hl p hR stp (keys r) hpri a hprior hmono k hatom
  have hmeas := fun r => abcEvidence_measurable hcat hq hS hV hsim hdist c l hl p hR stp (keys r) hpri k
  have hind := iIndepFun_of_dependsOn (S := fun r => below (keys r)) hk hmeas fun r => by
    have h := abcPair_below (pri := pri) hcat hq hS hV hsim hdist c l hl p hR stp (keys r) k (f := fun _ => 0) (B := 0) fun _ => by simp
    intro ω ω' h'
    exact congrArg Prod.fst (h h')
  have h := average_bound hmeas (fun i j hij => hind.indepFun hij) (K := 1) (fun r ω => by rw [abs_of_nonneg (abcEvidence_nonneg _ _ _)]; exact abcEvidence_le_one _ _ _) hE hε hR1
  rw [one_pow] at h
  exact h

/-- C164, ABC posterior expectations. -/
theorem C164_mean (hpos : 0 < simulated (ideal.map pri) sim {z | dist z.2 ≤ AbcSmc.scheduleAt l k}) (f : (Fin d → ℝ) × D → ℝ) (hf : Measurable f) (B : ℝ) (hB : ∀ z, |f z| ≤ B) (ε : ℝ) (hε : 0 < ε) :
    ∃ C : ℝ, ∀ (n : ℕ) [NeZero n] (cat : (Fin n → Fl) → ℝ → Fin n), IsCategorical cat → ∀ c : Config, c.schedule = some (some l) → ∀ p : Settings, 0 < p.mcmcSteps →
      ∀ (stp : Fin d → ℝ) (keys : ℕ → Keys.Key), (∀ a b, a ≠ b → Disjoint (below (keys a)) (below (keys b))) → ∀ R : ℕ, 1 ≤ R →
      ideal {ω | ε ≤ |pooledAbcMean p.essThresholdResample f (fun r => abcSmcRun cat S V pri sim dist q c p stp (keys r) ω) k R
        - abcPosteriorMean (simulated (ideal.map pri) sim) dist (AbcSmc.scheduleAt l k) f|} ≤ ENNReal.ofReal (C / R) := by
  have hpair : Measurable fun z : (Fin d → ℝ) × Tape => (z.1, sim z.1 z.2) := measurable_fst.prodMk hsim
  have hprob : IsProbabilityMeasure (ideal.map pri) := Measure.isProbabilityMeasure_map hpri.aemeasurable
  have hprob2 : IsProbabilityMeasure (simulated (ideal.map pri) sim) := Measure.isProbabilityMeasure_map hpair.aemeasurable
  have hB0 : 0 ≤ B := (abs_nonneg _).trans (hB ((fun _ => 0 : Fin d → ℝ), sim (fun _ => 0) (fun _ => 0)))
  refine ⟨poolConst 1 B ((simulated (ideal.map pri) sim).real {z | dist z.2 ≤ AbcSmc.scheduleAt l k}) ε, fun n _ cat hcat c hl p hR stp keys hk R hR1 => ?_⟩
  have hm0 : 0 < (simulated (ideal.map pri) sim).real {z | dist z.2 ≤ AbcSmc.scheduleAt l k} := ENNReal.toReal_pos hpos.ne' (measure_ne_top _ _)
  have hE := fun r => abcEvidence_mean hcat hq hS hV hsim hdist c l hl p hR stp (keys r) hpri a hprior hmono k hatom
  have hN := fun r => abcNumerator_mean hcat hq hS hV hsim hdist c l hl p hR stp (keys r) hpri a hprior hmono k hatom hf hB
  have hLm := fun r => abcEvidence_measurable hcat hq hS hV hsim hdist c l hl p hR stp (keys r) hpri k
  have hNm := fun r => abcNumerator_measurable hcat hq hS hV hsim hdist c l hl p hR stp (keys r) hpri k hf hB
  have hind := iIndepFun_of_dependsOn (S := fun r => below (keys r)) hk (fun r => (hLm r).prodMk (hNm r)) fun r => abcPair_below (pri := pri) hcat hq hS hV hsim hdist c l hl p hR stp (keys r) k hB
  exact pooled_ratio hLm hNm (fun i j hij => hind.indepFun hij) hB0 (fun r ω => abcEvidence_nonneg _ _ _) (fun r ω => abcEvidence_le_one _ _ _)
    (fun r ω => by
      rw [abs_mul, abs_of_nonneg (abcEvidence_nonneg _ _ _), mul_comm]
      exact mul_le_mul_of_nonneg_right (abcMean_abs_le hB0 hB _) (abcEvidence_nonneg _ _ _)) hE hN hm0 hε hR1

/-- C164: without the weights the average is wrong. The means of runs with one particle and no update average to the expectation of `f` on the event that the data are within the threshold, not to its expectation given
that event. -/
theorem C164_unweighted (hk0 : k = 0) (f : (Fin d → ℝ) × D → ℝ) (hf : Measurable f) (B : ℝ) (hB : ∀ z, |f z| ≤ B) (cat : (Fin 1 → Fl) → ℝ → Fin 1) (hcat : IsCategorical cat)
    (c : Config) (hl : c.schedule = some (some l)) (p : Settings) (hR : 0 < p.mcmcSteps) (stp : Fin d → ℝ) (key : Keys.Key) :
    ∫ ω, abcMean f (abcSmcRun cat S V pri sim dist q c p stp key ω k) ∂ideal
      = (simulated (ideal.map pri) sim).real {z | dist z.2 ≤ AbcSmc.scheduleAt l k} * abcPosteriorMean (simulated (ideal.map pri) sim) dist (AbcSmc.scheduleAt l k) f := by
  subst hk0
  have hpair : Measurable fun z : (Fin d → ℝ) × Tape => (z.1, sim z.1 z.2) := measurable_fst.prodMk hsim
  have hprob : IsProbabilityMeasure (ideal.map pri) := Measure.isProbabilityMeasure_map hpri.aemeasurable
  have hprob2 : IsProbabilityMeasure (simulated (ideal.map pri) sim) := Measure.isProbabilityMeasure_map hpair.aemeasurable
  have h := abcNumerator_mean hcat hq hS hV hsim hdist c l hl p hR stp key hpri a hprior hmono 0 hatom hf hB
  have e : ∀ ω, abcEvidence p.essThresholdResample (abcSmcRun cat S V pri sim dist q c p stp key ω) 0 * abcMean f (abcSmcRun cat S V pri sim dist q c p stp key ω 0)
      = abcMean f (abcSmcRun cat S V pri sim dist q c p stp key ω 0) := fun ω => by
    unfold abcEvidence abcMean
    have h1 : (liveSet (abcSmcRun cat S V pri sim dist q c p stp key ω 0)).card ≤ 1 := (Finset.card_le_univ _).trans_eq (Fintype.card_fin 1)
    interval_cases (liveSet (abcSmcRun cat S V pri sim dist q c p stp key ω 0)).card <;> simp
  simp only [e] at h
  rw [h, abcPosteriorMean]
  by_cases hm : (simulated (ideal.map pri) sim).real {z | dist z.2 ≤ AbcSmc.scheduleAt l 0} = 0
  · rw [hm, zero_mul, setIntegral_measure_zero _ ((measureReal_eq_zero_iff (measure_ne_top _ _)).1 hm)]
  · field_simp

end

/-- The hypotheses are met: prior uniform on `[0, 1)`, data with one normal error, distance to the observation 1, thresholds 2 and 1, runs of two particles whose keys are the splits of one key. -/
example (key : Keys.Key) (cat : (Fin 2 → Fl) → ℝ → Fin 2) (hcat : IsCategorical cat) : ∃ q : ℝ → ℝ, IsNormalDraw q ∧ ∀ (k : ℕ) (ε : ℝ), 0 < ε → ∃ C : ℝ, ∀ R : ℕ, 1 ≤ R →
    ideal {ω | ε ≤ |pooledAbcMean (1 / 2) (Set.indicator {z | 1 / 2 < z.1 0} 1) (fun r => abcSmcRun cat (seg 1) (fun _ => Real.log 1) (unifDraw 1) (fun x τ => x 0 + q (τ ([], 0))) (fun y => |y - 1|) q
      ⟨some (some [2, 1]), 2⟩ ⟨3, 9 / 10, 1 / 2, 1 / 100⟩ (fun _ => 2) (r :: key) ω) k R
      - abcPosteriorMean (simulated (ideal.map (unifDraw 1)) fun x τ => x 0 + q (τ ([], 0))) (fun y => |y - 1|) (AbcSmc.scheduleAt [2, 1] k) (Set.indicator {z | 1 / 2 < z.1 0} 1)|} ≤ ENNReal.ofReal (C / R) := by
  obtain ⟨q, hq⟩ := exists_isNormalDraw
  have hp : IsProbabilityMeasure (ideal.map (unifDraw 1)) := Measure.isProbabilityMeasure_map (measurable_unifDraw 1).aemeasurable
  refine ⟨q, hq, fun k ε hε => ?_⟩
  have hsch : (0 : ℝ) < AbcSmc.scheduleAt [2, 1] k := by rcases k with - | - | k <;> norm_num [AbcSmc.scheduleAt]
  have hS : MeasurableSet {z : (Fin 1 → ℝ) × ℝ | 1 / 2 < z.1 0} := measurableSet_lt measurable_const ((measurable_pi_apply 0).comp measurable_fst)
  obtain ⟨C, hC⟩ := C164_mean (d := 1) hq (measurableSet_seg 1) (V := fun _ => Real.log 1) measurable_const (sim := fun x τ => x 0 + q (τ ([], 0))) (measurable_noisySim hq) (dist := fun y => |y - 1|) (by fun_prop) [2, 1]
    (measurable_unifDraw 1) 1 (by rw [one_smul]; exact unifDraw_law one_pos) (fun j => by rcases j with - | - | j <;> norm_num [AbcSmc.scheduleAt]) k (fun j _ => noisySim_no_atom hq _ _)
    (noisySim_pos hq hsch _) (Set.indicator {z | 1 / 2 < z.1 0} 1) (measurable_one.indicator hS) 1 (fun z => by
      by_cases hz : z ∈ {z : (Fin 1 → ℝ) × ℝ | 1 / 2 < z.1 0}
      · rw [Set.indicator_of_mem hz]; simp
      · rw [Set.indicator_of_notMem hz]; simp) ε hε
  exact ⟨C, fun R hR => hC 2 cat hcat ⟨some (some [2, 1]), 2⟩ rfl ⟨3, 9 / 10, 1 / 2, 1 / 100⟩ (by norm_num) (fun _ => 2) (fun r => r :: key) (fun a b h => below_disjoint h) R hR⟩

end Mocat.Props
