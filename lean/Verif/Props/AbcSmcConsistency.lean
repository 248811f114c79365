import Verif.Lemmas.AliveVariance
import Verif.Props.AbcSmcLaw
/-!
# C123: ABC-SMC converges as the ensemble grows

The draws come from an ideal generator (`Verif.Spec.Tape`); the inner sampler is `RandomWalkABC` with `Metropolis` and a fixed stepsize, the thresholds are a fixed schedule.
-/
namespace Mocat.Props
open Mocat Mocat.Mcmc Mocat.Abc Mocat.AbcSmc Mocat.Ideal Mocat.Meas MeasureTheory ProbabilityTheory
open scoped ENNReal

variable {d : ℕ} {D : Type*}

/-- Specification: the mean of `f` over the particles that have weight (0 if there is none). -/
noncomputable def abcMean {n : ℕ} (f : (Fin d → ℝ) × D → ℝ) (ens : Ensemble n (Fin d → ℝ) D) : ℝ := (∑ i ∈ liveSet ens, f ((ens i).mc.value, (ens i).mc.data)) / (liveSet ens).card

/-- Specification: the expectation of `f` under the law `μ` of parameter and data, given data with distance at most `t`. -/
noncomputable def abcPosteriorMean [MeasurableSpace D] (μ : Measure ((Fin d → ℝ) × D)) (dist : D → ℝ) (t : ℝ) (f : (Fin d → ℝ) × D → ℝ) : ℝ :=
  (∫ z in {z | dist z.2 ≤ t}, f z ∂μ) / μ.real {z | dist z.2 ≤ t}

/-- Chebyshev's inequality for estimates with a second moment near the squared mean. -/
theorem est_concentrates {Ω Z : Type*} [MeasurableSpace Ω] [MeasurableSpace Z] (P : Measure Ω) [IsProbabilityMeasure P] (Γ : Measure Z) [IsFiniteMeasure Γ] {n : ℕ} [NeZero n] (k : ℕ)
    {E : (Z → ℝ≥0∞) → Ω → ℝ≥0∞} (hE : ∀ g, Measurable g → Measurable (E g)) (h1 : ∀ g, Measurable g → ∫⁻ ω, E g ω ∂P = ∫⁻ z, g z ∂Γ)
    (h2 : ∀ g, Measurable g → ∀ B, (∀ z, g z ≤ B) → ∫⁻ ω, E g ω ^ 2 ∂P ≤ (∫⁻ z, g z ∂Γ) ^ 2 + (k + 1) * B ^ 2 / n)
    (g : Z → ℝ) (b : ℝ) (hg : Measurable g) (hb : 0 ≤ b) (hg0 : ∀ x, 0 ≤ g x) (hgb : ∀ x, g x ≤ b) (δ : ℝ) (hδ : 0 < δ) :
    P {ω | δ ≤ |(E (fun z => ENNReal.ofReal (g z)) ω).toReal - ∫ z, g z ∂Γ|} ≤ ENNReal.ofReal ((k + 1) * b ^ 2 / n / δ ^ 2) := by
  have hn : (0 : ℝ) < n := by exact_mod_cast Nat.pos_of_ne_zero (NeZero.ne n)
  have hgm : Measurable fun x => ENNReal.ofReal (g x) := ENNReal.measurable_ofReal.comp hg
  have hle : ∀ x, ENNReal.ofReal (g x) ≤ ENNReal.ofReal b := fun x => ENNReal.ofReal_le_ofReal (hgb x)
  have hfin : ∫⁻ x, ENNReal.ofReal (g x) ∂Γ ≠ ∞ := by
    refine ne_top_of_le_ne_top ?_ (lintegral_mono hle)
    rw [lintegral_const]
    exact ENNReal.mul_ne_top ENNReal.ofReal_ne_top (measure_ne_top _ _)
  have hv : (k + 1) * (ENNReal.ofReal b) ^ 2 / n = ENNReal.ofReal ((k + 1) * b ^ 2 / n) := by
    rw [ENNReal.ofReal_div_of_pos hn, ENNReal.ofReal_mul (by positivity), ENNReal.ofReal_pow hb, ENNReal.ofReal_natCast, ENNReal.ofReal_add (by positivity) zero_le_one, ENNReal.ofReal_natCast, ENNReal.ofReal_one]
  have h := Smc.chebyshev P (hE _ hgm) hfin (v := ENNReal.ofReal ((k + 1) * b ^ 2 / n)) ENNReal.ofReal_ne_top (h1 _ hgm) (by rw [← hv]; exact h2 _ hgm _ hle) hδ
  rw [← ENNReal.ofReal_div_of_pos (by positivity)] at h
  rw [integral_eq_lintegral_of_nonneg_ae (Filter.Eventually.of_forall hg0) hg.aestronglyMeasurable]
  exact h

/-- The estimate of a non-negative real function. -/
theorem abcEstimate_toReal {n : ℕ} (thr : ℝ) (ens : ℕ → Ensemble n (Fin d → ℝ) D) (k : ℕ) :
    ∃ c : ℝ, ∀ g : (Fin d → ℝ) × D → ℝ, (∀ z, 0 ≤ g z) →
      (abcEstimate thr (fun z => ENNReal.ofReal (g z)) ens k).toReal = c * ∑ i ∈ liveSet (ens k), g ((ens k i).mc.value, (ens k i).mc.data) := by
  classical
  refine ⟨(∏ j ∈ Finset.range k, if (liveSet (ens j)).Nonempty ∧ ((liveSet (ens j)).card : ℝ) < thr * n then ((liveSet (ens j)).card : ℝ≥0∞) / n else 1).toReal * ((n : ℝ≥0∞)⁻¹).toReal, fun g hg => ?_⟩
  unfold abcEstimate
  have e : (∑ i ∈ liveSet (ens k), ENNReal.ofReal (g ((ens k i).mc.value, (ens k i).mc.data))).toReal = ∑ i ∈ liveSet (ens k), g ((ens k i).mc.value, (ens k i).mc.data) := by
    rw [ENNReal.toReal_sum fun i _ => ENNReal.ofReal_ne_top]
    exact Finset.sum_congr rfl fun i _ => ENNReal.toReal_ofReal (hg _)
  rw [ENNReal.toReal_mul, ENNReal.toReal_mul, e, mul_assoc]

section
variable {n : ℕ} [NeZero n] [MeasurableSpace D] {cat : (Fin n → Fl) → ℝ → Fin n} (hcat : IsCategorical cat) {q : ℝ → ℝ} (hq : IsNormalDraw q) {S : Set (Fin d → ℝ)} (hS : MeasurableSet S)
    {V : (Fin d → ℝ) → ℝ} (hV : Measurable V) {pri : Tape → Fin d → ℝ} {sim : (Fin d → ℝ) → Tape → D} (hsim : Measurable fun z : (Fin d → ℝ) × Tape => sim z.1 z.2) {dist : D → ℝ} (hdist : Measurable dist)
    (c : Config) (l : List ℝ) (hl : c.schedule = some (some l)) (p : Settings) (hR : 0 < p.mcmcSteps) (stp : Fin d → ℝ) (key : Keys.Key)
include hcat hq hS hV hsim hdist hl hR

/-- The second moment from uncorrelated initial particles. -/
theorem abc_second_moment (hmono : ∀ j, AbcSmc.scheduleAt l (j + 1) ≤ AbcSmc.scheduleAt l j)
    (a : ℝ≥0∞) (μ : Measure ((Fin d → ℝ) × D)) (hμ : μ = a • ((target S V).prod ideal).map fun z => (z.1, sim z.1 z.2)) (P0 : Measure (Fin n → (Fin d → ℝ) × D)) [IsProbabilityMeasure P0]
    (hP0 : ∀ i, P0.map (fun z => z i) = μ)
    (hind : ∀ {h : (Fin d → ℝ) × D → ℝ≥0∞}, Measurable h → ∀ i j, i ≠ j → ∫⁻ w, h (w i) * h (w j) ∂P0 = (∫⁻ w, h (w i) ∂P0) * ∫⁻ w, h (w j) ∂P0)
    (k : ℕ) (hatom : ∀ j < k, μ {z | dist z.2 = AbcSmc.scheduleAt l j} = 0) (f : (Fin d → ℝ) × D → ℝ≥0∞) (hf : Measurable f) (B : ℝ≥0∞) (hB : ∀ z, f z ≤ B) :
    ∫⁻ z0, ∫⁻ ω, abcEstimate p.essThresholdResample f (tapeAbcSmc cat S V pri sim dist q c p stp key z0 ω) k ^ 2 ∂ideal ∂P0
      ≤ (∫⁻ z in {z | dist z.2 ≤ AbcSmc.scheduleAt l k}, f z ∂μ) ^ 2 + (k + 1) * B ^ 2 / n := by
  simp_rw [fun z0 ω => abcEstimate_eq (S := S) (V := V) (pri := pri) (sim := sim) (dist := dist) (q := q) cat c p stp key z0 ω hR l hl f k]
  have hball : ∀ t, MeasurableSet (ball (fun y => Fl.fin (dist y)) (Fl.fin t)) := fun t => by
    change MeasurableSet {y | dist y < t}
    exact measurableSet_lt hdist measurable_const
  have hw : ∀ t, MeasurableSet (within (d := d) dist t) := fun t => measurableSet_le (hdist.comp measurable_snd) measurable_const
  have hm := fun t => measurable_abcMove hS hV (hball t) hsim fun i => Real.sqrt (stp i)
  refine Alive.lintegral_sq_iter (A := fun k => within dist (AbcSmc.scheduleAt l k)) (fun k => hw _) (fun A => hcat.measurable _) (fun A hA j => aliveCat_prob hcat A hA.1 j) (fun A hA => hA.1)
    (mv := fun k => abcMoves S V sim dist q p.mcmcSteps (AbcSmc.scheduleAt l k) stp)
    (fun t k => measurable_tapeIter (abcDraws_draws hq) (hm _) _ _) (fun t k x => tapeIter_dependsOn (abcDraws_draws hq) _ _ _ _)
    (P := fun k => (stepOp (((stdNormal d).prod ideal).prod unif) (abcMove S V sim (ball (fun y => Fl.fin (dist y)) (Fl.fin (AbcSmc.scheduleAt l k))) fun i => Real.sqrt (stp i)))^[p.mcmcSteps])
    (fun t k x h hh => lintegral_tapeIter (abcDraws_draws hq) (hm _) _ _ _ hh) (fun t h hh => measurable_stepOp_iterate (hm _) _ hh) key (fun k z hz => le_trans hz (hmono k)) μ P0 hP0 hind k
    (fun k hk h hh => ?_) hf hB
  set t := AbcSmc.scheduleAt l k
  have hae : within (d := d) dist t =ᵐ[μ] {z | z.2 ∈ ball (fun y => Fl.fin (dist y)) (Fl.fin t)} := by
    have h0 := hatom k hk
    rw [measure_eq_zero_iff_ae_notMem] at h0
    filter_upwards [h0] with z hz
    refine propext ⟨fun h1 => lt_of_le_of_ne h1 hz, fun h1 => le_of_lt h1⟩
  have hres : μ.restrict {z : (Fin d → ℝ) × D | z.2 ∈ ball (fun y => Fl.fin (dist y)) (Fl.fin t)} = a • abcTarget S V sim (ball (fun y => Fl.fin (dist y)) (Fl.fin t)) := by
    rw [hμ, Measure.restrict_smul]; rfl
  rw [Measure.restrict_congr_set hae, hres, lintegral_smul_measure, lintegral_smul_measure]
  congr 1
  exact stepOp_invariant (hm t) (fun f hf => abcMove_invariant hS hV (hball t) hsim _ f hf) _ hh

omit [NeZero n] hcat hq hS hV hdist hl hR in
/-- Distinct initial particles of a run are drawn with distinct keys. -/
theorem abcStart_uncorrelated (hpri : Measurable pri) {h : (Fin d → ℝ) × D → ℝ≥0∞} (hh : Measurable h) (i j : Fin n) (hij : i ≠ j) :
    ∫⁻ w, h (w i) * h (w j) ∂(ideal.map (abcStart (n := n) pri sim key))
      = (∫⁻ w, h (w i) ∂(ideal.map (abcStart (n := n) pri sim key))) * ∫⁻ w, h (w j) ∂(ideal.map (abcStart (n := n) pri sim key)) := by
  have h0 := measurable_abcStart (n := n) hsim key hpri
  have hi : ∀ i : Fin n, Measurable fun w : Fin n → (Fin d → ℝ) × D => h (w i) := fun i => hh.comp (measurable_pi_apply i)
  have hij' : Measurable fun w : Fin n → (Fin d → ℝ) × D => h (w i) * h (w j) := (hi i).mul (hi j)
  rw [lintegral_map hij' h0, lintegral_map (hi i) h0, lintegral_map (hi j) h0]
  have hH : ∀ i : Fin n, Measurable fun ω => h (abcStart (n := n) pri sim key ω i) := fun i => (hi i).comp h0
  have hd : ∀ i : Fin n, DependsOn (fun ω => h (abcStart (n := n) pri sim key ω i)) (below ((i : ℕ) :: 1 :: key) ∪ below ((i : ℕ) :: n :: 0 :: key)) := by
    intro i ω ω' hω
    have e1 := subtape_dependsOn ((i : ℕ) :: 1 :: key) fun s hs => hω s (Or.inl hs)
    have e2 := subtape_dependsOn ((i : ℕ) :: n :: 0 :: key) fun s hs => hω s (Or.inr hs)
    simp only [abcStart]
    rw [e1, e2]
  have hne : (i : ℕ) ≠ j := fun e => hij (Fin.ext e)
  have h10 : Disjoint (below (1 :: key)) (below (0 :: key)) := below_disjoint (by decide)
  have hdis : Disjoint (below ((i : ℕ) :: 1 :: key) ∪ below ((i : ℕ) :: n :: 0 :: key)) (below ((j : ℕ) :: 1 :: key) ∪ below ((j : ℕ) :: n :: 0 :: key)) := by
    rw [Set.disjoint_left]
    rintro s (h1 | h1) (h2 | h2)
    · exact Set.disjoint_left.mp (below_disjoint hne) h1 h2
    · exact Set.disjoint_left.mp h10 (mem_below_cons h1) (mem_below_cons (mem_below_cons h2))
    · exact Set.disjoint_left.mp h10 (mem_below_cons h2) (mem_below_cons (mem_below_cons h1))
    · exact Set.disjoint_left.mp (below_disjoint hne) h1 h2
  have e := fresh hdis (f := fun ω => h (abcStart (n := n) pri sim key ω i)) (g := fun a ω => a * h (abcStart (n := n) pri sim key ω j)) (hH i) (hd i)
    (measurable_fst.mul ((hH j).comp measurable_snd)) (fun a ω ω' hω => congrArg (fun b => a * b) (hd j hω))
  rw [e, ← lintegral_mul_const _ (hH i)]
  exact lintegral_congr fun ω => lintegral_const_mul _ (hH j)

/-- The expectation of a function of the estimate of a run without initial state. -/
theorem lintegral_abcSmcRun_comp (hpri : Measurable pri) (k : ℕ) {f : (Fin d → ℝ) × D → ℝ≥0∞} (hf : Measurable f) {φ : ℝ≥0∞ → ℝ≥0∞} (hφ : Measurable φ) :
    ∫⁻ ω, φ (abcEstimate p.essThresholdResample f (abcSmcRun cat S V pri sim dist q c p stp key ω) k) ∂ideal
      = ∫⁻ z0, ∫⁻ ω, φ (abcEstimate p.essThresholdResample f (tapeAbcSmc cat S V pri sim dist q c p stp (n :: n :: 0 :: key) z0 ω) k) ∂ideal ∂(ideal.map (abcStart (n := n) pri sim key)) := by
  have hm : Measurable fun w : (Fin n → (Fin d → ℝ) × D) × Tape => φ (abcEstimate p.essThresholdResample f (tapeAbcSmc cat S V pri sim dist q c p stp (n :: n :: 0 :: key) w.1 w.2) k) :=
    hφ.comp (abcEst_measurable (n := n) (pri := pri) hcat hq hS hV hsim hdist c l hl p hR stp (n :: n :: 0 :: key) k hf)
  have h0 := measurable_abcStart (n := n) hsim key hpri
  rw [lintegral_map (Measurable.lintegral_prod_right hm) h0]
  have hdep : DependsOn (abcStart (n := n) pri sim key) (⋃ i : Fin n, below ((i : ℕ) :: 1 :: key) ∪ below ((i : ℕ) :: n :: 0 :: key)) := by
    intro ω ω' h
    funext i
    have e1 := subtape_dependsOn ((i : ℕ) :: 1 :: key) fun s hs => h s (Set.mem_iUnion.2 ⟨i, Or.inl hs⟩)
    have e2 := subtape_dependsOn ((i : ℕ) :: n :: 0 :: key) fun s hs => h s (Set.mem_iUnion.2 ⟨i, Or.inr hs⟩)
    unfold abcStart
    rw [e1, e2]
  refine fresh (T := below (n :: n :: 0 :: key)) ?_ (f := abcStart (n := n) pri sim key)
    (g := fun z0 ω => φ (abcEstimate p.essThresholdResample f (tapeAbcSmc cat S V pri sim dist q c p stp (n :: n :: 0 :: key) z0 ω) k)) h0 hdep hm
    (fun z0 ω ω' hω => congrArg φ (abcEst_below hcat hq hS hV hsim hdist c l hl p hR stp _ k f z0 hω))
  rw [Set.disjoint_left]
  intro s hs h2
  obtain ⟨i, hs | hs⟩ := Set.mem_iUnion.1 hs
  · exact Set.disjoint_left.mp (below_disjoint (by decide : (1 : ℕ) ≠ 0)) (mem_below_cons hs) (mem_below_cons (mem_below_cons h2))
  · exact Set.disjoint_left.mp (below_disjoint i.is_lt.ne) hs h2

theorem abcRunEst_measurable (hpri : Measurable pri) (k : ℕ) {f : (Fin d → ℝ) × D → ℝ≥0∞} (hf : Measurable f) :
    Measurable fun ω => abcEstimate p.essThresholdResample f (abcSmcRun cat S V pri sim dist q c p stp key ω) k := by
  have hm := (abcEst_measurable (n := n) (pri := pri) hcat hq hS hV hsim hdist c l hl p hR stp (n :: n :: 0 :: key) k hf).comp
    ((measurable_abcStart (n := n) hsim key hpri).prodMk measurable_id)
  exact hm

/-- Deviations of the estimates of a run. -/
theorem abc_run_concentrates (hpri : Measurable pri) (a : ℝ≥0∞) (hprior : ideal.map pri = a • target S V) (hmono : ∀ j, AbcSmc.scheduleAt l (j + 1) ≤ AbcSmc.scheduleAt l j)
    (k : ℕ) (hatom : ∀ j < k, simulated (ideal.map pri) sim {z | dist z.2 = AbcSmc.scheduleAt l j} = 0)
    (g : (Fin d → ℝ) × D → ℝ) (b : ℝ) (hg : Measurable g) (hb : 0 ≤ b) (hg0 : ∀ x, 0 ≤ g x) (hgb : ∀ x, g x ≤ b) (δ : ℝ) (hδ : 0 < δ) :
    ideal {ω | δ ≤ |(abcEstimate p.essThresholdResample (fun z => ENNReal.ofReal (g z)) (abcSmcRun cat S V pri sim dist q c p stp key ω) k).toReal
        - ∫ z in {z | dist z.2 ≤ AbcSmc.scheduleAt l k}, g z ∂(simulated (ideal.map pri) sim)|} ≤ ENNReal.ofReal ((k + 1) * b ^ 2 / n / δ ^ 2) := by
  have hpair : Measurable fun z : (Fin d → ℝ) × Tape => (z.1, sim z.1 z.2) := measurable_fst.prodMk hsim
  have hprob : IsProbabilityMeasure (ideal.map pri) := Measure.isProbabilityMeasure_map hpri.aemeasurable
  have hprob2 : IsProbabilityMeasure (simulated (ideal.map pri) sim) := Measure.isProbabilityMeasure_map hpair.aemeasurable
  have hprob3 : IsProbabilityMeasure (ideal.map (abcStart (n := n) pri sim key)) := Measure.isProbabilityMeasure_map (measurable_abcStart (n := n) hsim key hpri).aemeasurable
  refine est_concentrates ideal ((simulated (ideal.map pri) sim).restrict {z | dist z.2 ≤ AbcSmc.scheduleAt l k}) (n := n) k
    (E := fun g ω => abcEstimate p.essThresholdResample g (abcSmcRun cat S V pri sim dist q c p stp key ω) k)
    (fun g hg => abcRunEst_measurable hcat hq hS hV hsim hdist c l hl p hR stp key hpri k hg)
    (fun g hg => C98_run_partial hcat hq hS hV hsim hdist c l hl p hR stp key hpri a hprior hmono k hatom g hg) (fun g hg B hB => ?_) g b hg hb hg0 hgb δ hδ
  rw [lintegral_abcSmcRun_comp hcat hq hS hV hsim hdist c l hl p hR stp key hpri k hg (φ := fun x => x ^ 2) (measurable_id.pow_const 2)]
  refine abc_second_moment hcat hq hS hV hsim hdist c l hl p hR stp _ hmono a _ ?_ _ (fun i => map_abcStart hsim key hpri i)
    (fun hh i j hij => abcStart_uncorrelated hsim key hpri hh i j hij) k hatom g hg B hB
  unfold simulated
  rw [hprior, Measure.prod_smul_left, Measure.map_smul]

end

/-- The constant of the bound. -/
noncomputable def abcConst (k : ℕ) (B z ε : ℝ) : ℝ := 2 * ((k + 1) * (2 * B + 1) ^ 2) / (min (z / 2) (ε * z / (2 * (1 + 2 * B)))) ^ 2

section
variable [MeasurableSpace D] {q : ℝ → ℝ} (hq : IsNormalDraw q) {S : Set (Fin d → ℝ)} (hS : MeasurableSet S)
    {V : (Fin d → ℝ) → ℝ} (hV : Measurable V) {pri : Tape → Fin d → ℝ} {sim : (Fin d → ℝ) → Tape → D} (hsim : Measurable fun z : (Fin d → ℝ) × Tape => sim z.1 z.2) {dist : D → ℝ} (hdist : Measurable dist)
    (l : List ℝ) (hpri : Measurable pri) (a : ℝ≥0∞) (hprior : ideal.map pri = a • target S V) (hmono : ∀ j, AbcSmc.scheduleAt l (j + 1) ≤ AbcSmc.scheduleAt l j)
    (k : ℕ) (hatom : ∀ j < k, simulated (ideal.map pri) sim {z | dist z.2 = AbcSmc.scheduleAt l j} = 0)
include hq hS hV hsim hdist hpri hprior hmono hatom

/-- C123: fix a prior that is a probability law from which the scenario draws, a simulator, a non-increasing schedule of thresholds that earlier than update `k` are not hit with positive probability and whose threshold
at update `k` the prior predictive meets with positive probability, a bounded measurable `f` of parameter and data, and a tolerance `ε`. There is a constant `C` such that for every number of particles, every
configuration of the sampler, every stepsize and every key, the probability that the mean of `f` over the particles with weight after `k` updates is `ε` or more away from its ABC posterior expectation is at most
`C / n`. -/
theorem C123_mean (hpos : 0 < simulated (ideal.map pri) sim {z | dist z.2 ≤ AbcSmc.scheduleAt l k}) (f : (Fin d → ℝ) × D → ℝ) (hf : Measurable f) (B : ℝ) (hB : ∀ z, |f z| ≤ B) (ε : ℝ) (hε : 0 < ε) :
    ∃ C : ℝ, ∀ (n : ℕ) [NeZero n] (cat : (Fin n → Fl) → ℝ → Fin n), IsCategorical cat → ∀ c : Config, c.schedule = some (some l) → ∀ p : Settings, 0 < p.mcmcSteps →
      ∀ (stp : Fin d → ℝ) (key : Keys.Key),
      ideal {ω | ε ≤ |abcMean f (abcSmcRun cat S V pri sim dist q c p stp key ω k) - abcPosteriorMean (simulated (ideal.map pri) sim) dist (AbcSmc.scheduleAt l k) f|} ≤ ENNReal.ofReal (C / n) := by
  have hpair : Measurable fun z : (Fin d → ℝ) × Tape => (z.1, sim z.1 z.2) := measurable_fst.prodMk hsim
  have hprob : IsProbabilityMeasure (ideal.map pri) := Measure.isProbabilityMeasure_map hpri.aemeasurable
  have hprob2 : IsProbabilityMeasure (simulated (ideal.map pri) sim) := Measure.isProbabilityMeasure_map hpair.aemeasurable
  set Γ := (simulated (ideal.map pri) sim).restrict {z | dist z.2 ≤ AbcSmc.scheduleAt l k} with hΓ
  set m := (simulated (ideal.map pri) sim).real {z | dist z.2 ≤ AbcSmc.scheduleAt l k} with hm
  have hm0 : 0 < m := ENNReal.toReal_pos hpos.ne' (measure_ne_top _ _)
  have hΓm : Γ.real Set.univ = m := by rw [hΓ, measureReal_restrict_apply MeasurableSet.univ, Set.univ_inter]
  refine ⟨abcConst k B m ε, fun n _ cat hcat c hl p hR stp key => ?_⟩
  have key' := fun g b hg hb hg0 hgb => abc_run_concentrates hcat hq hS hV hsim hdist c l hl p hR stp key hpri a hprior hmono k hatom g b hg hb hg0 hgb
  have hB0 : 0 ≤ B := (abs_nonneg _).trans (hB ((fun _ => 0 : Fin d → ℝ), sim (fun _ => 0) (fun _ => 0)))
  set b := 2 * B + 1 with hb
  have hbpos : 0 ≤ b := by positivity
  have hint : Integrable f Γ := Integrable.of_bound hf.aestronglyMeasurable B (Filter.Eventually.of_forall fun x => by rw [Real.norm_eq_abs]; exact hB x)
  have hlow : ∀ x, 0 ≤ f x + B := fun x => by have := (abs_le.mp (hB x)).1; linarith
  have hup : ∀ x, f x + B ≤ 2 * B := fun x => by have := (abs_le.mp (hB x)).2; linarith
  have hY := key' (fun x => f x + B) b (hf.add_const B) hbpos hlow (fun x => (hup x).trans (by linarith))
  have hZ := key' (fun _ => 1) b measurable_const hbpos (fun _ => zero_le_one) (fun _ => by linarith)
  have hone : ∫ _x, (1 : ℝ) ∂Γ = m := by rw [integral_const, hΓm]; simp
  have hsum : ∫ x, (f x + B) ∂Γ = (∫ x, f x ∂Γ) + B * m := by
    rw [integral_add hint (integrable_const B), integral_const, smul_eq_mul, mul_comm, hΓm]
  have hyz : |∫ x, (f x + B) ∂Γ| ≤ 2 * B * m := by
    rw [abs_of_nonneg (integral_nonneg hlow)]
    refine (integral_mono (hint.add (integrable_const B)) (integrable_const (2 * B)) hup).trans (le_of_eq ?_)
    rw [integral_const, smul_eq_mul, mul_comm, hΓm]
  rw [hone] at hZ
  refine (Smc.ratio_bound_on ideal hm0 (by positivity) hyz hY hZ hε (by positivity) (E := {ω | ε ≤ |abcMean f (abcSmcRun cat S V pri sim dist q c p stp key ω k)
    - abcPosteriorMean (simulated (ideal.map pri) sim) dist (AbcSmc.scheduleAt l k) f|}) fun ω hω hpos => ?_).trans (le_of_eq ?_)
  · obtain ⟨C, hC⟩ := abcEstimate_toReal p.essThresholdResample (abcSmcRun cat S V pri sim dist q c p stp key ω) k
    rw [hC _ fun _ => zero_le_one] at hpos
    rw [hC _ hlow, hC _ fun _ => zero_le_one]
    set L := liveSet (abcSmcRun cat S V pri sim dist q c p stp key ω k) with hL
    simp only [Finset.sum_const, nsmul_eq_mul, mul_one] at hpos ⊢
    have hC0 : C ≠ 0 := fun h => by rw [h, zero_mul] at hpos; exact lt_irrefl _ hpos
    have hcard : (L.card : ℝ) ≠ 0 := fun h => by rw [h, mul_zero] at hpos; exact lt_irrefl _ hpos
    rw [Set.mem_ofPred_eq] at hω
    convert hω using 2
    rw [mul_div_mul_left _ _ hC0, Finset.sum_add_distrib, Finset.sum_const, nsmul_eq_mul, hsum, add_div, add_div, mul_div_cancel_left₀ _ hcard, mul_div_cancel_right₀ _ hm0.ne', add_sub_add_right_eq_sub]
    rfl
  · rw [abcConst]
    congr 1
    ring

/-- C123: the estimate of the probability of data within the threshold, that is the product of the fractions of particles with weight at the resampling updates and of the last such fraction. -/
theorem C123_evidence (ε : ℝ) (hε : 0 < ε) :
    ∃ C : ℝ, ∀ (n : ℕ) [NeZero n] (cat : (Fin n → Fl) → ℝ → Fin n), IsCategorical cat → ∀ c : Config, c.schedule = some (some l) → ∀ p : Settings, 0 < p.mcmcSteps →
      ∀ (stp : Fin d → ℝ) (key : Keys.Key),
      ideal {ω | ε ≤ |(abcEstimate p.essThresholdResample (fun _ => 1) (abcSmcRun cat S V pri sim dist q c p stp key ω) k).toReal
        - (simulated (ideal.map pri) sim).real {z | dist z.2 ≤ AbcSmc.scheduleAt l k}|} ≤ ENNReal.ofReal (C / n) := by
  refine ⟨(k + 1) / ε ^ 2, fun n _ cat hcat c hl p hR stp key => ?_⟩
  have h := abc_run_concentrates hcat hq hS hV hsim hdist c l hl p hR stp key hpri a hprior hmono k hatom (fun _ => 1) 1 measurable_const zero_le_one (fun _ => zero_le_one) (fun _ => le_rfl) ε hε
  simp only [ENNReal.ofReal_one, one_pow, mul_one] at h
  have e : ∫ _z in {z | dist z.2 ≤ AbcSmc.scheduleAt l k}, (1 : ℝ) ∂(simulated (ideal.map pri) sim) = (simulated (ideal.map pri) sim).real {z | dist z.2 ≤ AbcSmc.scheduleAt l k} := by
    simp
  rw [e] at h
  refine h.trans (le_of_eq ?_)
  congr 1
  field_simp

/-- C123: the probability that after `k` updates no particle has weight. -/
theorem C123_alive (hpos : 0 < simulated (ideal.map pri) sim {z | dist z.2 ≤ AbcSmc.scheduleAt l k}) :
    ∃ C : ℝ, ∀ (n : ℕ) [NeZero n] (cat : (Fin n → Fl) → ℝ → Fin n), IsCategorical cat → ∀ c : Config, c.schedule = some (some l) → ∀ p : Settings, 0 < p.mcmcSteps →
      ∀ (stp : Fin d → ℝ) (key : Keys.Key), ideal {ω | ∀ i, (abcSmcRun cat S V pri sim dist q c p stp key ω k i).logWeight = Fl.ninf} ≤ ENNReal.ofReal (C / n) := by
  have hpair : Measurable fun z : (Fin d → ℝ) × Tape => (z.1, sim z.1 z.2) := measurable_fst.prodMk hsim
  have hprob : IsProbabilityMeasure (ideal.map pri) := Measure.isProbabilityMeasure_map hpri.aemeasurable
  have hprob2 : IsProbabilityMeasure (simulated (ideal.map pri) sim) := Measure.isProbabilityMeasure_map hpair.aemeasurable
  set m := (simulated (ideal.map pri) sim).real {z | dist z.2 ≤ AbcSmc.scheduleAt l k} with hm
  have hm0 : 0 < m := ENNReal.toReal_pos hpos.ne' (measure_ne_top _ _)
  obtain ⟨C, hC⟩ := C123_evidence hq hS hV hsim hdist l hpri a hprior hmono k hatom m hm0
  refine ⟨C, fun n _ cat hcat c hl p hR stp key => (measure_mono fun ω hω => ?_).trans (hC n cat hcat c hl p hR stp key)⟩
  rw [Set.mem_ofPred_eq] at hω ⊢
  have hL : liveSet (abcSmcRun cat S V pri sim dist q c p stp key ω k) = ∅ := Finset.eq_empty_of_forall_notMem fun i hi => mem_liveSet.mp hi (hω i)
  have h0 : (abcEstimate p.essThresholdResample (fun _ => 1) (abcSmcRun cat S V pri sim dist q c p stp key ω) k).toReal = 0 := by
    unfold abcEstimate
    rw [hL, Finset.sum_empty, mul_zero, mul_zero, ENNReal.toReal_zero]
  rw [h0, zero_sub, abs_neg, abs_of_pos hm0]

end

/-- Data with a normal error come near 1. -/
theorem noisySim_pos {q : ℝ → ℝ} (hq : IsNormalDraw q) {t : ℝ} (ht : 0 < t) (μ : Measure (Fin 1 → ℝ)) [IsProbabilityMeasure μ] :
    0 < simulated μ (fun x τ => x 0 + q (τ ([], 0))) {z | |z.2 - 1| ≤ t} := by
  have hms : MeasurableSet {z : (Fin 1 → ℝ) × ℝ | |z.2 - 1| ≤ t} := measurableSet_le (by fun_prop) measurable_const
  have hpair : Measurable fun z : (Fin 1 → ℝ) × Tape => (z.1, z.1 0 + q (z.2 ([], 0))) := measurable_fst.prodMk (measurable_noisySim hq)
  rw [pos_iff_ne_zero]
  intro h
  unfold simulated at h
  rw [Measure.map_apply hpair hms, Measure.measure_prod_null (hpair hms)] at h
  have hx : ∀ x : Fin 1 → ℝ, ideal (Prod.mk x ⁻¹' ((fun z : (Fin 1 → ℝ) × Tape => (z.1, z.1 0 + q (z.2 ([], 0)))) ⁻¹' {z | |z.2 - 1| ≤ t})) ≠ 0 := by
    intro x h0
    have e : Prod.mk x ⁻¹' ((fun z : (Fin 1 → ℝ) × Tape => (z.1, z.1 0 + q (z.2 ([], 0)))) ⁻¹' {z | |z.2 - 1| ≤ t}) = {τ : Tape | τ ([], 0) ∈ q ⁻¹' Set.Icc (1 - t - x 0) (1 + t - x 0)} := by
      ext τ
      simp only [Set.mem_preimage, Set.mem_ofPred_eq, Set.mem_Icc, abs_le]
      constructor
      · rintro ⟨h1, h2⟩; exact ⟨by linarith, by linarith⟩
      · rintro ⟨h1, h2⟩; exact ⟨by linarith, by linarith⟩
    rw [e, site (([], 0) : Site) (hq.measurable measurableSet_Icc), ← Measure.map_apply hq.measurable measurableSet_Icc, hq.law] at h0
    have h1 := (gaussianReal_absolutelyContinuous' 0 (one_ne_zero : (1 : NNReal) ≠ 0)) h0
    rw [Real.volume_Icc, ENNReal.ofReal_eq_zero] at h1
    linarith
  have hf : ∀ᵐ _x ∂μ, False := h.mono fun x hx' => hx x hx'
  rw [Filter.eventually_false_iff_eq_bot, ae_eq_bot] at hf
  exact IsProbabilityMeasure.ne_zero μ hf

/-- The hypotheses are met: prior uniform on `[0, 1)`, data with one normal error, distance to the observation 1, thresholds 2 and 1; the probability that the parameter is above 1/2. -/
example : ∃ q : ℝ → ℝ, IsNormalDraw q ∧ ∀ (k : ℕ) (ε : ℝ), 0 < ε → ∃ C : ℝ, ∀ (n : ℕ) [NeZero n] (cat : (Fin n → Fl) → ℝ → Fin n), IsCategorical cat → ∀ key : Keys.Key,
    ideal {ω | ε ≤ |abcMean (Set.indicator {z | 1 / 2 < z.1 0} 1) (abcSmcRun cat (seg 1) (fun _ => Real.log 1) (unifDraw 1) (fun x τ => x 0 + q (τ ([], 0))) (fun y => |y - 1|) q ⟨some (some [2, 1]), 2⟩
      ⟨3, 9 / 10, 1 / 2, 1 / 100⟩ (fun _ => 2) key ω k)
      - abcPosteriorMean (simulated (ideal.map (unifDraw 1)) fun x τ => x 0 + q (τ ([], 0))) (fun y => |y - 1|) (AbcSmc.scheduleAt [2, 1] k) (Set.indicator {z | 1 / 2 < z.1 0} 1)|} ≤ ENNReal.ofReal (C / n) := by
  obtain ⟨q, hq⟩ := exists_isNormalDraw
  have hp : IsProbabilityMeasure (ideal.map (unifDraw 1)) := Measure.isProbabilityMeasure_map (measurable_unifDraw 1).aemeasurable
  refine ⟨q, hq, fun k ε hε => ?_⟩
  have hsch : (0 : ℝ) < AbcSmc.scheduleAt [2, 1] k := by rcases k with - | - | k <;> norm_num [AbcSmc.scheduleAt]
  have hS : MeasurableSet {z : (Fin 1 → ℝ) × ℝ | 1 / 2 < z.1 0} := measurableSet_lt measurable_const ((measurable_pi_apply 0).comp measurable_fst)
  obtain ⟨C, hC⟩ := C123_mean (d := 1) hq (measurableSet_seg 1) (V := fun _ => Real.log 1) measurable_const (sim := fun x τ => x 0 + q (τ ([], 0))) (measurable_noisySim hq) (dist := fun y => |y - 1|) (by fun_prop) [2, 1]
    (measurable_unifDraw 1) 1 (by rw [one_smul]; exact unifDraw_law one_pos) (fun j => by rcases j with - | - | j <;> norm_num [AbcSmc.scheduleAt]) k (fun j _ => noisySim_no_atom hq _ _)
    (noisySim_pos hq hsch _) (Set.indicator {z | 1 / 2 < z.1 0} 1) (measurable_one.indicator hS) 1 (fun z => by
      by_cases hz : z ∈ {z : (Fin 1 → ℝ) × ℝ | 1 / 2 < z.1 0}
      · rw [Set.indicator_of_mem hz]; simp
      · rw [Set.indicator_of_notMem hz]; simp) ε hε
  exact ⟨C, fun n _ cat hcat key => hC n cat hcat ⟨some (some [2, 1]), 2⟩ rfl ⟨3, 9 / 10, 1 / 2, 1 / 100⟩ (by norm_num) (fun _ => 2) key⟩

end Mocat.Props
