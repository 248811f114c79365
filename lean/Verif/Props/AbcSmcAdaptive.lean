import Verif.Lemmas.AbcAdaptiveLink
import Verif.Props.SmcAdaptive
/-!
# C149: ABC-SMC with adaptive thresholds converges as the ensemble grows

The draws come from an ideal generator (`Verif.Spec.Tape`); the inner sampler is `RandomWalkABC` with `Metropolis` and a fixed stepsize. The thresholds are random: each is a quantile of the distances of the current ensemble.
-/
namespace Mocat.Props
open Mocat Mocat.Mcmc Mocat.Abc Mocat.AbcSmc Mocat.Ideal Mocat.Meas Mocat.Spec MeasureTheory ProbabilityTheory Filter Topology
open scoped ENNReal

variable {d : ℕ} {D : Type*} [MeasurableSpace D]

/-- From initial particles drawn apart to a run that draws them itself. -/
theorem inProb_start {pri : Tape → Fin d → ℝ} (hpri : Measurable pri) {sim : (Fin d → ℝ) → Tape → D} (hsim : Measurable fun z : (Fin d → ℝ) × Tape => sim z.1 z.2) (key : Keys.Key)
    {G : ∀ n, (Fin (n + 1) → (Fin d → ℝ) × D) × Tape → ℝ} (hG : ∀ n, Measurable (G n)) (hdep : ∀ n z, DependsOn (fun ω => G n (z, ω)) (below ((n + 1) :: (n + 1) :: 0 :: key))) {a : ℝ}
    (h : InProb (fun n => (ideal.map (abcStart (n := n + 1) pri sim key)).prod ideal) G a) : InProb (fun _ => ideal) (fun n ω => G n (abcStart (n := n + 1) pri sim key ω, ω)) a := by
  rw [inProb_real] at h ⊢
  intro ε hε
  refine (h ε hε).congr fun n => ?_
  have h0 := measurable_abcStart (n := n + 1) hsim key hpri
  have hE : MeasurableSet {w | ε ≤ |G n w - a|} := measurableSet_le measurable_const (continuous_abs.measurable.comp ((hG n).sub_const a))
  have hg : Measurable (Function.uncurry fun (z : Fin (n + 1) → (Fin d → ℝ) × D) (ω : Tape) => {w | ε ≤ |G n w - a|}.indicator (fun _ => (1 : ℝ≥0∞)) (z, ω)) := measurable_const.indicator hE
  have hdep' : DependsOn (abcStart (n := n + 1) pri sim key) (⋃ i : Fin (n + 1), below ((i : ℕ) :: 1 :: key) ∪ below ((i : ℕ) :: (n + 1) :: 0 :: key)) := by
    intro ω ω' h
    funext i
    have e1 := subtape_dependsOn ((i : ℕ) :: 1 :: key) fun s hs => h s (Set.mem_iUnion.2 ⟨i, Or.inl hs⟩)
    have e2 := subtape_dependsOn ((i : ℕ) :: (n + 1) :: 0 :: key) fun s hs => h s (Set.mem_iUnion.2 ⟨i, Or.inr hs⟩)
    unfold abcStart
    rw [e1, e2]
  have hdis : Disjoint (⋃ i : Fin (n + 1), below ((i : ℕ) :: 1 :: key) ∪ below ((i : ℕ) :: (n + 1) :: 0 :: key)) (below ((n + 1) :: (n + 1) :: 0 :: key)) := by
    rw [Set.disjoint_left]
    intro s hs h2
    obtain ⟨i, hs | hs⟩ := Set.mem_iUnion.1 hs
    · exact Set.disjoint_left.mp (below_disjoint (by decide : (1 : ℕ) ≠ 0)) (mem_below_cons hs) (mem_below_cons (mem_below_cons h2))
    · exact Set.disjoint_left.mp (below_disjoint i.is_lt.ne) hs h2
  have e := fresh hdis (f := abcStart (n := n + 1) pri sim key) (g := fun z ω => {w | ε ≤ |G n w - a|}.indicator (fun _ => (1 : ℝ≥0∞)) (z, ω)) h0 hdep' hg fun z ω ω' hω => by
    have := hdep n z hω
    simp only [Set.indicator, Set.mem_ofPred_eq] at this ⊢
    rw [this]
  have e1 : ideal {ω | ε ≤ |G n (abcStart (n := n + 1) pri sim key ω, ω) - a|} = ∫⁻ ω, {w | ε ≤ |G n w - a|}.indicator (fun _ => (1 : ℝ≥0∞)) (abcStart (n := n + 1) pri sim key ω, ω) ∂ideal := by
    have hm : MeasurableSet {ω | ε ≤ |G n (abcStart (n := n + 1) pri sim key ω, ω) - a|} := (h0.prodMk measurable_id) hE
    rw [← lintegral_indicator_one hm]
    rfl
  rw [e1, e]
  have hp : (ideal.map (abcStart (n := n + 1) pri sim key)).prod ideal {w | ε ≤ |G n w - a|} = ∫⁻ z, ideal (Prod.mk z ⁻¹' {w | ε ≤ |G n w - a|}) ∂(ideal.map (abcStart (n := n + 1) pri sim key)) := Measure.prod_apply hE
  rw [hp, lintegral_map (measurable_measure_prodMk_left hE) h0]
  refine lintegral_congr fun ω => ?_
  rw [← lintegral_indicator_one (measurable_prodMk_left hE)]
  rfl

/-- A distance without atoms has all quantiles. -/
theorem exists_within {Z : Type*} [MeasurableSpace Z] (μ : Measure Z) [IsProbabilityMeasure μ] {dist : Z → ℝ} (hd : Measurable dist) (hatom : ∀ t, μ {z | dist z = t} = 0) {r : ℝ} (h0 : 0 < r) (h1 : r < 1) :
    ∃ t, μ.real {z | dist z ≤ t} = r := by
  have hν : IsProbabilityMeasure (μ.map dist) := Measure.isProbabilityMeasure_map hd.aemeasurable
  have hF : ∀ t, cdf (μ.map dist) t = μ.real {z | dist z ≤ t} := fun t => by
    rw [cdf_eq_real, measureReal_def, Measure.map_apply hd measurableSet_Iic]
    rfl
  have hcont : Continuous (cdf (μ.map dist)) := by
    rw [continuous_iff_continuousAt]
    intro t
    rw [(cdf (μ.map dist)).mono.continuousAt_iff_leftLim_eq_rightLim, StieltjesFunction.rightLim_eq]
    refine le_antisymm ((cdf (μ.map dist)).mono.leftLim_le le_rfl) ?_
    have h2 := (cdf (μ.map dist)).measure_singleton t
    rw [measure_cdf, Measure.map_apply hd (measurableSet_singleton t)] at h2
    have h3 : ENNReal.ofReal (cdf (μ.map dist) t - Function.leftLim (cdf (μ.map dist)) t) = 0 := h2.symm.trans (hatom t)
    rw [ENNReal.ofReal_eq_zero] at h3
    linarith
  obtain ⟨t, ht⟩ := mem_range_of_exists_le_of_exists_ge hcont ((tendsto_cdf_atBot (μ.map dist)).eventually_le_const h0).exists ((tendsto_cdf_atTop (μ.map dist)).eventually_const_le h1).exists
  exact ⟨t, (hF t).symm.trans ht⟩

section
variable {q : ℝ → ℝ} (hq : IsNormalDraw q) {S : Set (Fin d → ℝ)} (hS : MeasurableSet S) {V : (Fin d → ℝ) → ℝ} (hV : Measurable V) {pri : Tape → Fin d → ℝ} {sim : (Fin d → ℝ) → Tape → D}
  (hsim : Measurable fun z : (Fin d → ℝ) × Tape => sim z.1 z.2) {dist : D → ℝ} (hdist : Measurable dist) (hpri : Measurable pri) (a : ℝ≥0∞) (hprior : ideal.map pri = a • target S V)
  (hatom : ∀ t, simulated (ideal.map pri) sim {z | dist z.2 = t} = 0) {cat : ∀ n, (Fin (n + 1) → Fl) → ℝ → Fin (n + 1)} (hcat : ∀ n, IsCategorical (cat n))
  (stp : Fin d → ℝ) (key : Keys.Key) (p : Settings)

include hq hS hV hsim hdist hcat in
theorem redRun_below (k n : ℕ) (z : Fin (n + 1) → (Fin d → ℝ) × D) : DependsOn (fun ω => redRun cat S V sim dist q p stp key k n (z, ω)) (below ((n + 1) :: (n + 1) :: 0 :: key)) := by
  have hk : ∀ k, below (Smc.keyAt (n + 1) ((n + 1) :: (n + 1) :: 0 :: key) k) ⊆ below ((n + 1) :: (n + 1) :: 0 :: key) := by
    intro k
    induction k with
    | zero => exact fun _ h => h
    | succ k ih => exact fun _ h => ih (mem_below_cons h)
  have hd : Measurable fun z : (Fin d → ℝ) × D => dist z.2 := hdist.comp measurable_snd
  induction k with
  | zero => intro _ _ _; rfl
  | succ k ih =>
    intro ω ω' h
    have h1 := ih h
    have h2 := Alive.moveAt_dependsOn hd (abc_catLaw (hcat n) p.essThresholdResample) (abc_moveLaw hq hS hV hsim hdist stp p.mcmcSteps) (Smc.keyAt (n + 1) ((n + 1) :: (n + 1) :: 0 :: key) k)
      (redRun cat S V sim dist q p stp key k n (z, ω)) (fun s hs => h s (hk k hs.1))
    have e : ∀ ω, redRun cat S V sim dist q p stp key (k + 1) n (z, ω) = (fun m : ℝ × Alive.St (n + 1) ((Fin d → ℝ) × D) => (nextThr (fun z : (Fin d → ℝ) × D => dist z.2) p.essThresholdRetain m.1 m.2.1, m.2))
        (Alive.moveAt (fun z : (Fin d → ℝ) × D => dist z.2) (aliveCat (cat n)) (aliveCrit (n + 1) p.essThresholdResample)
          (fun t k z ω => abcMoves S V sim dist q p.mcmcSteps t stp k z ω) (Smc.keyAt (n + 1) ((n + 1) :: (n + 1) :: 0 :: key) k) (redRun cat S V sim dist q p stp key k n (z, ω)) ω) := fun ω => rfl
    simp only at h1
    simp only [e]
    rw [h2]
    rw [h1]

include hq hS hV hsim hdist hpri hprior hatom hcat in
/-- The estimates of a run converge. -/
theorem redRun_limits (h0 : 0 ≤ p.essThresholdRetain) (h1 : p.essThresholdRetain ≤ 1) (k : ℕ) :
    InProb (fun _ => ideal) (fun n ω => (simulated (ideal.map pri) sim).real {z | dist z.2 ≤ (redRun cat S V sim dist q p stp key k n (abcStart (n := n + 1) pri sim key ω, ω)).1}) (p.essThresholdRetain ^ (k + 1)) ∧
    Alive.Good (fun _ => ideal) (simulated (ideal.map pri) sim) (Alive.upTo fun z => dist z.2) fun n ω => redRun cat S V sim dist q p stp key k n (abcStart (n := n + 1) pri sim key ω, ω) := by
  have hpair : Measurable fun z : (Fin d → ℝ) × Tape => (z.1, sim z.1 z.2) := measurable_fst.prodMk hsim
  have hprob : IsProbabilityMeasure (ideal.map pri) := Measure.isProbabilityMeasure_map hpri.aemeasurable
  have hprob2 : IsProbabilityMeasure (simulated (ideal.map pri) sim) := Measure.isProbabilityMeasure_map hpair.aemeasurable
  have hd : Measurable fun z : (Fin d → ℝ) × D => dist z.2 := hdist.comp measurable_snd
  obtain ⟨hok, hm⟩ := redRun_ok hq hS hV hsim hdist hpri a hprior hatom hcat stp key p h0 h1 k
  have hbel := redRun_below hq hS hV hsim hdist hcat stp key p k
  have hmono : ∀ f : (Fin d → ℝ) × D → ℝ, Measurable f → (∀ z, 0 ≤ f z) → ∀ B, (∀ z, f z ≤ B) → Measurable fun t : ℝ => ∫ z in Alive.upTo (fun z : (Fin d → ℝ) × D => dist z.2) t, f z ∂(simulated (ideal.map pri) sim) := by
    intro f hf hf0 B hB
    refine Monotone.measurable fun s t hst => ?_
    exact setIntegral_mono_set (Alive.integrable_of_bounds hf hf0 hB).integrableOn (.of_forall hf0) (.of_forall fun z hz => le_trans (show dist z.2 ≤ s from hz) hst)
  have hmass : Measurable fun t : ℝ => (simulated (ideal.map pri) sim).real (Alive.upTo (fun z : (Fin d → ℝ) × D => dist z.2) t) :=
    Monotone.measurable fun s t hst => measureReal_mono (fun z hz => le_trans (show dist z.2 ≤ s from hz) hst)
  refine ⟨?_, fun f B hf hf0 hB => ?_⟩
  · exact inProb_start hpri hsim key (G := fun n w => (simulated (ideal.map pri) sim).real (Alive.upTo (fun z : (Fin d → ℝ) × D => dist z.2) (redRun cat S V sim dist q p stp key k n w).1))
      (fun n => hmass.comp (measurable_fst.comp (hok.measurable n))) (fun n z ω ω' h => by
        have := hbel n z h
        simp only at this ⊢
        rw [this]) hm
  · exact inProb_start hpri hsim key (G := fun n w => Alive.er (Alive.upTo (fun z : (Fin d → ℝ) × D => dist z.2) (redRun cat S V sim dist q p stp key k n w).1) f (redRun cat S V sim dist q p stp key k n w).2
        - ∫ z in Alive.upTo (fun z : (Fin d → ℝ) × D => dist z.2) (redRun cat S V sim dist q p stp key k n w).1, f z ∂(simulated (ideal.map pri) sim))
      (fun n => ((Alive.measurable_er_upTo hd hf).comp (hok.measurable n)).sub ((hmono f hf hf0 B hB).comp (measurable_fst.comp (hok.measurable n)))) (fun n z ω ω' h => by
        have := hbel n z h
        simp only at this ⊢
        rw [this]) (hok.good f B hf hf0 hB)

include hq hS hV hsim hdist hpri hprior hatom hcat in
/-- Bounded functions of either sign. -/
theorem redRun_signed (h0 : 0 ≤ p.essThresholdRetain) (h1 : p.essThresholdRetain ≤ 1) (k : ℕ) (f : (Fin d → ℝ) × D → ℝ) (hf : Measurable f) (B : ℝ) (hB : ∀ z, |f z| ≤ B) :
    InProb (fun _ => ideal) (fun n ω => Alive.er (Alive.upTo (fun z => dist z.2) (redRun cat S V sim dist q p stp key k n (abcStart (n := n + 1) pri sim key ω, ω)).1) f
        (redRun cat S V sim dist q p stp key k n (abcStart (n := n + 1) pri sim key ω, ω)).2
      - ∫ z in {z | dist z.2 ≤ (redRun cat S V sim dist q p stp key k n (abcStart (n := n + 1) pri sim key ω, ω)).1}, f z ∂(simulated (ideal.map pri) sim)) 0 := by
  have hpair : Measurable fun z : (Fin d → ℝ) × Tape => (z.1, sim z.1 z.2) := measurable_fst.prodMk hsim
  have hprob : IsProbabilityMeasure (ideal.map pri) := Measure.isProbabilityMeasure_map hpri.aemeasurable
  have hprob2 : IsProbabilityMeasure (simulated (ideal.map pri) sim) := Measure.isProbabilityMeasure_map hpair.aemeasurable
  have hg := (redRun_limits hq hS hV hsim hdist hpri a hprior hatom hcat stp key p h0 h1 k).2
  have hB0 : ∀ z, 0 ≤ f z + B := fun z => by linarith [neg_le_of_abs_le (hB z)]
  have hB1 : ∀ z, f z + B ≤ 2 * B := fun z => by linarith [le_of_abs_le (hB z)]
  have hB2 : 0 ≤ |B| := abs_nonneg B
  have g1 := hg (fun z => f z + B) (2 * B) (hf.add_const B) hB0 hB1
  have g2 := hg (fun _ => |B|) |B| measurable_const (fun _ => hB2) fun _ => le_rfl
  have g3 := g1.sub g2
  rw [sub_zero] at g3
  refine g3.congr (Filter.Eventually.of_forall fun n ω => ?_)
  have hBB : |B| = B := by
    by_cases hne : Nonempty ((Fin d → ℝ) × D)
    · exact abs_of_nonneg ((abs_nonneg _).trans (hB hne.some))
    · exact absurd ⟨abcStart (n := n + 1) pri sim key ω 0⟩ hne
  beta_reduce
  generalize redRun cat S V sim dist q p stp key k n (abcStart (n := n + 1) pri sim key ω, ω) = r
  have e1 := Alive.er_sub (Alive.upTo (fun z : (Fin d → ℝ) × D => dist z.2) r.1) (fun z => f z + B) (fun _ => |B|) r.2
  have e2 : (fun z => f z + B - |B|) = f := by funext z; rw [hBB]; ring
  rw [e2] at e1
  have i1 : Integrable (fun z => f z + B) (simulated (ideal.map pri) sim) := Alive.integrable_of_bounds (hf.add_const B) hB0 hB1
  have e3 : ∫ z in {z | dist z.2 ≤ r.1}, f z ∂(simulated (ideal.map pri) sim) = ∫ z in {z | dist z.2 ≤ r.1}, (f z + B) ∂(simulated (ideal.map pri) sim) - ∫ _z in {z | dist z.2 ≤ r.1}, |B| ∂(simulated (ideal.map pri) sim) := by
    rw [← integral_sub i1.integrableOn (integrable_const _)]
    refine integral_congr_ae (.of_forall fun z => ?_)
    change f z = f z + B - |B|
    rw [hBB]; ring
  rw [e1, e3]
  exact sub_sub_sub_comm (_ : ℝ) _ _ _

variable {c : Config}

/-- What the returned ensemble has to do with the estimates. -/
def Linked (cat : ∀ n, (Fin (n + 1) → Fl) → ℝ → Fin (n + 1)) (S : Set (Fin d → ℝ)) (V : (Fin d → ℝ) → ℝ) (pri : Tape → Fin d → ℝ) (sim : (Fin d → ℝ) → Tape → D) (dist : D → ℝ) (q : ℝ → ℝ) (c : Config) (p : Settings) (stp : Fin d → ℝ)
    (key : Keys.Key) (k n : ℕ) (ω : Tape) : Prop :=
  (∀ i, (abcSmcRun (cat n) S V pri sim dist q c p stp key ω k i).threshold = Fl.fin (redRun cat S V sim dist q p stp key k n (abcStart (n := n + 1) pri sim key ω, ω)).1) ∧
  (liveSet (abcSmcRun (cat n) S V pri sim dist q c p stp key ω k)).Nonempty ∧
  ∀ f, abcMean f (abcSmcRun (cat n) S V pri sim dist q c p stp key ω k) =
    Alive.er (Alive.upTo (fun z => dist z.2) (redRun cat S V sim dist q p stp key k n (abcStart (n := n + 1) pri sim key ω, ω)).1) f (redRun cat S V sim dist q p stp key k n (abcStart (n := n + 1) pri sim key ω, ω)).2
      / Alive.er (Alive.upTo (fun z => dist z.2) (redRun cat S V sim dist q p stp key k n (abcStart (n := n + 1) pri sim key ω, ω)).1) (fun _ => 1) (redRun cat S V sim dist q p stp key k n (abcStart (n := n + 1) pri sim key ω, ω)).2

omit [MeasurableSpace D] in
theorem mean_of_state {n : ℕ} {ens : Ensemble (n + 1) (Fin d → ℝ) D} {t : ℝ} {R : Alive.St (n + 1) ((Fin d → ℝ) × D)} (hcons : ∀ i, McConsistent S V dist (ens i).mc) (hb : Bookkept t ens) (hp : pos ens = R.1) (hR : R.2.toReal ≠ 0)
    (f : (Fin d → ℝ) × D → ℝ) : abcMean f ens = Alive.er (Alive.upTo (fun z => dist z.2) t) f R / Alive.er (Alive.upTo (fun z => dist z.2) t) (fun _ => 1) R := by
  classical
  have hL : liveSet ens = Alive.pat (Alive.upTo (fun z : (Fin d → ℝ) × D => dist z.2) t) R.1 := by
    ext i
    rw [mem_liveSet, hb.live_iff, Alive.mem_pat, ← hp, (hcons i).2]
    rfl
  have e : ∑ i, (Alive.upTo (fun z : (Fin d → ℝ) × D => dist z.2) t).indicator f (R.1 i) = ∑ i ∈ liveSet ens, f ((ens i).mc.value, (ens i).mc.data) := by
    have h1 : ∀ i, f ((ens i).mc.value, (ens i).mc.data) = f (R.1 i) := fun i => by rw [← hp]; rfl
    rw [Finset.sum_congr rfl fun i _ => h1 i, hL]
    unfold Alive.pat
    rw [Finset.sum_filter]
    refine Finset.sum_congr rfl fun i _ => ?_
    rw [Set.indicator_apply]
  have hn : ((n + 1 : ℕ) : ℝ) ≠ 0 := by positivity
  rw [Alive.er_card, ← hL]
  unfold Alive.er abcMean
  rw [e, mul_div_mul_left _ _ hR, mul_div_mul_left _ _ (inv_ne_zero hn)]

include hq hS hV hsim hdist hpri hprior hatom hcat in
theorem linked_tendsto (hc : Adaptive c) (hR : 0 < p.mcmcSteps) (h0 : 0 < p.essThresholdRetain) (h1 : p.essThresholdRetain < 1) (k : ℕ) :
    Tendsto (fun n => ideal {ω | ¬ Linked cat S V pri sim dist q c p stp key k n ω}) atTop (𝓝 0) := by
  have hpair : Measurable fun z : (Fin d → ℝ) × Tape => (z.1, sim z.1 z.2) := measurable_fst.prodMk hsim
  have hprob : IsProbabilityMeasure (ideal.map pri) := Measure.isProbabilityMeasure_map hpri.aemeasurable
  have hprob2 : IsProbabilityMeasure (simulated (ideal.map pri) sim) := Measure.isProbabilityMeasure_map hpair.aemeasurable
  obtain ⟨X, hX⟩ : ∃ X : ℕ → ℕ → Tape → ℝ, ∀ j n ω, X j n ω = Alive.er (Alive.upTo (fun z : (Fin d → ℝ) × D => dist z.2) (redRun cat S V sim dist q p stp key j n (abcStart (n := n + 1) pri sim key ω, ω)).1) (fun _ => 1)
    (redRun cat S V sim dist q p stp key j n (abcStart (n := n + 1) pri sim key ω, ω)).2 := ⟨_, fun _ _ _ => rfl⟩
  have hlim : ∀ j, InProb (fun _ => ideal) (X j) (p.essThresholdRetain ^ (j + 1)) := by
    intro j
    obtain ⟨g1, g2⟩ := redRun_limits hq hS hV hsim hdist hpri a hprior hatom hcat stp key p h0.le h1.le j
    have g3 := (g2 (fun _ => 1) 1 measurable_const (fun _ => zero_le_one) fun _ => le_rfl).add g1
    rw [zero_add] at g3
    refine g3.congr (Filter.Eventually.of_forall fun n ω => ?_)
    rw [hX, setIntegral_const, smul_eq_mul, mul_one]
    exact sub_add_cancel _ _
  have hsum := tendsto_finsetSum (Finset.range (k + 1)) fun j _ => inProb_real.1 (hlim j) (p.essThresholdRetain ^ (j + 1) / 2) (half_pos (pow_pos h0 _))
  rw [Finset.sum_const_zero] at hsum
  refine tendsto_of_tendsto_of_tendsto_of_le_of_le' tendsto_const_nhds hsum (Filter.Eventually.of_forall fun n => bot_le) ?_
  have hpk : 0 < (1 - p.essThresholdRetain) * (p.essThresholdRetain ^ (k + 1) / 2) := mul_pos (sub_pos.2 h1) (half_pos (pow_pos h0 _))
  obtain ⟨N, hN⟩ := exists_nat_gt (1 / ((1 - p.essThresholdRetain) * (p.essThresholdRetain ^ (k + 1) / 2)))
  filter_upwards [eventually_ge_atTop N] with n hn
  have hnice := niceTape_ae (hcat n)
  have hsub : {ω | ¬ Linked cat S V pri sim dist q c p stp key k n ω} ⊆ {ω | ¬ NiceTape (cat n) ω} ∪ ⋃ j ∈ Finset.range (k + 1), {ω | p.essThresholdRetain ^ (j + 1) / 2 ≤ |X j n ω - p.essThresholdRetain ^ (j + 1)|} := by
    intro ω hω
    by_contra hcon
    rw [Set.mem_union, not_or] at hcon
    obtain ⟨hω1, hω2⟩ := hcon
    have hω1 : NiceTape (cat n) ω := not_not.1 hω1
    have hXj : ∀ j ≤ k, p.essThresholdRetain ^ (j + 1) / 2 < X j n ω := by
      intro j hj
      have h3 : ¬ p.essThresholdRetain ^ (j + 1) / 2 ≤ |X j n ω - p.essThresholdRetain ^ (j + 1)| := fun h3 => hω2 (Set.mem_biUnion (x := j) (Finset.mem_coe.2 (Finset.mem_range.2 (Nat.lt_succ_of_le hj))) h3)
      have h4 := (abs_lt.1 (not_le.1 h3)).1
      linarith
    apply hω
    have hle : ∀ j, (redRun cat S V sim dist q p stp key j n (abcStart (n := n + 1) pri sim key ω, ω)).2.2.toReal ≤ 1 := fun j => by
      have := (redRun_ok hq hS hV hsim hdist hpri a hprior hatom hcat stp key p h0.le h1.le j).1.le_one n (abcStart (n := n + 1) pri sim key ω, ω)
      exact ENNReal.toReal_le_of_le_ofReal zero_le_one (by rwa [ENNReal.ofReal_one])
    have hn1 : (0 : ℝ) < ((n + 1 : ℕ) : ℝ) := by positivity
    have hcard : ∀ j ≤ k, 1 ≤ (1 - p.essThresholdRetain) * (Alive.pat (Alive.upTo (fun z : (Fin d → ℝ) × D => dist z.2) (redRun cat S V sim dist q p stp key j n (abcStart (n := n + 1) pri sim key ω, ω)).1)
        (redRun cat S V sim dist q p stp key j n (abcStart (n := n + 1) pri sim key ω, ω)).2.1).card := by
      intro j hj
      have h3 := hXj j hj
      rw [hX, Alive.er_card] at h3
      have h4 := hle j
      generalize (redRun cat S V sim dist q p stp key j n (abcStart (n := n + 1) pri sim key ω, ω)) = r at h3 h4 ⊢
      have h5 : p.essThresholdRetain ^ (k + 1) ≤ p.essThresholdRetain ^ (j + 1) := pow_le_pow_of_le_one h0.le h1.le (by omega)
      have h6 : (0 : ℝ) ≤ (((n + 1 : ℕ) : ℝ))⁻¹ * ((Alive.pat (Alive.upTo (fun z : (Fin d → ℝ) × D => dist z.2) r.1) r.2.1).card : ℝ) := by positivity
      have h7 := mul_le_mul_of_nonneg_right h4 h6
      rw [one_mul] at h7
      have h8 : p.essThresholdRetain ^ (k + 1) / 2 ≤ (((n + 1 : ℕ) : ℝ))⁻¹ * ((Alive.pat (Alive.upTo (fun z : (Fin d → ℝ) × D => dist z.2) r.1) r.2.1).card : ℝ) := by linarith
      have h9 : ((n + 1 : ℕ) : ℝ) * (p.essThresholdRetain ^ (k + 1) / 2) ≤ ((Alive.pat (Alive.upTo (fun z : (Fin d → ℝ) × D => dist z.2) r.1) r.2.1).card : ℝ) := by
        rw [inv_mul_eq_div, le_div_iff₀ hn1] at h8
        linarith
      have h10 : 1 ≤ ((n + 1 : ℕ) : ℝ) * ((1 - p.essThresholdRetain) * (p.essThresholdRetain ^ (k + 1) / 2)) := by
        rw [div_lt_iff₀ hpk] at hN
        have : (N : ℝ) ≤ ((n + 1 : ℕ) : ℝ) := by exact_mod_cast hn.trans (Nat.le_succ n)
        exact hN.le.trans (mul_le_mul_of_nonneg_right this hpk.le)
      calc (1 : ℝ) ≤ (1 - p.essThresholdRetain) * (((n + 1 : ℕ) : ℝ) * (p.essThresholdRetain ^ (k + 1) / 2)) := by linarith
        _ ≤ _ := mul_le_mul_of_nonneg_left h9 (sub_nonneg.2 h1.le)
    obtain ⟨-, h3, h4, h5, h6⟩ := adaptive_state (pri := pri) (c := c) (cat n) hc hR h0.le h1.le stp ((n + 1) :: (n + 1) :: 0 :: key) (abcStart (n := n + 1) pri sim key ω) hω1 k (fun j hj => hcard (j + 1) hj)
    refine ⟨fun i => h4.threshold i, h5, fun f => mean_of_state h3 h4 h6 ?_ f⟩
    intro h7
    have h8 := hXj k le_rfl
    rw [hX, Alive.er_card] at h8
    have h9 : (redRun cat S V sim dist q p stp key k n (abcStart (n := n + 1) pri sim key ω, ω)).2.2.toReal = 0 := h7
    rw [h9, zero_mul] at h8
    exact absurd h8 (not_lt.2 (half_pos (pow_pos h0 _)).le)
  refine (measure_mono hsub).trans ((measure_union_le _ _).trans ?_)
  rw [hnice, zero_add]
  exact measure_biUnion_finset_le _ _

include hq hS hV hsim hdist hpri hprior hatom hcat in
/-- C149: the thresholds. With adaptive thresholds (no schedule given), `ess_threshold_retain` = `ρ` with `0 < ρ < 1` and at least one inner step, the probability that the threshold recorded after `k` updates
lets data through with probability within `ε` of `ρ ^ (k + 1)` tends to 1 as the ensemble grows. (Draws from an ideal generator; prior draws with density proportional to `exp(-V)` on `S`; a distance without atoms.) -/
theorem C149_threshold (hc : Adaptive c) (hR : 0 < p.mcmcSteps) (h0 : 0 < p.essThresholdRetain) (h1 : p.essThresholdRetain < 1) (k : ℕ) (ε : ℝ) (hε : 0 < ε) :
    Tendsto (fun n => ideal {ω | ¬ ∃ t : ℝ, (∀ i, (abcSmcRun (cat n) S V pri sim dist q c p stp key ω k i).threshold = Fl.fin t) ∧
      |(simulated (ideal.map pri) sim).real {z | dist z.2 ≤ t} - p.essThresholdRetain ^ (k + 1)| < ε}) atTop (𝓝 0) := by
  have h2 := (linked_tendsto hq hS hV hsim hdist hpri a hprior hatom hcat stp key p hc hR h0 h1 k).add
    (inProb_real.1 (redRun_limits hq hS hV hsim hdist hpri a hprior hatom hcat stp key p h0.le h1.le k).1 ε hε)
  rw [add_zero] at h2
  refine tendsto_of_tendsto_of_tendsto_of_le_of_le tendsto_const_nhds h2 (fun n => bot_le) fun n => (measure_mono fun ω hω => ?_).trans (measure_union_le _ _)
  by_cases hl : Linked cat S V pri sim dist q c p stp key k n ω
  · refine Or.inr (not_lt.1 fun h3 => hω ⟨_, hl.1, h3⟩)
  · exact Or.inl hl

include hq hS hV hsim hdist hpri hprior hatom hcat in
/-- C149: the estimates. The probability that the mean of a bounded `f` over the particles with weight is within `ε` of the expectation of `f` given data within the recorded (random) threshold tends to 1. -/
theorem C149_mean (hc : Adaptive c) (hR : 0 < p.mcmcSteps) (h0 : 0 < p.essThresholdRetain) (h1 : p.essThresholdRetain < 1) (k : ℕ) (f : (Fin d → ℝ) × D → ℝ) (hf : Measurable f) (B : ℝ) (hB : ∀ z, |f z| ≤ B)
    (ε : ℝ) (hε : 0 < ε) :
    Tendsto (fun n => ideal {ω | ¬ ∃ t : ℝ, (∀ i, (abcSmcRun (cat n) S V pri sim dist q c p stp key ω k i).threshold = Fl.fin t) ∧
      |abcMean f (abcSmcRun (cat n) S V pri sim dist q c p stp key ω k) - abcPosteriorMean (simulated (ideal.map pri) sim) dist t f| < ε}) atTop (𝓝 0) := by
  have hpair : Measurable fun z : (Fin d → ℝ) × Tape => (z.1, sim z.1 z.2) := measurable_fst.prodMk hsim
  have hprob : IsProbabilityMeasure (ideal.map pri) := Measure.isProbabilityMeasure_map hpri.aemeasurable
  have hprob2 : IsProbabilityMeasure (simulated (ideal.map pri) sim) := Measure.isProbabilityMeasure_map hpair.aemeasurable
  have hlk := linked_tendsto hq hS hV hsim hdist hpri a hprior hatom hcat stp key p hc hR h0 h1 k
  have hm := (redRun_limits hq hS hV hsim hdist hpri a hprior hatom hcat stp key p h0.le h1.le k).1
  have hs := redRun_signed hq hS hV hsim hdist hpri a hprior hatom hcat stp key p h0.le h1.le k
  obtain ⟨r, hr⟩ : ∃ r : ∀ n, Tape → ℝ × Alive.St (n + 1) ((Fin d → ℝ) × D), ∀ n ω, r n ω = redRun cat S V sim dist q p stp key k n (abcStart (n := n + 1) pri sim key ω, ω) := ⟨_, fun _ _ => rfl⟩
  unfold Linked at hlk
  simp only [← hr] at hlk hm hs
  have hm0 : 0 < p.essThresholdRetain ^ (k + 1) := pow_pos h0 _
  generalize p.essThresholdRetain ^ (k + 1) = m at hm hm0
  have hB0 : 0 ≤ |B| := abs_nonneg B
  have hsf := hs f hf B hB
  have hs1 := hs (fun _ => 1) measurable_const 1 fun _ => by norm_num
  have hmass : Tendsto (fun n => ideal {ω | m / 2 ≤ |(simulated (ideal.map pri) sim).real {z | dist z.2 ≤ (r n ω).1} - m|}) atTop (𝓝 0) := inProb_real.1 hm (m / 2) (half_pos hm0)
  have hoff : ∀ n, ∀ ω ∉ {ω | m / 2 ≤ |(simulated (ideal.map pri) sim).real {z | dist z.2 ≤ (r n ω).1} - m|},
      max (m / 2) ((simulated (ideal.map pri) sim).real {z | dist z.2 ≤ (r n ω).1}) = (simulated (ideal.map pri) sim).real {z | dist z.2 ≤ (r n ω).1} := by
    intro n ω hω
    have h3 := (abs_lt.1 (not_le.1 (show ¬ m / 2 ≤ |(simulated (ideal.map pri) sim).real {z | dist z.2 ≤ (r n ω).1} - m| from hω))).1
    exact max_eq_right (by linarith)
  have hz : InProb (fun _ => ideal) (fun n ω => Alive.er (Alive.upTo (fun z : (Fin d → ℝ) × D => dist z.2) (r n ω).1) (fun _ => 1) (r n ω).2 - max (m / 2) ((simulated (ideal.map pri) sim).real {z | dist z.2 ≤ (r n ω).1})) 0 := by
    refine inProb_off hs1 hmass fun n ω hω => ?_
    rw [hoff n ω hω, setIntegral_const, smul_eq_mul, mul_one]
  have hrat := Smc.inProb_ratio (half_pos hm0) hB0 (fun n ω => le_max_left (m / 2) ((simulated (ideal.map pri) sim).real {z | dist z.2 ≤ (r n ω).1}))
    (y := fun n ω => ∫ z in {z | dist z.2 ≤ (r n ω).1}, f z ∂(simulated (ideal.map pri) sim)) (fun n ω => by
      have h3 := norm_setIntegral_le_of_norm_le_const (μ := simulated (ideal.map pri) sim) (s := {z | dist z.2 ≤ (r n ω).1}) (f := f) (C := |B|) (measure_lt_top _ _) fun z _ => (hB z).trans (le_abs_self B)
      exact h3.trans (mul_le_mul_of_nonneg_left (le_max_right _ _) hB0)) hsf hz
  have hrat' : InProb (fun _ => ideal) (fun n ω => Alive.er (Alive.upTo (fun z : (Fin d → ℝ) × D => dist z.2) (r n ω).1) f (r n ω).2 / Alive.er (Alive.upTo (fun z : (Fin d → ℝ) × D => dist z.2) (r n ω).1) (fun _ => 1) (r n ω).2
      - abcPosteriorMean (simulated (ideal.map pri) sim) dist (r n ω).1 f) 0 := by
    refine inProb_off hrat hmass fun n ω hω => ?_
    rw [hoff n ω hω]
    rfl
  have h2 := hlk.add (inProb_real.1 hrat' ε hε)
  rw [add_zero] at h2
  refine tendsto_of_tendsto_of_tendsto_of_le_of_le tendsto_const_nhds h2 (fun n => bot_le) fun n => (measure_mono fun ω hω => ?_).trans (measure_union_le _ _)
  by_contra hcon
  rw [Set.mem_union, not_or] at hcon
  obtain ⟨h3, h4⟩ := hcon
  obtain ⟨h5, -, h6⟩ := not_not.1 h3
  rw [Set.mem_ofPred_eq, not_le] at h4
  rw [sub_zero, ← h6 f] at h4
  exact hω ⟨_, h5, h4⟩

include hq hS hV hsim hdist hpri hprior hatom hcat in
/-- C149: the limit. If data within `t` have probability exactly `ρ ^ (k + 1)`, the mean of a bounded `f` over the particles with weight after `k` updates converges in probability to the expectation of `f`
given data within `t`. -/
theorem C149_limit (hc : Adaptive c) (hR : 0 < p.mcmcSteps) (h0 : 0 < p.essThresholdRetain) (h1 : p.essThresholdRetain < 1) (k : ℕ) (t : ℝ)
    (ht : (simulated (ideal.map pri) sim).real {z | dist z.2 ≤ t} = p.essThresholdRetain ^ (k + 1)) (f : (Fin d → ℝ) × D → ℝ) (hf : Measurable f) (B : ℝ) (hB : ∀ z, |f z| ≤ B) :
    InProb (fun _ => ideal) (fun n ω => abcMean f (abcSmcRun (cat n) S V pri sim dist q c p stp key ω k)) (abcPosteriorMean (simulated (ideal.map pri) sim) dist t f) := by
  have hpair : Measurable fun z : (Fin d → ℝ) × Tape => (z.1, sim z.1 z.2) := measurable_fst.prodMk hsim
  have hprob : IsProbabilityMeasure (ideal.map pri) := Measure.isProbabilityMeasure_map hpri.aemeasurable
  have hprob2 : IsProbabilityMeasure (simulated (ideal.map pri) sim) := Measure.isProbabilityMeasure_map hpair.aemeasurable
  have hlk := linked_tendsto hq hS hV hsim hdist hpri a hprior hatom hcat stp key p hc hR h0 h1 k
  have hm := (redRun_limits hq hS hV hsim hdist hpri a hprior hatom hcat stp key p h0.le h1.le k).1
  have hs := redRun_signed hq hS hV hsim hdist hpri a hprior hatom hcat stp key p h0.le h1.le k
  obtain ⟨r, hr⟩ : ∃ r : ∀ n, Tape → ℝ × Alive.St (n + 1) ((Fin d → ℝ) × D), ∀ n ω, r n ω = redRun cat S V sim dist q p stp key k n (abcStart (n := n + 1) pri sim key ω, ω) := ⟨_, fun _ _ => rfl⟩
  unfold Linked at hlk
  simp only [← hr] at hlk hm hs
  have hm0 : 0 < (simulated (ideal.map pri) sim).real {z | dist z.2 ≤ t} := by rw [ht]; exact pow_pos h0 _
  rw [← ht] at hm
  have hint : ∀ s : ℝ, IntegrableOn f {z | dist z.2 ≤ s} (simulated (ideal.map pri) sim) := fun s =>
    (Integrable.of_bound hf.aestronglyMeasurable B (.of_forall hB)).integrableOn
  have hms : ∀ s : ℝ, MeasurableSet {z : (Fin d → ℝ) × D | dist z.2 ≤ s} := fun s => measurableSet_le (hdist.comp measurable_snd) measurable_const
  have hdiff : ∀ s u : ℝ, s ≤ u → |∫ z in {z | dist z.2 ≤ u}, f z ∂(simulated (ideal.map pri) sim) - ∫ z in {z | dist z.2 ≤ s}, f z ∂(simulated (ideal.map pri) sim)|
      ≤ |B| * |(simulated (ideal.map pri) sim).real {z | dist z.2 ≤ u} - (simulated (ideal.map pri) sim).real {z | dist z.2 ≤ s}| := by
    intro s u hsu
    have hss : {z : (Fin d → ℝ) × D | dist z.2 ≤ s} ⊆ {z | dist z.2 ≤ u} := fun z hz => le_trans (show dist z.2 ≤ s from hz) hsu
    have e1 := setIntegral_sdiff (μ := simulated (ideal.map pri) sim) (f := f) (hms s) (hint u) hss
    have e2 := measureReal_sdiff (μ := simulated (ideal.map pri) sim) hss (hms s)
    have h3 := norm_setIntegral_le_of_norm_le_const (μ := simulated (ideal.map pri) sim) (s := {z | dist z.2 ≤ u} \ {z | dist z.2 ≤ s}) (f := f) (C := |B|) (measure_lt_top _ _) fun z _ => (hB z).trans (le_abs_self B)
    rw [e1, e2] at h3
    exact h3.trans (mul_le_mul_of_nonneg_left (le_abs_self _) (abs_nonneg B))
  have hdiff' : ∀ s, |∫ z in {z | dist z.2 ≤ s}, f z ∂(simulated (ideal.map pri) sim) - ∫ z in {z | dist z.2 ≤ t}, f z ∂(simulated (ideal.map pri) sim)|
      ≤ |B| * |(simulated (ideal.map pri) sim).real {z | dist z.2 ≤ s} - (simulated (ideal.map pri) sim).real {z | dist z.2 ≤ t}| := by
    intro s
    rcases le_total s t with h | h
    · rw [abs_sub_comm, abs_sub_comm ((simulated (ideal.map pri) sim).real _)]
      exact hdiff s t h
    · exact hdiff t s h
  have hm' : InProb (fun _ => ideal) (fun n ω => (simulated (ideal.map pri) sim).real {z | dist z.2 ≤ (r n ω).1} - (simulated (ideal.map pri) sim).real {z | dist z.2 ≤ t}) 0 := by
    have := hm.sub (inProb_const (μ := fun _ : ℕ => ideal) ((simulated (ideal.map pri) sim).real {z | dist z.2 ≤ t}))
    rwa [sub_self] at this
  have hBm : InProb (fun _ => ideal) (fun n ω => |B| * ((simulated (ideal.map pri) sim).real {z | dist z.2 ≤ (r n ω).1} - (simulated (ideal.map pri) sim).real {z | dist z.2 ≤ t})) 0 := by
    have := (inProb_const (μ := fun _ : ℕ => ideal) |B|).mul hm'
    rwa [mul_zero] at this
  have hI : InProb (fun _ => ideal) (fun n ω => ∫ z in {z | dist z.2 ≤ (r n ω).1}, f z ∂(simulated (ideal.map pri) sim) - ∫ z in {z | dist z.2 ≤ t}, f z ∂(simulated (ideal.map pri) sim)) 0 :=
    Smc.inProb_of_le' hBm fun n ω => by
      rw [abs_mul, abs_abs]
      exact hdiff' _
  have hy := (hs f hf B hB).add hI
  have hz := (hs (fun _ => 1) measurable_const 1 fun _ => by norm_num).add hm'
  rw [add_zero] at hy hz
  have hrat := Smc.inProb_ratio (μ := fun _ : ℕ => ideal) hm0 (div_nonneg (abs_nonneg (∫ z in {z | dist z.2 ≤ t}, f z ∂(simulated (ideal.map pri) sim))) hm0.le)
    (z := fun _ _ => (simulated (ideal.map pri) sim).real {z | dist z.2 ≤ t}) (y := fun _ _ => ∫ z in {z | dist z.2 ≤ t}, f z ∂(simulated (ideal.map pri) sim)) (fun _ _ => le_rfl) (fun _ _ => by rw [div_mul_cancel₀ _ hm0.ne'])
    (hy.congr (Filter.Eventually.of_forall fun n ω => sub_add_sub_cancel _ _ _)) (hz.congr (Filter.Eventually.of_forall fun n ω => by
      rw [setIntegral_const, smul_eq_mul, mul_one, sub_add_sub_cancel]))
  have hfin := inProb_off (g' := fun n ω => abcMean f (abcSmcRun (cat n) S V pri sim dist q c p stp key ω k) - abcPosteriorMean (simulated (ideal.map pri) sim) dist t f) hrat hlk fun n ω hω => by
    obtain ⟨-, -, h6⟩ := not_not.1 hω
    rw [h6 f]
    rfl
  have := hfin.add (inProb_const (μ := fun _ : ℕ => ideal) (abcPosteriorMean (simulated (ideal.map pri) sim) dist t f))
  rw [zero_add] at this
  exact this.congr (Filter.Eventually.of_forall fun n ω => sub_add_cancel _ _)

include hq hS hV hsim hdist hpri hprior hatom hcat in
/-- C149: such a `t` exists, so the ensembles after `k` updates have a limit. -/
theorem C149_converges (hc : Adaptive c) (hR : 0 < p.mcmcSteps) (h0 : 0 < p.essThresholdRetain) (h1 : p.essThresholdRetain < 1) (k : ℕ) :
    ∃ t : ℝ, (simulated (ideal.map pri) sim).real {z | dist z.2 ≤ t} = p.essThresholdRetain ^ (k + 1) ∧ ∀ f : (Fin d → ℝ) × D → ℝ, Measurable f → ∀ B, (∀ z, |f z| ≤ B) →
      InProb (fun _ => ideal) (fun n ω => abcMean f (abcSmcRun (cat n) S V pri sim dist q c p stp key ω k)) (abcPosteriorMean (simulated (ideal.map pri) sim) dist t f) := by
  have hpair : Measurable fun z : (Fin d → ℝ) × Tape => (z.1, sim z.1 z.2) := measurable_fst.prodMk hsim
  have hprob : IsProbabilityMeasure (ideal.map pri) := Measure.isProbabilityMeasure_map hpri.aemeasurable
  have hprob2 : IsProbabilityMeasure (simulated (ideal.map pri) sim) := Measure.isProbabilityMeasure_map hpair.aemeasurable
  obtain ⟨t, ht⟩ := exists_within (simulated (ideal.map pri) sim) (dist := fun z => dist z.2) (hdist.comp measurable_snd) hatom (pow_pos h0 (k + 1)) (pow_lt_one₀ h0.le h1 (by omega))
  exact ⟨t, ht, fun f hf B hB => C149_limit hq hS hV hsim hdist hpri a hprior hatom hcat stp key p hc hR h0 h1 k t ht f hf B hB⟩

include hq hS hV hsim hdist hpri hprior hatom hcat in
/-- C149: in terms of the chain that a run returns: the probability that in some row the mean of `f` over the particles with weight is `ε` or more away from the expectation of `f` given data within the threshold
that the row records tends to 0. -/
theorem C149_chain (hc : Adaptive c) (hR : 0 < p.mcmcSteps) (h0 : 0 < p.essThresholdRetain) (h1 : p.essThresholdRetain < 1) (f : (Fin d → ℝ) × D → ℝ) (hf : Measurable f) (B : ℝ) (hB : ∀ z, |f z| ≤ B)
    (ε : ℝ) (hε : 0 < ε) :
    Tendsto (fun n => ideal {ω |
      let start := initialDraw Keys.split (fun k i => i :: k) (tapeScenario S V pri sim (fun y => Fl.fin (dist y)) ω) (n + 1) key
      ∃ ens ∈ AbcSmc.run (fun k (i : Fin (n + 1 + 2)) => (i : ℕ) :: k) (fun k lw i => cat n lw (ω (k, (i : ℕ)))) (abcInner S V pri sim dist q ω) c p (fun _ s => s) start.1 start.2 stp,
        ∀ t : ℝ, (∀ i, (ens i).threshold = Fl.fin t) → ε ≤ |abcMean f ens - abcPosteriorMean (simulated (ideal.map pri) sim) dist t f|}) atTop (𝓝 0) := by
  have h2 := tendsto_finsetSum (Finset.range (c.maxIter.toNat + 1)) fun k _ => C149_mean hq hS hV hsim hdist hpri a hprior hatom hcat stp key p hc hR h0 h1 k f hf B hB ε hε
  rw [Finset.sum_const_zero] at h2
  refine tendsto_of_tendsto_of_tendsto_of_le_of_le tendsto_const_nhds h2 (fun n => bot_le) fun n => (measure_mono fun ω hω => ?_).trans (measure_biUnion_finset_le _ _)
  obtain ⟨ens, hens, hbad⟩ := hω
  obtain ⟨m, hm, hrun⟩ := abcSmc_run_eq (fun k (i : Fin (n + 1 + 2)) => (i : ℕ) :: k) (fun k lw i => cat n lw (ω (k, (i : ℕ)))) (abcInner S V pri sim dist q ω) c p (fun _ s => s)
    (initialDraw Keys.split (fun k i => i :: k) (tapeScenario S V pri sim (fun y => Fl.fin (dist y)) ω) (n + 1) key).1
    (initialDraw Keys.split (fun k i => i :: k) (tapeScenario S V pri sim (fun y => Fl.fin (dist y)) ω) (n + 1) key).2 stp
  rw [hrun] at hens
  obtain ⟨k, hk, rfl⟩ := List.mem_map.1 hens
  have hk' := List.mem_range.1 hk
  refine Set.mem_biUnion (x := k) (Finset.mem_coe.2 (Finset.mem_range.2 (by omega))) ?_
  rintro ⟨t, ht, hlt⟩
  exact absurd (hbad t ht) (not_le.2 hlt)

end

/-- The hypotheses are met: prior uniform on `[0, 1)`, data with one normal error, distance to the observation 1, thresholds adapted so that 9/10 of the particles stay; the probability that the parameter is above 1/2. -/
example : ∃ q : ℝ → ℝ, IsNormalDraw q ∧ ∀ cat : ∀ n, (Fin (n + 1) → Fl) → ℝ → Fin (n + 1), (∀ n, IsCategorical (cat n)) → ∀ (key : Keys.Key) (k : ℕ) (ε : ℝ), 0 < ε →
    Tendsto (fun n => ideal {ω | ¬ ∃ t : ℝ, (∀ i, (abcSmcRun (cat n) (seg 1) (fun _ => Real.log 1) (unifDraw 1) (fun x τ => x 0 + q (τ ([], 0))) (fun y => |y - 1|) q ⟨none, 2⟩
        ⟨3, 9 / 10, 1 / 2, 1 / 100⟩ (fun _ => 2) key ω k i).threshold = Fl.fin t) ∧
      |abcMean (Set.indicator {z | 1 / 2 < z.1 0} 1) (abcSmcRun (cat n) (seg 1) (fun _ => Real.log 1) (unifDraw 1) (fun x τ => x 0 + q (τ ([], 0))) (fun y => |y - 1|) q ⟨none, 2⟩
        ⟨3, 9 / 10, 1 / 2, 1 / 100⟩ (fun _ => 2) key ω k)
      - abcPosteriorMean (simulated (ideal.map (unifDraw 1)) fun x τ => x 0 + q (τ ([], 0))) (fun y => |y - 1|) t (Set.indicator {z | 1 / 2 < z.1 0} 1)| < ε}) atTop (𝓝 0) := by
  obtain ⟨q, hq⟩ := exists_isNormalDraw
  have hp : IsProbabilityMeasure (ideal.map (unifDraw 1)) := Measure.isProbabilityMeasure_map (measurable_unifDraw 1).aemeasurable
  refine ⟨q, hq, fun cat hcat key k ε hε => ?_⟩
  have hS : MeasurableSet {z : (Fin 1 → ℝ) × ℝ | 1 / 2 < z.1 0} := measurableSet_lt measurable_const ((measurable_pi_apply 0).comp measurable_fst)
  exact C149_mean (d := 1) hq (measurableSet_seg 1) (V := fun _ => Real.log 1) measurable_const (sim := fun x τ => x 0 + q (τ ([], 0))) (measurable_noisySim hq) (dist := fun y => |y - 1|) (by fun_prop)
    (measurable_unifDraw 1) 1 (by rw [one_smul]; exact unifDraw_law one_pos) (fun t => noisySim_no_atom hq t _) hcat (fun _ => 2) key ⟨3, 9 / 10, 1 / 2, 1 / 100⟩ (c := ⟨none, 2⟩) (fun l => by simp) (by norm_num)
    (by norm_num) (by norm_num) k (Set.indicator {z | 1 / 2 < z.1 0} 1) (measurable_one.indicator hS) 1 (fun z => by
      by_cases hz : z ∈ {z : (Fin 1 → ℝ) × ℝ | 1 / 2 < z.1 0}
      · rw [Set.indicator_of_mem hz]; simp
      · rw [Set.indicator_of_notMem hz]; simp) ε hε

end Mocat.Props
