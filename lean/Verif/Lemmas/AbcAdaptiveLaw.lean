import Verif.Lemmas.AliveNet
import Verif.Lemmas.AbcThreshold
import Verif.Props.AbcSmcConsistency
/-! The moves of ABC-SMC over the thresholds. -/
namespace Mocat.Props
open Mocat Mocat.Mcmc Mocat.Abc Mocat.AbcSmc Mocat.Ideal Mocat.Meas Mocat.Smc MeasureTheory ProbabilityTheory Filter
open scoped ENNReal

variable {d : ℕ} {D : Type*} [MeasurableSpace D]

theorem measurableSet_ball {dist : D → ℝ} (hdist : Measurable dist) (t : ℝ) : MeasurableSet (ball (fun y => Fl.fin (dist y)) (Fl.fin t)) := by
  change MeasurableSet {y | dist y < t}
  exact measurableSet_lt hdist measurable_const

section
variable {q : ℝ → ℝ} (hq : IsNormalDraw q) {S : Set (Fin d → ℝ)} (hS : MeasurableSet S) {V : (Fin d → ℝ) → ℝ} (hV : Measurable V) {sim : (Fin d → ℝ) → Tape → D}
  (hsim : Measurable fun z : (Fin d → ℝ) × Tape => sim z.1 z.2) {dist : D → ℝ} (hdist : Measurable dist) (stp : Fin d → ℝ)
include hS hV hsim hdist

/-- Moves are measurable, jointly with the threshold. -/
theorem measurable_abcMove_thr (s : Fin d → ℝ) :
    Measurable fun z : (ℝ × ((Fin d → ℝ) × D)) × (((Fin d → ℝ) × Tape) × ℝ) => abcMove S V sim (ball (fun y => Fl.fin (dist y)) (Fl.fin z.1.1)) s z.1.2 z.2 := by
  have h1 : Measurable fun z : (ℝ × ((Fin d → ℝ) × D)) × (((Fin d → ℝ) × Tape) × ℝ) => abcProp sim s (z.1.2, z.2.1) :=
    (measurable_abcProp hsim s).comp ((measurable_snd.comp measurable_fst).prodMk (measurable_fst.comp measurable_snd))
  have h2 : Measurable fun z : (ℝ × ((Fin d → ℝ) × D)) × (((Fin d → ℝ) × Tape) × ℝ) => abcAcc S V Set.univ z.1.2.1 (abcProp sim s (z.1.2, z.2.1)) :=
    (measurable_abcAcc hS hV MeasurableSet.univ).comp ((measurable_fst.comp (measurable_snd.comp measurable_fst)).prodMk h1)
  have h3 : MeasurableSet {z : (ℝ × ((Fin d → ℝ) × D)) × (((Fin d → ℝ) × Tape) × ℝ) | dist (abcProp sim s (z.1.2, z.2.1)).2 < z.1.1} :=
    measurableSet_lt (hdist.comp (measurable_snd.comp h1)) (measurable_fst.comp measurable_fst)
  have h4 : Measurable fun z : (ℝ × ((Fin d → ℝ) × D)) × (((Fin d → ℝ) × Tape) × ℝ) => abcAcc S V (ball (fun y => Fl.fin (dist y)) (Fl.fin z.1.1)) z.1.2.1 (abcProp sim s (z.1.2, z.2.1)) := by
    classical
    have e : (fun z : (ℝ × ((Fin d → ℝ) × D)) × (((Fin d → ℝ) × Tape) × ℝ) => abcAcc S V (ball (fun y => Fl.fin (dist y)) (Fl.fin z.1.1)) z.1.2.1 (abcProp sim s (z.1.2, z.2.1)))
        = fun z => if dist (abcProp sim s (z.1.2, z.2.1)).2 < z.1.1 then abcAcc S V Set.univ z.1.2.1 (abcProp sim s (z.1.2, z.2.1)) else 0 := by
      funext z
      by_cases h : dist (abcProp sim s (z.1.2, z.2.1)).2 < z.1.1
      · have h6 : (abcProp sim s (z.1.2, z.2.1)).2 ∈ ball (fun y => Fl.fin (dist y)) (Fl.fin z.1.1) := h
        rw [if_pos h, abcAcc, if_pos h6, abcAcc, if_pos (Set.mem_univ _)]
      · have h6 : (abcProp sim s (z.1.2, z.2.1)).2 ∉ ball (fun y => Fl.fin (dist y)) (Fl.fin z.1.1) := h
        rw [if_neg h, abcAcc, if_neg h6]
    rw [e]
    exact Measurable.ite h3 h2 measurable_const
  exact Measurable.ite (measurableSet_lt (measurable_snd.comp measurable_snd) h4) h1 (measurable_snd.comp measurable_fst)

include hq in
/-- The moves of an update. -/
theorem abc_moveLaw (R : ℕ) : MoveLaw (fun t k z ω => abcMoves S V sim dist q R t stp k z ω)
    fun t => (stepOp (((stdNormal d).prod ideal).prod unif) (abcMove S V sim (ball (fun y => Fl.fin (dist y)) (Fl.fin t)) fun i => Real.sqrt (stp i)))^[R] := by
  have hm := fun t => measurable_abcMove hS hV (measurableSet_ball hdist t) hsim fun i => Real.sqrt (stp i)
  refine ⟨fun k => ?_, fun t k x => tapeIter_dependsOn (abcDraws_draws hq) _ _ _ _, fun t k x h hh => lintegral_tapeIter (abcDraws_draws hq) (hm t) _ _ _ hh⟩
  have hmt := measurable_abcMove_thr hS hV hsim hdist fun i => Real.sqrt (stp i)
  have h1 : ∀ (R : ℕ) (k : Keys.Key), Measurable fun z : (ℝ × ((Fin d → ℝ) × D)) × Tape =>
      tapeIter (abcDraws q d) Keys.abcNext (abcMove S V sim (ball (fun y => Fl.fin (dist y)) (Fl.fin z.1.1)) fun i => Real.sqrt (stp i)) R k z.1.2 z.2 := by
    intro R
    induction R with
    | zero => exact fun k => measurable_snd.comp measurable_fst
    | succ R ih =>
      intro k
      have h2 : Measurable fun z : (ℝ × ((Fin d → ℝ) × D)) × Tape => abcMove S V sim (ball (fun y => Fl.fin (dist y)) (Fl.fin z.1.1)) (fun i => Real.sqrt (stp i)) z.1.2 (abcDraws q d k z.2) :=
        hmt.comp (measurable_fst.prodMk (((abcDraws_draws hq).measurable k).comp measurable_snd))
      have h3 := (ih (Keys.abcNext k)).comp (((measurable_fst.comp measurable_fst).prodMk h2).prodMk measurable_snd)
      exact h3
  exact h1 R k

omit hdist in
theorem abc_invariant_univ {a : ℝ≥0∞} {μ : Measure ((Fin d → ℝ) × D)} (hμ : μ = a • ((target S V).prod ideal).map fun z => (z.1, sim z.1 z.2)) (s : Fin d → ℝ) {u : (Fin d → ℝ) × D → ℝ≥0∞} (hu : Measurable u) :
    ∫⁻ x, ∫⁻ w, u (abcMove S V sim Set.univ s x w) ∂(((stdNormal d).prod ideal).prod unif) ∂μ = ∫⁻ x, u x ∂μ := by
  have h := abcMove_invariant hS hV MeasurableSet.univ hsim s u hu
  have e : abcTarget S V sim (Set.univ : Set D) = ((target S V).prod ideal).map fun z => (z.1, sim z.1 z.2) := by
    unfold abcTarget
    simp
  rw [e] at h
  rw [hμ, lintegral_smul_measure, lintegral_smul_measure, h]

/-- Moves at different thresholds. -/
theorem abc_cutMove {a : ℝ≥0∞} {μ : Measure ((Fin d → ℝ) × D)} (hμ : μ = a • ((target S V).prod ideal).map fun z => (z.1, sim z.1 z.2)) (s : Fin d → ℝ) :
    Alive.CutMove μ (fun z : (Fin d → ℝ) × D => dist z.2) (((stdNormal d).prod ideal).prod unif) (fun t => abcMove S V sim (ball (fun y => Fl.fin (dist y)) (Fl.fin t)) s)
      (abcMove S V sim Set.univ s) := by
  have hu : ∀ᵐ w : ((Fin d → ℝ) × Tape) × ℝ ∂(((stdNormal d).prod ideal).prod unif), 0 ≤ w.2 := by
    have h1 : ∀ᵐ u ∂unif, 0 ≤ u := by
      unfold unif
      exact (ae_restrict_mem measurableSet_Ico).mono fun u hu => hu.1
    exact Measure.quasiMeasurePreserving_snd.ae h1
  refine ⟨fun t => measurable_abcMove hS hV (measurableSet_ball hdist t) hsim s, measurable_abcMove hS hV MeasurableSet.univ hsim s, fun t x => ?_, fun t p x => ?_, fun u hu => abc_invariant_univ hS hV hsim hμ s hu⟩
  · filter_upwards [hu] with w hw
    unfold abcMove
    simp only
    by_cases hb : sim (walk s (x.1, w.1.1)) w.1.2 ∈ ball (fun y => Fl.fin (dist y)) (Fl.fin t)
    · right
      rw [abcAcc, if_pos hb, abcAcc, if_pos (Set.mem_univ _)]
    · left
      rw [abcAcc, if_neg hb, if_neg (not_lt.2 hw)]
  · filter_upwards [hu] with w hw hiff
    unfold abcMove at hiff ⊢
    simp only at hiff ⊢
    by_cases ha : w.2 < accOn S V x.1 (walk s (x.1, w.1.1))
    · have hc : abcAcc S V (Set.univ : Set D) x.1 (walk s (x.1, w.1.1), sim (walk s (x.1, w.1.1)) w.1.2) = accOn S V x.1 (walk s (x.1, w.1.1)) := by rw [abcAcc, if_pos (Set.mem_univ _)]
      rw [hc, if_pos ha] at hiff
      have hb : sim (walk s (x.1, w.1.1)) w.1.2 ∈ ball (fun y => Fl.fin (dist y)) (Fl.fin t) ↔ sim (walk s (x.1, w.1.1)) w.1.2 ∈ ball (fun y => Fl.fin (dist y)) (Fl.fin p) := hiff.2
      have he : abcAcc S V (ball (fun y => Fl.fin (dist y)) (Fl.fin t)) x.1 (walk s (x.1, w.1.1), sim (walk s (x.1, w.1.1)) w.1.2)
          = abcAcc S V (ball (fun y => Fl.fin (dist y)) (Fl.fin p)) x.1 (walk s (x.1, w.1.1), sim (walk s (x.1, w.1.1)) w.1.2) := by
        unfold abcAcc
        by_cases h1 : sim (walk s (x.1, w.1.1)) w.1.2 ∈ ball (fun y => Fl.fin (dist y)) (Fl.fin t)
        · rw [if_pos h1, if_pos (hb.1 h1)]
        · rw [if_neg h1, if_neg fun h2 => h1 (hb.2 h2)]
      rw [he]
    · have hn : ∀ B : Set D, ¬ w.2 < abcAcc S V B x.1 (walk s (x.1, w.1.1), sim (walk s (x.1, w.1.1)) w.1.2) := by
        intro B
        unfold abcAcc
        split_ifs
        · exact ha
        · exact not_lt.2 hw
      rw [if_neg (hn _), if_neg (hn _)]

/-- The moves leave the law within the threshold invariant. -/
theorem abc_within_invariant {a : ℝ≥0∞} {μ : Measure ((Fin d → ℝ) × D)} (hμ : μ = a • ((target S V).prod ideal).map fun z => (z.1, sim z.1 z.2)) (R : ℕ) (t : ℝ) (h0 : μ {z | dist z.2 = t} = 0)
    {h : (Fin d → ℝ) × D → ℝ≥0∞} (hh : Measurable h) :
    ∫⁻ z in Alive.upTo (fun z : (Fin d → ℝ) × D => dist z.2) t,
        (stepOp (((stdNormal d).prod ideal).prod unif) (abcMove S V sim (ball (fun y => Fl.fin (dist y)) (Fl.fin t)) fun i => Real.sqrt (stp i)))^[R] h z ∂μ
      = ∫⁻ z in Alive.upTo (fun z : (Fin d → ℝ) × D => dist z.2) t, h z ∂μ := by
  have hball := measurableSet_ball hdist t
  have hm := measurable_abcMove hS hV hball hsim fun i => Real.sqrt (stp i)
  have hae : Alive.upTo (fun z : (Fin d → ℝ) × D => dist z.2) t =ᵐ[μ] {z | z.2 ∈ ball (fun y => Fl.fin (dist y)) (Fl.fin t)} := by
    rw [measure_eq_zero_iff_ae_notMem] at h0
    filter_upwards [h0] with z hz
    refine propext ⟨fun h1 => lt_of_le_of_ne h1 hz, fun h1 => le_of_lt h1⟩
  have hres : μ.restrict {z : (Fin d → ℝ) × D | z.2 ∈ ball (fun y => Fl.fin (dist y)) (Fl.fin t)} = a • abcTarget S V sim (ball (fun y => Fl.fin (dist y)) (Fl.fin t)) := by
    rw [hμ, Measure.restrict_smul]; rfl
  rw [Measure.restrict_congr_set hae, hres, lintegral_smul_measure, lintegral_smul_measure]
  congr 1
  exact stepOp_invariant hm (fun f hf => abcMove_invariant hS hV hball hsim _ f hf) _ hh

end

theorem abc_catLaw {n : ℕ} {cat : (Fin n → Fl) → ℝ → Fin n} (hcat : IsCategorical cat) (thr : ℝ) : Alive.CatLaw (aliveCat cat) (aliveCrit n thr) :=
  ⟨fun _ => hcat.measurable _, fun A hA j => aliveCat_prob hcat A hA.1 j, fun _ hA => hA.1⟩

section
variable {q : ℝ → ℝ} (hq : IsNormalDraw q) {S : Set (Fin d → ℝ)} (hS : MeasurableSet S) {V : (Fin d → ℝ) → ℝ} (hV : Measurable V) {pri : Tape → Fin d → ℝ} {sim : (Fin d → ℝ) → Tape → D}
  (hsim : Measurable fun z : (Fin d → ℝ) × Tape => sim z.1 z.2) {dist : D → ℝ} (hdist : Measurable dist) (hpri : Measurable pri) (a : ℝ≥0∞) (hprior : ideal.map pri = a • target S V)
  (hatom : ∀ t, simulated (ideal.map pri) sim {z | dist z.2 = t} = 0) {cat : ∀ n, (Fin (n + 1) → Fl) → ℝ → Fin (n + 1)} (hcat : ∀ n, IsCategorical (cat n))
  (stp : Fin d → ℝ) (key : Keys.Key)

/-- The run, reduced to positions and thresholds. -/
noncomputable def redRun (cat : ∀ n, (Fin (n + 1) → Fl) → ℝ → Fin (n + 1)) (S : Set (Fin d → ℝ)) (V : (Fin d → ℝ) → ℝ) (sim : (Fin d → ℝ) → Tape → D) (dist : D → ℝ) (q : ℝ → ℝ) (p : Settings) (stp : Fin d → ℝ) (key : Keys.Key)
    (k n : ℕ) (z : (Fin (n + 1) → (Fin d → ℝ) × D) × Tape) : ℝ × Alive.St (n + 1) ((Fin d → ℝ) × D) :=
  Alive.thrRun (fun z : (Fin d → ℝ) × D => dist z.2) (aliveCat (cat n)) (aliveCrit (n + 1) p.essThresholdResample) (fun t k z ω => abcMoves S V sim dist q p.mcmcSteps t stp k z ω)
    (firstThr (fun z : (Fin d → ℝ) × D => dist z.2) p.essThresholdRetain) (nextThr (fun z : (Fin d → ℝ) × D => dist z.2) p.essThresholdRetain) ((n + 1) :: (n + 1) :: 0 :: key) z.1 k z.2

include hq hS hV hsim hdist hpri hprior hatom hcat in
theorem redRun_ok (p : Settings) (h0 : 0 ≤ p.essThresholdRetain) (h1 : p.essThresholdRetain ≤ 1) (k : ℕ) :
    Alive.RunOK (fun n => ideal.map (abcStart (n := n + 1) pri sim key)) (simulated (ideal.map pri) sim) (fun z => dist z.2) (fun n => keyAt (n + 1) ((n + 1) :: (n + 1) :: 0 :: key) k) (redRun cat S V sim dist q p stp key k) ∧
    Spec.InProb (fun n => (ideal.map (abcStart (n := n + 1) pri sim key)).prod ideal) (fun n z => (simulated (ideal.map pri) sim).real (Alive.upTo (fun z => dist z.2) (redRun cat S V sim dist q p stp key k n z).1))
      (p.essThresholdRetain ^ (k + 1)) := by
  have hpair : Measurable fun z : (Fin d → ℝ) × Tape => (z.1, sim z.1 z.2) := measurable_fst.prodMk hsim
  have hprob : IsProbabilityMeasure (ideal.map pri) := Measure.isProbabilityMeasure_map hpri.aemeasurable
  have hprob2 : IsProbabilityMeasure (simulated (ideal.map pri) sim) := Measure.isProbabilityMeasure_map hpair.aemeasurable
  have hprob3 : ∀ n, IsProbabilityMeasure (ideal.map (abcStart (n := n + 1) pri sim key)) := fun n => Measure.isProbabilityMeasure_map (measurable_abcStart (n := n + 1) hsim key hpri).aemeasurable
  have hd : Measurable fun z : (Fin d → ℝ) × D => dist z.2 := hdist.comp measurable_snd
  have hμ : simulated (ideal.map pri) sim = a • ((target S V).prod ideal).map fun z => (z.1, sim z.1 z.2) := by
    unfold simulated
    rw [hprior, Measure.prod_smul_left, Measure.map_smul]
  exact Alive.thrRun_ok (fun n => ideal.map (abcStart (n := n + 1) pri sim key)) (simulated (ideal.map pri) sim) (fun n i => map_abcStart hsim key hpri i)
    (fun n {h} hh i j hij => abcStart_uncorrelated hsim key hpri hh i j hij) hd hatom (fun n => abc_catLaw (hcat n) p.essThresholdResample) (abc_moveLaw hq hS hV hsim hdist stp p.mcmcSteps)
    (fun f B hf _ hB => (abc_cutMove hS hV hsim hdist hμ _).net hd hatom p.mcmcSteps hf hB) (fun t h hh => abc_within_invariant hS hV hsim hdist stp hμ p.mcmcSteps t (hatom t) hh)
    (fun n => nextLaw hd h0 h1) (fun n => (n + 1) :: (n + 1) :: 0 :: key) k

end

end Mocat.Props
