import Verif.Lemmas.AbcAdaptiveLaw
/-! ABC-SMC with adaptive thresholds, reduced to positions and thresholds. -/
namespace Mocat.Props
open Mocat Mocat.Mcmc Mocat.Abc Mocat.AbcSmc Mocat.Ideal Mocat.Meas MeasureTheory ProbabilityTheory Filter
open scoped ENNReal

variable {n d : ℕ} {D : Type*}

/-- A tape without the values that have probability 0: all are non-negative, and ancestors have weight. -/
def NiceTape (cat : (Fin n → Fl) → ℝ → Fin n) (ω : Tape) : Prop := (∀ s, 0 ≤ ω s) ∧ ∀ A : Finset (Fin n), A.Nonempty → ∀ s, aliveCat cat A (ω s) ∈ A

theorem niceTape_ae {cat : (Fin n → Fl) → ℝ → Fin n} (hcat : IsCategorical cat) : ideal {ω | ¬ NiceTape cat ω} = 0 := by
  have h1 : ∀ᵐ ω ∂ideal, ∀ s : Site, 0 ≤ ω s := by
    rw [ae_all_iff]
    intro s
    rw [ae_iff]
    have e : {ω : Tape | ¬ 0 ≤ ω s} = {ω | ω s ∈ Set.Iio 0} := by ext ω; simp
    rw [e, site s measurableSet_Iio]
    unfold unif
    rw [Measure.restrict_apply measurableSet_Iio]
    have : Set.Iio (0 : ℝ) ∩ Set.Ico 0 1 = ∅ := by
      ext x
      simp only [Set.mem_inter_iff, Set.mem_Iio, Set.mem_Ico, Set.mem_empty_iff_false, iff_false]
      rintro ⟨h1, h2, -⟩
      linarith
    rw [this, measure_empty]
  have h2 : ∀ᵐ ω ∂ideal, ∀ A : Finset (Fin n), A.Nonempty → ∀ s : Site, aliveCat cat A (ω s) ∈ A := by
    rw [ae_all_iff]
    intro A
    by_cases hA : A.Nonempty
    · have h3 : ∀ᵐ ω ∂ideal, ∀ s : Site, aliveCat cat A (ω s) ∈ A := by
        rw [ae_all_iff]
        intro s
        rw [ae_iff]
        have hm : Measurable (aliveCat cat A) := hcat.measurable _
        have e : {ω : Tape | ¬ aliveCat cat A (ω s) ∈ A} = ⋃ j ∈ Aᶜ, {ω : Tape | ω s ∈ {u | aliveCat cat A u = j}} := by
          ext ω
          simp
        rw [e]
        refine (measure_biUnion_null_iff (Finset.countable_toSet _)).2 fun j hj => ?_
        have hj' : j ∉ A := by simpa using hj
        have hms : MeasurableSet {u | aliveCat cat A u = j} := hm (measurableSet_singleton j)
        rw [site s hms, aliveCat_prob hcat A hA j, if_neg hj']
      exact h3.mono fun ω h _ => h
    · exact .of_forall fun ω h => absurd h hA
  have h3 : ∀ᵐ ω ∂ideal, NiceTape cat ω := by
    filter_upwards [h1, h2] with ω a b
    exact ⟨a, b⟩
  exact ae_iff.1 h3

section
variable {S : Set (Fin d → ℝ)} {V : (Fin d → ℝ) → ℝ} {pri : Tape → Fin d → ℝ} {sim : (Fin d → ℝ) → Tape → D} {dist : D → ℝ} {q : ℝ → ℝ}

/-- The moves keep particles within the threshold. -/
theorem abcMoves_within {ω : Tape} (hω : ∀ s, 0 ≤ ω s) (R : ℕ) (t : ℝ) (stp : Fin d → ℝ) (k : Keys.Key) (z : (Fin d → ℝ) × D) (hz : dist z.2 ≤ t) : dist (abcMoves S V sim dist q R t stp k z ω).2 ≤ t := by
  unfold abcMoves
  induction R generalizing k z with
  | zero => exact hz
  | succ R ih =>
    refine ih _ _ ?_
    unfold abcMove
    simp only
    split_ifs with h
    · by_cases hb : sim (walk (fun i => Real.sqrt (stp i)) (z.1, (abcDraws q d k ω).1.1)) (abcDraws q d k ω).1.2 ∈ ball (fun y => Fl.fin (dist y)) (Fl.fin t)
      · exact le_of_lt hb
      · rw [abcAcc, if_neg hb] at h
        exact absurd (hω (1 :: 0 :: 0 :: k, 0)) (not_le.2 h)
    · exact hz

variable [NeZero n] (cat : (Fin n → Fl) → ℝ → Fin n) {c : Config} (hc : Adaptive c) {p : Settings} (hR : 0 < p.mcmcSteps) (hr0 : 0 ≤ p.essThresholdRetain) (hr1 : p.essThresholdRetain ≤ 1)
  (stp : Fin d → ℝ) (κ : Keys.Key) (z0 : Fin n → (Fin d → ℝ) × D) {ω : Tape} (hω : NiceTape cat ω)

omit [NeZero n] in
include hω in
/-- How many of the moved particles are within the threshold. -/
theorem moved_within (A : Finset (Fin n)) (hA : A.Nonempty) (t : ℝ) (x : Fin n → (Fin d → ℝ) × D) (hx : A = Alive.pat (Alive.upTo (fun z : (Fin d → ℝ) × D => dist z.2) t) x) (thr : ℝ) :
    Alive.pat (Alive.upTo (fun z : (Fin d → ℝ) × D => dist z.2) t)
      (fun i => Alive.value (aliveCat cat) (aliveCrit n thr) (fun i => (n :: κ, (i : ℕ))) (fun i => abcMoves S V sim dist q p.mcmcSteps t stp ((i : ℕ) :: κ)) A x ω i)
      = open Classical in if A ∈ aliveCrit n thr then Finset.univ else A := by
  have hin : ∀ i, i ∈ A ↔ dist (x i).2 ≤ t := fun i => by
    rw [hx, Alive.mem_pat]
    rfl
  by_cases h : A ∈ aliveCrit n thr
  · rw [if_pos h]
    ext i
    simp only [Alive.mem_pat, Finset.mem_univ, iff_true]
    unfold Alive.value
    rw [if_pos h]
    exact abcMoves_within hω.1 _ _ _ _ _ ((hin _).1 (hω.2 A hA _))
  · rw [if_neg h]
    ext i
    rw [Alive.mem_pat]
    unfold Alive.value
    rw [if_neg h]
    by_cases hi : i ∈ A
    · rw [if_pos hi]
      exact ⟨fun _ => hi, fun _ => abcMoves_within hω.1 _ _ _ _ _ ((hin _).1 hi)⟩
    · rw [if_neg hi]
      exact (hin i).symm

include hc hR hr0 hr1 hω in
/-- The state of a run with adaptive thresholds, as long as enough particles stay within them. -/
theorem adaptive_state (k : ℕ)
    (hgood : ∀ j < k, 1 ≤ (1 - p.essThresholdRetain) * (Alive.pat (Alive.upTo (fun z : (Fin d → ℝ) × D => dist z.2)
      (Alive.thrRun (fun z : (Fin d → ℝ) × D => dist z.2) (aliveCat cat) (aliveCrit n p.essThresholdResample) (fun t k z ω => abcMoves S V sim dist q p.mcmcSteps t stp k z ω)
        (firstThr (fun z : (Fin d → ℝ) × D => dist z.2) p.essThresholdRetain) (nextThr (fun z : (Fin d → ℝ) × D => dist z.2) p.essThresholdRetain) κ z0 (j + 1) ω).1)
      (Alive.thrRun (fun z : (Fin d → ℝ) × D => dist z.2) (aliveCat cat) (aliveCrit n p.essThresholdResample) (fun t k z ω => abcMoves S V sim dist q p.mcmcSteps t stp k z ω)
        (firstThr (fun z : (Fin d → ℝ) × D => dist z.2) p.essThresholdRetain) (nextThr (fun z : (Fin d → ℝ) × D => dist z.2) p.essThresholdRetain) κ z0 (j + 1) ω).2.1).card) :
    let s := abcSmcAfter (fun k (i : Fin (n + 2)) => (i : ℕ) :: k) (fun k lw i => cat lw (ω (k, (i : ℕ)))) (abcInner S V pri sim dist q ω) c p (fun _ s => s) (fun i => abcParticle S V dist (z0 i)) κ stp k
    let r := Alive.thrRun (fun z : (Fin d → ℝ) × D => dist z.2) (aliveCat cat) (aliveCrit n p.essThresholdResample) (fun t k z ω => abcMoves S V sim dist q p.mcmcSteps t stp k z ω)
        (firstThr (fun z : (Fin d → ℝ) × D => dist z.2) p.essThresholdRetain) (nextThr (fun z : (Fin d → ℝ) × D => dist z.2) p.essThresholdRetain) κ z0 k ω
    (∃ am, s.2 = ⟨Smc.keyAt n κ k, k, Fl.fin r.1, stp, am⟩) ∧ (∀ i, McConsistent S V dist (s.1 i).mc) ∧ Bookkept r.1 s.1 ∧ (liveSet s.1).Nonempty ∧ pos s.1 = r.2.1 := by
  classical
  set K := abcInner S V pri sim dist q ω with hK
  set spl : Keys.Key → Fin (n + 2) → Keys.Key := fun k i => (i : ℕ) :: k with hspl
  set ctg : Keys.Key → (Fin n → Fl) → Fin n → Fin n := fun k lw i => cat lw (ω (k, (i : ℕ))) with hctg
  have hn : (0 : ℝ) < n := by exact_mod_cast NeZero.pos n
  induction k with
  | zero =>
    intro s r
    have hcons : ∀ i, McConsistent S V dist (s.1 i).mc := fun i => ⟨rfl, rfl⟩
    have hok := adaptive_startup_ok (K := Keys.Key) c p (fun _ s => s) hc hr0 hr1 (fun i => abcParticle S V dist (z0 i)) κ stp
    have ht : s.2.threshold = Fl.fin (firstThr (fun z : (Fin d → ℝ) × D => dist z.2) p.essThresholdRetain z0) := by
      change (AbcSmc.startup c p (fun _ s => s) (fun i => abcParticle S V dist (z0 i)) κ stp).2.threshold = _
      unfold AbcSmc.startup
      dsimp only
      generalize (match c.schedule with
        | some (some l) => Fl.fin (AbcSmc.scheduleAt l 0)
        | _ => Fl.pinf) = thr
      exact nextThreshold_adaptive hc p (fun i => (⟨{ abcParticle S V dist (z0 i) with alpha := 1 }, thr, Fl.fin 0, Fl.fin n⟩ : Particle (Fin d → ℝ) D)) 0
    obtain ⟨t, h1, h2, h3⟩ := hok
    have h2' : s.2.threshold = Fl.fin t := h2
    have hte : t = r.1 := by
      rw [h2'] at ht
      exact Fl.fin.inj ht
    rw [hte] at h1
    refine ⟨⟨s.2.alphaMean, ?_⟩, hcons, h1, h3, rfl⟩
    change (_ : AbcSmc.Extra Keys.Key (Fin d → ℝ)) = _
    have ht' : s.2.threshold = Fl.fin r.1 := ht
    rw [← ht']
    rfl
  | succ k ih =>
    intro s r
    obtain ⟨⟨am, h1⟩, h2, h3, h4, h5⟩ := ih fun j hj => hgood j (hj.trans (Nat.lt_succ_self k))
    have hg := hgood k (Nat.lt_succ_self k)
    obtain ⟨s0, hs0⟩ : ∃ s0, s0 = abcSmcAfter spl ctg K c p (fun _ s => s) (fun i => abcParticle S V dist (z0 i)) κ stp k := ⟨_, rfl⟩
    obtain ⟨r0, hr0'⟩ : ∃ r0, r0 = Alive.thrRun (fun z : (Fin d → ℝ) × D => dist z.2) (aliveCat cat) (aliveCrit n p.essThresholdResample) (fun t k z ω => abcMoves S V sim dist q p.mcmcSteps t stp k z ω)
        (firstThr (fun z : (Fin d → ℝ) × D => dist z.2) p.essThresholdRetain) (nextThr (fun z : (Fin d → ℝ) × D => dist z.2) p.essThresholdRetain) κ z0 k ω := ⟨_, rfl⟩
    have hs : s = AbcSmc.update spl ctg K c p (fun _ s => s) s0.1 s0.2 := by
      simp only [s, hs0]
      unfold abcSmcAfter
      rw [Mcmc.bodyIter_succ]
    have hr : r = (let m := Alive.moveAt (fun z : (Fin d → ℝ) × D => dist z.2) (aliveCat cat) (aliveCrit n p.essThresholdResample) (fun t k z ω => abcMoves S V sim dist q p.mcmcSteps t stp k z ω) (Smc.keyAt n κ k) r0 ω
        (nextThr (fun z : (Fin d → ℝ) × D => dist z.2) p.essThresholdRetain m.1 m.2.1, m.2)) := by
      rw [hr0']
      rfl
    rw [← hs0, ← hr0'] at h1 h3 h5
    rw [← hs0] at h2 h4
    have hg' : 1 ≤ (1 - p.essThresholdRetain) * ((Alive.pat (Alive.upTo (fun z : (Fin d → ℝ) × D => dist z.2) r.1) r.2.1).card : ℝ) := hg
    clear hg hgood hs0 hr0'
    have hlive : liveSet s0.1 = Alive.pat (Alive.upTo (fun z : (Fin d → ℝ) × D => dist z.2) r0.1) r0.2.1 := by
      ext i
      rw [mem_liveSet, h3.live_iff i, Alive.mem_pat, ← h5, (h2 i).2]
      rfl
    have hup := abcSmc_update (S := S) (V := V) (pri := pri) (sim := sim) (dist := dist) (q := q) cat c p hR stp ω s0.1 h2 r0.1 h3 (fun h => absurd h4 h) (Smc.keyAt n κ k) k am
    rw [← h1] at hup
    change (∀ i, McConsistent S V dist ((AbcSmc.update spl ctg K c p (fun _ s => s) s0.1 s0.2).1 i).mc) ∧ pos (AbcSmc.update spl ctg K c p (fun _ s => s) s0.1 s0.2).1 = _ at hup
    rw [← hs, h5] at hup
    have hrpos : r.2.1 = pos s.1 := by
      rw [hup.2, hr, hlive]
      rfl
    obtain ⟨a, t', ha, -, -, hnr, ht', hb, hth, hne⟩ := adaptive_step spl ctg K c p (fun _ s => s) hc hr0 hr1 h3 h4 s0.2
    rw [← hs] at ht' hb hth hne
    have hcrit : resampleCriterion p s0.1 ↔ liveSet s0.1 ∈ aliveCrit n p.essThresholdResample := by
      unfold resampleCriterion aliveCrit
      rw [h3.ess h4 0]
      simp [Fl.lt, h4]
    -- the number of particles with weight that the next threshold is chosen from
    have hcount : (a : ℝ) = (Alive.pat (Alive.upTo (fun z : (Fin d → ℝ) × D => dist z.2) r0.1) (pos s.1)).card := by
      rw [hup.2, moved_within cat stp (Smc.keyAt n κ k) hω (liveSet s0.1) h4 r0.1 r0.2.1 hlive p.essThresholdResample]
      by_cases hcr : liveSet s0.1 ∈ aliveCrit n p.essThresholdResample
      · rw [if_pos hcr, ha]
        have : liveSet (resampled spl ctg p s0.1 s0.2) = Finset.univ := by
          unfold resampled
          rw [if_pos (hcrit.2 hcr)]
          ext i
          simp [mem_liveSet, resample]
        rw [this]
      · rw [if_neg hcr, hnr fun h => hcr (hcrit.1 h)]
    have hdist : (fun i => (s.1 i).mc.distance) = fun i => dist (pos s.1 i).2 := funext fun i => (hup.1 i).2
    rw [hdist, hcount] at ht'
    have hr1' : r.1 = min r0.1 t' := by
      rw [ht', ← hrpos, hr]
      rfl
    have hle : t' ≤ r0.1 := by
      obtain ⟨cc, hcc⟩ : ∃ cc, cc = (Alive.pat (Alive.upTo (fun z : (Fin d → ℝ) × D => dist z.2) r0.1) (pos s.1)).card := ⟨_, rfl⟩
      have hcn : (cc : ℝ) ≤ n := by rw [hcc]; exact pat_card _ _
      have hsub : (Alive.pat (Alive.upTo (fun z : (Fin d → ℝ) × D => dist z.2) r.1) r.2.1).card ≤ cc := by
        rw [hcc, hrpos]
        refine Finset.card_le_card fun i hi => ?_
        rw [Alive.mem_pat] at hi ⊢
        exact le_trans (show dist (pos s.1 i).2 ≤ r.1 from hi) (hr1' ▸ min_le_left _ _)
      have hsub' : ((Alive.pat (Alive.upTo (fun z : (Fin d → ℝ) × D => dist z.2) r.1) r.2.1).card : ℝ) ≤ cc := by exact_mod_cast hsub
      have h6 : 1 ≤ (1 - p.essThresholdRetain) * (cc : ℝ) := hg'.trans (mul_le_mul_of_nonneg_left hsub' (by linarith))
      have hc0 : (0 : ℝ) ≤ cc := Nat.cast_nonneg _
      rw [ht', ← hcc]
      refine quantile_le_of_count _ r0.1 (Alive.pat (Alive.upTo (fun z : (Fin d → ℝ) × D => dist z.2) r0.1) (pos s.1)) (fun i hi => ?_) _ (by positivity) ?_ ?_
      · rw [Alive.mem_pat] at hi
        exact hi
      · rw [div_le_one hn]; nlinarith
      · rw [← hcc]
        have e : p.essThresholdRetain * cc / n * ((n : ℝ) - 1) = p.essThresholdRetain * cc - p.essThresholdRetain * cc / n := by field_simp
        have h7 : 0 ≤ p.essThresholdRetain * cc / n := by positivity
        rw [e]
        linarith
    have hrt : r.1 = t' := by rw [hr1', min_eq_right hle]
    rw [← hrt] at hb hth
    refine ⟨⟨s.2.alphaMean, ?_⟩, hup.1, hb, hne, hrpos.symm⟩
    rw [← hth]
    have e2 : s.2.key = Smc.keyAt n κ (k + 1) := by rw [hs, h1]; rfl
    have e3 : s.2.iter = k + 1 := by rw [hs, h1]; rfl
    have e4 : s.2.params = stp := by rw [hs, h1]; rfl
    rw [← e2, ← e3, ← e4]

end

end Mocat.Props
