import Verif.Lemmas.AliveLaw
import Verif.Props.AbcImportanceLaw
import Verif.Props.AbcSmcMore
/-!
# C98: unbiased estimates of ABC-SMC

The draws come from an ideal generator (`Verif.Spec.Tape`); the inner sampler is `RandomWalkABC` with `Metropolis` and a fixed stepsize.
-/
namespace Mocat.Props
open Mocat Mocat.Mcmc Mocat.Abc Mocat.AbcSmc Mocat.Ideal Mocat.Meas MeasureTheory ProbabilityTheory
open scoped ENNReal

variable {n d : ℕ} {D : Type*} [NeZero n]

/-- `RandomWalkABC` with `Metropolis` on a tape, as inner sampler. -/
noncomputable def abcInner (S : Set (Fin d → ℝ)) (V : (Fin d → ℝ) → ℝ) (pri : Tape → Fin d → ℝ) (sim : (Fin d → ℝ) → Tape → D) (dist : D → ℝ) (q : ℝ → ℝ) (ω : Tape) :
    AbcSmc.Kernel Keys.Key (Fin d → ℝ) (Fin d → ℝ) D :=
  AbcSmc.rwKernel Keys.split Keys.split4 (normalAt q d ω) (fun k => ω (k, 0)) (tapeScenario S V pri sim (fun y => Fl.fin (dist y)) ω)

/-- An initial particle with parameter `z.1` and simulated data `z.2`. -/
noncomputable def abcParticle (S : Set (Fin d → ℝ)) (V : (Fin d → ℝ) → ℝ) (dist : D → ℝ) (z : (Fin d → ℝ) × D) : Mc (Fin d → ℝ) D :=
  ⟨z.1, potOn S V z.1, z.2, dist z.2, 1⟩

/-- The ensemble after `k` updates of an ABC-SMC sampler whose inner sampler has the fixed stepsize `stp`, with the draws of tape `ω`, from given initial parameters and data. -/
noncomputable def tapeAbcSmc (cat : (Fin n → Fl) → ℝ → Fin n) (S : Set (Fin d → ℝ)) (V : (Fin d → ℝ) → ℝ) (pri : Tape → Fin d → ℝ) (sim : (Fin d → ℝ) → Tape → D) (dist : D → ℝ) (q : ℝ → ℝ)
    (c : Config) (p : Settings) (stp : Fin d → ℝ) (key : Keys.Key) (z0 : Fin n → (Fin d → ℝ) × D) (ω : Tape) (k : ℕ) : Ensemble n (Fin d → ℝ) D :=
  (abcSmcAfter (fun k i => (i : ℕ) :: k) (fun k lw i => cat lw (ω (k, (i : ℕ)))) (abcInner S V pri sim dist q ω) c p (fun _ s => s) (fun i => abcParticle S V dist (z0 i)) key stp k).1

/-- (Specification.) The estimate a user forms from the recorded ensembles: the mean over all particles of `f`, counting 0 for particles without weight, times, for every earlier ensemble that was resampled (fewer than
`thr * n` particles with weight, but at least one), the fraction of its particles that had weight. -/
noncomputable def abcEstimate (thr : ℝ) (f : (Fin d → ℝ) × D → ℝ≥0∞) (ens : ℕ → Ensemble n (Fin d → ℝ) D) (k : ℕ) : ℝ≥0∞ :=
  open Classical in
  (∏ j ∈ Finset.range k, if (liveSet (ens j)).Nonempty ∧ ((liveSet (ens j)).card : ℝ) < thr * n then ((liveSet (ens j)).card : ℝ≥0∞) / n else 1)
    * ((n : ℝ≥0∞)⁻¹ * ∑ i ∈ liveSet (ens k), f ((ens k i).mc.value, (ens k i).mc.data))

/-! ## The moves -/

/-- The recorded prior potential and distance belong to the recorded parameter and data. -/
def McConsistent (S : Set (Fin d → ℝ)) (V : (Fin d → ℝ) → ℝ) (dist : D → ℝ) (m : Mc (Fin d → ℝ) D) : Prop := m.prior = potOn S V m.value ∧ m.distance = dist m.data

section
variable (S : Set (Fin d → ℝ)) (V : (Fin d → ℝ) → ℝ) (pri : Tape → Fin d → ℝ) (sim : (Fin d → ℝ) → Tape → D) (dist : D → ℝ) (q : ℝ → ℝ)

/-- One update of the inner sampler. -/
theorem abcInner_update (ω : Tape) (m : Mc (Fin d → ℝ) D) (hm : McConsistent S V dist m) (k : Keys.Key) (i : ℕ) (thr : Fl) (stp : Fin d → ℝ) :
    let r := (abcInner S V pri sim dist q ω).update m ⟨k, i, (thr, stp)⟩
    McConsistent S V dist r.1 ∧ r.2 = ⟨Keys.abcNext k, i + 1, (thr, stp)⟩ ∧
    (r.1.value, r.1.data) = abcMove S V sim (ball (fun y => Fl.fin (dist y)) thr) (fun i => Real.sqrt (stp i)) (m.value, m.data) (abcDraws q d k ω) := by
  obtain ⟨h1, h2⟩ := hm
  obtain ⟨al', h⟩ := abcUpdate_eq S V pri sim (fun y => Fl.fin (dist y)) q ω (m.value, m.data) stp (Fl.fin m.alpha) 0 k i ⟨thr, stp, fun _ => 0, fun _ => 0⟩
  unfold abcUpdate abcState at h
  simp only [abcInner, AbcSmc.rwKernel, h1, h2]
  rw [h]
  exact ⟨⟨rfl, rfl⟩, rfl, rfl⟩

/-- The inner chain. -/
theorem abcInner_chain (ω : Tape) (m : Mc (Fin d → ℝ) D) (hm : McConsistent S V dist m) (e : AbcSmc.Extra Keys.Key (Fin d → ℝ)) (k : Keys.Key) (j : ℕ) :
    let r := innerChain (abcInner S V pri sim dist q ω) m e k j
    McConsistent S V dist r.1 ∧
    (r.1.value, r.1.data) = tapeIter (abcDraws q d) Keys.abcNext (abcMove S V sim (ball (fun y => Fl.fin (dist y)) e.threshold) fun i => Real.sqrt (e.params i)) j k (m.value, m.data) ω := by
  unfold innerChain
  have hm' : McConsistent S V dist { m with alpha := 1 } := hm
  generalize hm2 : ({ m with alpha := 1 } : Mc (Fin d → ℝ) D) = m2 at hm'
  have hv : (m.value, m.data) = (m2.value, m2.data) := by rw [← hm2]
  rw [hv]
  generalize e.iter = i
  clear hm2 hv hm
  induction j generalizing m2 k i with
  | zero => exact ⟨hm', rfl⟩
  | succ j ih =>
    obtain ⟨h1, h2, h3⟩ := abcInner_update S V pri sim dist q ω m2 hm' k i e.threshold e.params
    simp only [Function.iterate_succ_apply, tapeIter]
    rw [← h3]
    have := ih (Keys.abcNext k) _ h1 (i + 1)
    rw [← h2] at this
    exact this

/-- Where the moves of an update take a particle. -/
noncomputable def abcMoves (R : ℕ) (t : ℝ) (stp : Fin d → ℝ) (k : Keys.Key) (z : (Fin d → ℝ) × D) (ω : Tape) : (Fin d → ℝ) × D :=
  tapeIter (abcDraws q d) Keys.abcNext (abcMove S V sim (ball (fun y => Fl.fin (dist y)) (Fl.fin t)) fun i => Real.sqrt (stp i)) R k z ω

/-- Parameters and data of an ensemble. -/
def pos (ens : Ensemble n (Fin d → ℝ) D) (i : Fin n) : (Fin d → ℝ) × D := ((ens i).mc.value, (ens i).mc.data)

/-- The draw of an ancestor when the particles `S` have weight. -/
noncomputable def aliveCat (cat : (Fin n → Fl) → ℝ → Fin n) (S : Finset (Fin n)) (u : ℝ) : Fin n := open Classical in cat (fun i => if i ∈ S then Fl.fin 0 else Fl.ninf) u

/-- When an ensemble is resampled. -/
def aliveCrit (n : ℕ) (thr : ℝ) : Set (Finset (Fin n)) := {S | S.Nonempty ∧ (S.card : ℝ) < thr * n}

variable {S V pri sim dist q} in
/-- One update. -/
theorem abcSmc_update (cat : (Fin n → Fl) → ℝ → Fin n) (c : Config) (p : Settings) (hR : 0 < p.mcmcSteps) (stp : Fin d → ℝ) (ω : Tape) (ens : Ensemble n (Fin d → ℝ) D)
    (hcons : ∀ i, McConsistent S V dist (ens i).mc) (t : ℝ) (hb : Bookkept t ens) (hess : ¬ (liveSet ens).Nonempty → (ens 0).ess = Fl.nan) (κ : Keys.Key) (k : ℕ) (am : Fl) :
    let r := AbcSmc.update (fun k (i : Fin (n + 2)) => (i : ℕ) :: k) (fun k lw i => cat lw (ω (k, (i : ℕ)))) (abcInner S V pri sim dist q ω) c p (fun _ s => s) ens ⟨κ, k, Fl.fin t, stp, am⟩
    (∀ i, McConsistent S V dist (r.1 i).mc) ∧
    pos r.1 = fun i => Alive.value (aliveCat cat) (aliveCrit n p.essThresholdResample) (fun i => (n :: κ, (i : ℕ))) (fun i => abcMoves S V sim dist q p.mcmcSteps t stp ((i : ℕ) :: κ)) (liveSet ens) (pos ens) ω i := by
  classical
  intro r
  set M := resampled (fun k (i : Fin (n + 2)) => (i : ℕ) :: k) (fun k lw i => cat lw (ω (k, (i : ℕ)))) p ens (⟨κ, k, Fl.fin t, stp, am⟩ : AbcSmc.Extra Keys.Key (Fin d → ℝ)) with hM
  have hr : ∀ i, (r.1 i).mc = (forwardProposal (abcInner S V pri sim dist q ω) p (M i) ⟨(n + 1) :: κ, k + 1, Fl.fin t, stp, am⟩ ((i : ℕ) :: κ)).mc := fun i => rfl
  have hlw : (fun i => (ens i).logWeight) = fun i => if i ∈ liveSet ens then Fl.fin 0 else Fl.ninf := by
    funext i
    by_cases hi : i ∈ liveSet ens
    · rw [if_pos hi]; exact hb.live i ((hb.live_iff i).1 (mem_liveSet.1 hi))
    · rw [if_neg hi]; by_contra h; exact hi (mem_liveSet.2 h)
  have hcrit : resampleCriterion p ens ↔ liveSet ens ∈ aliveCrit n p.essThresholdResample := by
    unfold resampleCriterion aliveCrit
    by_cases hne : (liveSet ens).Nonempty
    · rw [hb.ess hne 0]; simp [Fl.lt, hne]
    · rw [hess hne]; simp [Fl.lt, hne]
  have hmove : ∀ (x : Particle (Fin d → ℝ) D) (i : Fin n), McConsistent S V dist x.mc → x.logWeight = Fl.fin 0 →
      McConsistent S V dist (forwardProposal (abcInner S V pri sim dist q ω) p x ⟨(n + 1) :: κ, k + 1, Fl.fin t, stp, am⟩ ((i : ℕ) :: κ)).mc ∧
      ((forwardProposal (abcInner S V pri sim dist q ω) p x ⟨(n + 1) :: κ, k + 1, Fl.fin t, stp, am⟩ ((i : ℕ) :: κ)).mc.value,
        (forwardProposal (abcInner S V pri sim dist q ω) p x ⟨(n + 1) :: κ, k + 1, Fl.fin t, stp, am⟩ ((i : ℕ) :: κ)).mc.data)
        = abcMoves S V sim dist q p.mcmcSteps t stp ((i : ℕ) :: κ) (x.mc.value, x.mc.data) ω := by
    intro x i hx hw
    obtain ⟨h1, h2, h3, h4, -⟩ := C97_moved (abcInner S V pri sim dist q ω) p hR x (by rw [hw]; simp) (by rw [hw]; simp) ⟨(n + 1) :: κ, k + 1, Fl.fin t, stp, am⟩ ((i : ℕ) :: κ)
    obtain ⟨⟨h5, h6⟩, h7⟩ := abcInner_chain S V pri sim dist q ω x.mc hx ⟨(n + 1) :: κ, k + 1, Fl.fin t, stp, am⟩ ((i : ℕ) :: κ) p.mcmcSteps
    refine ⟨⟨by rw [h2, h1]; exact h5, by rw [h4, h3]; exact h6⟩, ?_⟩
    rw [h1, h3]; exact h7
  by_cases hc : liveSet ens ∈ aliveCrit n p.essThresholdResample
  · have hMi : ∀ i : Fin n, (M i).mc = (ens (aliveCat cat (liveSet ens) (ω (n :: κ, (i : ℕ))))).mc ∧ (M i).logWeight = Fl.fin 0 := by
      intro i
      rw [hM]
      unfold resampled
      rw [if_pos (hcrit.2 hc)]
      simp only [resample, and_true, aliveCat]
      rw [hlw]
      rfl
    have h := fun i : Fin n => hmove (M i) i (by rw [(hMi i).1]; exact hcons _) (hMi i).2
    refine ⟨fun i => by rw [hr i]; exact (h i).1, funext fun i => ?_⟩
    unfold pos Alive.value
    rw [hr i, if_pos hc, (h i).2, (hMi i).1]
  · have hMi : ∀ i : Fin n, M i = ens i := by
      intro i
      rw [hM]
      unfold resampled
      rw [if_neg fun h => hc (hcrit.1 h)]
    have hdead : ∀ i : Fin n, i ∉ liveSet ens → (r.1 i).mc = (ens i).mc := by
      intro i hi
      rw [hr i, hMi i]
      have : (ens i).logWeight = Fl.ninf := by by_contra h; exact hi (mem_liveSet.2 h)
      simp [forwardProposal, this, Fl.lt]
    have h : ∀ i : Fin n, i ∈ liveSet ens → _ := fun i hi => hmove (M i) i (by rw [hMi i]; exact hcons _) (by rw [hMi i]; exact hb.live i ((hb.live_iff i).1 (mem_liveSet.1 hi)))
    refine ⟨fun i => ?_, funext fun i => ?_⟩
    · by_cases hi : i ∈ liveSet ens
      · rw [hr i]; exact (h i hi).1
      · rw [hdead i hi]; exact hcons i
    · unfold pos Alive.value
      rw [if_neg hc]
      by_cases hi : i ∈ liveSet ens
      · rw [hr i, if_pos hi, (h i hi).2, hMi i]
      · rw [if_neg hi, hdead i hi]

end

/-! ## The run -/

section
variable {S : Set (Fin d → ℝ)} {V : (Fin d → ℝ) → ℝ} {pri : Tape → Fin d → ℝ} {sim : (Fin d → ℝ) → Tape → D} {dist : D → ℝ} {q : ℝ → ℝ} (cat : (Fin n → Fl) → ℝ → Fin n) (c : Config) (p : Settings)
  (stp : Fin d → ℝ) (key : Keys.Key) (z0 : Fin n → (Fin d → ℝ) × D) (ω : Tape)

/-- The ABC posterior's support at threshold `t`. -/
def within (dist : D → ℝ) (t : ℝ) : Set ((Fin d → ℝ) × D) := {z | dist z.2 ≤ t}

/-- The state of a run. -/
theorem abcSmc_state (hR : 0 < p.mcmcSteps) (l : List ℝ) (hl : c.schedule = some (some l)) (k : ℕ) :
    let s := abcSmcAfter (fun k (i : Fin (n + 2)) => (i : ℕ) :: k) (fun k lw i => cat lw (ω (k, (i : ℕ)))) (abcInner S V pri sim dist q ω) c p (fun _ s => s) (fun i => abcParticle S V dist (z0 i)) key stp k
    (∃ am, s.2 = ⟨Smc.keyAt n key k, k, Fl.fin (AbcSmc.scheduleAt l k), stp, am⟩) ∧ (∀ i, McConsistent S V dist (s.1 i).mc) ∧ (¬ (liveSet s.1).Nonempty → (s.1 0).ess = Fl.nan) ∧
    liveSet s.1 = Alive.pat (within dist (AbcSmc.scheduleAt l k)) (pos s.1) ∧
    (pos s.1, ∏ j ∈ Finset.range k, Alive.factor (aliveCrit n p.essThresholdResample) (liveSet (tapeAbcSmc cat S V pri sim dist q c p stp key z0 ω j)))
      = Alive.iter (fun k => within dist (AbcSmc.scheduleAt l k)) (aliveCat cat) (aliveCrit n p.essThresholdResample) (fun k => abcMoves S V sim dist q p.mcmcSteps (AbcSmc.scheduleAt l k) stp) key
        (z0, 1) k ω := by
  set K := abcInner S V pri sim dist q ω with hK
  set spl : Keys.Key → Fin (n + 2) → Keys.Key := fun k i => (i : ℕ) :: k with hspl
  set ctg : Keys.Key → (Fin n → Fl) → Fin n → Fin n := fun k lw i => cat lw (ω (k, (i : ℕ))) with hctg
  have hsched := fun k => scheduled_after spl ctg K c p (fun _ s => s) l hl (fun i => abcParticle S V dist (z0 i)) key stp k
  have hess : ∀ k, let s := abcSmcAfter spl ctg K c p (fun _ s => s) (fun i => abcParticle S V dist (z0 i)) key stp k
      ¬ (liveSet s.1).Nonempty → (s.1 0).ess = Fl.nan := by
    intro k s hne
    have hd : ∀ i, (s.1 i).logWeight = Fl.ninf := fun i => by
      by_contra h; exact hne ⟨i, mem_liveSet.2 h⟩
    have he : (s.1 0).ess = Metrics.essLogWeight fun i => (s.1 i).logWeight := by
      cases k with
      | zero => rfl
      | succ k =>
        simp only [s]
        unfold abcSmcAfter
        rw [Mcmc.bodyIter_succ]
        rfl
    rw [he]
    exact C33_all_dead _ hd
  have hlive : ∀ k, let s := abcSmcAfter spl ctg K c p (fun _ s => s) (fun i => abcParticle S V dist (z0 i)) key stp k
      (∀ i, McConsistent S V dist (s.1 i).mc) → liveSet s.1 = Alive.pat (within dist (AbcSmc.scheduleAt l k)) (pos s.1) := by
    intro k s hcons
    ext i
    rw [mem_liveSet, (hsched k).1.live_iff i, Alive.mem_pat]
    have := (hcons i).2
    change (s.1 i).mc.distance ≤ _ ↔ _
    rw [this]
    rfl
  induction k with
  | zero =>
    intro s
    have hcons : ∀ i, McConsistent S V dist (s.1 i).mc := fun i => ⟨rfl, rfl⟩
    refine ⟨⟨s.2.alphaMean, ?_⟩, hcons, hess 0, hlive 0 hcons, ?_⟩
    · have h3 := (hsched 0).2.2
      change (_ : AbcSmc.Extra Keys.Key (Fin d → ℝ)) = _
      rw [← h3]
      rfl
    · simp only [Finset.range_zero, Finset.prod_empty, Alive.iter]
      rfl
  | succ k ih =>
    intro s
    obtain ⟨⟨am, h1⟩, h2, h3, h4, h5⟩ := ih
    set s0 := abcSmcAfter spl ctg K c p (fun _ s => s) (fun i => abcParticle S V dist (z0 i)) key stp k with hs0
    have hs : s = AbcSmc.update spl ctg K c p (fun _ s => s) s0.1 s0.2 := by
      simp only [s, hs0]
      unfold abcSmcAfter
      rw [Mcmc.bodyIter_succ]
    have hup := abcSmc_update (S := S) (V := V) (pri := pri) (sim := sim) (dist := dist) (q := q) cat c p hR stp ω s0.1 h2 _ (hsched k).1 h3 (Smc.keyAt n key k) k am
    rw [← h1] at hup
    change (∀ i, McConsistent S V dist ((AbcSmc.update spl ctg K c p (fun _ s => s) s0.1 s0.2).1 i).mc) ∧ pos (AbcSmc.update spl ctg K c p (fun _ s => s) s0.1 s0.2).1 = _ at hup
    rw [← hs] at hup
    refine ⟨⟨s.2.alphaMean, ?_⟩, hup.1, hess (k + 1), hlive (k + 1) hup.1, ?_⟩
    · have e1 : s.2.threshold = Fl.fin (AbcSmc.scheduleAt l (k + 1)) := (hsched (k + 1)).2.2
      rw [← e1]
      have e2 : s.2.key = Smc.keyAt n key (k + 1) := by rw [hs, h1]; rfl
      have e3 : s.2.iter = k + 1 := (hsched (k + 1)).2.1
      have e4 : s.2.params = stp := by rw [hs, h1]; rfl
      rw [← e2, ← e3, ← e4]
    · rw [Finset.prod_range_succ]
      simp only [Alive.iter]
      rw [← h5]
      unfold Alive.step
      rw [← h4]
      exact Prod.ext hup.2 rfl

theorem abcEstimate_eq (hR : 0 < p.mcmcSteps) (l : List ℝ) (hl : c.schedule = some (some l)) (f : (Fin d → ℝ) × D → ℝ≥0∞) (k : ℕ) :
    abcEstimate p.essThresholdResample f (tapeAbcSmc cat S V pri sim dist q c p stp key z0 ω) k
      = Alive.est (within dist (AbcSmc.scheduleAt l k)) f (Alive.iter (fun k => within dist (AbcSmc.scheduleAt l k)) (aliveCat cat) (aliveCrit n p.essThresholdResample)
        (fun k => abcMoves S V sim dist q p.mcmcSteps (AbcSmc.scheduleAt l k) stp) key (z0, 1) k ω) := by
  classical
  obtain ⟨-, -, -, h4, h5⟩ := abcSmc_state (S := S) (V := V) (pri := pri) (sim := sim) (dist := dist) (q := q) cat c p stp key z0 ω hR l hl k
  rw [← h5]
  unfold abcEstimate Alive.est
  congr 1
  · refine Finset.prod_congr rfl fun j _ => ?_
    unfold Alive.factor aliveCrit
    congr
  · congr 1
    change ∑ i ∈ liveSet (tapeAbcSmc cat S V pri sim dist q c p stp key z0 ω k), f (pos (tapeAbcSmc cat S V pri sim dist q c p stp key z0 ω k) i)
      = ∑ i, (within dist (AbcSmc.scheduleAt l k)).indicator f (pos (tapeAbcSmc cat S V pri sim dist q c p stp key z0 ω k) i)
    have h4' : liveSet (tapeAbcSmc cat S V pri sim dist q c p stp key z0 ω k) = Alive.pat (within dist (AbcSmc.scheduleAt l k)) (pos (tapeAbcSmc cat S V pri sim dist q c p stp key z0 ω k)) := h4
    rw [h4']
    unfold Alive.pat
    rw [Finset.sum_filter]
    exact Finset.sum_congr rfl fun i _ => by simp only [Set.indicator]

end

omit [NeZero n] in
theorem aliveCat_prob {cat : (Fin n → Fl) → ℝ → Fin n} (hcat : IsCategorical cat) (A : Finset (Fin n)) (hA : A.Nonempty) (j : Fin n) :
    unif {u | aliveCat cat A u = j} = if j ∈ A then (A.card : ℝ≥0∞)⁻¹ else 0 := by
  classical
  have hs : ∑ i : Fin n, (if i ∈ A then (1 : ℝ) else 0) = A.card := by simp
  have hpos : (0 : ℝ) < A.card := by exact_mod_cast hA.card_pos
  have h := hcat.prob (fun i => if i ∈ A then Fl.fin 0 else Fl.ninf) (fun i => if i ∈ A then 1 else 0) (fun j => by by_cases hj : j ∈ A <;> simp [hj, Fl.exp]) (by rw [hs]; exact hpos) j
  rw [hs] at h
  have h' : unif {u | aliveCat cat A u = j} = _ := h
  rw [h']
  by_cases hj : j ∈ A
  · rw [if_pos hj, if_pos hj, one_div, ENNReal.ofReal_inv_of_pos hpos, ENNReal.ofReal_natCast]
  · rw [if_neg hj, if_neg hj]; simp

/-- C98: with a non-increasing threshold schedule, initial particles each distributed as prior times simulator (they need not be independent), a fixed stepsize and an ideal generator, after every number of updates
the estimate formed from the ensembles is unbiased for the integral of `f` over prior times simulator restricted to data within the threshold, provided no earlier threshold is hit with positive probability. -/
theorem C98_unbiased_partial [MeasurableSpace D] {cat : (Fin n → Fl) → ℝ → Fin n} (hcat : IsCategorical cat) {q : ℝ → ℝ} (hq : IsNormalDraw q) {S : Set (Fin d → ℝ)} (hS : MeasurableSet S)
    {V : (Fin d → ℝ) → ℝ} (hV : Measurable V) (pri : Tape → Fin d → ℝ) {sim : (Fin d → ℝ) → Tape → D} (hsim : Measurable fun z : (Fin d → ℝ) × Tape => sim z.1 z.2) {dist : D → ℝ} (hdist : Measurable dist)
    (c : Config) (l : List ℝ) (hl : c.schedule = some (some l)) (hmono : ∀ j, AbcSmc.scheduleAt l (j + 1) ≤ AbcSmc.scheduleAt l j) (p : Settings) (hR : 0 < p.mcmcSteps) (stp : Fin d → ℝ) (key : Keys.Key)
    (a : ℝ≥0∞) (μ : Measure ((Fin d → ℝ) × D)) (hμ : μ = a • ((target S V).prod ideal).map fun z => (z.1, sim z.1 z.2)) (P0 : Measure (Fin n → (Fin d → ℝ) × D)) (hP0 : ∀ i, P0.map (fun z => z i) = μ)
    (k : ℕ) (hatom : ∀ j < k, μ {z | dist z.2 = AbcSmc.scheduleAt l j} = 0) (f : (Fin d → ℝ) × D → ℝ≥0∞) (hf : Measurable f) :
    ∫⁻ z0, ∫⁻ ω, abcEstimate p.essThresholdResample f (tapeAbcSmc cat S V pri sim dist q c p stp key z0 ω) k ∂ideal ∂P0
      = ∫⁻ z in {z | dist z.2 ≤ AbcSmc.scheduleAt l k}, f z ∂μ := by
  simp_rw [fun z0 ω => abcEstimate_eq (S := S) (V := V) (pri := pri) (sim := sim) (dist := dist) (q := q) cat c p stp key z0 ω hR l hl f k]
  have hball : ∀ t, MeasurableSet (ball (fun y => Fl.fin (dist y)) (Fl.fin t)) := fun t => by
    change MeasurableSet {y | dist y < t}
    exact measurableSet_lt hdist measurable_const
  have hw : ∀ t, MeasurableSet (within (d := d) dist t) := fun t => measurableSet_le (hdist.comp measurable_snd) measurable_const
  have hm := fun t => measurable_abcMove hS hV (hball t) hsim fun i => Real.sqrt (stp i)
  refine Alive.lintegral_est_iter (A := fun k => within dist (AbcSmc.scheduleAt l k)) (fun k => hw _) (fun A => hcat.measurable _) (fun A hA j => aliveCat_prob hcat A hA.1 j) (fun A hA => hA.1)
    (mv := fun k => abcMoves S V sim dist q p.mcmcSteps (AbcSmc.scheduleAt l k) stp)
    (fun t k => measurable_tapeIter (abcDraws_draws hq) (hm _) _ _) (fun t k x => tapeIter_dependsOn (abcDraws_draws hq) _ _ _ _)
    (P := fun k => (stepOp (((stdNormal d).prod ideal).prod unif) (abcMove S V sim (ball (fun y => Fl.fin (dist y)) (Fl.fin (AbcSmc.scheduleAt l k))) fun i => Real.sqrt (stp i)))^[p.mcmcSteps])
    (fun t k x h hh => lintegral_tapeIter (abcDraws_draws hq) (hm _) _ _ _ hh) (fun t h hh => measurable_stepOp_iterate (hm _) _ hh) key (fun k z hz => le_trans hz (hmono k)) μ P0 hP0 k
    (fun k hk h hh => ?_) hf
  set t := AbcSmc.scheduleAt l k
  have hae : within (d := d) dist t =ᵐ[μ] {z | z.2 ∈ ball (fun y => Fl.fin (dist y)) (Fl.fin t)} := by
    have h0 := hatom k hk
    rw [measure_eq_zero_iff_ae_notMem] at h0
    filter_upwards [h0] with z hz
    refine propext ⟨fun h1 => lt_of_le_of_ne h1 hz, fun h1 => le_of_lt h1⟩
  have hB : MeasurableSet {z : (Fin d → ℝ) × D | z.2 ∈ ball (fun y => Fl.fin (dist y)) (Fl.fin t)} := measurable_snd (hball t)
  have hres : μ.restrict {z : (Fin d → ℝ) × D | z.2 ∈ ball (fun y => Fl.fin (dist y)) (Fl.fin t)} = a • abcTarget S V sim (ball (fun y => Fl.fin (dist y)) (Fl.fin t)) := by
    rw [hμ, Measure.restrict_smul]; rfl
  rw [Measure.restrict_congr_set hae, hres, lintegral_smul_measure, lintegral_smul_measure]
  congr 1
  exact stepOp_invariant (hm t) (fun f hf => abcMove_invariant hS hV (hball t) hsim _ f hf) _ hh

/-! ## Runs without initial state -/

/-- The ensemble after `k` updates of an ABC-SMC run without initial state that starts with key `key`: the particles are drawn from the prior sampler `pri` of the scenario. -/
noncomputable def abcSmcRun (cat : (Fin n → Fl) → ℝ → Fin n) (S : Set (Fin d → ℝ)) (V : (Fin d → ℝ) → ℝ) (pri : Tape → Fin d → ℝ) (sim : (Fin d → ℝ) → Tape → D) (dist : D → ℝ) (q : ℝ → ℝ)
    (c : Config) (p : Settings) (stp : Fin d → ℝ) (key : Keys.Key) (ω : Tape) (k : ℕ) : Ensemble n (Fin d → ℝ) D :=
  let start := initialDraw Keys.split (fun k i => i :: k) (tapeScenario S V pri sim (fun y => Fl.fin (dist y)) ω) n key
  (abcSmcAfter (fun k i => (i : ℕ) :: k) (fun k lw i => cat lw (ω (k, (i : ℕ)))) (abcInner S V pri sim dist q ω) c p (fun _ s => s) start.1 start.2 stp k).1

section
variable [MeasurableSpace D] {cat : (Fin n → Fl) → ℝ → Fin n} (hcat : IsCategorical cat) {q : ℝ → ℝ} (hq : IsNormalDraw q) {S : Set (Fin d → ℝ)} (hS : MeasurableSet S)
    {V : (Fin d → ℝ) → ℝ} (hV : Measurable V) {pri : Tape → Fin d → ℝ} {sim : (Fin d → ℝ) → Tape → D} (hsim : Measurable fun z : (Fin d → ℝ) × Tape => sim z.1 z.2) {dist : D → ℝ} (hdist : Measurable dist)
    (c : Config) (l : List ℝ) (hl : c.schedule = some (some l)) (p : Settings) (hR : 0 < p.mcmcSteps) (stp : Fin d → ℝ) (key : Keys.Key)
include hcat hq hS hV hsim hdist hl hR

theorem abcEst_measurable (k : ℕ) {f : (Fin d → ℝ) × D → ℝ≥0∞} (hf : Measurable f) :
    Measurable fun w : (Fin n → (Fin d → ℝ) × D) × Tape => abcEstimate p.essThresholdResample f (tapeAbcSmc cat S V pri sim dist q c p stp key w.1 w.2) k := by
  simp_rw [fun z0 ω => abcEstimate_eq (S := S) (V := V) (pri := pri) (sim := sim) (dist := dist) (q := q) cat c p stp key z0 ω hR l hl f k]
  have hball : ∀ t, MeasurableSet (ball (fun y => Fl.fin (dist y)) (Fl.fin t)) := fun t => by
    change MeasurableSet {y | dist y < t}
    exact measurableSet_lt hdist measurable_const
  have hw : ∀ t, MeasurableSet (within (d := d) dist t) := fun t => measurableSet_le (hdist.comp measurable_snd) measurable_const
  have hm := fun t => measurable_abcMove hS hV (hball t) hsim fun i => Real.sqrt (stp i)
  have h := Alive.measurable_iter₂ (A := fun k => within (d := d) dist (AbcSmc.scheduleAt l k)) (fun k => hw _) (fun A => hcat.measurable _)
    (C := aliveCrit n p.essThresholdResample) (fun A hA j => aliveCat_prob hcat A hA.1 j) (fun A hA => hA.1)
    (mv := fun k => abcMoves S V sim dist q p.mcmcSteps (AbcSmc.scheduleAt l k) stp)
    (fun t k => measurable_tapeIter (abcDraws_draws hq) (hm _) _ _)
    (P := fun k => (stepOp (((stdNormal d).prod ideal).prod unif) (abcMove S V sim (ball (fun y => Fl.fin (dist y)) (Fl.fin (AbcSmc.scheduleAt l k))) fun i => Real.sqrt (stp i)))^[p.mcmcSteps])
    (fun t k x h hh => lintegral_tapeIter (abcDraws_draws hq) (hm _) _ _ _ hh) (fun t h hh => measurable_stepOp_iterate (hm _) _ hh) key (fun t k x => tapeIter_dependsOn (abcDraws_draws hq) _ _ _ _) k
  have h0 : Measurable fun w : (Fin n → (Fin d → ℝ) × D) × Tape => (((w.1, 1), w.2) : Alive.St n ((Fin d → ℝ) × D) × Tape) := (measurable_fst.prodMk measurable_const).prodMk measurable_snd
  exact (Alive.measurable_est (hw _) hf).comp (h.comp h0)

theorem abcEst_below (k : ℕ) (f : (Fin d → ℝ) × D → ℝ≥0∞) (z0 : Fin n → (Fin d → ℝ) × D) :
    DependsOn (fun ω => abcEstimate p.essThresholdResample f (tapeAbcSmc cat S V pri sim dist q c p stp key z0 ω) k) (below key) := by
  simp_rw [fun z0 ω => abcEstimate_eq (S := S) (V := V) (pri := pri) (sim := sim) (dist := dist) (q := q) cat c p stp key z0 ω hR l hl f k]
  have hball : ∀ t, MeasurableSet (ball (fun y => Fl.fin (dist y)) (Fl.fin t)) := fun t => by
    change MeasurableSet {y | dist y < t}
    exact measurableSet_lt hdist measurable_const
  have hw : ∀ t, MeasurableSet (within (d := d) dist t) := fun t => measurableSet_le (hdist.comp measurable_snd) measurable_const
  have hm := fun t => measurable_abcMove hS hV (hball t) hsim fun i => Real.sqrt (stp i)
  have h := Alive.iter_below (A := fun k => within (d := d) dist (AbcSmc.scheduleAt l k)) (fun k => hw _) (fun A => hcat.measurable _)
    (C := aliveCrit n p.essThresholdResample) (fun A hA j => aliveCat_prob hcat A hA.1 j) (fun A hA => hA.1)
    (mv := fun k => abcMoves S V sim dist q p.mcmcSteps (AbcSmc.scheduleAt l k) stp)
    (fun t k => measurable_tapeIter (abcDraws_draws hq) (hm _) _ _) (fun t k x => tapeIter_dependsOn (abcDraws_draws hq) _ _ _ _)
    (P := fun k => (stepOp (((stdNormal d).prod ideal).prod unif) (abcMove S V sim (ball (fun y => Fl.fin (dist y)) (Fl.fin (AbcSmc.scheduleAt l k))) fun i => Real.sqrt (stp i)))^[p.mcmcSteps])
    (fun t k x h hh => lintegral_tapeIter (abcDraws_draws hq) (hm _) _ _ _ hh) (fun t h hh => measurable_stepOp_iterate (hm _) _ hh) key (z0, 1) k
  intro ω ω' hω
  exact congrArg (Alive.est _ f) (h hω)

/-- The particles a run starts from. -/
def abcStart (pri : Tape → Fin d → ℝ) (sim : (Fin d → ℝ) → Tape → D) (key : Keys.Key) (ω : Tape) (i : Fin n) : (Fin d → ℝ) × D :=
  (pri (subtape ((i : ℕ) :: 1 :: key) ω), sim (pri (subtape ((i : ℕ) :: 1 :: key) ω)) (subtape ((i : ℕ) :: n :: 0 :: key) ω))

omit [NeZero n] hcat hq hS hV hdist hl hR in
theorem measurable_abcStart (hpri : Measurable pri) : Measurable (abcStart (n := n) pri sim key) := by
  refine measurable_pi_lambda _ fun i => ?_
  have h1 : Measurable fun ω : Tape => pri (subtape ((i : ℕ) :: 1 :: key) ω) := hpri.comp (measurable_subtape _)
  exact h1.prodMk (hsim.comp (h1.prodMk (measurable_subtape _)))

omit [NeZero n] hcat hq hS hV hdist hl hR in
theorem map_abcStart (hpri : Measurable pri) (i : Fin n) : (ideal.map (abcStart (n := n) pri sim key)).map (fun z => z i) = simulated (ideal.map pri) sim := by
  rw [Measure.map_map (measurable_pi_apply i) (measurable_abcStart hsim key hpri)]
  refine map_simulated hpri hsim ?_
  rw [Set.disjoint_left]
  intro s h1 h2
  exact Set.disjoint_left.mp (below_disjoint (by decide : (1 : ℕ) ≠ 0)) (mem_below_cons h1) (mem_below_cons (mem_below_cons h2))

/-- The expected estimate of a run without initial state. -/
theorem lintegral_abcSmcRun (hpri : Measurable pri) (k : ℕ) {f : (Fin d → ℝ) × D → ℝ≥0∞} (hf : Measurable f) :
    ∫⁻ ω, abcEstimate p.essThresholdResample f (abcSmcRun cat S V pri sim dist q c p stp key ω) k ∂ideal
      = ∫⁻ z0, ∫⁻ ω, abcEstimate p.essThresholdResample f (tapeAbcSmc cat S V pri sim dist q c p stp (n :: n :: 0 :: key) z0 ω) k ∂ideal ∂(ideal.map (abcStart (n := n) pri sim key)) := by
  have hm := abcEst_measurable (n := n) (pri := pri) hcat hq hS hV hsim hdist c l hl p hR stp (n :: n :: 0 :: key) k hf
  have h0 := measurable_abcStart (n := n) hsim key hpri
  rw [lintegral_map (Measurable.lintegral_prod_right hm) h0]
  have hdep : DependsOn (abcStart (n := n) pri sim key) (⋃ i : Fin n, below ((i : ℕ) :: 1 :: key) ∪ below ((i : ℕ) :: n :: 0 :: key)) := by
    intro ω ω' h
    funext i
    have e1 := subtape_dependsOn ((i : ℕ) :: 1 :: key) fun s hs => h s (Set.mem_iUnion.2 ⟨i, Or.inl hs⟩)
    have e2 := subtape_dependsOn ((i : ℕ) :: n :: 0 :: key) fun s hs => h s (Set.mem_iUnion.2 ⟨i, Or.inr hs⟩)
    unfold abcStart
    rw [e1, e2]
  refine fresh (T := below (n :: n :: 0 :: key)) ?_ (f := abcStart (n := n) pri sim key)
    (g := fun z0 ω => abcEstimate p.essThresholdResample f (tapeAbcSmc cat S V pri sim dist q c p stp (n :: n :: 0 :: key) z0 ω) k) h0 hdep hm
    (fun z0 => abcEst_below hcat hq hS hV hsim hdist c l hl p hR stp _ k f z0)
  rw [Set.disjoint_left]
  intro s hs h2
  obtain ⟨i, hs | hs⟩ := Set.mem_iUnion.1 hs
  · exact Set.disjoint_left.mp (below_disjoint (by decide : (1 : ℕ) ≠ 0)) (mem_below_cons hs) (mem_below_cons (mem_below_cons h2))
  · exact Set.disjoint_left.mp (below_disjoint i.is_lt.ne) hs h2

/-- C98 for runs without initial state, where the prior sampler of the scenario draws from the (normalised) prior. -/
theorem C98_run_partial (hpri : Measurable pri) (a : ℝ≥0∞) (hprior : ideal.map pri = a • target S V) (hmono : ∀ j, AbcSmc.scheduleAt l (j + 1) ≤ AbcSmc.scheduleAt l j)
    (k : ℕ) (hatom : ∀ j < k, simulated (ideal.map pri) sim {z | dist z.2 = AbcSmc.scheduleAt l j} = 0) (f : (Fin d → ℝ) × D → ℝ≥0∞) (hf : Measurable f) :
    ∫⁻ ω, abcEstimate p.essThresholdResample f (abcSmcRun cat S V pri sim dist q c p stp key ω) k ∂ideal
      = ∫⁻ z in {z | dist z.2 ≤ AbcSmc.scheduleAt l k}, f z ∂(simulated (ideal.map pri) sim) := by
  rw [lintegral_abcSmcRun hcat hq hS hV hsim hdist c l hl p hR stp key hpri k hf]
  refine C98_unbiased_partial hcat hq hS hV pri hsim hdist c l hl hmono p hR stp _ a _ ?_ _ (fun i => map_abcStart hsim key hpri i) k hatom f hf
  unfold simulated
  rw [hprior, Measure.prod_smul_left, Measure.map_smul]

/-- C98, the evidence: the expected product of the alive fractions at the resampling steps, times the last alive fraction, is the prior probability of data within the threshold. -/
theorem C98_evidence_partial (hpri : Measurable pri) (a : ℝ≥0∞) (hprior : ideal.map pri = a • target S V) (hmono : ∀ j, AbcSmc.scheduleAt l (j + 1) ≤ AbcSmc.scheduleAt l j)
    (k : ℕ) (hatom : ∀ j < k, simulated (ideal.map pri) sim {z | dist z.2 = AbcSmc.scheduleAt l j} = 0) :
    open Classical in
    ∫⁻ ω, (∏ j ∈ Finset.range k, if (liveSet (abcSmcRun cat S V pri sim dist q c p stp key ω j)).Nonempty ∧ ((liveSet (abcSmcRun cat S V pri sim dist q c p stp key ω j)).card : ℝ) < p.essThresholdResample * n
        then ((liveSet (abcSmcRun cat S V pri sim dist q c p stp key ω j)).card : ℝ≥0∞) / n else 1)
        * (((liveSet (abcSmcRun cat S V pri sim dist q c p stp key ω k)).card : ℝ≥0∞) / n) ∂ideal
      = ideal.prod ideal {w | dist (sim (pri w.1) w.2) ≤ AbcSmc.scheduleAt l k} := by
  have h := C98_run_partial hcat hq hS hV hsim hdist c l hl p hR stp key hpri a hprior hmono k hatom (fun _ => 1) measurable_const
  have hms : MeasurableSet {z : (Fin d → ℝ) × D | dist z.2 ≤ AbcSmc.scheduleAt l k} := measurableSet_le (hdist.comp measurable_snd) measurable_const
  have hpair : Measurable fun z : (Fin d → ℝ) × Tape => (z.1, sim z.1 z.2) := measurable_fst.prodMk hsim
  have hr : ∫⁻ z in {z : (Fin d → ℝ) × D | dist z.2 ≤ AbcSmc.scheduleAt l k}, 1 ∂(simulated (ideal.map pri) sim) = ideal.prod ideal {w | dist (sim (pri w.1) w.2) ≤ AbcSmc.scheduleAt l k} := by
    rw [lintegral_one, Measure.restrict_apply_univ]
    unfold simulated
    rw [Measure.map_apply hpair hms]
    have hid : (ideal.map pri).prod ideal = (ideal.prod ideal).map (Prod.map pri id) := by
      conv_lhs => rw [← Measure.map_id (μ := ideal)]
      rw [Measure.map_id, ← Measure.map_prod_map _ _ hpri measurable_id, Measure.map_id]
    rw [hid, Measure.map_apply (hpri.prodMap measurable_id) (hpair hms)]
    rfl
  rw [← hr, ← h]
  refine lintegral_congr fun ω => ?_
  unfold abcEstimate
  congr 1
  simp only [Finset.sum_const, nsmul_eq_mul, mul_one]
  rw [mul_comm, div_eq_mul_inv]

end

theorem measurable_noisySim {q : ℝ → ℝ} (hq : IsNormalDraw q) : Measurable fun z : (Fin 1 → ℝ) × Tape => z.1 0 + q (z.2 ([], 0)) :=
  ((measurable_pi_apply 0).comp measurable_fst).add (hq.measurable.comp ((measurable_pi_apply (([], 0) : Site)).comp measurable_snd))

/-- Data with a normal error do not hit a given distance from 1. -/
theorem noisySim_no_atom {q : ℝ → ℝ} (hq : IsNormalDraw q) (t : ℝ) (μ : Measure (Fin 1 → ℝ)) [IsProbabilityMeasure μ] :
    simulated μ (fun x τ => x 0 + q (τ ([], 0))) {z | |z.2 - 1| = t} = 0 := by
  have hsim := measurable_noisySim hq
  have hms : MeasurableSet {z : (Fin 1 → ℝ) × ℝ | |z.2 - 1| = t} := measurableSet_eq_fun (by fun_prop) measurable_const
  have hpair : Measurable fun z : (Fin 1 → ℝ) × Tape => (z.1, z.1 0 + q (z.2 ([], 0))) := measurable_fst.prodMk hsim
  unfold simulated
  rw [Measure.map_apply hpair hms, Measure.measure_prod_null (hpair hms)]
  refine Filter.Eventually.of_forall fun x => ?_
  have hsub : Prod.mk x ⁻¹' ((fun z : (Fin 1 → ℝ) × Tape => (z.1, z.1 0 + q (z.2 ([], 0)))) ⁻¹' {z | |z.2 - 1| = t}) ⊆ {τ : Tape | τ ([], 0) ∈ q ⁻¹' {1 + t - x 0, 1 - t - x 0}} := by
    intro τ hτ
    have h : |x 0 + q (τ ([], 0)) - 1| = t := hτ
    simp only [Set.mem_ofPred_eq, Set.mem_preimage, Set.mem_insert_iff, Set.mem_singleton_iff]
    rcases abs_choice (x 0 + q (τ ([], 0)) - 1) with h' | h'
    · left; linarith
    · right; linarith
  refine measure_mono_null hsub ?_
  have hfin : (({1 + t - x 0, 1 - t - x 0} : Set ℝ)).Finite := Set.toFinite _
  rw [site (([], 0) : Site) (hq.measurable hfin.measurableSet), ← Measure.map_apply hq.measurable hfin.measurableSet, hq.law]
  have : NullSingletonClass (gaussianReal 0 1) := nullSingletonClass_gaussianReal one_ne_zero
  exact hfin.measure_zero _

/-- A case: prior uniform on `[0, 1)`, data with one normal error, distance to the observation 1, thresholds 2 and 1. -/
example {cat : (Fin n → Fl) → ℝ → Fin n} (hcat : IsCategorical cat) (key : Keys.Key) (k : ℕ) (f : (Fin 1 → ℝ) × ℝ → ℝ≥0∞) (hf : Measurable f) : ∃ q, IsNormalDraw q ∧
    ∫⁻ ω, abcEstimate (1 / 2) f (abcSmcRun cat (seg 1) (fun _ => Real.log 1) (unifDraw 1) (fun x τ => x 0 + q (τ ([], 0))) (fun y => |y - 1|) q ⟨some (some [2, 1]), 2⟩ ⟨3, 9 / 10, 1 / 2, 1 / 100⟩ (fun _ => 2) key ω) k ∂ideal
      = ∫⁻ z in {z | |z.2 - 1| ≤ AbcSmc.scheduleAt [2, 1] k}, f z ∂(simulated (ideal.map (unifDraw 1)) fun x τ => x 0 + q (τ ([], 0))) := by
  obtain ⟨q, hq⟩ := exists_isNormalDraw
  refine ⟨q, hq, C98_run_partial hcat hq (measurableSet_seg 1) measurable_const (measurable_noisySim hq) (by fun_prop) ⟨some (some [2, 1]), 2⟩ [2, 1] rfl ⟨3, 9 / 10, 1 / 2, 1 / 100⟩ (by norm_num) _ key (measurable_unifDraw 1) 1
    (by rw [one_smul]; exact unifDraw_law one_pos) ?_ k ?_ f hf⟩
  · intro j
    rcases j with - | - | j <;> norm_num [AbcSmc.scheduleAt]
  · have hp : IsProbabilityMeasure (ideal.map (unifDraw 1)) := Measure.isProbabilityMeasure_map (measurable_unifDraw 1).aemeasurable
    exact fun j _ => noisySim_no_atom hq _ _

/-! ## Thresholds that are hit with positive probability -/

/-- A simulator that returns 0 or 1, each with probability 1/2, whatever the parameter. -/
noncomputable def coin (_ : Fin 1 → ℝ) (τ : Tape) : ℝ := if τ ([], 0) < 1 / 2 then 0 else 1

theorem measurable_coin : Measurable fun z : (Fin 1 → ℝ) × Tape => coin z.1 z.2 := by
  unfold coin
  exact Measurable.ite (measurableSet_lt ((measurable_pi_apply (([], 0) : Site)).comp measurable_snd) measurable_const) measurable_const measurable_const

theorem coin_prob : ideal {τ : Tape | τ ([], 0) < 1 / 2} = 1 / 2 ∧ ideal {τ : Tape | ¬ τ ([], 0) < 1 / 2} = 1 / 2 := by
  have e1 : Set.Iio (1 / 2 : ℝ) ∩ Set.Ico 0 1 = Set.Ico 0 (1 / 2) := by
    ext x; simp only [Set.mem_inter_iff, Set.mem_Iio, Set.mem_Ico]; constructor
    · rintro ⟨a, b, c⟩; exact ⟨b, a⟩
    · rintro ⟨a, b⟩; exact ⟨b, a, by linarith⟩
  have e2 : Set.Ici (1 / 2 : ℝ) ∩ Set.Ico 0 1 = Set.Ico (1 / 2) 1 := by
    ext x; simp only [Set.mem_inter_iff, Set.mem_Ici, Set.mem_Ico]; constructor
    · rintro ⟨a, b, c⟩; exact ⟨a, c⟩
    · rintro ⟨a, b⟩; exact ⟨a, by linarith, b⟩
  have hh : ENNReal.ofReal (1 / 2) = 1 / 2 := by
    rw [ENNReal.ofReal_div_of_pos (by norm_num)]; simp
  constructor
  · have := site (([], 0) : Site) (measurableSet_Iio (a := (1 / 2 : ℝ)))
    refine this.trans ?_
    rw [unif, Measure.restrict_apply measurableSet_Iio, e1, Real.volume_Ico, sub_zero, hh]
  · have := site (([], 0) : Site) (measurableSet_Ici (a := (1 / 2 : ℝ)))
    simp only [not_lt]
    refine this.trans ?_
    rw [unif, Measure.restrict_apply measurableSet_Ici, e2, Real.volume_Ico, ← hh]
    norm_num

/-- The expectation over a coin. -/
theorem lintegral_coin (x : Fin 1 → ℝ) (g : ℝ → ℝ≥0∞) : ∫⁻ τ, g (coin x τ) ∂ideal = 1 / 2 * g 0 + 1 / 2 * g 1 := by
  have hm : MeasurableSet {τ : Tape | τ ([], 0) < 1 / 2} := measurableSet_lt (measurable_pi_apply (([], 0) : Site)) measurable_const
  rw [← lintegral_add_compl _ hm]
  have e1 : ∫⁻ τ in {τ : Tape | τ ([], 0) < 1 / 2}, g (coin x τ) ∂ideal = ∫⁻ _ in {τ : Tape | τ ([], 0) < 1 / 2}, g 0 ∂ideal :=
    setLIntegral_congr_fun hm fun τ hτ => by
      have : τ ([], 0) < 1 / 2 := hτ
      simp only [coin, if_pos this]
  have e2 : ∫⁻ τ in {τ : Tape | τ ([], 0) < 1 / 2}ᶜ, g (coin x τ) ∂ideal = ∫⁻ _ in {τ : Tape | τ ([], 0) < 1 / 2}ᶜ, g 1 ∂ideal :=
    setLIntegral_congr_fun hm.compl fun τ hτ => by
      have : ¬ τ ([], 0) < 1 / 2 := hτ
      simp only [coin, if_neg this]
  have e3 : ({τ : Tape | τ ([], 0) < 1 / 2}ᶜ : Set Tape) = {τ : Tape | ¬ τ ([], 0) < 1 / 2} := rfl
  rw [e1, e2, setLIntegral_const, setLIntegral_const, e3, coin_prob.1, coin_prob.2, mul_comm, mul_comm (g 1)]

theorem lintegral_simulated_coin {g : (Fin 1 → ℝ) × ℝ → ℝ≥0∞} (hg : Measurable g) (μ : Measure (Fin 1 → ℝ)) :
    ∫⁻ z, g z ∂(simulated μ coin) = ∫⁻ x, (1 / 2 * g (x, 0) + 1 / 2 * g (x, 1)) ∂μ := by
  have hpair : Measurable fun z : (Fin 1 → ℝ) × Tape => (z.1, coin z.1 z.2) := measurable_fst.prodMk measurable_coin
  have hgp : Measurable fun z : (Fin 1 → ℝ) × Tape => g (z.1, coin z.1 z.2) := hg.comp hpair
  unfold simulated
  rw [lintegral_map hg hpair, lintegral_prod _ hgp.aemeasurable]
  exact lintegral_congr fun x => lintegral_coin x fun y => g (x, y)

/-- One move with stepsize 0 and threshold 1 from a parameter in the support of the prior. -/
theorem stepOp_coin {x : Fin 1 → ℝ} (hx : x ∈ seg 1) (y : ℝ) {h : (Fin 1 → ℝ) × ℝ → ℝ≥0∞} (hh : Measurable h) :
    stepOp (((stdNormal 1).prod ideal).prod unif) (abcMove (seg 1) (fun _ => 0) coin (ball (fun y : ℝ => Fl.fin y) (Fl.fin 1)) fun _ => Real.sqrt 0) h (x, y) = 1 / 2 * h (x, 0) + 1 / 2 * h (x, y) := by
  have hB : MeasurableSet (ball (fun y : ℝ => Fl.fin y) (Fl.fin 1)) := by
    change MeasurableSet {y : ℝ | y < 1}
    exact measurableSet_lt measurable_id measurable_const
  have hmv := measurable_abcMove (V := fun _ => 0) (measurableSet_seg 1) measurable_const hB measurable_coin fun _ => Real.sqrt 0
  have hm : Measurable fun w : ((Fin 1 → ℝ) × Tape) × ℝ => h (abcMove (seg 1) (fun _ => 0) coin (ball (fun y : ℝ => Fl.fin y) (Fl.fin 1)) (fun _ => Real.sqrt 0) (x, y) w) :=
    hh.comp (hmv.comp (measurable_const.prodMk measurable_id))
  unfold stepOp
  rw [lintegral_prod _ hm.aemeasurable]
  have hu : ∀ᵐ u ∂unif, u ∈ Set.Ico (0 : ℝ) 1 := by unfold unif; exact ae_restrict_mem measurableSet_Ico
  have hw : ∀ ξ, walk (fun _ => Real.sqrt 0) (x, ξ) = x := fun ξ => by funext i; simp [walk]
  have e : ∀ w : (Fin 1 → ℝ) × Tape, ∫⁻ u, h (abcMove (seg 1) (fun _ => 0) coin (ball (fun y : ℝ => Fl.fin y) (Fl.fin 1)) (fun _ => Real.sqrt 0) (x, y) (w, u)) ∂unif
      = (fun c : ℝ => if c < 1 then h (x, c) else h (x, y)) (coin x w.2) := by
    intro w
    have hc : ∫⁻ u, h (abcMove (seg 1) (fun _ => 0) coin (ball (fun y : ℝ => Fl.fin y) (Fl.fin 1)) (fun _ => Real.sqrt 0) (x, y) (w, u)) ∂unif
        = ∫⁻ _ : ℝ, (fun c : ℝ => if c < 1 then h (x, c) else h (x, y)) (coin x w.2) ∂unif := by
      refine lintegral_congr_ae (hu.mono fun u hu => ?_)
      simp only [abcMove, hw]
      by_cases hb : coin x w.2 < 1
      · have hb' : coin x w.2 ∈ ball (fun y : ℝ => Fl.fin y) (Fl.fin 1) := hb
        have ha : abcAcc (seg 1) (fun _ => 0) (ball (fun y : ℝ => Fl.fin y) (Fl.fin 1)) x (x, coin x w.2) = 1 := by
          unfold abcAcc accOn; simp [hb', hx]
        rw [ha, if_pos hu.2, if_pos hb]
      · have hb' : coin x w.2 ∉ ball (fun y : ℝ => Fl.fin y) (Fl.fin 1) := hb
        have ha : abcAcc (seg 1) (fun _ => 0) (ball (fun y : ℝ => Fl.fin y) (Fl.fin 1)) x (x, coin x w.2) = 0 := by
          unfold abcAcc; simp [hb']
        rw [ha, if_neg (not_lt.2 hu.1), if_neg hb]
    rw [hc, lintegral_const, measure_univ, mul_one]
  rw [lintegral_congr e]
  have hg : Measurable fun c : ℝ => if c < 1 then h (x, c) else h (x, y) :=
    Measurable.ite (measurableSet_lt measurable_id measurable_const) (hh.comp measurable_prodMk_left) measurable_const
  have hmc0 : Measurable fun w : (Fin 1 → ℝ) × Tape => coin x w.2 := by
    unfold coin
    exact Measurable.ite (measurableSet_lt ((measurable_pi_apply (([], 0) : Site)).comp measurable_snd) measurable_const) measurable_const measurable_const
  have hmc : Measurable fun w : (Fin 1 → ℝ) × Tape => (fun c : ℝ => if c < 1 then h (x, c) else h (x, y)) (coin x w.2) :=
    hg.comp hmc0
  rw [lintegral_prod _ hmc.aemeasurable, lintegral_congr fun _ => lintegral_coin x fun c : ℝ => if c < 1 then h (x, c) else h (x, y), lintegral_const, measure_univ, mul_one]
  norm_num

/-- The data 0. -/
def zeroData : Set ((Fin 1 → ℝ) × ℝ) := {z | z.2 = 0}

/-- C98 fails without the condition on the thresholds: moves accept data with distance strictly below the threshold only, weights also keep data at the threshold. Prior uniform on `[0, 1)`, data 0 or 1 with probability 1/2, the distance
is the data, threshold 1, stepsize 0. All data are within the threshold, and half of them are 0; but the estimate of the probability of data 0 after one update has the expectation 3/4. -/
theorem C98_fails_atoms {cat : (Fin n → Fl) → ℝ → Fin n} (hcat : IsCategorical cat) {q : ℝ → ℝ} (hq : IsNormalDraw q) (c : Config) (hl : c.schedule = some (some [1])) (p : Settings) (hR : p.mcmcSteps = 1)
    (key : Keys.Key) :
    ideal.map (unifDraw 1) = target (seg 1) (fun _ => 0) ∧
    ∫⁻ z in {z | z.2 ≤ AbcSmc.scheduleAt [1] 1}, zeroData.indicator 1 z ∂(simulated (ideal.map (unifDraw 1)) coin) = 1 / 2 ∧
    ∫⁻ ω, abcEstimate p.essThresholdResample (zeroData.indicator 1) (abcSmcRun cat (seg 1) (fun _ => 0) (unifDraw 1) coin (fun y => y) q c p (fun _ => 0) key ω) 1 ∂ideal = 3 / 4 := by
  have hlaw : ideal.map (unifDraw 1) = target (seg 1) (fun _ => 0) := by
    have := unifDraw_law one_pos
    rwa [Real.log_one] at this
  have hprob : IsProbabilityMeasure (ideal.map (unifDraw 1)) := Measure.isProbabilityMeasure_map (measurable_unifDraw 1).aemeasurable
  have hz : MeasurableSet zeroData := measurable_snd (measurableSet_singleton (0 : ℝ))
  have hf : Measurable (zeroData.indicator (1 : (Fin 1 → ℝ) × ℝ → ℝ≥0∞)) := measurable_one.indicator hz
  have hf0 : ∀ x, zeroData.indicator (1 : (Fin 1 → ℝ) × ℝ → ℝ≥0∞) (x, 0) = 1 := fun x => by simp [zeroData]
  have hf1 : ∀ x, zeroData.indicator (1 : (Fin 1 → ℝ) × ℝ → ℝ≥0∞) (x, 1) = 0 := fun x => by simp [zeroData]
  have hsch : ∀ k, AbcSmc.scheduleAt [1] k = 1 := fun k => by simp [AbcSmc.scheduleAt]
  have hw : MeasurableSet (within (d := 1) (fun y : ℝ => y) 1) := measurableSet_le measurable_snd measurable_const
  have hall : ∀ g : (Fin 1 → ℝ) × ℝ → ℝ≥0∞, Measurable g → ∫⁻ z in within (d := 1) (fun y : ℝ => y) 1, g z ∂(simulated (ideal.map (unifDraw 1)) coin)
      = ∫⁻ x, (1 / 2 * g (x, 0) + 1 / 2 * g (x, 1)) ∂(ideal.map (unifDraw 1)) := by
    intro g hg
    rw [← lintegral_indicator hw, lintegral_simulated_coin (hg.indicator hw)]
    refine lintegral_congr fun x => ?_
    have h0 : ((x, 0) : (Fin 1 → ℝ) × ℝ) ∈ within (d := 1) (fun y : ℝ => y) 1 := by change (0 : ℝ) ≤ 1; norm_num
    have h1 : ((x, 1) : (Fin 1 → ℝ) × ℝ) ∈ within (d := 1) (fun y : ℝ => y) 1 := by change (1 : ℝ) ≤ 1; norm_num
    rw [Set.indicator_of_mem h0, Set.indicator_of_mem h1]
  refine ⟨hlaw, ?_, ?_⟩
  · rw [hsch]
    refine (hall _ hf).trans ?_
    simp only [hf0, hf1, mul_one, mul_zero, add_zero, lintegral_const, measure_univ]
  · have hB : ∀ t, MeasurableSet (ball (fun y : ℝ => Fl.fin y) (Fl.fin t)) := fun t => by
      change MeasurableSet {y : ℝ | y < t}
      exact measurableSet_lt measurable_id measurable_const
    have hm := fun t => measurable_abcMove (V := fun _ => 0) (measurableSet_seg 1) measurable_const (hB t) measurable_coin fun _ => Real.sqrt 0
    rw [lintegral_abcSmcRun (V := fun _ => 0) (dist := fun y => y) hcat hq (measurableSet_seg 1) measurable_const measurable_coin measurable_id c [1] hl p (by omega) (fun _ => 0) key (measurable_unifDraw 1) 1 hf]
    simp_rw [fun z0 ω => abcEstimate_eq (S := seg 1) (V := fun _ => 0) (pri := unifDraw 1) (sim := coin) (dist := fun y => y) (q := q) cat c p (fun _ => 0) (n :: n :: 0 :: key) z0 ω (by omega) [1] hl
      (zeroData.indicator 1) 1]
    simp_rw [hsch]
    set P : ℕ → ((Fin 1 → ℝ) × ℝ → ℝ≥0∞) → (Fin 1 → ℝ) × ℝ → ℝ≥0∞ := fun _ => (stepOp (((stdNormal 1).prod ideal).prod unif)
      (abcMove (seg 1) (fun _ => 0) coin (ball (fun y : ℝ => Fl.fin y) (Fl.fin 1)) fun _ => Real.sqrt 0))^[p.mcmcSteps] with hP
    have hPm : ∀ t {h : (Fin 1 → ℝ) × ℝ → ℝ≥0∞}, Measurable h → Measurable (P t h) := fun t h hh => measurable_stepOp_iterate (hm _) _ hh
    have hs := fun z0 : Fin n → (Fin 1 → ℝ) × ℝ => Alive.lintegral_est_succ (A := fun _ => within (d := 1) (fun y : ℝ => y) 1) (fun k => hw) (fun A => hcat.measurable _)
      (C := aliveCrit n p.essThresholdResample) (fun A hA j => aliveCat_prob hcat A hA.1 j) (fun A hA => hA.1)
      (mv := fun k => abcMoves (seg 1) (fun _ => 0) coin (fun y => y) q p.mcmcSteps 1 fun _ => 0)
      (fun t k => measurable_tapeIter (abcDraws_draws hq) (hm _) _ _) (fun t k x => tapeIter_dependsOn (abcDraws_draws hq) _ _ _ _)
      (P := P) (fun t k x h hh => lintegral_tapeIter (abcDraws_draws hq) (hm _) _ _ _ hh) hPm (n :: n :: 0 :: key) (z0, 1) (fun _ _ h => h) 0 hf
    refine (lintegral_congr hs).trans ?_
    rw [Alive.lintegral_est_zero (A := fun _ => within (d := 1) (fun y : ℝ => y) 1) (fun k => hw) _ (simulated (ideal.map (unifDraw 1)) coin) _
      (fun i => map_abcStart measurable_coin key (measurable_unifDraw 1) i) (hPm 0 (hf.indicator hw)), hall _ (hPm 0 (hf.indicator hw))]
    have hseg : ∀ᵐ x ∂(ideal.map (unifDraw 1)), x ∈ seg 1 := by
      rw [hlaw]
      unfold target
      rw [withDensity_indicator (measurableSet_seg 1), ← withDensity_indicator (measurableSet_seg 1)]
      refine (ae_withDensity_iff ((by fun_prop : Measurable fun _ : Fin 1 → ℝ => ENNReal.ofReal (Real.exp (-0))).indicator (measurableSet_seg 1))).2 ?_
      filter_upwards with x hx
      by_contra h
      exact hx (Set.indicator_of_notMem h _)
    have hval : ∫⁻ x, (1 / 2 * P 0 ((within (d := 1) (fun y : ℝ => y) 1).indicator (zeroData.indicator 1)) (x, 0)
        + 1 / 2 * P 0 ((within (d := 1) (fun y : ℝ => y) 1).indicator (zeroData.indicator 1)) (x, 1)) ∂(ideal.map (unifDraw 1)) = ∫⁻ _, (3 / 4 : ℝ≥0∞) ∂(ideal.map (unifDraw 1)) := by
      refine lintegral_congr_ae (hseg.mono fun x hx => ?_)
      have h0 : ((x, 0) : (Fin 1 → ℝ) × ℝ) ∈ within (d := 1) (fun y : ℝ => y) 1 := by change (0 : ℝ) ≤ 1; norm_num
      have h1 : ((x, 1) : (Fin 1 → ℝ) × ℝ) ∈ within (d := 1) (fun y : ℝ => y) 1 := by change (1 : ℝ) ≤ 1; norm_num
      simp only [hP, hR, Function.iterate_one]
      rw [stepOp_coin hx 0 (hf.indicator hw), stepOp_coin hx 1 (hf.indicator hw), Set.indicator_of_mem h0, Set.indicator_of_mem h1, hf0, hf1]
      have e1 : (1 / 2 * 1 + 1 / 2 * 1 : ℝ≥0∞) = 1 := by rw [mul_one]; exact ENNReal.add_halves 1
      have e2 : (3 / 4 : ℝ≥0∞) = 1 / 2 * 1 + 1 / 2 * (1 / 2 * 1 + 1 / 2 * 0) := by
        rw [← ENNReal.toReal_eq_toReal_iff' (by finiteness) (by finiteness), ENNReal.toReal_add (by finiteness) (by finiteness)]
        simp
        norm_num
      rw [e1, e2]
    rw [hval, lintegral_const, measure_univ, mul_one]

end Mocat.Props
