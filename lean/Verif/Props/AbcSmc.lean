import Verif.Model.AbcSmc
import Verif.Props.Abc
import Verif.Props.Metrics
/-!
# C63: ABC-SMC
-/
namespace Mocat.Props
open Mocat Mocat.Abc Mocat.AbcSmc

variable {K π X D : Type*} {n d : ℕ} [NeZero n]

/-- The particles with weight. (Specification.) -/
noncomputable def liveSet (ens : Ensemble n X D) : Finset (Fin n) :=
  open Classical in Finset.univ.filter fun i => (ens i).logWeight ≠ Fl.ninf

/-- What the recorded numbers mean at threshold `t`: all rows record `t`; a particle has weight (log weight 0) iff its distance is at most `t`, otherwise its log
weight is `-inf`; if some particle has weight, `ess` is the number of those that have. (Specification.) -/
structure Bookkept (t : ℝ) (ens : Ensemble n X D) : Prop where
  threshold : ∀ i, (ens i).threshold = Fl.fin t
  live : ∀ i, (ens i).mc.distance ≤ t → (ens i).logWeight = Fl.fin 0
  dead : ∀ i, t < (ens i).mc.distance → (ens i).logWeight = Fl.ninf
  ess : (liveSet ens).Nonempty → ∀ i, (ens i).ess = Fl.fin (liveSet ens).card

omit [NeZero n] in
theorem Bookkept.live_iff {t : ℝ} {ens : Ensemble n X D} (h : Bookkept t ens) (i : Fin n) :
    (ens i).logWeight ≠ Fl.ninf ↔ (ens i).mc.distance ≤ t := by
  constructor
  · intro hw; by_contra hd; exact hw (h.dead i (not_le.mp hd))
  · intro hd; rw [h.live i hd]; simp

omit [NeZero n] in
theorem mem_liveSet {ens : Ensemble n X D} {i : Fin n} : i ∈ liveSet ens ↔ (ens i).logWeight ≠ Fl.ninf := by
  unfold liveSet; simp

/-- `adapt` sets consistent numbers whenever the next threshold is a number. -/
theorem adapt_bookkept (c : Config) (p : Settings) (ap : (Fin n → Mc X D) → π → π) (pw : Option (Fin n → Fl)) (new : Ensemble n X D)
    (e : AbcSmc.Extra K π) (t : ℝ) (ht : nextThreshold c p new e.iter = Fl.fin t) :
    Bookkept t (adapt c p ap pw new e).1 ∧ (adapt c p ap pw new e).2.threshold = Fl.fin t := by
  have hlw : ∀ i, ((adapt c p ap pw new e).1 i).logWeight = logWeight (Fl.fin t) (new i).mc.distance := by
    intro i; simp only [adapt, ht]
  have hmc : ∀ i, ((adapt c p ap pw new e).1 i).mc = (new i).mc := fun _ => rfl
  have hdead : ∀ i, t < ((adapt c p ap pw new e).1 i).mc.distance → ((adapt c p ap pw new e).1 i).logWeight = Fl.ninf := by
    intro i hi; rw [hlw]; unfold logWeight; exact if_pos hi
  have hlive : ∀ i, ((adapt c p ap pw new e).1 i).mc.distance ≤ t → ((adapt c p ap pw new e).1 i).logWeight = Fl.fin 0 := by
    intro i hi; rw [hlw]; unfold logWeight; exact if_neg (not_lt.mpr hi)
  refine ⟨⟨fun i => by simp only [adapt, ht], hlive, hdead, ?_⟩, by simp only [adapt, ht]⟩
  intro hne i
  have : ((adapt c p ap pw new e).1 i).ess = Metrics.essLogWeight fun j => ((adapt c p ap pw new e).1 j).logWeight := rfl
  rw [this]
  apply C33_count _ 0 _ hne
  intro j
  by_cases hj : ((adapt c p ap pw new e).1 j).mc.distance ≤ t
  · refine ⟨fun _ => hlive j hj, fun h => absurd (mem_liveSet.mpr ?_) h⟩
    rw [hlive j hj]; simp
  · have := hdead j (not_le.mp hj)
    exact ⟨fun h => absurd this (mem_liveSet.mp h), fun _ => this⟩

theorem quantile_ge_some (v : Fin n → ℝ) {q : ℝ} (h0 : 0 ≤ q) (h1 : q ≤ 1) : ∃ i, v i ≤ quantile v q :=
  ⟨_, (quantile_bounds v h0 h1).1⟩

/-- An adaptive configuration. -/
def Adaptive (c : Config) : Prop := ∀ l, c.schedule ≠ some (some l)

theorem nextThreshold_adaptive {c : Config} (hc : Adaptive c) (p : Settings) (ens : Ensemble n X D) (iter : ℕ) :
    nextThreshold c p ens iter = nextThresholdAdaptive p ens := by
  unfold nextThreshold
  split
  · rename_i l h; exact absurd h (hc l)
  · rfl

/-- A resampling that picks no particle of zero weight (when some particle has weight). Library assumption on `random.categorical`. -/
def PicksLive (categorical : K → (Fin n → Fl) → Fin n → Fin n) : Prop :=
  ∀ (k : K) (w : Fin n → Fl), (∃ i, w i ≠ Fl.ninf) → ∀ i, w (categorical k w i) ≠ Fl.ninf

section
variable (splitN : K → Fin (n + 2) → K) (categorical : K → (Fin n → Fl) → Fin n → Fin n) (kernel : Kernel K π X D) (c : Config) (p : Settings)
  (ap : (Fin n → Mc X D) → π → π)

/-- `ess` as the next threshold computation reads it: the number of live particles of the (resampled) ensemble. -/
theorem forward_ess (x : Particle X D) (e : AbcSmc.Extra K π) (k : K) :
    (forwardProposal kernel p x e k).ess = x.ess ∧ (forwardProposal kernel p x e k).logWeight = x.logWeight := by
  unfold forwardProposal; split_ifs <;> exact ⟨rfl, rfl⟩

/-- Number of particles with weight before the move. -/
theorem resampled_ess {t : ℝ} {ens : Ensemble n X D} (h : Bookkept t ens) (hne : (liveSet ens).Nonempty) (e : AbcSmc.Extra K π) :
    ∃ a : ℕ, 1 ≤ a ∧ a ≤ n ∧ (∀ i, (resampled splitN categorical p ens e i).ess = Fl.fin a) ∧
      a = (liveSet (resampled splitN categorical p ens e)).card ∧ (¬ resampleCriterion p ens → a = (liveSet ens).card) := by
  classical
  unfold resampled
  split_ifs with hr
  · refine ⟨n, NeZero.one_le, le_refl _, fun i => rfl, ?_, fun h => absurd hr h⟩
    have : liveSet (resample categorical ens (splitN e.key (Fin.last n).castSucc)) = Finset.univ := by
      ext i; simp only [mem_liveSet, Finset.mem_univ, iff_true]
      exact (by simp [resample])
    rw [this]; simp
  · refine ⟨(liveSet ens).card, hne.card_pos, ?_, fun i => h.ess hne i, rfl, fun _ => rfl⟩
    simpa using Finset.card_le_univ (liveSet ens)

/-- One adaptive update from a consistent state: the next state is consistent at a threshold that is a quantile of the moved distances, and some
particle has weight. -/
theorem adaptive_step (hc : Adaptive c) (hr0 : 0 ≤ p.essThresholdRetain) (hr1 : p.essThresholdRetain ≤ 1) {t : ℝ} {ens : Ensemble n X D}
    (h : Bookkept t ens) (hne : (liveSet ens).Nonempty) (e : AbcSmc.Extra K π) :
    ∃ (a : ℕ) (t' : ℝ), a = (liveSet (resampled splitN categorical p ens e)).card ∧ 1 ≤ a ∧ a ≤ n ∧
      (¬ resampleCriterion p ens → a = (liveSet ens).card) ∧
      t' = quantile (fun i => ((update splitN categorical kernel c p ap ens e).1 i).mc.distance) (p.essThresholdRetain * a / n) ∧
      Bookkept t' (update splitN categorical kernel c p ap ens e).1 ∧
      (update splitN categorical kernel c p ap ens e).2.threshold = Fl.fin t' ∧
      (liveSet (update splitN categorical kernel c p ap ens e).1).Nonempty := by
  obtain ⟨a, ha1, han, hess, hacard, hnr⟩ := resampled_ess splitN categorical p h hne e
  obtain ⟨adv, hadv⟩ : ∃ adv : Ensemble n X D, adv = fun i : Fin n => forwardProposal kernel p (resampled splitN categorical p ens e i)
      { e with iter := e.iter + 1, key := splitN e.key (Fin.last (n + 1)) } (splitN e.key i.castSucc.castSucc) := ⟨_, rfl⟩
  have hupd : update splitN categorical kernel c p ap ens e
      = adapt c p ap (some fun i => (resampled splitN categorical p ens e i).logWeight) adv
          { e with iter := e.iter + 1, key := splitN e.key (Fin.last (n + 1)) } := by rw [hadv]; rfl
  have he0 : (adv 0).ess = Fl.fin a := by rw [hadv]; dsimp only; rw [(forward_ess kernel p _ _ _).1]; exact hess 0
  have hq0 : 0 ≤ p.essThresholdRetain * a / n := by positivity
  have hn : (0 : ℝ) < n := by exact_mod_cast NeZero.pos n
  have hq1 : p.essThresholdRetain * a / n ≤ 1 := by
    rw [div_le_one hn]
    have : (a : ℝ) ≤ n := by exact_mod_cast han
    nlinarith [Nat.cast_nonneg (α := ℝ) a]
  have ht : nextThreshold c p adv (e.iter + 1) = Fl.fin (quantile (fun i => (adv i).mc.distance) (p.essThresholdRetain * a / n)) := by
    rw [nextThreshold_adaptive hc]; unfold nextThresholdAdaptive; rw [he0]
  obtain ⟨h1, h2⟩ := adapt_bookkept c p ap (some fun i => (resampled splitN categorical p ens e i).logWeight) adv
    { e with iter := e.iter + 1, key := splitN e.key (Fin.last (n + 1)) } _ ht
  refine ⟨a, _, hacard, ha1, han, hnr, rfl, ?_⟩
  rw [hupd]
  refine ⟨h1, h2, ?_⟩
  obtain ⟨i, hi⟩ := quantile_ge_some (fun i => (adv i).mc.distance) hq0 hq1
  exact ⟨i, mem_liveSet.mpr ((h1.live_iff i).mpr hi)⟩

/-- A consistent adaptive state with some weight. -/
def AdaptiveOk (s : Ensemble n X D × AbcSmc.Extra K π) : Prop :=
  ∃ t, Bookkept t s.1 ∧ s.2.threshold = Fl.fin t ∧ (liveSet s.1).Nonempty

theorem adaptive_startup_ok (hc : Adaptive c) (hr0 : 0 ≤ p.essThresholdRetain) (hr1 : p.essThresholdRetain ≤ 1)
    (init : Fin n → Mc X D) (key : K) (params : π) : AdaptiveOk (AbcSmc.startup c p ap init key params) := by
  have hn : (0 : ℝ) < n := by exact_mod_cast NeZero.pos n
  unfold AbcSmc.startup
  dsimp only
  generalize (match c.schedule with
    | some (some l) => Fl.fin (AbcSmc.scheduleAt l 0)
    | _ => Fl.pinf) = thr
  have ht : nextThreshold c p (fun i => (⟨{ init i with alpha := 1 }, thr, Fl.fin 0, Fl.fin n⟩ : Particle X D)) 0
      = Fl.fin (quantile (fun i => (init i).distance) (p.essThresholdRetain * n / n)) := by
    rw [nextThreshold_adaptive hc]; rfl
  have := adapt_bookkept c p ap none (fun i => (⟨{ init i with alpha := 1 }, thr, Fl.fin 0, Fl.fin n⟩ : Particle X D))
    (⟨key, 0, thr, params, Fl.nan⟩ : AbcSmc.Extra K π) _ ht
  refine ⟨_, this.1, this.2, ?_⟩
  obtain ⟨i, hi⟩ := quantile_ge_some (fun i => (init i).distance) (q := p.essThresholdRetain * n / n) (by positivity)
    (by rw [mul_div_assoc, div_self hn.ne', mul_one]; exact hr1)
  exact ⟨i, mem_liveSet.mpr ((this.1.live_iff i).mpr hi)⟩

/-- The states after `k` updates of a run. -/
noncomputable def abcSmcAfter (init : Fin n → Mc X D) (key : K) (params : π) (k : ℕ) : Ensemble n X D × AbcSmc.Extra K π :=
  bodyIter (AbcSmc.update splitN categorical kernel c p ap) k (AbcSmc.startup c p ap init key params)

/-- A run returns the starting state and the states after 1, 2, ... updates. -/
theorem abcSmc_run_eq (init : Fin n → Mc X D) (key : K) (params : π) :
    ∃ m : ℕ, m ≤ c.maxIter.toNat ∧ AbcSmc.run splitN categorical kernel c p ap init key params
      = (List.range (m + 1)).map fun k => (abcSmcAfter splitN categorical kernel c p ap init key params k).1 := by
  obtain ⟨m, h1, h2, -, -⟩ := C12_run (AbcSmc.update splitN categorical kernel c p ap) (AbcSmc.terminated c p) c.maxIter
    (AbcSmc.startup c p ap init key params)
  exact ⟨m, h1, h2⟩

theorem adaptive_after (hc : Adaptive c) (hr0 : 0 ≤ p.essThresholdRetain) (hr1 : p.essThresholdRetain ≤ 1)
    (init : Fin n → Mc X D) (key : K) (params : π) (k : ℕ) : AdaptiveOk (abcSmcAfter splitN categorical kernel c p ap init key params k) := by
  refine Mcmc.bodyIter_inv _ AdaptiveOk _ (adaptive_startup_ok c p ap hc hr0 hr1 init key params) ?_ k
  rintro ens e ⟨t, h1, -, h3⟩
  obtain ⟨a, t', -, -, -, -, -, h4, h5, h6⟩ := adaptive_step splitN categorical kernel c p ap hc hr0 hr1 h1 h3 e
  exact ⟨t', h4, h5, h6⟩

/-- C63, adaptive thresholds: in every ensemble of every run, a particle has weight iff its distance is at most the recorded threshold, `ess` is the number of
particles with weight, and that number is at least 1. (Any inner sampler, any adaptation of its parameters, any random choices.) -/
theorem C63_adaptive (hc : Adaptive c) (hr0 : 0 ≤ p.essThresholdRetain) (hr1 : p.essThresholdRetain ≤ 1)
    (init : Fin n → Mc X D) (key : K) (params : π) :
    ∀ ens ∈ AbcSmc.run splitN categorical kernel c p ap init key params, ∃ t : ℝ,
      (∀ i, (ens i).threshold = Fl.fin t) ∧
      (∀ i, ((ens i).logWeight = Fl.fin 0 ∧ (ens i).mc.distance ≤ t) ∨ ((ens i).logWeight = Fl.ninf ∧ t < (ens i).mc.distance)) ∧
      0 < (Finset.univ.filter fun i => (ens i).mc.distance ≤ t).card ∧
      ∀ i, (ens i).ess = Fl.fin (Finset.univ.filter fun i => (ens i).mc.distance ≤ t).card := by
  obtain ⟨m, -, hrun⟩ := abcSmc_run_eq splitN categorical kernel c p ap init key params
  rw [hrun]
  intro ens hens
  obtain ⟨k, -, rfl⟩ := List.mem_map.mp hens
  obtain ⟨t, h1, -, h3⟩ := adaptive_after splitN categorical kernel c p ap hc hr0 hr1 init key params k
  have hset : liveSet (abcSmcAfter splitN categorical kernel c p ap init key params k).1
      = Finset.univ.filter fun i => ((abcSmcAfter splitN categorical kernel c p ap init key params k).1 i).mc.distance ≤ t := by
    ext i; rw [mem_liveSet, h1.live_iff]; simp
  refine ⟨t, h1.threshold, fun i => ?_, ?_, ?_⟩
  · rcases le_or_gt ((abcSmcAfter splitN categorical kernel c p ap init key params k).1 i).mc.distance t with h | h
    · exact Or.inl ⟨h1.live i h, h⟩
    · exact Or.inr ⟨h1.dead i h, h⟩
  · rw [← hset]; exact h3.card_pos
  · rw [← hset]; exact h1.ess h3

/-! ### Schedules -/

theorem scheduled_after (l : List ℝ) (hc : c.schedule = some (some l)) (init : Fin n → Mc X D) (key : K) (params : π) (k : ℕ) :
    Bookkept (AbcSmc.scheduleAt l k) (abcSmcAfter splitN categorical kernel c p ap init key params k).1 ∧
    (abcSmcAfter splitN categorical kernel c p ap init key params k).2.iter = k ∧
    (abcSmcAfter splitN categorical kernel c p ap init key params k).2.threshold = Fl.fin (AbcSmc.scheduleAt l k) := by
  have hnext : ∀ (ens : Ensemble n X D) i, nextThreshold c p ens i = Fl.fin (AbcSmc.scheduleAt l i) := by
    intro ens i; unfold nextThreshold; rw [hc]
  cases k with
  | zero =>
    unfold abcSmcAfter AbcSmc.startup
    simp only [bodyIter, Function.iterate_zero, id_eq]
    obtain ⟨h1, h2⟩ := adapt_bookkept c p ap none _ (⟨key, 0, _, params, Fl.nan⟩ : AbcSmc.Extra K π) _ (hnext _ 0)
    exact ⟨h1, rfl, h2⟩
  | succ k =>
    have hiter : ∀ k, (abcSmcAfter splitN categorical kernel c p ap init key params k).2.iter = k := by
      intro k
      induction k with
      | zero => rfl
      | succ k ih =>
        unfold abcSmcAfter at ih ⊢
        rw [Mcmc.bodyIter_succ]
        change (bodyIter (AbcSmc.update splitN categorical kernel c p ap) k _).2.iter + 1 = _
        rw [ih]
    have hk := hiter k
    have hk1 := hiter (k + 1)
    unfold abcSmcAfter at hk hk1 ⊢
    rw [Mcmc.bodyIter_succ] at hk1 ⊢
    generalize bodyIter (AbcSmc.update splitN categorical kernel c p ap) k (AbcSmc.startup c p ap init key params) = s at hk hk1
    unfold AbcSmc.update at hk1 ⊢
    dsimp only at hk1 ⊢
    have := adapt_bookkept c p ap (some fun i => (resampled splitN categorical p s.1 s.2 i).logWeight)
      (fun i : Fin n => forwardProposal kernel p (resampled splitN categorical p s.1 s.2 i)
        { s.2 with iter := s.2.iter + 1, key := splitN s.2.key (Fin.last (n + 1)) } (splitN s.2.key i.castSucc.castSucc))
      { s.2 with iter := s.2.iter + 1, key := splitN s.2.key (Fin.last (n + 1)) } _ (hnext _ (s.2.iter + 1))
    rw [hk] at this
    exact ⟨by rw [hk]; exact this.1, hk1, by rw [hk]; exact this.2⟩

/-- C63, given schedule: the thresholds recorded along a run are those of the schedule in order, one per state; should the run reach the `max_iter = len(schedule)`-th
update, it records the last one twice. In every state a particle has weight iff its distance is at most the recorded threshold, and `ess` counts those if there are any. -/
theorem C63_schedule (l : List ℝ) (hl : l ≠ []) (hc : Config.init (some l) c.maxIter = some c) (init : Fin n → Mc X D) (key : K) (params : π) :
    ∃ m ≤ l.length, ∃ states : Fin (m + 1) → Ensemble n X D,
      AbcSmc.run splitN categorical kernel c p ap init key params = List.ofFn states ∧
      ∀ k : Fin (m + 1), ∃ t : ℝ, (l ++ [l.getLast hl])[(k : ℕ)]? = some t ∧
        (∀ i, (states k i).threshold = Fl.fin t) ∧
        (∀ i, ((states k i).logWeight = Fl.fin 0 ∧ (states k i).mc.distance ≤ t) ∨
          ((states k i).logWeight = Fl.ninf ∧ t < (states k i).mc.distance)) ∧
        ((∃ i, (states k i).mc.distance ≤ t) →
          ∀ i, (states k i).ess = Fl.fin (Finset.univ.filter fun i => (states k i).mc.distance ≤ t).card) := by
  have hsch : c.schedule = some (some l) ∧ c.maxIter = l.length := by
    simp only [Config.init, Config.setSchedule, Option.some.injEq] at hc
    rw [← hc]; exact ⟨rfl, rfl⟩
  obtain ⟨m, hm, hrun⟩ := abcSmc_run_eq splitN categorical kernel c p ap init key params
  have hml : m ≤ l.length := by rw [hsch.2] at hm; simpa using hm
  have hpos := List.length_pos_iff.mpr hl
  refine ⟨m, hml, fun k => (abcSmcAfter splitN categorical kernel c p ap init key params k).1, ?_, fun k => ?_⟩
  · rw [hrun]
    apply List.ext_getElem <;> simp [-List.ofFn_succ]
  obtain ⟨h1, -, -⟩ := scheduled_after splitN categorical kernel c p ap l hsch.1 init key params k
  refine ⟨AbcSmc.scheduleAt l k, ?_, h1.threshold, fun i => ?_, fun ⟨i, hi⟩ => ?_⟩
  · unfold AbcSmc.scheduleAt
    have hk := k.2
    rcases Nat.lt_or_ge k l.length with h | h
    · rw [List.getElem?_append_left h, min_eq_left (by omega), List.getD_eq_getElem?_getD, List.getElem?_eq_getElem h]; rfl
    · have hkl : (k : ℕ) = l.length := by omega
      rw [List.getElem?_append_right h, min_eq_right (by omega), List.getD_eq_getElem?_getD,
        List.getElem?_eq_getElem (show l.length - 1 < l.length by omega), hkl, List.getLast_eq_getElem]
      simp
  · rcases le_or_gt ((abcSmcAfter splitN categorical kernel c p ap init key params k).1 i).mc.distance (AbcSmc.scheduleAt l k) with h | h
    · exact Or.inl ⟨h1.live i h, h⟩
    · exact Or.inr ⟨h1.dead i h, h⟩
  · have hset : liveSet (abcSmcAfter splitN categorical kernel c p ap init key params k).1
      = Finset.univ.filter fun i => ((abcSmcAfter splitN categorical kernel c p ap init key params k).1 i).mc.distance ≤ AbcSmc.scheduleAt l k := by
      ext i; rw [mem_liveSet, h1.live_iff]; simp
    rw [← hset]
    exact h1.ess ⟨i, mem_liveSet.mpr ((h1.live_iff i).mpr hi)⟩

/-! ### Dead particles -/

/-- C63: when no resampling happens a particle of zero weight keeps its value, data and distance. -/
theorem C63_dead_fixed (ens : Ensemble n X D) (e : AbcSmc.Extra K π) (hr : ¬ resampleCriterion p ens) (i : Fin n)
    (hi : (ens i).logWeight = Fl.ninf) : ((AbcSmc.update splitN categorical kernel c p ap ens e).1 i).mc = (ens i).mc := by
  classical
  simp only [AbcSmc.update, adapt, resampled, if_neg hr, forwardProposal]
  rw [if_neg (by rw [hi]; simp [Fl.lt])]

/-- C63: when resampling happens and some particle has weight, every particle that is moved is a copy of a particle with weight: no particle of zero weight survives. -/
theorem C63_resample_live (hcat : PicksLive categorical) (ens : Ensemble n X D) (e : AbcSmc.Extra K π) (hr : resampleCriterion p ens)
    (hlive : ∃ i, (ens i).logWeight ≠ Fl.ninf) (i : Fin n) :
    ∃ j, (ens j).logWeight ≠ Fl.ninf ∧ (resampled splitN categorical p ens e i).mc = (ens j).mc ∧
      ((AbcSmc.update splitN categorical kernel c p ap ens e).1 i).mc
        = forwardLive kernel p (ens j).mc { e with iter := e.iter + 1, key := splitN e.key (Fin.last (n + 1)) } (splitN e.key i.castSucc.castSucc) := by
  classical
  refine ⟨categorical (splitN e.key (Fin.last n).castSucc) (fun i => (ens i).logWeight) i, hcat _ _ hlive i, ?_, ?_⟩
  · simp only [resampled, if_pos hr, resample]
  · simp only [AbcSmc.update, adapt, resampled, if_pos hr, resample, forwardProposal]
    rw [if_pos (by simp [Fl.lt])]

/-! ### The inner sampler keeps the ball -/

/-- An inner sampler that never moves a particle from inside the ball to outside, and keeps the threshold. -/
def KeepsBall (kernel : Kernel K π X D) : Prop :=
  ∀ m (e : Mcmc.Extra K (Fl × π)) (t : ℝ), e.params.1 = Fl.fin t → m.distance ≤ t →
    (kernel.update m e).1.distance ≤ t ∧ (kernel.update m e).2.params.1 = Fl.fin t

theorem forwardLive_ball (hk : KeepsBall kernel) (m : Mc X D) (e : AbcSmc.Extra K π) (key : K) (t : ℝ) (ht : e.threshold = Fl.fin t)
    (hm : m.distance ≤ t) : (forwardLive kernel p m e key).distance ≤ t := by
  unfold forwardLive
  dsimp only
  have key : ∀ (steps : ℕ) (s : Mc X D × Mcmc.Extra K (Fl × π)) (dflt : Mc X D), dflt.distance ≤ t → s.1.distance ≤ t → s.2.params.1 = Fl.fin t →
      ((scan (fun (c : Mc X D × Mcmc.Extra K (Fl × π)) (_ : Unit) => (kernel.update c.1 c.2, (kernel.update c.1 c.2).1)) s
        (List.replicate steps ())).2.getLastD dflt).distance ≤ t := by
    intro steps
    induction steps with
    | zero => intro s dflt h1 h2 h3; simpa [scan] using h1
    | succ k ih =>
      intro s dflt h1 h2 h3
      rw [List.replicate_succ, scan, List.getLastD_cons]
      have := hk s.1 s.2 t h3 h2
      exact ih _ _ this.1 this.1 this.2
  exact key p.mcmcSteps _ _ hm hm ht

/-- `RandomWalkABC` (with `Metropolis`) keeps the ball, on a scenario with finite distances. -/
theorem keepsBall_rwKernel (split : K → K × K) (split4 : Split4 K) (normal : K → Fin d → ℝ) (uniform : K → ℝ) (hu : ∀ k, 0 ≤ uniform k)
    (sc : Abc.Scenario K (Fin d → ℝ) D) (hfin : ∀ y, ∃ r, sc.distance y = Fl.fin r) :
    KeepsBall (rwKernel split split4 normal uniform sc) := by
  intro m e t ht hm
  unfold rwKernel
  dsimp only
  have hcases := abc_update_cases split split4 normal sc uniform
    ⟨⟨m.value, m.prior, m.data, Fl.fin m.distance, e.params.2⟩, Fl.fin m.alpha, 0⟩
    ⟨e.key, e.iter, ⟨e.params.1, e.params.2, fun _ => 0, fun _ => 0⟩⟩
  refine ⟨?_, by rw [hcases.1]; exact ht⟩
  rcases hcases.2 with h | ⟨h, u, hu', hlt⟩
  · rw [h]; exact hm
  · rw [h]
    have := (abc_accept_in_ball e.params.1 _ _ _ u (hu' ▸ hu _) hlt).1
    rw [ht] at this
    revert this
    simp only [randomWalkABC]
    generalize sc.likelihoodSample _ _ = y
    intro this
    obtain ⟨r, hr⟩ := hfin y
    rw [hr] at this ⊢
    exact le_of_lt this

/-! ### Monotone thresholds -/

omit [NeZero n] in
/-- `sorted v j ≤ t` if more than `j` entries of `v` are `≤ t`. -/
theorem sorted_le_of_count (v : Fin n → ℝ) (t : ℝ) (S : Finset (Fin n)) (hS : ∀ i ∈ S, v i ≤ t) (j : Fin n) (hj : (j : ℕ) < S.card) :
    sorted v j ≤ t := by
  by_contra hgt
  push Not at hgt
  have hsub : S.image (Tuple.sort v).symm ⊆ Finset.univ.filter fun k : Fin n => (k : ℕ) < j := by
    intro k hk
    obtain ⟨i, hi, rfl⟩ := Finset.mem_image.mp hk
    refine Finset.mem_filter.mpr ⟨Finset.mem_univ _, ?_⟩
    by_contra hge
    have h1 : sorted v j ≤ sorted v ((Tuple.sort v).symm i) := sorted_mono v (by rw [Fin.le_def]; omega)
    have h2 : sorted v ((Tuple.sort v).symm i) = v i := by simp [sorted]
    have := hS i hi
    linarith
  have h1 := Finset.card_le_card hsub
  rw [Finset.card_image_of_injective _ (Tuple.sort v).symm.injective, card_fin_lt _ j.2.le] at h1
  omega

theorem quantile_le_of_count (v : Fin n → ℝ) (t : ℝ) (S : Finset (Fin n)) (hS : ∀ i ∈ S, v i ≤ t) (q : ℝ) (h0 : 0 ≤ q) (h1 : q ≤ 1)
    (hq : q * ((n : ℝ) - 1) ≤ (S.card : ℝ) - 1) : quantile v q ≤ t := by
  refine le_trans (quantile_bounds v h0 h1).2 (sorted_le_of_count v t S hS _ ?_)
  rw [clampIdx_val (quantile_pos h0 h1).2.2]
  have hS1 : 1 ≤ S.card := by
    by_contra h
    have : S.card = 0 := by omega
    rw [this] at hq
    have := (quantile_pos (n := n) h0 h1).1
    norm_num at hq; linarith
  have : ⌈q * ((n : ℝ) - 1)⌉₊ ≤ S.card - 1 := Nat.ceil_le.mpr (by rw [Nat.cast_sub hS1, Nat.cast_one]; exact hq)
  omega

/-- C63: an adaptive update does not raise the threshold if `retain * a * (n - 1) / n ≤ a - 1`, where `a` is the number of particles with weight
after the resampling decision. -/
theorem C63_threshold_step (hc : Adaptive c) (hr0 : 0 ≤ p.essThresholdRetain) (hr1 : p.essThresholdRetain ≤ 1) (hcat : PicksLive categorical)
    (hk : KeepsBall kernel) (ens : Ensemble n X D) (e : AbcSmc.Extra K π) (t : ℝ) (h : Bookkept t ens) (het : e.threshold = Fl.fin t)
    (hne : (liveSet ens).Nonempty)
    (hcond : ∀ a : ℕ, a = (liveSet (resampled splitN categorical p ens e)).card → p.essThresholdRetain * a * ((n : ℝ) - 1) / n ≤ (a : ℝ) - 1) :
    ∃ t' ≤ t, Bookkept t' (AbcSmc.update splitN categorical kernel c p ap ens e).1 := by
  classical
  obtain ⟨a, t', hacard, ha1, han, -, ht', hb, -, -⟩ := adaptive_step splitN categorical kernel c p ap hc hr0 hr1 h hne e
  refine ⟨t', ?_, hb⟩
  have hn : (0 : ℝ) < n := by exact_mod_cast NeZero.pos n
  have han' : (a : ℝ) ≤ n := by exact_mod_cast han
  have ha0 : (0 : ℝ) ≤ a := Nat.cast_nonneg a
  rw [ht']
  apply quantile_le_of_count _ t (liveSet (resampled splitN categorical p ens e))
  · intro i hi
    -- the moved particle started inside the ball
    have hin : (resampled splitN categorical p ens e i).mc.distance ≤ t := by
      by_cases hr : resampleCriterion p ens
      · obtain ⟨j, hj, hmc, -⟩ := C63_resample_live splitN categorical kernel c p ap hcat ens e hr
          (hne.imp fun i hi => mem_liveSet.mp hi) i
        rw [hmc]; exact (h.live_iff j).mp hj
      · have : resampled splitN categorical p ens e = ens := if_neg hr
        rw [this] at hi ⊢
        exact (h.live_iff i).mp (mem_liveSet.mp hi)
    have hlw : Fl.lt Fl.ninf (resampled splitN categorical p ens e i).logWeight := by
      have hi' := mem_liveSet.mp hi
      by_cases hr : resampleCriterion p ens
      · have : resampled splitN categorical p ens e = resample categorical ens (splitN e.key (Fin.last n).castSucc) := if_pos hr
        rw [this]; simp [resample, Fl.lt]
      · have heq : resampled splitN categorical p ens e = ens := if_neg hr
        rw [heq] at hin ⊢
        rw [h.live i hin]; simp [Fl.lt]
    have hmc : ((AbcSmc.update splitN categorical kernel c p ap ens e).1 i).mc = forwardLive kernel p (resampled splitN categorical p ens e i).mc
        { e with iter := e.iter + 1, key := splitN e.key (Fin.last (n + 1)) } (splitN e.key i.castSucc.castSucc) := by
      simp only [AbcSmc.update, adapt, forwardProposal]
      rw [if_pos hlw]
    rw [hmc]
    exact forwardLive_ball kernel p hk _ _ _ t het hin
  · positivity
  · rw [div_le_one hn]; nlinarith
  · rw [← hacard]
    calc p.essThresholdRetain * a / n * ((n : ℝ) - 1) = p.essThresholdRetain * a * ((n : ℝ) - 1) / n := by ring
      _ ≤ _ := hcond a hacard

/-- C63: along every adaptive run the recorded threshold never increases, if `retain ≤ 1` and `(1 - retain) * resample * n ≥ 1` (with the default settings: at least
20 particles), for every inner sampler that keeps the ball. -/
theorem C63_threshold_monotone (hc : Adaptive c) (hr0 : 0 ≤ p.essThresholdRetain) (hr1 : p.essThresholdRetain ≤ 1)
    (hn : 1 ≤ (1 - p.essThresholdRetain) * (p.essThresholdResample * n)) (hcat : PicksLive categorical) (hk : KeepsBall kernel)
    (init : Fin n → Mc X D) (key : K) (params : π) (k : ℕ) :
    ∃ t t' : ℝ, t' ≤ t ∧ (∀ i, ((abcSmcAfter splitN categorical kernel c p ap init key params k).1 i).threshold = Fl.fin t) ∧
      ∀ i, ((abcSmcAfter splitN categorical kernel c p ap init key params (k + 1)).1 i).threshold = Fl.fin t' := by
  obtain ⟨t, h1, h2, h3⟩ := adaptive_after splitN categorical kernel c p ap hc hr0 hr1 init key params k
  have hnpos : (0 : ℝ) < n := by exact_mod_cast NeZero.pos n
  have hn1 : (1 : ℝ) ≤ n := by exact_mod_cast NeZero.one_le
  have hcond : ∀ a : ℕ, a = (liveSet (resampled splitN categorical p (abcSmcAfter splitN categorical kernel c p ap init key params k).1
      (abcSmcAfter splitN categorical kernel c p ap init key params k).2)).card → p.essThresholdRetain * a * ((n : ℝ) - 1) / n ≤ (a : ℝ) - 1 := by
    intro a ha
    obtain ⟨a', hb1, hb2, hess, hacard, hnr⟩ := resampled_ess splitN categorical p h1 h3
      (abcSmcAfter splitN categorical kernel c p ap init key params k).2
    rw [← hacard] at ha
    subst ha
    have ha1 : (1 : ℝ) ≤ a := by exact_mod_cast hb1
    by_cases hr : resampleCriterion p (abcSmcAfter splitN categorical kernel c p ap init key params k).1
    · -- resampled: all particles have weight
      have han : (a : ℝ) = n := by
        have h0 := hess 0
        rw [show resampled splitN categorical p (abcSmcAfter splitN categorical kernel c p ap init key params k).1
          (abcSmcAfter splitN categorical kernel c p ap init key params k).2 = _ from if_pos hr] at h0
        simp only [resample, Fl.fin.injEq] at h0
        exact h0.symm
      rw [han, div_le_iff₀ hnpos]
      nlinarith [mul_nonneg (mul_nonneg hnpos.le (sub_nonneg.mpr hn1)) (sub_nonneg.mpr hr1)]
    · have hge : p.essThresholdResample * n ≤ a := by
        rw [hnr hr]
        unfold resampleCriterion at hr
        rw [h1.ess h3 0] at hr
        exact not_lt.mp hr
      have h4 : 1 ≤ (1 - p.essThresholdRetain) * a := le_trans hn (mul_le_mul_of_nonneg_left hge (by linarith))
      rw [div_le_iff₀ hnpos]
      nlinarith
  obtain ⟨t', hle, hb⟩ := C63_threshold_step splitN categorical kernel c p ap hc hr0 hr1 hcat hk
    (abcSmcAfter splitN categorical kernel c p ap init key params k).1 (abcSmcAfter splitN categorical kernel c p ap init key params k).2 t h1 h2 h3 hcond
  refine ⟨t, t', hle, h1.threshold, ?_⟩
  have : abcSmcAfter splitN categorical kernel c p ap init key params (k + 1) = AbcSmc.update splitN categorical kernel c p ap
      (abcSmcAfter splitN categorical kernel c p ap init key params k).1 (abcSmcAfter splitN categorical kernel c p ap init key params k).2 := by
    unfold abcSmcAfter; rw [Mcmc.bodyIter_succ]
  rw [this]; exact hb.threshold

/-- Default settings and 20 particles satisfy the hypothesis of `C63_threshold_monotone`; the default inner sampler keeps the ball. -/
example (split : ℕ → ℕ × ℕ) (split4 : Split4 ℕ) (normal : ℕ → Fin 2 → ℝ) :
    let p : Settings := ⟨1, 9 / 10, 1 / 2, 1 / 100⟩
    (1 : ℝ) ≤ (1 - p.essThresholdRetain) * (p.essThresholdResample * (20 : ℕ)) ∧
    Config.init none 10000 = some ⟨some none, 10000⟩ ∧ Adaptive ⟨some none, 10000⟩ ∧
    KeepsBall (rwKernel split split4 normal (fun _ => 1 / 2) ⟨fun _ _ => 0, fun _ _ => Fl.fin 0, fun x _ => x 0, fun y => Fl.fin |y|⟩) := by
  intro p
  refine ⟨by norm_num [p], rfl, fun l h => by simp at h, keepsBall_rwKernel _ _ _ _ (by norm_num) _ fun y => ⟨_, rfl⟩⟩

end

/-! ### The threshold can increase with few particles -/

omit [NeZero n] in
theorem sorted_of_monotone {v : Fin n → ℝ} (h : Monotone v) : sorted v = v := by
  unfold sorted
  rw [Tuple.sort_eq_refl_iff_monotone.mpr h]; rfl

theorem quantile_two (a b q : ℝ) (h : a ≤ b) (h0 : 0 < q) (h1 : q < 1) : quantile ![a, b] q = a * (1 - q) + b * q := by
  have hm : Monotone ![a, b] := by
    intro i j hij
    fin_cases i <;> fin_cases j <;> simp_all
  have hf : ⌊q⌋₊ = 0 := Nat.floor_eq_zero.mpr h1
  have hc : ⌈q⌉₊ = 1 := by rw [Nat.ceil_eq_iff (by norm_num)]; norm_num; exact ⟨h0, h1.le⟩
  unfold quantile
  rw [sorted_of_monotone hm]
  norm_num
  rw [hf, hc]
  simp [clampIdx]

/-- C63: with two particles at distances 0 and 1, the default settings and an inner sampler that moves the live particle to distance 0.85 (inside the ball of
radius 0.9), the first update raises the threshold from 0.9 to 0.9175. -/
theorem C63_threshold_can_increase :
    ∃ (kernel : Kernel Unit Unit Unit Unit) (init : Fin 2 → Mc Unit Unit) (splitN : Unit → Fin 4 → Unit)
      (categorical : Unit → (Fin 2 → Fl) → Fin 2 → Fin 2) (t t' : ℝ),
      KeepsBall kernel ∧ PicksLive categorical ∧ t < t' ∧
      (∀ i, ((abcSmcAfter splitN categorical kernel ⟨some none, 10000⟩ ⟨1, 9 / 10, 1 / 2, 1 / 100⟩ (fun _ p => p) init () () 0).1 i).threshold = Fl.fin t) ∧
      (∀ i, ((abcSmcAfter splitN categorical kernel ⟨some none, 10000⟩ ⟨1, 9 / 10, 1 / 2, 1 / 100⟩ (fun _ p => p) init () () 1).1 i).threshold = Fl.fin t') := by
  classical
  let kernel : Kernel Unit Unit Unit Unit := ⟨fun m e => if ∃ t : ℝ, e.params.1 = Fl.fin t ∧ 85 / 100 ≤ t then ({ m with distance := 85 / 100 }, e) else (m, e)⟩
  let init : Fin 2 → Mc Unit Unit := ![⟨(), Fl.fin 0, (), 0, 1⟩, ⟨(), Fl.fin 0, (), 1, 1⟩]
  let p : Settings := ⟨1, 9 / 10, 1 / 2, 1 / 100⟩
  let c : Config := ⟨some none, 10000⟩
  let splitN : Unit → Fin 4 → Unit := fun _ _ => ()
  let categorical : Unit → (Fin 2 → Fl) → Fin 2 → Fin 2 := fun _ w _ => if w 0 = Fl.ninf then 1 else 0
  have hc : Adaptive c := fun l h => by simp [c] at h
  have hdist : (fun i => (init i).distance) = ![0, 1] := by funext i; fin_cases i <;> rfl
  -- start-up
  have ht0 : nextThreshold c p (fun i => (⟨{ init i with alpha := 1 }, Fl.pinf, Fl.fin 0, Fl.fin (2 : ℕ)⟩ : Particle Unit Unit)) 0 = Fl.fin (9 / 10) := by
    rw [nextThreshold_adaptive hc]
    change Fl.fin (quantile (fun i => (init i).distance) (9 / 10 * ((2 : ℕ) : ℝ) / ((2 : ℕ) : ℝ))) = _
    rw [hdist, show (9 / 10 * ((2 : ℕ) : ℝ) / ((2 : ℕ) : ℝ)) = 9 / 10 by norm_num, quantile_two 0 1 _ (by norm_num) (by norm_num) (by norm_num)]
    norm_num
  obtain ⟨hb, het⟩ := adapt_bookkept c p (fun _ p => p) none (fun i => (⟨{ init i with alpha := 1 }, Fl.pinf, Fl.fin 0, Fl.fin (2 : ℕ)⟩ : Particle Unit Unit))
    (⟨(), 0, Fl.pinf, (), Fl.nan⟩ : AbcSmc.Extra Unit Unit) _ ht0
  obtain ⟨s0, hs0⟩ : ∃ s0, s0 = AbcSmc.startup c p (fun _ p => p) init () () := ⟨_, rfl⟩
  have hs0' : s0 = adapt c p (fun _ p => p) none (fun i => (⟨{ init i with alpha := 1 }, Fl.pinf, Fl.fin 0, Fl.fin (2 : ℕ)⟩ : Particle Unit Unit))
    (⟨(), 0, Fl.pinf, (), Fl.nan⟩ : AbcSmc.Extra Unit Unit) := hs0
  rw [← hs0'] at hb het
  have hmc : ∀ i, (s0.1 i).mc.distance = (init i).distance := by rw [hs0]; intro i; rfl
  have h0 : (s0.1 0).logWeight = Fl.fin 0 := hb.live 0 (by rw [hmc]; norm_num [init])
  have h1 : (s0.1 1).logWeight = Fl.ninf := hb.dead 1 (by rw [hmc]; norm_num [init])
  have hset : liveSet s0.1 = {0} := by
    ext i; rw [mem_liveSet]
    fin_cases i
    · simp [h0]
    · simp [h1]
  have hess : ∀ i, (s0.1 i).ess = Fl.fin 1 := by
    intro i; rw [hb.ess (by rw [hset]; simp) i, hset]; simp
  have hnr : ¬ resampleCriterion p s0.1 := by
    unfold resampleCriterion; rw [hess 0]; norm_num [p, Fl.lt]
  refine ⟨kernel, init, splitN, categorical, 9 / 10, 9175 / 10000, ?_, ?_, by norm_num, ?_, ?_⟩
  · intro m e t ht hm
    simp only [kernel]
    split_ifs with h
    · obtain ⟨t', h1, h2⟩ := h
      rw [ht] at h1; cases h1
      exact ⟨h2, ht⟩
    · exact ⟨hm, ht⟩
  · rintro k w ⟨i, hi⟩ j
    simp only [categorical]
    split_ifs with h
    · intro h'; fin_cases i
      · exact hi h
      · exact hi h'
    · exact h
  · change ∀ i, ((AbcSmc.startup c p (fun _ p => p) init () ()).1 i).threshold = _
    rw [← hs0]; exact hb.threshold
  · change ∀ i, ((AbcSmc.update splitN categorical kernel c p (fun _ p => p) (AbcSmc.startup c p (fun _ p => p) init () ()).1
      (AbcSmc.startup c p (fun _ p => p) init () ()).2).1 i).threshold = _
    rw [← hs0]
    have hne : (liveSet s0.1).Nonempty := by rw [hset]; simp
    obtain ⟨a, t', -, -, -, ha, ht', hb', -, -⟩ := adaptive_step splitN categorical kernel c p (fun _ p => p) hc (by norm_num [p]) (by norm_num [p]) hb hne s0.2
    have ha1 : a = 1 := by rw [ha hnr, hset]; simp
    have hd1 : ((AbcSmc.update splitN categorical kernel c p (fun _ p => p) s0.1 s0.2).1 1).mc = (s0.1 1).mc :=
      C63_dead_fixed splitN categorical kernel c p (fun _ p => p) s0.1 s0.2 hnr 1 h1
    have hd0 : ((AbcSmc.update splitN categorical kernel c p (fun _ p => p) s0.1 s0.2).1 0).mc.distance = 85 / 100 := by
      simp only [AbcSmc.update, adapt, resampled, if_neg hnr, forwardProposal]
      rw [if_pos (by rw [h0]; simp [Fl.lt])]
      simp only [forwardLive, p, List.replicate_one, scan, List.getLastD_cons, List.getLastD_nil, kernel]
      rw [if_pos ⟨9 / 10, het, by norm_num⟩]
    have hdd : (fun i => ((AbcSmc.update splitN categorical kernel c p (fun _ p => p) s0.1 s0.2).1 i).mc.distance) = ![85 / 100, 1] := by
      funext i
      fin_cases i
      · exact hd0
      · change ((AbcSmc.update splitN categorical kernel c p (fun _ p => p) s0.1 s0.2).1 1).mc.distance = 1
        rw [hd1, hmc]; rfl
    rw [hdd, ha1, show p.essThresholdRetain * ((1 : ℕ) : ℝ) / ((2 : ℕ) : ℝ) = 45 / 100 by norm_num [p],
      quantile_two _ _ _ (by norm_num) (by norm_num) (by norm_num)] at ht'
    intro i
    rw [hb'.threshold i, ht']; norm_num

/-! ### Configuration, stepsizes -/

/-- C63: assigning `threshold_schedule = None` to a sampler that is already adaptive fails (a `TypeError` in the code); from a schedule it works and restores the
default `max_iter` when `max_iter` was the length of the schedule. -/
theorem C63_set_schedule (m : ℤ) (l : List ℝ) :
    ((Config.init none m).bind fun c => c.setSchedule none) = none ∧
    ((Config.init (some l) m).bind fun c => c.setSchedule none) = some ⟨some none, 10000⟩ ∧
    ((Config.init none m).bind fun c => c.setSchedule (some l)) = some ⟨some (some l), l.length⟩ := by
  refine ⟨rfl, ?_, rfl⟩
  simp [Config.init, Config.setSchedule]

omit [NeZero n] in
/-- C63: the stepsizes set by the default inner sampler's adaptation are non-negative, and positive in every coordinate in which two particles differ (at least two
particles). -/
theorem C63_stepsize (hn : 2 ≤ n) (ens : Fin n → Mc (Fin d → ℝ) D) (s : Fin d → ℝ) (j : Fin d) :
    0 ≤ scaledDiagCov ens s j ∧ ((∃ a b, (ens a).value j ≠ (ens b).value j) → 0 < scaledDiagCov ens s j) := by
  have hn' : (0 : ℝ) < (n : ℝ) - 1 := by
    have : (2 : ℝ) ≤ n := by exact_mod_cast hn
    linarith
  have hd : (0 : ℝ) < d := by exact_mod_cast (Fin.pos j)
  have h0 : ∀ i ∈ Finset.univ, 0 ≤ ((ens i).value j - (∑ k, (ens k).value j) / n) ^ 2 := fun _ _ => sq_nonneg _
  refine ⟨?_, ?_⟩
  · unfold scaledDiagCov sampleVar
    have := Finset.sum_nonneg h0
    positivity
  · rintro ⟨a, b, hab⟩
    have hpos : 0 < ∑ i, ((ens i).value j - (∑ k, (ens k).value j) / n) ^ 2 := by
      rcases (Finset.sum_nonneg h0).lt_or_eq with h | h
      · exact h
      · exfalso
        have := (Finset.sum_eq_zero_iff_of_nonneg h0).mp h.symm
        have ha := this a (Finset.mem_univ _)
        have hb := this b (Finset.mem_univ _)
        rw [sq_eq_zero_iff] at ha hb
        exact hab (by linarith)
    unfold scaledDiagCov sampleVar
    positivity

end Mocat.Props
