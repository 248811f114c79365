import Verif.Props.AbcSmc
import Verif.Props.RobbinsMonro
/-!
# C97: when ABC-SMC stops, what its acceptance rates and stepsizes are; C64: the direction in which the ABC threshold is adapted
-/
namespace Mocat.Props
open Mocat Mocat.Abc Mocat.AbcSmc

section
variable {K π X D : Type*} {n d : ℕ}

/-- The inner chain of one particle: `j` updates of the inner sampler after its start-up (which sets `alpha` to 1), with the threshold and parameters of `e` and the given key.
(Specification.) -/
def innerChain (kernel : Kernel K π X D) (m : Mc X D) (e : AbcSmc.Extra K π) (key : K) (j : ℕ) : Mc X D × Mcmc.Extra K (Fl × π) :=
  (fun c : Mc X D × Mcmc.Extra K (Fl × π) => kernel.update c.1 c.2)^[j] ({ m with alpha := 1 }, ⟨key, e.iter, (e.threshold, e.params)⟩)

theorem inner_scan (kernel : Kernel K π X D) (start : Mc X D × Mcmc.Extra K (Fl × π)) (R : ℕ) :
    (scan (fun (c : Mc X D × Mcmc.Extra K (Fl × π)) (_ : Unit) => let new := kernel.update c.1 c.2; (new, new.1)) start (List.replicate R ())).2
      = (List.range R).map fun j => ((fun c : Mc X D × Mcmc.Extra K (Fl × π) => kernel.update c.1 c.2)^[j + 1] start).1 := by
  induction R generalizing start with
  | zero => rfl
  | succ R ih =>
    rw [List.replicate_succ, List.range_succ_eq_map, List.map_cons, List.map_map]
    simp only [scan]
    rw [ih]
    rfl

/-- C97: a particle with weight is moved by `mcmc_steps` updates of the inner sampler; its recorded acceptance is the mean of the acceptance probabilities of those updates. -/
theorem C97_moved (kernel : Kernel K π X D) (p : Settings) (hR : 0 < p.mcmcSteps) (q : Particle X D) (hq : q.logWeight ≠ Fl.ninf) (hq' : q.logWeight ≠ Fl.nan) (e : AbcSmc.Extra K π)
    (key : K) :
    let last := (innerChain kernel q.mc e key p.mcmcSteps).1
    let new := (forwardProposal kernel p q e key).mc
    new.value = last.value ∧ new.prior = last.prior ∧ new.data = last.data ∧ new.distance = last.distance ∧
    new.alpha = (∑ j ∈ Finset.range p.mcmcSteps, (innerChain kernel q.mc e key (j + 1)).1.alpha) / p.mcmcSteps := by
  have hlt : Fl.lt Fl.ninf q.logWeight := by
    cases h : q.logWeight <;> simp_all [Fl.lt]
  simp only [forwardProposal, if_pos hlt, forwardLive]
  rw [inner_scan]
  have hlast : ∀ dflt, ((List.range p.mcmcSteps).map fun j => (innerChain kernel q.mc e key (j + 1)).1).getLastD dflt = (innerChain kernel q.mc e key p.mcmcSteps).1 := by
    intro dflt
    obtain ⟨R, hR'⟩ := Nat.exists_eq_succ_of_ne_zero hR.ne'
    rw [hR', List.range_succ, List.map_append]
    simp
  have h := hlast { q.mc with alpha := 1 }
  simp only [innerChain] at h ⊢
  rw [h]
  refine ⟨rfl, rfl, rfl, rfl, ?_⟩
  rw [List.map_map, List.length_map, List.length_range, Finset.sum_range, ← List.sum_ofFn, List.ofFn_eq_map, ← List.map_coe_finRange_eq_range, List.map_map]
  rfl

variable [NeZero n]

/-- C97: the acceptance rate the run is steered by, `alpha_mean`, is the mean of the recorded acceptances over the particles that had weight when they were moved. -/
theorem C97_alpha_mean (splitN : K → Fin (n + 2) → K) (categorical : K → (Fin n → Fl) → Fin n → Fin n) (kernel : Kernel K π X D) (c : Config) (p : Settings)
    (ap : (Fin n → Mc X D) → π → π) (ens : Ensemble n X D) (e : AbcSmc.Extra K π) (hnan : ∀ i, (ens i).logWeight ≠ Fl.nan) :
    let live := liveSet (resampled splitN categorical p ens e)
    let r := AbcSmc.update splitN categorical kernel c p ap ens e
    (live.Nonempty → r.2.alphaMean = Fl.fin ((∑ i ∈ live, (r.1 i).mc.alpha) / live.card)) ∧
    (¬ live.Nonempty → r.2.alphaMean = Fl.nan) := by
  classical
  intro live r
  have hn2 : ∀ i, (resampled splitN categorical p ens e i).logWeight ≠ Fl.nan := by
    intro i
    unfold resampled resample
    split_ifs
    · simp
    · exact hnan i
  have hlt : ∀ i, Fl.lt Fl.ninf (resampled splitN categorical p ens e i).logWeight ↔ i ∈ live := by
    intro i
    rw [mem_liveSet]
    have := hn2 i
    cases h : (resampled splitN categorical p ens e i).logWeight <;> simp_all [Fl.lt]
  have hfil : (Finset.univ.filter fun i => Fl.lt Fl.ninf (resampled splitN categorical p ens e i).logWeight) = live := by
    ext i; simp [hlt]
  have hr : r.2.alphaMean = alphaMean (fun i => (r.1 i).mc.alpha) fun i => (resampled splitN categorical p ens e i).logWeight := rfl
  rw [hr]
  unfold alphaMean
  simp only [hfil]
  constructor
  · intro hne
    rw [if_neg (Finset.card_ne_zero.2 hne)]
    congr 2
    simp only [hlt, mul_ite, mul_one, mul_zero]
    rw [← Finset.sum_filter]
    congr 1
    ext i; simp
  · intro hne
    rw [if_pos (by simpa using hne)]

/-- C97: at the start, if some particle is within the first threshold, `alpha_mean` is 1. -/
theorem C97_alpha_start (c : Config) (p : Settings) (ap : (Fin n → Mc X D) → π → π) (init : Fin n → Mc X D) (key : K) (params : π)
    (h : (liveSet (AbcSmc.startup c p ap init key params).1).Nonempty) : (AbcSmc.startup c p ap init key params).2.alphaMean = Fl.fin 1 := by
  classical
  set r := AbcSmc.startup c p ap init key params with hr
  have hn2 : ∀ i, (r.1 i).logWeight ≠ Fl.nan := by
    intro i
    rw [hr]
    simp only [AbcSmc.startup, adapt, logWeight]
    split_ifs <;> simp
  have hlt : ∀ i, Fl.lt Fl.ninf (r.1 i).logWeight ↔ i ∈ liveSet r.1 := by
    intro i
    rw [mem_liveSet]
    have := hn2 i
    cases h : (r.1 i).logWeight <;> simp_all [Fl.lt]
  have hfil : (Finset.univ.filter fun i => Fl.lt Fl.ninf (r.1 i).logWeight) = liveSet r.1 := by
    ext i; simp [hlt]
  have hr' : r.2.alphaMean = alphaMean (fun _ => 1) fun i => (r.1 i).logWeight := rfl
  rw [hr']
  unfold alphaMean
  simp only [hfil]
  rw [if_neg (Finset.card_ne_zero.2 h)]
  simp only [hlt, one_mul, Finset.sum_boole]
  congr 1
  rw [div_eq_one_iff_eq (by exact_mod_cast Finset.card_ne_zero.2 h)]
  congr 2
  ext i; simp

variable (splitN : K → Fin (n + 2) → K) (categorical : K → (Fin n → Fl) → Fin n → Fin n) (kernel : Kernel K π X D) (c : Config) (p : Settings) (ap : (Fin n → Mc X D) → π → π)

theorem abcSmc_iter (init : Fin n → Mc X D) (key : K) (params : π) (k : ℕ) :
    (abcSmcAfter splitN categorical kernel c p ap init key params k).2.iter = k := by
  induction k with
  | zero => rfl
  | succ k ih =>
    unfold abcSmcAfter at ih ⊢
    rw [Mcmc.bodyIter_succ]
    exact congrArg (· + 1) ih

/-- C97: a run goes on exactly as long as it should: it consists of the states after 0, 1, ..., m updates; at none of the states before the last is `alpha_mean` at most
`termination_alpha`, and m is at most `max_iter`; if m is less than `max_iter`, `alpha_mean` of the last state is at most `termination_alpha`. -/
theorem C97_stops (init : Fin n → Mc X D) (key : K) (params : π) :
    ∃ m : ℕ, m ≤ c.maxIter.toNat ∧
      AbcSmc.run splitN categorical kernel c p ap init key params
        = (List.range (m + 1)).map (fun k => (abcSmcAfter splitN categorical kernel c p ap init key params k).1) ∧
      (∀ k < m, ∀ a : ℝ, (abcSmcAfter splitN categorical kernel c p ap init key params k).2.alphaMean = Fl.fin a → p.terminationAlpha < a) ∧
      (m < c.maxIter.toNat → ∀ a : ℝ, (abcSmcAfter splitN categorical kernel c p ap init key params m).2.alphaMean = Fl.fin a → a ≤ p.terminationAlpha) ∧
      (m < c.maxIter.toNat → (abcSmcAfter splitN categorical kernel c p ap init key params m).2.alphaMean ≠ Fl.nan) := by
  obtain ⟨m, h1, h2, h3, h4⟩ := C12_run (AbcSmc.update splitN categorical kernel c p ap) (AbcSmc.terminated c p) c.maxIter
    (AbcSmc.startup c p ap init key params)
  refine ⟨m, h1, h2, ?_, ?_, ?_⟩
  · intro k hk a ha
    have := h3 k hk
    simp only [AbcSmc.terminated, Bool.or_eq_false_iff, decide_eq_false_iff_not] at this
    have h := this.1
    change ¬ AbcSmc.le (abcSmcAfter splitN categorical kernel c p ap init key params k).2.alphaMean _ at h
    rw [ha] at h
    exact not_le.1 h
  · intro hm a ha
    have := h4 hm
    simp only [AbcSmc.terminated, Bool.or_eq_true, decide_eq_true_eq] at this
    rcases this with h | h
    · change AbcSmc.le (abcSmcAfter splitN categorical kernel c p ap init key params m).2.alphaMean _ at h
      rw [ha] at h
      exact h
    · change c.maxIter ≤ ((abcSmcAfter splitN categorical kernel c p ap init key params m).2.iter : ℤ) at h
      rw [abcSmc_iter] at h
      omega
  · intro hm ha
    have := h4 hm
    simp only [AbcSmc.terminated, Bool.or_eq_true, decide_eq_true_eq] at this
    rcases this with h | h
    · change AbcSmc.le (abcSmcAfter splitN categorical kernel c p ap init key params m).2.alphaMean _ at h
      rw [ha] at h
      exact h
    · change c.maxIter ≤ ((abcSmcAfter splitN categorical kernel c p ap init key params m).2.iter : ℤ) at h
      rw [abcSmc_iter] at h
      omega

omit [NeZero n] in
/-- The sample variance from all pairs. -/
theorem sampleVar_pairs (hn : 2 ≤ n) (v : Fin n → ℝ) : sampleVar v = (∑ a, ∑ b, (v a - v b) ^ 2) / (2 * n * ((n : ℝ) - 1)) := by
  have hn0 : (n : ℝ) ≠ 0 := by positivity
  have hn1 : (n : ℝ) - 1 ≠ 0 := by
    have : (2 : ℝ) ≤ n := by exact_mod_cast hn
    linarith
  unfold sampleVar
  have h1 : ∑ a, ∑ b, (v a - v b) ^ 2 = 2 * n * ∑ a, v a ^ 2 - 2 * (∑ a, v a) ^ 2 := by
    have : ∀ a b, (v a - v b) ^ 2 = v a ^ 2 - 2 * (v a * v b) + v b ^ 2 := fun a b => by ring
    simp only [this, Finset.sum_add_distrib, Finset.sum_sub_distrib, Finset.sum_const, Finset.card_univ, Fintype.card_fin, nsmul_eq_mul, ← Finset.mul_sum, ← Finset.sum_mul]
    ring
  have h2 : ∑ i, (v i - (∑ j, v j) / n) ^ 2 = ∑ a, v a ^ 2 - (∑ a, v a) ^ 2 / n := by
    have : ∀ i, (v i - (∑ j, v j) / n) ^ 2 = v i ^ 2 - 2 * ((∑ j, v j) / n) * v i + ((∑ j, v j) / n) ^ 2 := fun i => by ring
    simp only [this, Finset.sum_add_distrib, Finset.sum_sub_distrib, Finset.sum_const, Finset.card_univ, Fintype.card_fin, nsmul_eq_mul, ← Finset.mul_sum]
    field_simp
    ring
  rw [h1, h2]
  field_simp

/-- C97: with the default inner sampler and at least two particles, the stepsize in every state of the run, which is the one the next moves use, is in each coordinate `2.38² / d`
times the unbiased sample variance of the particles' values of that state (all particles, whatever their weights), here written with all pairs of particles. -/
theorem C97_stepsize (hn : 2 ≤ n) (kernel : Kernel K (Fin d → ℝ) (Fin d → ℝ) D) (init : Fin n → Mc (Fin d → ℝ) D) (key : K) (params : Fin d → ℝ) (k : ℕ) (j : Fin d) :
    let r := abcSmcAfter splitN categorical kernel c p scaledDiagCov init key params k
    r.2.params j = (238 / 100) ^ 2 / d * ((∑ a, ∑ b, ((r.1 a).mc.value j - (r.1 b).mc.value j) ^ 2) / (2 * n * ((n : ℝ) - 1))) := by
  intro r
  have h : r.2.params j = sampleVar (fun i => (r.1 i).mc.value j) / d * (238 / 100) ^ 2 := by
    cases k with
    | zero => rfl
    | succ k =>
      simp only [r]
      unfold abcSmcAfter
      rw [Mcmc.bodyIter_succ]
      rfl
  rw [h, sampleVar_pairs hn]
  ring

/-- Non-vacuity: two particles at distances 0 and 1, moved by an inner sampler that always accepts with probability 1/2; the start is alive. -/
example : (liveSet (AbcSmc.startup (K := Unit) (π := Unit) ⟨some (some [2, 1]), 2⟩ ⟨1, 9 / 10, 1 / 2, 1 / 100⟩ (fun _ p => p)
    (fun i : Fin 2 => (⟨(), Fl.fin 0, (), i.val, 1⟩ : Mc Unit Unit)) () ()).1).Nonempty := by
  classical
  refine ⟨0, ?_⟩
  rw [mem_liveSet]
  simp [AbcSmc.startup, adapt, nextThreshold, AbcSmc.scheduleAt, logWeight, Fl.lt]

end

/-! ### The ABC threshold -/
section
open Mocat.Mcmc
variable {K D : Type*} {d : ℕ} (split : K → K × K) (split4 : Split4 K) (normal : K → Fin d → ℝ) (sc : Abc.Scenario K (Fin d → ℝ) D) (uniform : K → ℝ)

/-- C64: how `RMMetropolisDiagStepsize` adapts the threshold of `RandomWalkABC` (with `log_update`): by `scale * iter^-exp` times target minus acceptance on the log scale, so that a chain
that accepts more often than the target 0.1 gets a smaller threshold, and one that accepts less often a larger one; after the cut-off it stays. The state records it. -/
theorem C64_threshold (cutOff : Option ℕ) (scale expo : ℝ) (hs : 0 < scale) (s : State (Payload d D)) (e : Mcmc.Extra K (Params d)) (t : ℝ) (ht : 0 < t)
    (he : e.params.threshold = Fl.fin t) :
    ∃ t' : ℝ, 0 < t' ∧
      (Mcmc.update (randomWalkABC split split4 normal sc) (diagCorrect (thresholdRM cutOff scale expo true) (metropolis split uniform)) s e).2.params.threshold = Fl.fin t' ∧
      (Mcmc.update (randomWalkABC split split4 normal sc) (diagCorrect (thresholdRM cutOff scale expo true) (metropolis split uniform)) s e).1.tuned = t' ∧
      ((∀ k, cutOff = some k → e.iter + 1 ≤ k) →
        let alpha := flToReal (Mcmc.update (randomWalkABC split split4 normal sc) (diagCorrect (thresholdRM cutOff scale expo true) (metropolis split uniform)) s e).1.alpha
        Real.log t' = Real.log t + scale * ((e.iter + 1 : ℕ) : ℝ) ^ (-expo) * (1 / 10 - alpha) ∧ (1 / 10 < alpha → t' < t) ∧ (alpha < 1 / 10 → t < t')) ∧
      ((∃ k, cutOff = some k ∧ k < e.iter + 1) → t' = t) := by
  obtain ⟨c, hc⟩ : ∃ c, c = Mcmc.update (randomWalkABC split split4 normal sc) (metropolis split uniform) s e := ⟨_, rfl⟩
  have hp : c.2.params = e.params := by rw [hc]; exact (abc_update_cases split split4 normal sc uniform s e).1
  have hit : c.2.iter = e.iter + 1 := by
    rw [hc]
    exact C21_iter_counts _ _ (keepsIter_randomWalkABC _ _ _ _) (corrKeepsIter_metropolis _ _) s e 1
  set rm : RM (Params d) := thresholdRM cutOff scale expo true with hrm
  have hupd : Mcmc.update (randomWalkABC split split4 normal sc) (diagCorrect rm (metropolis split uniform)) s e
      = (let active : Bool := match rm.adaptCutOff with
          | none => true
          | some k => decide (c.2.iter ≤ k)
         let a := if active then diagAdapt rm c.1 c.2 else c
         ({ a.1 with tuned := rm.get a.2.params }, a.2)) := by rw [hc]; rfl
  by_cases hact : ∀ k, cutOff = some k → e.iter + 1 ≤ k
  · have hactive : (match rm.adaptCutOff with
          | none => true
          | some k => decide (c.2.iter ≤ k)) = true := by
      have : rm.adaptCutOff = cutOff := rfl
      rw [this]
      cases hco : cutOff with
      | none => rfl
      | some k => simpa [hit] using hact k hco
    rw [hupd]
    simp only [hactive, if_true]
    set t' := Real.exp (Real.log t - scale * ((e.iter + 1 : ℕ) : ℝ) ^ (-expo) * (flToReal c.1.alpha - 1 / 10)) with ht'
    have hthr : (diagAdapt rm c.1 c.2).2.params.threshold = Fl.fin t' := by
      simp only [diagAdapt, RM.adapt, hrm, thresholdRM, RM.stepsizeAt, RM.monotonicity, logRobbinsMonroUpdate, robbinsMonroUpdate, if_true, hp, he, flToReal, hit, ht']
      congr 2
      ring
    have hal : (diagAdapt rm c.1 c.2).1.alpha = c.1.alpha := rfl
    have hw : 0 < scale * ((e.iter + 1 : ℕ) : ℝ) ^ (-expo) := mul_pos hs (Real.rpow_pos_of_pos (by positivity) _)
    refine ⟨t', Real.exp_pos _, hthr, ?_, fun _ => ⟨?_, ?_, ?_⟩, ?_⟩
    · change flToReal (diagAdapt rm c.1 c.2).2.params.threshold = t'
      rw [hthr]; rfl
    · rw [ht', Real.log_exp, hal]; ring
    · intro h
      rw [hal] at h
      rw [ht', ← Real.lt_log_iff_exp_lt ht]
      have := mul_pos hw (sub_pos.2 h)
      linarith
    · intro h
      rw [hal] at h
      rw [ht', ← Real.log_lt_iff_lt_exp ht]
      have := mul_pos hw (sub_pos.2 h)
      nlinarith
    · rintro ⟨k, hk1, hk2⟩
      exact absurd (hact k hk1) (by omega)
  · push Not at hact
    obtain ⟨k, hk1, hk2⟩ := hact
    have hactive : (match rm.adaptCutOff with
          | none => true
          | some k => decide (c.2.iter ≤ k)) = false := by
      have : rm.adaptCutOff = cutOff := rfl
      rw [this, hk1]
      simpa [hit] using hk2
    rw [hupd]
    simp only [hactive, Bool.false_eq_true, if_false]
    refine ⟨t, ht, by rw [hp, he], ?_, fun h => absurd (h k hk1) (by omega), fun _ => rfl⟩
    change flToReal c.2.params.threshold = t
    rw [hp, he]; rfl

end
end Mocat.Props
