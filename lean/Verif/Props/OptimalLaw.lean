import Verif.Props.FilterConsistency
import Verif.Props.EnsembleFilter
import Verif.Props.EnkfLimit
/-!
# C127: runs of the optimal particle filter

`run_particle_filter_for_marginals` calls the vectorised methods of `OptimalNonLinearGaussianParticleFilter`, which draw the normals of all particles with the key of the first. The draws come from an ideal generator
(`Verif.Spec.Tape`).
-/
namespace Mocat.Props
open Mocat Mocat.Filtering Mocat.Metrics Mocat.Ideal Mocat.Meas Mocat.NonlinearGaussian Mocat.EnsembleFilter Mocat.Spec Mocat.Covariance Mocat.MatGauss MeasureTheory Matrix
open scoped ENNReal

variable {n d e : ℕ}

/-! ## A rearrangement of the tape -/

/-- The keys of the draws of a run with key `key`: the first ensemble, and the steps. -/
def StepKey (key κ : Keys.Key) : Prop := κ = 1 :: key ∨ ∃ k, κ = k :: 0 :: key

/-- The site that the vectorised filter reads where a filter that draws each particle with its own key reads `s`: the normals of particle `i` are row `i` of the block drawn with the first key, indices of
resampled particles are where they were, and the sites of neither kind are moved away. -/
noncomputable def site (n d : ℕ) (key : Keys.Key) : Site → Site
  | (a :: κ, j) =>
    open Classical in
    if StepKey key κ ∧ a < n ∧ j < d then (0 :: κ, a * d + j) else if κ = 0 :: key then (a :: κ, j) else (a :: κ ++ List.replicate (key.length + 4) 0, j)
  | ([], j) => (List.replicate (key.length + 4) 0, j)

theorem stepKey_length {key κ : Keys.Key} (h : StepKey key κ) : κ.length ≤ key.length + 2 := by
  rcases h with rfl | ⟨k, rfl⟩ <;> simp

theorem stepKey_ne {key : Keys.Key} : ¬ StepKey key (0 :: key) := by
  rintro (h | ⟨k, h⟩)
  · simp at h
  · have := congrArg List.length h
    simp at this

theorem site_cases (n d : ℕ) (key : Keys.Key) (s : Site) :
    (∃ a κ j, s = (a :: κ, j) ∧ StepKey key κ ∧ a < n ∧ j < d ∧ site n d key s = (0 :: κ, a * d + j)) ∨ (∃ a j, s = (a :: 0 :: key, j) ∧ site n d key s = s) ∨
      site n d key s = (s.1 ++ List.replicate (key.length + 4) 0, s.2) := by
  obtain ⟨p, j⟩ := s
  cases p with
  | nil => exact Or.inr (Or.inr rfl)
  | cons a κ =>
    by_cases h : StepKey key κ ∧ a < n ∧ j < d
    · exact Or.inl ⟨a, κ, j, rfl, h.1, h.2.1, h.2.2, by simp only [site, if_pos h]⟩
    · by_cases hκ : κ = 0 :: key
      · exact Or.inr (Or.inl ⟨a, j, by rw [hκ], by simp only [site, if_neg h, if_pos hκ]⟩)
      · exact Or.inr (Or.inr (by simp only [site, if_neg h, if_neg hκ]))

theorem site_injective (n d : ℕ) (key : Keys.Key) : Function.Injective (site n d key) := by
  intro s s' h
  have long : ∀ (p κ : Keys.Key), κ.length ≤ key.length + 2 → ∀ a, p ++ List.replicate (key.length + 4) 0 ≠ a :: κ := by
    intro p κ hκ a hh
    have := congrArg List.length hh
    simp at this
    omega
  have hz : (0 :: key).length ≤ key.length + 2 := by simp
  rcases site_cases n d key s with ⟨a, κ, j, rfl, hk, ha, hj, hs⟩ | ⟨a, j, rfl, hs⟩ | hs <;> rcases site_cases n d key s' with ⟨a', κ', j', rfl, hk', ha', hj', hs'⟩ | ⟨a', j', rfl, hs'⟩ | hs' <;>
    rw [hs, hs'] at h <;> simp only [Prod.mk.injEq] at h
  · obtain ⟨h1, h2⟩ := h
    have hκ : κ = κ' := (List.cons.inj h1).2
    have hd : 0 < d := by omega
    have e1 : (a * d + j) / d = a := by rw [Nat.add_comm, Nat.add_mul_div_right _ _ hd, Nat.div_eq_of_lt hj, Nat.zero_add]
    have e2 : (a' * d + j') / d = a' := by rw [Nat.add_comm, Nat.add_mul_div_right _ _ hd, Nat.div_eq_of_lt hj', Nat.zero_add]
    have haa : a = a' := by rw [← e1, ← e2, h2]
    subst haa hκ
    simp only [Prod.mk.injEq, true_and]
    omega
  · have := (List.cons.inj h.1).2
    rw [this] at hk
    exact absurd hk stepKey_ne
  · exact absurd h.1.symm (long _ _ (stepKey_length hk) _)
  · have := (List.cons.inj h.1).2
    rw [← this] at hk'
    exact absurd hk' stepKey_ne
  · simp only [Prod.mk.injEq]
    exact h
  · exact absurd h.1.symm (long _ _ hz _)
  · exact absurd h.1 (long _ _ (stepKey_length hk') _)
  · exact absurd h.1 (long _ _ hz _)
  · exact Prod.ext (List.append_cancel_right h.1) h.2

/-- The tape as a filter with a key for each particle has to see it. -/
noncomputable def rearranged (n d : ℕ) (key : Keys.Key) (ω : Tape) : Tape := fun s => ω (site n d key s)

theorem measurePreserving_rearranged (n d : ℕ) (key : Keys.Key) : MeasurePreserving (rearranged n d key) ideal ideal :=
  ⟨measurable_pi_lambda _ fun _ => measurable_pi_apply _, Measure.map_infinitePi_infinitePi_of_inj (P := fun _ : Site => unif) (site_injective n d key)⟩

theorem rearranged_normal (q : ℝ → ℝ) {key κ : Keys.Key} (h : StepKey key κ) (ω : Tape) (i : Fin n) :
    normalAt q d (rearranged n d key ω) ((i : ℕ) :: κ) = normalRows q ω (0 :: κ) n d i := by
  funext j
  simp only [normalAt, normalRows, rearranged, site, if_pos (And.intro h (And.intro i.2 j.2))]

theorem rearranged_index (key : Keys.Key) (a : ℕ) (ω : Tape) (j : ℕ) : rearranged n d key ω (a :: 0 :: key, j) = ω (a :: 0 :: key, j) := by
  simp only [rearranged, site, if_neg (fun h : StepKey key (0 :: key) ∧ a < n ∧ j < d => stepKey_ne h.1), if_true]

theorem firstKey_path (hn : 0 < n) (cat : (Fin n → Fl) → ℝ → Fin n) (ω : Tape) (κ : Keys.Key) : firstKey ((tapeEnv cat ω).splitN n κ) = 0 :: κ := by
  simp only [firstKey, dif_pos hn, tapeEnv, pathEnv]

section
variable (hn : 0 < n) (chol : Chol) (m : NLG d e) (q : ℝ → ℝ) (cat : (Fin n → Fl) → ℝ → Fin n) (thr : ℝ) (key : Keys.Key) (ω : Tape)
include hn

theorem optimal_body (s : Slice (Fin d → ℝ) n e) (y : Obs e) (t : ℝ) (k : ℕ) :
    EnsembleFilter.body (tapeEnv cat ω) (optimal (normalRows q ω) chol m) thr s (y, t, k :: 0 :: key)
      = EnsembleFilter.body (tapeEnv cat (rearranged n d key ω)) (ofFilter (reKey (normalsAt q (rearranged n d key ω)) (optimalFilter chol m))) thr s (y, t, k :: 0 :: key) := by
  have hc : (tapeEnv cat ω).categorical (k :: 0 :: key) s.logWeight = (tapeEnv cat (rearranged n d key ω)).categorical (k :: 0 :: key) s.logWeight := by
    funext i
    simp only [tapeEnv, pathEnv, rearranged_index]
  have hz : ∀ i : Fin n, normalsAt q (rearranged n d key ω) ((tapeEnv cat (rearranged n d key ω)).splitN n (k :: 0 :: key) i) d = normalRows q ω (0 :: k :: 0 :: key) n d i := fun i =>
    rearranged_normal q (Or.inr ⟨k, rfl⟩) ω i
  simp only [EnsembleFilter.body, optimal, ofFilter, reKey, optimalFilter, hc, hz, firstKey_path hn]

theorem optimal_scan (s : Slice (Fin d → ℝ) n e) (obs : List (Obs e × ℝ × Keys.Key)) (h : ∀ o ∈ obs, ∃ k, o.2.2 = k :: 0 :: key) :
    scan (fun s o => (EnsembleFilter.body (tapeEnv cat ω) (optimal (normalRows q ω) chol m) thr s o, EnsembleFilter.body (tapeEnv cat ω) (optimal (normalRows q ω) chol m) thr s o)) s obs
      = scan (fun s o => (EnsembleFilter.body (tapeEnv cat (rearranged n d key ω)) (ofFilter (reKey (normalsAt q (rearranged n d key ω)) (optimalFilter chol m))) thr s o,
          EnsembleFilter.body (tapeEnv cat (rearranged n d key ω)) (ofFilter (reKey (normalsAt q (rearranged n d key ω)) (optimalFilter chol m))) thr s o)) s obs := by
  induction obs generalizing s with
  | nil => rfl
  | cons o os ih =>
    obtain ⟨y, t, κ⟩ := o
    obtain ⟨k, hk⟩ := h _ List.mem_cons_self
    simp only at hk
    subst hk
    simp only [scan, optimal_body hn]
    rw [ih _ fun o ho => h o (List.mem_cons_of_mem _ ho)]

/-- A run of the vectorised filter is a run of the filter that draws each particle with its own key, on the rearranged tape. -/
theorem optimal_run (ys : List (Obs e)) (ts : List ℝ) :
    EnsembleFilter.run (tapeEnv cat ω) (optimal (normalRows q ω) chol m) thr ys ts key
      = Filtering.run (tapeEnv cat (rearranged n d key ω)) (reKey (normalsAt q (rearranged n d key ω)) (optimalFilter chol m)) thr ys ts key := by
  rw [← run_ofFilter]
  cases ys with
  | nil => rfl
  | cons y0 ys =>
    cases ts with
    | nil => rfl
    | cons t0 ts =>
      have hi : EnsembleFilter.initiateParticles (tapeEnv cat ω) (optimal (normalRows q ω) chol m) (1 :: key) y0 t0
          = EnsembleFilter.initiateParticles (tapeEnv cat (rearranged n d key ω)) (ofFilter (reKey (normalsAt q (rearranged n d key ω)) (optimalFilter chol m))) (1 :: key) y0 t0 := by
        have hz : ∀ i : Fin n, normalsAt q (rearranged n d key ω) ((tapeEnv cat (rearranged n d key ω)).splitN n (1 :: key) i) d = normalRows q ω (0 :: 1 :: key) n d i := fun i =>
          rearranged_normal q (Or.inl rfl) ω i
        simp only [EnsembleFilter.initiateParticles, optimal, ofFilter, reKey, optimalFilter, hz, firstKey_path hn]
      have hw : withKeys (tapeEnv cat ω) ys ts (0 :: key) = withKeys (tapeEnv cat (rearranged n d key ω)) ys ts (0 :: key) := rfl
      have hkeys : ∀ o ∈ withKeys (tapeEnv cat (rearranged n d key ω)) ys ts (0 :: key), ∃ k, o.2.2 = k :: 0 :: key := by
        rintro ⟨y, t, κ⟩ ho
        have h1 := List.of_mem_zip (List.of_mem_zip ho).2
        obtain ⟨i, hi⟩ := List.mem_ofFn.mp h1.2
        exact ⟨(i : ℕ), hi.symm⟩
      change EnsembleFilter.runWithKeys _ _ thr (EnsembleFilter.initiateParticles _ _ (1 :: key) y0 t0) (withKeys _ ys ts (0 :: key))
        = EnsembleFilter.runWithKeys _ _ thr (EnsembleFilter.initiateParticles _ _ (1 :: key) y0 t0) (withKeys _ ys ts (0 :: key))
      rw [hi, hw]
      simp only [EnsembleFilter.runWithKeys, optimal_scan hn chol m q cat thr key ω _ _ hkeys]

end

/-! ## The claim -/

section
variable {chol : Chol} (hchol : IsCholeskyAll chol) {m : NLG d e} (hm : ProperNLG m) (htr : ∀ t t', Measurable fun x => m.transFun x t t') {q : ℝ → ℝ} (hq : IsNormalDraw q)

/-- C127, the shared key: whatever a run of the optimal filter reports, drawing the normals of all particles with the key of the first, has the distribution it has if each particle is drawn with its own key. -/
theorem C127_shared_key (chol : Chol) (m : NLG d e) (q : ℝ → ℝ) [NeZero n] (cat : (Fin n → Fl) → ℝ → Fin n) (thr : ℝ) (ys : List (Obs e)) (ts : List ℝ) (key : Keys.Key)
    (F : Option (Particles (Fin d → ℝ) n e) → ℝ≥0∞) (hF : Measurable fun ω => F (Filtering.run (tapeEnv cat ω) (reKey (normalsAt q ω) (optimalFilter chol m)) thr ys ts key)) :
    ∫⁻ ω, F (EnsembleFilter.run (tapeEnv cat ω) (optimal (normalRows q ω) chol m) thr ys ts key) ∂ideal
      = ∫⁻ ω, F (Filtering.run (tapeEnv cat ω) (reKey (normalsAt q ω) (optimalFilter chol m)) thr ys ts key) ∂ideal := by
  rw [← (measurePreserving_rearranged n d key).lintegral_comp hF]
  exact lintegral_congr fun ω => by rw [optimal_run (Nat.pos_of_ne_zero (NeZero.ne n))]

include hchol hm htr hq

theorem measurable_optimal_estimate [NeZero n] {cat : (Fin n → Fl) → ℝ → Fin n} (hcat : IsCategoricalReal fun (w : Fin n → ℝ) u => cat (fun i => .fin (w i)) u) (thr : ℝ) (y0 : Obs e)
    (ys : List (Obs e)) (t0 : ℝ) (ts : List ℝ) (key : Keys.Key) {h : (Fin d → ℝ) → ℝ≥0∞} (hh : Measurable h) {out : Tape → Particles (Fin d → ℝ) n e}
    (h1 : ∀ ω, Filtering.run (tapeEnv cat ω) (reKey (normalsAt q ω) (optimalFilter chol m)) thr (y0 :: ys) (t0 :: ts) key = some (out ω)) :
    Measurable fun ω => ENNReal.ofReal (likelihoodEstimate thr (out ω)) * weightedMean h (out ω) := by
  have hL := optimal_law hchol hm htr hq
  have e1 : ∀ ω, ENNReal.ofReal (likelihoodEstimate thr (out ω)) * weightedMean h (out ω)
      = Smc.Q h (finalRed cat (fun ω => reKey (normalsAt q ω) (optimalFilter chol m)) (fun x t _ y t' => logWeight chol m x t y t') thr t0 (withKeys (tapeEnv cat (fun _ => 0)) ys ts (0 :: key))
          (startRed (n := n) (fun ω => reKey (normalsAt q ω) (optimalFilter chol m)) (fun _ _ _ => 0) y0 t0 (1 :: key) ω) ω) := fun ω => by
    have hr := run_slices (cat := cat) (n := n) hL thr y0 ys t0 ts key ω
    rw [h1 ω] at hr
    rw [Option.some.inj hr, likelihood_slices]
    exact estimate_final hL thr h _ t0 y0 _ ω
  rw [funext e1]
  exact (Smc.measurable_Q hh).comp (measurable_final hL hcat thr _ t0 (measurable_startRed hL y0 t0 (1 :: key)))

/-- C127, likelihood estimates: for every model with positive definite covariances and measurable transition function, number of particles, threshold, observations and times, a run of the optimal filter estimates without
bias, with the distribution of its first draws as the law of the first state, the expectation of `h` of the last state times the likelihoods of the observations after the first. -/
theorem C127_unbiased [NeZero n] {cat : (Fin n → Fl) → ℝ → Fin n} (hcat : IsCategoricalReal fun (w : Fin n → ℝ) u => cat (fun i => .fin (w i)) u) (thr : ℝ) (y0 : Obs e) (ys : List (Obs e)) (t0 : ℝ)
    (ts : List ℝ) (hlen : ts.length = ys.length) (key : Keys.Key) {h : (Fin d → ℝ) → ℝ≥0∞} (hh : Measurable h) :
    ∃ out : Tape → Particles (Fin d → ℝ) n e, (∀ ω, EnsembleFilter.run (tapeEnv cat ω) (optimal (normalRows q ω) chol m) thr (y0 :: ys) (t0 :: ts) key = some (out ω)) ∧
      ∫⁻ ω, ENNReal.ofReal (likelihoodEstimate thr (out ω)) * weightedMean h (out ω) ∂ideal
        = ∫⁻ x, pathExpectation (fun x t t' => gauss (m.transFun x t t') m.transCov) (fun x y _ => -Real.log (gaussDensity (m.likMat *ᵥ x) m.likCov y)) h t0 (ys.zip ts) x
          ∂((stdNormal d).map (initialSample chol m y0)) := by
  obtain ⟨out, h1, h2⟩ := C86_optimal (n := n) hchol hm htr hq hcat thr y0 ys t0 ts hlen key hh
  refine ⟨fun ω => out (rearranged n d key ω), fun ω => by rw [optimal_run (NeZero.pos n), h1], ?_⟩
  rw [← h2]
  exact (measurePreserving_rearranged n d key).lintegral_comp (measurable_optimal_estimate hchol hm htr hq hcat thr y0 ys t0 ts key hh h1)

/-- C127, growing ensembles: fix a model, observations, times, a bounded measurable `g` and a tolerance `ε`. There is a constant `C` such that for every number of particles `n`, threshold and key, the probability that the
weighted mean of `g` at the last time is `ε` or more away from the filtering expectation (started from the distribution of the first draws) is at most `C / n`, and likewise for the likelihood estimate. -/
theorem C127_consistent (y0 : Obs e) (ys : List (Obs e)) (t0 : ℝ) (ts : List ℝ) (hlen : ts.length = ys.length) (g : (Fin d → ℝ) → ℝ) (hg : Measurable g) (B : ℝ) (hB : ∀ x, |g x| ≤ B) (ε : ℝ)
    (hε : 0 < ε) :
    ∃ C : ℝ, ∀ (n : ℕ) [NeZero n] (cat : (Fin n → Fl) → ℝ → Fin n), (IsCategoricalReal fun (w : Fin n → ℝ) u => cat (fun i => .fin (w i)) u) → ∀ (thr : ℝ) (key : Keys.Key),
      ∃ out : Tape → Particles (Fin d → ℝ) n e, (∀ ω, EnsembleFilter.run (tapeEnv cat ω) (optimal (normalRows q ω) chol m) thr (y0 :: ys) (t0 :: ts) key = some (out ω)) ∧
        let Φ := filteringLaw (fun x t t' => gauss (m.transFun x t t') m.transCov) (fun x y _ => -Real.log (gaussDensity (m.likMat *ᵥ x) m.likCov y))
          ((stdNormal d).map (initialSample chol m y0)) t0 (ys.zip ts)
        ideal {ω | ε ≤ |filterMean g (out ω) - (∫ x, g x ∂Φ) / Φ.real Set.univ|} ≤ ENNReal.ofReal (C / n) ∧
        ideal {ω | ε ≤ |likelihoodEstimate thr (out ω) - Φ.real Set.univ|} ≤ ENNReal.ofReal (C / n) := by
  obtain ⟨C, hC⟩ := C109_optimal hchol hm htr hq y0 ys t0 ts hlen g hg B hB ε hε
  refine ⟨C, fun n _ cat hcat thr key => ?_⟩
  obtain ⟨out, h1, h2, h3⟩ := hC n cat hcat thr key
  have hle : ∀ S : Set Tape, ideal (rearranged n d key ⁻¹' S) ≤ ideal S := fun S => by
    have h := Measure.le_map_apply (measurePreserving_rearranged n d key).measurable.aemeasurable (μ := ideal) S
    rwa [(measurePreserving_rearranged n d key).map_eq] at h
  exact ⟨fun ω => out (rearranged n d key ω), fun ω => by rw [optimal_run (NeZero.pos n), h1], (hle _).trans h2, (hle _).trans h3⟩

omit hchol hm hq htr in
theorem filteringLaw_smul {M : (Fin d → ℝ) → ℝ → ℝ → Measure (Fin d → ℝ)} {lik : (Fin d → ℝ) → Obs e → ℝ → ℝ} (c : ℝ≥0∞) (μ : Measure (Fin d → ℝ)) (t : ℝ) (os : List (Obs e × ℝ))
    (hM : ∀ t t', Measurable fun x => M x t t') : filteringLaw M lik (c • μ) t os = c • filteringLaw M lik μ t os := by
  induction os generalizing μ t with
  | nil => rfl
  | cons o os ih =>
    rw [filteringLaw, filteringLaw, ← ih, ← withDensity_smul_measure]
    congr 2
    refine Measure.ext fun s hs => ?_
    rw [Measure.bind_apply hs (hM _ _).aemeasurable, Measure.smul_apply, Measure.bind_apply hs (hM _ _).aemeasurable, lintegral_smul_measure]

/-- C127 for models whose first draws are exact (`C74`: a symmetric factor of the initial covariance and a factor `Lᵀ L` of the observation covariance, for instance diagonal covariances): the filter converges to the
filtering expectations of the model. `Φ` is the unnormalised filtering law: the joint density of the observations and the last state. -/
theorem C127_posterior (hI : (chol d m.initialCov)ᵀ = chol d m.initialCov) (hR : (chol e m.likCov)ᵀ * chol e m.likCov = m.likCov) (y0 : Obs e) (ys : List (Obs e)) (t0 : ℝ) (ts : List ℝ)
    (hlen : ts.length = ys.length) (g : (Fin d → ℝ) → ℝ) (hg : Measurable g) (B : ℝ) (hB : ∀ x, |g x| ≤ B) (ε : ℝ) (hε : 0 < ε) :
    ∃ C : ℝ, ∀ (n : ℕ) [NeZero n] (cat : (Fin n → Fl) → ℝ → Fin n), (IsCategoricalReal fun (w : Fin n → ℝ) u => cat (fun i => .fin (w i)) u) → ∀ (thr : ℝ) (key : Keys.Key),
      ∃ out : Tape → Particles (Fin d → ℝ) n e, (∀ ω, EnsembleFilter.run (tapeEnv cat ω) (optimal (normalRows q ω) chol m) thr (y0 :: ys) (t0 :: ts) key = some (out ω)) ∧
        let Φ := filteringLaw (fun x t t' => gauss (m.transFun x t t') m.transCov) (fun x y _ => -Real.log (gaussDensity (m.likMat *ᵥ x) m.likCov y))
          ((gauss m.initialMean m.initialCov).withDensity fun x => ENNReal.ofReal (gaussDensity (m.likMat *ᵥ x) m.likCov y0)) t0 (ys.zip ts)
        ideal {ω | ε ≤ |filterMean g (out ω) - (∫ x, g x ∂Φ) / Φ.real Set.univ|} ≤ ENNReal.ofReal (C / n) := by
  obtain ⟨C, hC⟩ := C127_consistent hchol hm htr hq y0 ys t0 ts hlen g hg B hB ε hε
  refine ⟨C, fun n _ cat hcat thr key => ?_⟩
  obtain ⟨out, h1, h2, -⟩ := hC n cat hcat thr key
  refine ⟨out, h1, ?_⟩
  obtain ⟨hp, c, hc, h0⟩ := initial_exact hchol hm hI hR y0
  have hA : initCondPrec chol m = (1 / 2 : ℝ) • (initCondPrec chol m + (initCondPrec chol m)ᵀ) := by
    rw [PosDef.symm hp, ← two_smul ℝ (initCondPrec chol m), smul_smul]
    norm_num
  have hlm : Measurable fun x : Fin d → ℝ => ENNReal.ofReal (gaussDensity (m.likMat *ᵥ x) m.likCov y0) := by
    have hcont : Continuous fun v : Fin e → ℝ => gaussDensity v m.likCov y0 := by
      unfold gaussDensity
      have : Continuous fun v : Fin e → ℝ => (y0 - v) ⬝ᵥ (m.likCov⁻¹ *ᵥ (y0 - v)) := by
        simp only [dotProduct, mulVec]
        fun_prop
      fun_prop
    exact ENNReal.measurable_ofReal.comp (hcont.measurable.comp (measurable_mulVec m.likMat))
  have hstart : (gauss m.initialMean m.initialCov).withDensity (fun x => ENNReal.ofReal (gaussDensity (m.likMat *ᵥ x) m.likCov y0))
      = ENNReal.ofReal c • (stdNormal d).map (initialSample chol m y0) := by
    have hd : ∀ (v : Fin d → ℝ) (C : Matrix (Fin d) (Fin d) ℝ), Measurable fun x => ENNReal.ofReal (gaussDensity v C x) := fun v C =>
      ENNReal.measurable_ofReal.comp (continuous_gaussDensity v C).measurable
    rw [initial_law hchol hA hp y0, gauss, gauss, ← withDensity_mul _ (hd _ _) hlm, ← withDensity_smul _ (hd _ _)]
    congr 1
    funext x
    simp only [Pi.mul_apply, Pi.smul_apply, smul_eq_mul]
    rw [← ENNReal.ofReal_mul (gaussDensity_pos _ hm.init _).le, h0, ENNReal.ofReal_mul hc.le]
  simp only [hstart]
  rw [filteringLaw_smul _ _ _ _ fun t t' => measurable_gauss m.transCov (htr t t')]
  simp only [integral_smul_measure, measureReal_ennreal_smul_apply, ENNReal.toReal_ofReal hc.le, smul_eq_mul]
  rw [mul_div_mul_left _ _ hc.ne']
  exact h2

end

/-! ## A case that meets the hypotheses -/

/-- The optimal filter for a nonlinear model in dimension 2 with unit covariances, estimating the probability of a half-plane at the last of three times. -/
example (y0 y1 y2 : Obs 2) : ∃ (chol : Chol) (q : ℝ → ℝ), ∀ ε > 0, ∃ C : ℝ, ∀ (n : ℕ) [NeZero n], ∃ cat : (Fin n → Fl) → ℝ → Fin n, ∃ out : Tape → Particles (Fin 2 → ℝ) n 2,
    (∀ ω, EnsembleFilter.run (tapeEnv cat ω) (optimal (normalRows q ω) chol ⟨0, 1, fun x t t' i => Real.sin (x i) + (t' - t), 1, 1, 1⟩) (1 / 2) [y0, y1, y2] [0, 1, 3] [] = some (out ω)) ∧
      let Φ := filteringLaw (fun x t t' => gauss (fun i => Real.sin (x i) + (t' - t)) 1) (fun x y _ => -Real.log (gaussDensity ((1 : Matrix (Fin 2) (Fin 2) ℝ) *ᵥ x) 1 y))
        ((gauss (0 : Fin 2 → ℝ) 1).withDensity fun x => ENNReal.ofReal (gaussDensity ((1 : Matrix (Fin 2) (Fin 2) ℝ) *ᵥ x) 1 y0)) 0 [(y1, 1), (y2, 3)]
      ideal {ω | ε ≤ |filterMean (Set.indicator {x | x 0 < x 1} 1) (out ω) - (∫ x, Set.indicator {x | x 0 < x 1} 1 x ∂Φ) / Φ.real Set.univ|} ≤ ENNReal.ofReal (C / n) := by
  classical
  obtain ⟨chol', hchol'⟩ := exists_isCholeskyAll
  let chol : Chol := fun k A => if A = 1 then 1 else chol' k A
  have h1 : ∀ k, chol k 1 = 1 := fun k => if_pos rfl
  have hchol : IsCholeskyAll chol := fun k A hA => by
    by_cases h : A = 1
    · subst h
      rw [h1]
      simp
    · have : chol k A = chol' k A := if_neg h
      rw [this]
      exact hchol' k A hA
  obtain ⟨q, hq⟩ := exists_isNormalDraw
  refine ⟨chol, q, fun ε hε => ?_⟩
  have hS : MeasurableSet {x : Fin 2 → ℝ | x 0 < x 1} := measurableSet_lt (measurable_pi_apply 0) (measurable_pi_apply 1)
  obtain ⟨C, hC⟩ := C127_posterior hchol (m := ⟨0, 1, fun x t t' i => Real.sin (x i) + (t' - t), 1, 1, 1⟩) ⟨PosDef.one, PosDef.one, PosDef.one⟩ (fun t t' => by fun_prop) hq
    (by simp only [h1, transpose_one]) (by simp only [h1, transpose_one, mul_one]) y0 [y1, y2] 0 [1, 3] rfl (Set.indicator {x | x 0 < x 1} 1) (measurable_one.indicator hS) 1 (fun x => by
      by_cases hx : x ∈ {x : Fin 2 → ℝ | x 0 < x 1}
      · rw [Set.indicator_of_mem hx]; simp
      · rw [Set.indicator_of_notMem hx]; simp) ε hε
  refine ⟨C, fun n _ => ⟨fun lw u => invCdfReal (fun i => match lw i with | .fin x => x | _ => 0) u, ?_⟩⟩
  exact hC n (fun lw u => invCdfReal (fun i => match lw i with | .fin x => x | _ => 0) u) isCategoricalReal_invCdfReal (1 / 2) []

end Mocat.Props
