import Verif.Props.FilterConsistency
import Verif.Lemmas.Pooling
import Verif.Lemmas.Subtape
/-!
# C162: particle-filter runs with separate keys can be pooled
-/
namespace Mocat.Props
open Mocat Mocat.Filtering Mocat.Metrics Mocat.Ideal Mocat.Meas MeasureTheory ProbabilityTheory
open Mocat.Smc (Red Q Qr share Spread)
open scoped ENNReal

variable {X : Type} {n dy : ℕ}

/-! ## Specification -/

/-- The average of the likelihood estimates of the first `R` runs. -/
noncomputable def pooledLikelihood (thr : ℝ) (runs : ℕ → Particles X n dy) (R : ℕ) : ℝ := (∑ r ∈ Finset.range R, likelihoodEstimate thr (runs r)) / R

/-- The average of the weighted means of `g` at the last time of the first `R` runs, each run weighted by its likelihood estimate. -/
noncomputable def pooledMean (thr : ℝ) (g : X → ℝ) (runs : ℕ → Particles X n dy) (R : ℕ) : ℝ :=
  (∑ r ∈ Finset.range R, likelihoodEstimate thr (runs r) * filterMean g (runs r)) / ∑ r ∈ Finset.range R, likelihoodEstimate thr (runs r)

/-! ## Any filter with properly weighted proposals -/

section
variable [MeasurableSpace X] [NeZero n] {cat : (Fin n → Fl) → ℝ → Fin n} {f : Tape → Filter X Keys.Key dy} {G0 : X → Obs dy → ℝ → ℝ} {G : X → ℝ → X → Obs dy → ℝ → ℝ}
  {Γ0 : Obs dy → ℝ → Measure X} {Γ : X → ℝ → Obs dy → ℝ → Measure X} (hF : FilterLaw f G0 G Γ0 Γ)

include hF in
omit [NeZero n] in
theorem final_dependsOn (thr : ℝ) (os : List (Obs dy × ℝ × Keys.Key)) (t : ℝ) {R : Tape → Red n X} {S : Set Site} (hRS : DependsOn R S) (hS : ∀ o ∈ os, below o.2.2 ⊆ S) :
    DependsOn (fun ω => finalRed cat f G thr t os (R ω) ω) S := by
  induction os generalizing t R with
  | nil => exact hRS
  | cons o os ih =>
    refine ih o.2.1 (R := fun ω => filterStep cat f G thr t o (R ω) ω) (fun ω ω' hω => ?_) fun o' ho' => hS o' (List.mem_cons_of_mem _ ho')
    refine Smc.next_dependsOn (filterStep_law (n := n) hF thr t o) hRS fun s hs => hω s ?_
    rcases hs with hs | hs
    · exact hs
    · exact hS o List.mem_cons_self (filterSites _ hs)

omit [MeasurableSpace X] in
theorem final_spread (thr : ℝ) {W : ℝ} (hW0 : 0 ≤ W) (os : List (Obs dy × ℝ × Keys.Key)) (hW : ∀ o ∈ os, ∀ t x x', Real.exp (G x t x' o.1 o.2.1) ≤ W) (t : ℝ) (R : Red n X) (ω : Tape) {A : ℝ} (hA : 0 ≤ A) (h : Spread A R) :
    Spread (A * W ^ os.length) (finalRed cat f G thr t os R ω) := by
  induction os generalizing t R A with
  | nil => simpa [finalRed] using h
  | cons o os ih =>
    have := ih (fun o' ho' => hW o' (List.mem_cons_of_mem _ ho')) o.2.1 (filterStep cat f G thr t o R ω) (mul_nonneg hA hW0) (Smc.spread_redStep hA h (hW o List.mem_cons_self t) ω)
    rw [List.length_cons, pow_succ', ← mul_assoc]
    exact this

include hF in
/-- Pooling of runs of any filter with properly weighted proposals and bounded weights. -/
theorem pooled (hcat : IsCategoricalReal fun (w : Fin n → ℝ) u => cat (fun i => .fin (w i)) u) (thr : ℝ) (y0 : Obs dy) (ys : List (Obs dy)) (t0 : ℝ) (ts : List ℝ) (hlen : ts.length = ys.length)
    (keys : ℕ → Keys.Key) (hk : ∀ a b, a ≠ b → Disjoint (below (keys a)) (below (keys b))) {W : ℝ} (hW0 : ∀ x, Real.exp (G0 x y0 t0) ≤ W) (hW : ∀ o ∈ ys.zip ts, ∀ t x x', Real.exp (G x t x' o.1 o.2) ≤ W) (hW1 : 0 ≤ W)
    {g : X → ℝ} (hg : Measurable g) {B : ℝ} (hB0 : 0 ≤ B) (hB : ∀ x, |g x| ≤ B) {ε : ℝ} (hε : 0 < ε) {Φ : Measure X} (hΦ : Φ = terminal Γ (Γ0 y0 t0) t0 (ys.zip ts)) :
    ∃ out : ℕ → Tape → Particles X n dy, (∀ r ω, run (tapeEnv cat ω) (f ω) thr (y0 :: ys) (t0 :: ts) (keys r) = some (out r ω)) ∧ ∀ R : ℕ, 1 ≤ R →
      ideal {ω | ε ≤ |pooledLikelihood thr (fun r => out r ω) R - Φ.real Set.univ|} ≤ ENNReal.ofReal ((W ^ (ys.length + 1)) ^ 2 / ε ^ 2 / R) ∧
      ideal {ω | ε ≤ |pooledMean thr g (fun r => out r ω) R - (∫ x, g x ∂Φ) / Φ.real Set.univ|} ≤ ENNReal.ofReal (poolConst (W ^ (ys.length + 1)) B (Φ.real Set.univ) ε / R) := by
  have hz := fun r => zip_keys ys ts hlen (0 :: keys r) (tapeEnv cat (fun _ => 0)) (fun _ _ _ => rfl)
  set os : ℕ → List (Obs dy × ℝ × Keys.Key) := fun r => withKeys (tapeEnv cat (fun _ => 0)) ys ts (0 :: keys r) with hos
  have hl : ∀ r, (os r).length = ys.length := fun r => by
    have := congrArg List.length (hz r).1
    simpa [hlen] using this
  have hdis : ∀ r, ∀ o ∈ os r, Disjoint (below (1 :: keys r)) (below o.2.2) := fun r o ho => by
    obtain ⟨i, hi⟩ := (hz r).2.2 o ho
    rw [hi]
    exact Set.disjoint_of_subset_right (fun s hs => mem_below_cons hs) (below_disjoint (by omega))
  set F : ℕ → Tape → Red n X := fun r ω => finalRed cat f G thr t0 (os r) (startRed f G0 y0 t0 (1 :: keys r) ω) ω with hFd
  have hFm : ∀ r, Measurable (F r) := fun r => measurable_final hF hcat thr (os r) t0 (measurable_startRed hF y0 t0 _)
  have hFdep : ∀ r, DependsOn (F r) (below (keys r)) := fun r =>
    final_dependsOn hF thr (os r) t0 (fun ω ω' h => startRed_dependsOn hF y0 t0 (1 :: keys r) fun s hs => h s (mem_below_cons hs)) fun o ho s hs => by
      obtain ⟨i, hi⟩ := (hz r).2.2 o ho
      rw [hi] at hs
      exact mem_below_cons (mem_below_cons hs)
  have hind : iIndepFun F ideal := iIndepFun_of_dependsOn (S := fun r => below (keys r)) hk hFm hFdep
  have hWr : ∀ r, ∀ o ∈ (os r).map (fun o => (o.1, o.2.1)), ∀ t x x', Real.exp (G x t x' o.1 o.2) ≤ W := fun r => by rw [(hz r).1]; exact hW
  obtain ⟨M, hM⟩ : ∃ M, M = W ^ (ys.length + 1) := ⟨_, rfl⟩
  rw [← hM]
  have hspread : ∀ r ω, Real.exp (F r ω).2.2 ≤ M := fun r ω => by
    have h1 := final_spread (cat := cat) (f := f) (G := G) thr hW1 (os r) (fun o ho => hWr r (o.1, o.2.1) (List.mem_map.mpr ⟨o, ho, rfl⟩)) t0 (startRed (n := n) f G0 y0 t0 (1 :: keys r) ω) ω hW1
      (Smc.spread_startAt (g := fun x => G0 x y0 t0) hW0 (fun i : Fin n => (f ω).initialSample y0 t0 ((i : ℕ) :: 1 :: keys r)))
    rw [hl r, ← pow_succ', ← hM] at h1
    exact exp_le_of_spread h1
  have hΦf : IsFiniteMeasure Φ := by rw [hΦ]; exact terminal_finite hF y0 t0 _ hW0 hW hW1
  have hmean0 : ∀ r {h : X → ℝ≥0∞}, Measurable h → ∫⁻ ω, Q h (F r ω) ∂ideal = ∫⁻ x, h x ∂Φ := fun r {h} hh => by
    rw [hΦ, ← (hz r).1]
    exact red_first_moment hF hcat thr y0 t0 _ (os r) (hz r).2.1 (hdis r) hh
  refine ⟨fun r ω => ofSlices (sliceOf (startRed (n := n) f G0 y0 t0 (1 :: keys r) ω) t0 y0)
      (scan (fun s o => (body (tapeEnv cat ω) (f ω) thr s o, body (tapeEnv cat ω) (f ω) thr s o)) (sliceOf (startRed (n := n) f G0 y0 t0 (1 :: keys r) ω) t0 y0) (os r)).2,
    fun r ω => run_slices hF thr y0 ys t0 ts (keys r) ω, fun R hR => ?_⟩
  have hcore := pooled_systems hFm (fun i j h => hind.indepFun h) hspread hmean0 hg hB0 hB hε hR
  have hlik : ∀ r ω, likelihoodEstimate thr (ofSlices (sliceOf (startRed (n := n) f G0 y0 t0 (1 :: keys r) ω) t0 y0)
      (scan (fun s o => (body (tapeEnv cat ω) (f ω) thr s o, body (tapeEnv cat ω) (f ω) thr s o)) (sliceOf (startRed (n := n) f G0 y0 t0 (1 :: keys r) ω) t0 y0) (os r)).2) = Real.exp (F r ω).2.2 := fun r ω => by
    have h1 := likelihood_slices (G0 := G0) (f := f) thr (fun _ => 1) y0 t0 (1 :: keys r) ω
      (scan (fun s o => (body (tapeEnv cat ω) (f ω) thr s o, body (tapeEnv cat ω) (f ω) thr s o)) (sliceOf (startRed (n := n) f G0 y0 t0 (1 :: keys r) ω) t0 y0) (os r)).2
    rw [weightedMean_one hF thr t0 y0 _ ω (os r), mul_one, estimate_final hF thr _ (os r) t0 y0] at h1
    have hq : Q (fun _ => 1) (F r ω) = ENNReal.ofReal (Real.exp (F r ω).2.2) := by
      rw [← Smc.share_sum (F r ω), ENNReal.ofReal_sum_of_nonneg fun i _ => Smc.share_nonneg _ i, Smc.Q_eq_share]
      simp
    exact (ENNReal.ofReal_eq_ofReal_iff (likelihoodEstimate_nonneg thr _) (Real.exp_pos _).le).mp (h1.trans hq)
  have hprod : ∀ r ω, Real.exp (F r ω).2.2 * ((∑ i, Real.exp ((F r ω).2.1 i) * g ((F r ω).1 i)) / ∑ i, Real.exp ((F r ω).2.1 i)) = Qr g (F r ω) := fun r ω => by
    unfold Qr share
    rw [Finset.sum_div, Finset.mul_sum]
    exact Finset.sum_congr rfl fun i _ => by ring
  refine ⟨?_, ?_⟩
  · simp only [pooledLikelihood, hlik]
    exact hcore.1
  · simp only [pooledMean, hlik]
    have hfm : ∀ r ω, filterMean g (ofSlices (sliceOf (startRed (n := n) f G0 y0 t0 (1 :: keys r) ω) t0 y0)
        (scan (fun s o => (body (tapeEnv cat ω) (f ω) thr s o, body (tapeEnv cat ω) (f ω) thr s o)) (sliceOf (startRed (n := n) f G0 y0 t0 (1 :: keys r) ω) t0 y0) (os r)).2)
          = (∑ i, Real.exp ((F r ω).2.1 i) * g ((F r ω).1 i)) / ∑ i, Real.exp ((F r ω).2.1 i) := fun r ω => filterMean_final hF thr g (os r) t0 y0 _ ω
    simp only [hfm, hprod]
    exact hcore.2

end

/-! ## Properties -/

section
variable [MeasurableSpace X] {m : Tape → Ssm.Model X (Obs dy) Keys.Key} {μ0 : ℝ → Measure X} {M : X → ℝ → ℝ → Measure X} {lik : X → Obs dy → ℝ → ℝ} (hm : ModelLaw m μ0 M lik)
include hm

/-- C162: fix a state-space model, times, observations, a bound below on the likelihood potentials of those observations, a bounded measurable `g` and a tolerance `ε`. There is a constant `C` such that for every number of
particles, threshold, family of separate keys and number `R` of runs of the bootstrap filter, the probability that the average likelihood estimate of the runs is `ε` or more away from the likelihood is at most `C / R`, and so is the
probability that the mean of `g` pooled over the runs with their likelihood estimates as weights is `ε` or more away from the filtering expectation. -/
theorem C162_bootstrap (y0 : Obs dy) (ys : List (Obs dy)) (t0 : ℝ) (ts : List ℝ) (hlen : ts.length = ys.length) (b : ℝ) (hb : ∀ o ∈ (y0, t0) :: ys.zip ts, ∀ x, b ≤ lik x o.1 o.2)
    (g : X → ℝ) (hg : Measurable g) (B : ℝ) (hB : ∀ x, |g x| ≤ B) (ε : ℝ) (hε : 0 < ε) :
    ∃ C : ℝ, ∀ (n : ℕ) [NeZero n] (cat : (Fin n → Fl) → ℝ → Fin n), (IsCategoricalReal fun (w : Fin n → ℝ) u => cat (fun i => .fin (w i)) u) → ∀ (thr : ℝ) (keys : ℕ → Keys.Key),
      (∀ a b, a ≠ b → Disjoint (below (keys a)) (below (keys b))) →
      ∃ out : ℕ → Tape → Particles X n dy, (∀ r ω, run (tapeEnv cat ω) (bootstrap (m ω)) thr (y0 :: ys) (t0 :: ts) (keys r) = some (out r ω)) ∧
        let Φ := filteringLaw M lik ((μ0 t0).withDensity fun x => ENNReal.ofReal (Real.exp (-lik x y0 t0))) t0 (ys.zip ts)
        ∀ R : ℕ, 1 ≤ R → ideal {ω | ε ≤ |pooledLikelihood thr (fun r => out r ω) R - Φ.real Set.univ|} ≤ ENNReal.ofReal (C / R) ∧
          ideal {ω | ε ≤ |pooledMean thr g (fun r => out r ω) R - (∫ x, g x ∂Φ) / Φ.real Set.univ|} ≤ ENNReal.ofReal (C / R) := by
  refine ⟨max ((Real.exp (-b) ^ (ys.length + 1)) ^ 2 / ε ^ 2)
    (poolConst (Real.exp (-b) ^ (ys.length + 1)) |B| ((filteringLaw M lik ((μ0 t0).withDensity fun x => ENNReal.ofReal (Real.exp (-lik x y0 t0))) t0 (ys.zip ts)).real Set.univ) ε), fun n _ cat hcat thr keys hk => ?_⟩
  obtain ⟨out, h1, h2⟩ := pooled (n := n) (bootstrap_law hm) hcat thr y0 ys t0 ts hlen keys hk (W := Real.exp (-b)) (fun x => Real.exp_le_exp.mpr (neg_le_neg (hb (y0, t0) List.mem_cons_self x)))
    (fun o ho t x x' => Real.exp_le_exp.mpr (neg_le_neg (hb o (List.mem_cons_of_mem _ ho) x'))) (Real.exp_pos _).le hg (abs_nonneg B) (fun x => (hB x).trans (le_abs_self B)) hε rfl
  rw [terminal_bootstrap hm] at h2
  exact ⟨out, h1, fun R hR => ⟨(h2 R hR).1.trans (ENNReal.ofReal_le_ofReal (div_le_div_of_nonneg_right (le_max_left _ _) (Nat.cast_nonneg R))),
    (h2 R hR).2.trans (ENNReal.ofReal_le_ofReal (div_le_div_of_nonneg_right (le_max_right _ _) (Nat.cast_nonneg R)))⟩⟩

/-- Why the runs have to be weighted: with one particle and one observation the weighted mean of a run is the value of `g` at a draw from the law of the state, whatever was observed, so that averaging the means of runs without
weights gives the prior expectation of `g` and not the filtering expectation. -/
theorem C162_unweighted (cat : (Fin 1 → Fl) → ℝ → Fin 1) (thr : ℝ) (y0 : Obs dy) (t0 : ℝ) (key : Keys.Key) (g : X → ℝ) (hg : Measurable g) :
    ∃ out : Tape → Particles X 1 dy, (∀ ω, run (tapeEnv cat ω) (bootstrap (m ω)) thr [y0] [t0] key = some (out ω)) ∧ ∫ ω, filterMean g (out ω) ∂ideal = ∫ x, g x ∂(μ0 t0) := by
  refine ⟨_, fun ω => run_slices (bootstrap_law hm) thr y0 [] t0 [] key ω, ?_⟩
  have e : ∀ ω, filterMean g (ofSlices (sliceOf (startRed (n := 1) (fun ω => bootstrap (m ω)) (fun x y t => -lik x y t) y0 t0 (1 :: key) ω) t0 y0)
      (scan (fun s o => (body (tapeEnv cat ω) (bootstrap (m ω)) thr s o, body (tapeEnv cat ω) (bootstrap (m ω)) thr s o))
        (sliceOf (startRed (n := 1) (fun ω => bootstrap (m ω)) (fun x y t => -lik x y t) y0 t0 (1 :: key) ω) t0 y0) (withKeys (tapeEnv cat ω) [] [] (0 :: key))).2) = g ((m ω).initialSample t0 (0 :: 1 :: key)) := fun ω => by
    refine (filterMean_final (bootstrap_law hm) thr g [] t0 y0 _ ω).trans ?_
    simp only [finalRed, startRed, Finset.univ_unique, Finset.sum_singleton]
    rw [mul_div_assoc, mul_comm, div_mul_cancel₀ _ (Real.exp_pos _).ne']
    rfl
  refine (integral_congr_ae (ae_of_all _ e)).trans ?_
  rw [← hm.law_initial t0 (0 :: 1 :: key), integral_map (hm.measurable_initial t0 _).aemeasurable hg.aestronglyMeasurable]

end

/-- With one key for all runs there is nothing to gain: they are the same run, and the average over any number of them is its estimate. -/
theorem C162_same_key (thr : ℝ) (out : ℕ → Particles X n dy) (env : Env Keys.Key n) (f : Filter X Keys.Key dy) (ys : List (Obs dy)) (ts : List ℝ) (key : Keys.Key)
    (h : ∀ r, run env f thr ys ts key = some (out r)) {R : ℕ} (hR : 1 ≤ R) : pooledLikelihood thr out R = likelihoodEstimate thr (out 0) := by
  have e : ∀ r, out r = out 0 := fun r => Option.some.inj ((h r).symm.trans (h 0))
  have hR0 : (R : ℝ) ≠ 0 := by exact_mod_cast (by omega : R ≠ 0)
  simp only [pooledLikelihood]
  rw [Finset.sum_congr rfl fun r _ => by rw [e r], Finset.sum_const, Finset.card_range, nsmul_eq_mul]
  field_simp

section
open Matrix Mocat.NonlinearGaussian Mocat.Spec Mocat.Covariance Mocat.MatGauss
variable {d e : ℕ} {chol : Chol} (hchol : IsCholeskyAll chol) {m : NLG d e} (hm : ProperNLG m) (htr : ∀ t t', Measurable fun x => m.transFun x t t') {q : ℝ → ℝ} (hq : IsNormalDraw q)
include hchol hm htr hq

/-- C162 for the bootstrap filter on a nonlinear Gaussian model: no bound needs to be assumed. -/
theorem C162_nonlinear_gaussian (y0 : Obs e) (ys : List (Obs e)) (t0 : ℝ) (ts : List ℝ) (hlen : ts.length = ys.length) (g : (Fin d → ℝ) → ℝ) (hg : Measurable g) (B : ℝ) (hB : ∀ x, |g x| ≤ B) (ε : ℝ)
    (hε : 0 < ε) :
    ∃ C : ℝ, ∀ (n : ℕ) [NeZero n] (cat : (Fin n → Fl) → ℝ → Fin n), (IsCategoricalReal fun (w : Fin n → ℝ) u => cat (fun i => .fin (w i)) u) → ∀ (thr : ℝ) (keys : ℕ → Keys.Key),
      (∀ a b, a ≠ b → Disjoint (below (keys a)) (below (keys b))) →
      ∃ out : ℕ → Tape → Particles (Fin d → ℝ) n e, (∀ r ω, run (tapeEnv cat ω) (bootstrap (reKeyModel (normalsAt q ω) (m.model chol))) thr (y0 :: ys) (t0 :: ts) (keys r) = some (out r ω)) ∧
        let Φ := filteringLaw (fun x t t' => gauss (m.transFun x t t') ((chol d m.transCov)ᵀ * chol d m.transCov)) (fun x y _ => covPotential chol m.likCov (x ᵥ* m.likMatᵀ) y)
          ((gauss m.initialMean m.initialCov).withDensity fun x => ENNReal.ofReal (Real.exp (-covPotential chol m.likCov (x ᵥ* m.likMatᵀ) y0))) t0 (ys.zip ts)
        ∀ R : ℕ, 1 ≤ R → ideal {ω | ε ≤ |pooledLikelihood thr (fun r => out r ω) R - Φ.real Set.univ|} ≤ ENNReal.ofReal (C / R) ∧
          ideal {ω | ε ≤ |pooledMean thr g (fun r => out r ω) R - (∫ x, g x ∂Φ) / Φ.real Set.univ|} ≤ ENNReal.ofReal (C / R) :=
  C162_bootstrap (nlg_modelLaw hchol hm htr hq) y0 ys t0 ts hlen (Gaussian.negLogZ e (some (1 / m.likCov.det))) (fun o _ x => neg_potential_le o.1 (x ᵥ* m.likMatᵀ) _ _) g hg B hB ε hε

/-- C162 for the optimal filter of a nonlinear Gaussian model, with the distribution of its first draws as the law of the first state. -/
theorem C162_optimal (y0 : Obs e) (ys : List (Obs e)) (t0 : ℝ) (ts : List ℝ) (hlen : ts.length = ys.length) (g : (Fin d → ℝ) → ℝ) (hg : Measurable g) (B : ℝ) (hB : ∀ x, |g x| ≤ B) (ε : ℝ)
    (hε : 0 < ε) :
    ∃ C : ℝ, ∀ (n : ℕ) [NeZero n] (cat : (Fin n → Fl) → ℝ → Fin n), (IsCategoricalReal fun (w : Fin n → ℝ) u => cat (fun i => .fin (w i)) u) → ∀ (thr : ℝ) (keys : ℕ → Keys.Key),
      (∀ a b, a ≠ b → Disjoint (below (keys a)) (below (keys b))) →
      ∃ out : ℕ → Tape → Particles (Fin d → ℝ) n e, (∀ r ω, run (tapeEnv cat ω) (reKey (normalsAt q ω) (optimalFilter chol m)) thr (y0 :: ys) (t0 :: ts) (keys r) = some (out r ω)) ∧
        let Φ := filteringLaw (fun x t t' => gauss (m.transFun x t t') m.transCov) (fun x y _ => -Real.log (gaussDensity (m.likMat *ᵥ x) m.likCov y))
          ((stdNormal d).map (initialSample chol m y0)) t0 (ys.zip ts)
        ∀ R : ℕ, 1 ≤ R → ideal {ω | ε ≤ |pooledLikelihood thr (fun r => out r ω) R - Φ.real Set.univ|} ≤ ENNReal.ofReal (C / R) ∧
          ideal {ω | ε ≤ |pooledMean thr g (fun r => out r ω) R - (∫ x, g x ∂Φ) / Φ.real Set.univ|} ≤ ENNReal.ofReal (C / R) := by
  have hL := optimal_law hchol hm htr hq
  have hterm := optimal_terminal hm htr (ys.zip ts) ((stdNormal d).map (initialSample chol m y0)) t0 (fun t y t' => measurable_kernel hL t y t')
  set W := max 1 (Real.exp (-Gaussian.negLogZ e (some (weightPrec chol m).det))) with hW
  refine ⟨max ((W ^ (ys.length + 1)) ^ 2 / ε ^ 2) (poolConst (W ^ (ys.length + 1)) |B| ((filteringLaw (fun x t t' => gauss (m.transFun x t t') m.transCov)
      (fun x y _ => -Real.log (gaussDensity (m.likMat *ᵥ x) m.likCov y)) ((stdNormal d).map (initialSample chol m y0)) t0 (ys.zip ts)).real Set.univ) ε), fun n _ cat hcat thr keys hk => ?_⟩
  obtain ⟨out, h1, h2⟩ := pooled (n := n) hL hcat thr y0 ys t0 ts hlen keys hk (W := W) (fun x => by rw [Real.exp_zero]; exact le_max_left _ _)
    (fun o ho t x x' => (Real.exp_le_exp.mpr (neg_le_neg (neg_potential_le _ _ _ _))).trans (le_max_right _ _)) (zero_le_one.trans (le_max_left _ _)) hg (abs_nonneg B) (fun x => (hB x).trans (le_abs_self B)) hε rfl
  rw [hterm] at h2
  exact ⟨out, h1, fun R hR => ⟨(h2 R hR).1.trans (ENNReal.ofReal_le_ofReal (div_le_div_of_nonneg_right (le_max_left _ _) (Nat.cast_nonneg R))),
    (h2 R hR).2.trans (ENNReal.ofReal_le_ofReal (div_le_div_of_nonneg_right (le_max_right _ _) (Nat.cast_nonneg R)))⟩⟩

end

open Mocat.NonlinearGaussian in
/-- Bootstrap filters of three particles with the keys of one split, for a nonlinear model in dimension 2 with correlated observation noise and three observations. -/
example (y0 y1 y2 : Obs 2) (key : Keys.Key) : ∃ (chol : Chol) (q : ℝ → ℝ) (cat : (Fin 3 → Fl) → ℝ → Fin 3), ∀ ε > 0, ∃ C : ℝ, ∃ out : ℕ → Tape → Particles (Fin 2 → ℝ) 3 2,
    (∀ r ω, run (tapeEnv cat ω) (bootstrap (reKeyModel (normalsAt q ω) (NLG.model chol ⟨0, 1, fun x t t' i => Real.sin (x i) + (t' - t), 1, 1, covEx⟩))) (1 / 2) [y0, y1, y2] [0, 1, 3] (r :: key) = some (out r ω)) ∧
      ∃ L : ℝ, ∀ R : ℕ, 1 ≤ R → ideal {ω | ε ≤ |pooledLikelihood (1 / 2) (fun r => out r ω) R - L|} ≤ ENNReal.ofReal (C / R) := by
  obtain ⟨chol, hchol⟩ := exists_isCholeskyAll
  obtain ⟨q, hq⟩ := exists_isNormalDraw
  refine ⟨chol, q, fun lw u => invCdfReal (fun i => match lw i with | .fin x => x | _ => 0) u, fun ε hε => ?_⟩
  obtain ⟨C, hC⟩ := C162_nonlinear_gaussian hchol (d := 2) (e := 2) (m := ⟨0, 1, fun x t t' i => Real.sin (x i) + (t' - t), 1, 1, covEx⟩) ⟨Matrix.PosDef.one, Matrix.PosDef.one, covEx_posDef⟩ (fun t t' => by fun_prop) hq
    y0 [y1, y2] 0 [1, 3] rfl (fun _ => 1) measurable_const 1 (fun x => by simp) ε hε
  obtain ⟨out, h1, h2⟩ := hC 3 (fun lw u => invCdfReal (fun i => match lw i with | .fin x => x | _ => 0) u) isCategoricalReal_invCdfReal (1 / 2) (fun r => r :: key) fun _ _ h => below_disjoint h
  exact ⟨C, out, h1, _, fun R hR => (h2 R hR).1⟩

end Mocat.Props
