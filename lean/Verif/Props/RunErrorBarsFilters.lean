import Verif.Props.PooledFilters
import Verif.Lemmas.SubtapeRuns
/-!
# C165: error bars across runs of a particle filter with separate keys
-/
namespace Mocat.Props
open Mocat Mocat.Filtering Mocat.Metrics Mocat.Ideal Mocat.Meas MeasureTheory ProbabilityTheory
open Mocat.Smc (Red Q Qr share Spread)
open scoped ENNReal

variable {X : Type} {n dy : ℕ}

/-! ## A run is a function of the part of the tape of its key -/

/-- The draws of a filter on a tape with a key below `κ` are those of the filter on the part of the tape of `κ`. -/
structure Handed (f : Tape → Filter X Keys.Key dy) : Prop where
  initialSample : ∀ ω κ y t k, (f ω).initialSample y t (k ++ κ) = (f (subtape κ ω)).initialSample y t k
  initialLogWeight : ∀ ω κ, (f ω).initialLogWeight = (f (subtape κ ω)).initialLogWeight
  proposalSample : ∀ ω κ x t y t' k, (f ω).proposalSample x t y t' (k ++ κ) = (f (subtape κ ω)).proposalSample x t y t' k
  logWeight : ∀ ω κ, (f ω).intermediateLogWeight = (f (subtape κ ω)).intermediateLogWeight

theorem scan_map {c x x' y : Type*} (f : c → x → c × y) (f' : c → x' → c × y) (φ : x → x') (h : ∀ s a, f' s (φ a) = f s a) (l : List x) (s : c) : scan f' s (l.map φ) = scan f s l := by
  induction l generalizing s with
  | nil => rfl
  | cons a l ih => simp only [List.map_cons, scan, h, ih]

theorem withKeys_append (cat : (Fin n → Fl) → ℝ → Fin n) (ω ω' : Tape) (ys : List (Obs dy)) (ts : List ℝ) (k κ : Keys.Key) :
    withKeys (tapeEnv cat ω) ys ts (k ++ κ) = (withKeys (tapeEnv cat ω') ys ts k).map fun o => (o.1, o.2.1, o.2.2 ++ κ) := by
  refine List.ext_getElem (by simp [withKeys]) fun i h1 h2 => ?_
  simp [withKeys, tapeEnv, pathEnv]

theorem run_subtape {f : Tape → Filter X Keys.Key dy} (hf : Handed f) (cat : (Fin n → Fl) → ℝ → Fin n) (thr : ℝ) (ys : List (Obs dy)) (ts : List ℝ) (κ : Keys.Key) (ω : Tape) :
    run (tapeEnv cat ω) (f ω) thr ys ts κ = run (tapeEnv cat (subtape κ ω)) (f (subtape κ ω)) thr ys ts [] := by
  cases ys with
  | nil => rfl
  | cons y0 ys =>
  cases ts with
  | nil => rfl
  | cons t0 ts =>
  have hb : ∀ (s : Slice X n dy) (o : Obs dy × ℝ × Keys.Key), body (tapeEnv cat ω) (f ω) thr s (o.1, o.2.1, o.2.2 ++ κ) = body (tapeEnv cat (subtape κ ω)) (f (subtape κ ω)) thr s o := fun s o => by
    have hc : (tapeEnv cat ω).categorical (o.2.2 ++ κ) s.logWeight = (tapeEnv cat (subtape κ ω)).categorical o.2.2 s.logWeight := rfl
    have hp : ∀ x t y t' (i : Fin n), (f ω).proposalSample x t y t' ((tapeEnv cat ω).splitN n (o.2.2 ++ κ) i) = (f (subtape κ ω)).proposalSample x t y t' ((tapeEnv cat (subtape κ ω)).splitN n o.2.2 i) :=
      fun x t y t' i => hf.proposalSample ω κ x t y t' ((i : ℕ) :: o.2.2)
    simp only [body, hc, hp, hf.logWeight ω κ]
  have hi : initiateParticles (tapeEnv cat ω) (f ω) ((tapeEnv cat ω).splitN 2 κ 1) y0 t0
      = initiateParticles (tapeEnv cat (subtape κ ω)) (f (subtape κ ω)) ((tapeEnv cat (subtape κ ω)).splitN 2 [] 1) y0 t0 := by
    have hp : ∀ (i : Fin n), (f ω).initialSample y0 t0 ((tapeEnv cat ω).splitN n ((tapeEnv cat ω).splitN 2 κ 1) i)
        = (f (subtape κ ω)).initialSample y0 t0 ((tapeEnv cat (subtape κ ω)).splitN n ((tapeEnv cat (subtape κ ω)).splitN 2 [] 1) i) := fun i => hf.initialSample ω κ y0 t0 [(i : ℕ), 1]
    simp only [initiateParticles, hp, hf.initialLogWeight ω κ]
  have hw : withKeys (tapeEnv cat ω) ys ts ((tapeEnv cat ω).splitN 2 κ 0) = (withKeys (tapeEnv cat (subtape κ ω)) ys ts ((tapeEnv cat (subtape κ ω)).splitN 2 [] 0)).map fun o => (o.1, o.2.1, o.2.2 ++ κ) :=
    withKeys_append cat ω (subtape κ ω) ys ts [0] κ
  simp only [run, runFrom, hi, hw, runWithKeys]
  congr 1
  funext s0
  rw [scan_map _ _ _ fun s a => by rw [hb]]

section
variable [MeasurableSpace X] [NeZero n] {cat : (Fin n → Fl) → ℝ → Fin n} {f : Tape → Filter X Keys.Key dy} {G0 : X → Obs dy → ℝ → ℝ} {G : X → ℝ → X → Obs dy → ℝ → ℝ}
  {Γ0 : Obs dy → ℝ → Measure X} {Γ : X → ℝ → Obs dy → ℝ → Measure X} (hF : FilterLaw f G0 G Γ0 Γ)

include hF in
/-- The likelihood estimate of a run and the numerator of its mean as functionals of its final particle system. -/
theorem run_red (hcat : IsCategoricalReal fun (w : Fin n → ℝ) u => cat (fun i => .fin (w i)) u) (thr : ℝ) (y0 : Obs dy) (ys : List (Obs dy)) (t0 : ℝ) (ts : List ℝ) (hlen : ts.length = ys.length)
    (key : Keys.Key) {W : ℝ} (hW0 : ∀ x, Real.exp (G0 x y0 t0) ≤ W) (hW : ∀ o ∈ ys.zip ts, ∀ t x x', Real.exp (G x t x' o.1 o.2) ≤ W) (hW1 : 0 ≤ W) (g : X → ℝ) :
    ∃ (out : Tape → Particles X n dy) (F : Tape → Red n X), (∀ ω, run (tapeEnv cat ω) (f ω) thr (y0 :: ys) (t0 :: ts) key = some (out ω)) ∧ Measurable F ∧
      (∀ ω, Real.exp (F ω).2.2 ≤ W ^ (ys.length + 1)) ∧ (∀ {h : X → ℝ≥0∞}, Measurable h → ∫⁻ ω, Q h (F ω) ∂ideal = ∫⁻ x, h x ∂(terminal Γ (Γ0 y0 t0) t0 (ys.zip ts))) ∧
      (∀ ω, likelihoodEstimate thr (out ω) = Real.exp (F ω).2.2) ∧ ∀ ω, likelihoodEstimate thr (out ω) * filterMean g (out ω) = Qr g (F ω) := by
  have hz := zip_keys ys ts hlen (0 :: key) (tapeEnv cat (fun _ => 0)) (fun _ _ _ => rfl)
  set os : List (Obs dy × ℝ × Keys.Key) := withKeys (tapeEnv cat (fun _ => 0)) ys ts (0 :: key) with hos
  have hl : os.length = ys.length := by
    have := congrArg List.length hz.1
    simpa [hlen] using this
  have hdis : ∀ o ∈ os, Disjoint (below (1 :: key)) (below o.2.2) := fun o ho => by
    obtain ⟨i, hi⟩ := hz.2.2 o ho
    rw [hi]
    exact Set.disjoint_of_subset_right (fun s hs => mem_below_cons hs) (below_disjoint (by omega))
  set F : Tape → Red n X := fun ω => finalRed cat f G thr t0 os (startRed f G0 y0 t0 (1 :: key) ω) ω with hFd
  have hWr : ∀ o ∈ os.map (fun o => (o.1, o.2.1)), ∀ t x x', Real.exp (G x t x' o.1 o.2) ≤ W := by rw [hz.1]; exact hW
  have hlik : ∀ ω, likelihoodEstimate thr (ofSlices (sliceOf (startRed (n := n) f G0 y0 t0 (1 :: key) ω) t0 y0)
      (scan (fun s o => (body (tapeEnv cat ω) (f ω) thr s o, body (tapeEnv cat ω) (f ω) thr s o)) (sliceOf (startRed (n := n) f G0 y0 t0 (1 :: key) ω) t0 y0) os).2) = Real.exp (F ω).2.2 := fun ω => by
    have h1 := likelihood_slices (G0 := G0) (f := f) thr (fun _ => 1) y0 t0 (1 :: key) ω
      (scan (fun s o => (body (tapeEnv cat ω) (f ω) thr s o, body (tapeEnv cat ω) (f ω) thr s o)) (sliceOf (startRed (n := n) f G0 y0 t0 (1 :: key) ω) t0 y0) os).2
    rw [weightedMean_one hF thr t0 y0 _ ω os, mul_one, estimate_final hF thr _ os t0 y0] at h1
    have hq : Q (fun _ => 1) (F ω) = ENNReal.ofReal (Real.exp (F ω).2.2) := by
      rw [← Smc.share_sum (F ω), ENNReal.ofReal_sum_of_nonneg fun i _ => Smc.share_nonneg _ i, Smc.Q_eq_share]
      simp
    exact (ENNReal.ofReal_eq_ofReal_iff (likelihoodEstimate_nonneg thr _) (Real.exp_pos _).le).mp (h1.trans hq)
  refine ⟨_, F, fun ω => run_slices hF thr y0 ys t0 ts key ω, measurable_final hF hcat thr os t0 (measurable_startRed hF y0 t0 _), fun ω => ?_, fun {h} hh => ?_, hlik, fun ω => ?_⟩
  · have h1 := final_spread (cat := cat) (f := f) (G := G) thr hW1 os (fun o ho => hWr (o.1, o.2.1) (List.mem_map.mpr ⟨o, ho, rfl⟩)) t0 (startRed (n := n) f G0 y0 t0 (1 :: key) ω) ω hW1
      (Smc.spread_startAt (g := fun x => G0 x y0 t0) hW0 (fun i : Fin n => (f ω).initialSample y0 t0 ((i : ℕ) :: 1 :: key)))
    rw [hl, ← pow_succ'] at h1
    exact exp_le_of_spread h1
  · rw [← hz.1]
    exact red_first_moment hF hcat thr y0 t0 _ os hz.2.1 hdis hh
  · have hfm : filterMean g (ofSlices (sliceOf (startRed (n := n) f G0 y0 t0 (1 :: key) ω) t0 y0)
        (scan (fun s o => (body (tapeEnv cat ω) (f ω) thr s o, body (tapeEnv cat ω) (f ω) thr s o)) (sliceOf (startRed (n := n) f G0 y0 t0 (1 :: key) ω) t0 y0) os).2)
          = (∑ i, Real.exp ((F ω).2.1 i) * g ((F ω).1 i)) / ∑ i, Real.exp ((F ω).2.1 i) := filterMean_final hF thr g os t0 y0 _ ω
    refine (congrArg₂ (· * ·) (hlik ω) hfm).trans ?_
    unfold Qr share
    rw [Finset.sum_div, Finset.mul_sum]
    exact Finset.sum_congr rfl fun i _ => by ring

include hF in
/-- Error bars across runs of any filter with properly weighted proposals and bounded weights. -/
theorem honest_filter (hf : Handed f) (hcat : IsCategoricalReal fun (w : Fin n → ℝ) u => cat (fun i => .fin (w i)) u) (thr : ℝ) (y0 : Obs dy) (ys : List (Obs dy)) (t0 : ℝ) (ts : List ℝ)
    (hlen : ts.length = ys.length) (keys : ℕ → Keys.Key) (hk : ∀ a b, a ≠ b → Disjoint (below (keys a)) (below (keys b))) {W : ℝ} (hW0 : ∀ x, Real.exp (G0 x y0 t0) ≤ W)
    (hW : ∀ o ∈ ys.zip ts, ∀ t x x', Real.exp (G x t x' o.1 o.2) ≤ W) (hW1 : 0 ≤ W) {g : X → ℝ} (hg : Measurable g) {B : ℝ} (hB : ∀ x, |g x| ≤ B) {Φ : Measure X}
    (hΦ : Φ = terminal Γ (Γ0 y0 t0) t0 (ys.zip ts)) :
    ∃ out : Keys.Key → Tape → Particles X n dy, (∀ key ω, run (tapeEnv cat ω) (f ω) thr (y0 :: ys) (t0 :: ts) key = some (out key ω)) ∧
      (∀ key, (¬∃ v : ℝ, ∀ᵐ ω ∂ideal, likelihoodEstimate thr (out key ω) = v) → HonestRuns ideal (Φ.real Set.univ) (fun _ _ => 1) fun r ω => likelihoodEstimate thr (out (keys r) ω)) ∧
      ∀ key, (¬∀ᵐ ω ∂ideal, filterMean g (out key ω) = (∫ x, g x ∂Φ) / Φ.real Set.univ) →
        HonestRuns ideal ((∫ x, g x ∂Φ) / Φ.real Set.univ) (fun r ω => likelihoodEstimate thr (out (keys r) ω)) fun r ω => filterMean g (out (keys r) ω) := by
  obtain ⟨out, F, hrun, hFm, hM, hmom, hlik, hnum⟩ := run_red hF hcat thr y0 ys t0 ts hlen [] hW0 hW hW1 g
  have hΦf : IsFiniteMeasure Φ := by rw [hΦ]; exact terminal_finite hF y0 t0 _ hW0 hW hW1
  rw [← hΦ] at hmom
  have hone : ∀ ω, Qr (fun _ => 1) (F ω) = Real.exp (F ω).2.2 := fun ω => by
    unfold Qr
    rw [← Smc.share_sum (F ω)]
    simp
  have hM1 : ∀ ω, |Qr (fun _ : X => (1 : ℝ)) (F ω)| ≤ W ^ (ys.length + 1) := fun ω => by rw [hone, abs_of_pos (Real.exp_pos _)]; exact hM ω
  have hEn : ∫ ω, Qr g (F ω) ∂ideal = ∫ x, g x ∂Φ := Qr_mean hFm hM1 hmom hg (abs_nonneg B) fun x => (hB x).trans (le_abs_self B)
  have hEl : ∫ ω, Real.exp (F ω).2.2 ∂ideal = Φ.real Set.univ := by
    have h1 := Qr_mean hFm hM1 hmom (g := fun _ => 1) measurable_const zero_le_one fun _ => by simp
    simp only [hone] at h1
    rw [h1]
    simp
  have hlm : Measurable fun ω => Real.exp (F ω).2.2 := Real.measurable_exp.comp (measurable_snd.comp (measurable_snd.comp hFm))
  have hnm : Measurable fun ω => Qr g (F ω) := (Smc.measurable_Qr hg).comp hFm
  have hl2 : MemLp (fun ω => Real.exp (F ω).2.2) 2 ideal := MemLp.of_bound hlm.aestronglyMeasurable _ (ae_of_all _ fun ω => by rw [Real.norm_eq_abs, abs_of_pos (Real.exp_pos _)]; exact hM ω)
  have hn2 : MemLp (fun ω => Qr g (F ω)) 2 ideal := MemLp.of_bound hnm.aestronglyMeasurable (|B| * W ^ (ys.length + 1)) (ae_of_all _ fun ω =>
    (Qr_abs_le (fun x => (hB x).trans (le_abs_self B)) _).trans (mul_le_mul_of_nonneg_left (hM ω) (abs_nonneg B)))
  have hpos : 0 < ∫ ω, Real.exp (F ω).2.2 ∂ideal := by
    rw [integral_pos_iff_support_of_nonneg (fun ω => (Real.exp_pos _).le) (hl2.integrable one_le_two)]
    have : Function.support (fun ω => Real.exp (F ω).2.2) = Set.univ := by
      ext ω
      simp
    rw [this, measure_univ]
    exact one_pos
  have hZ : Φ.real Set.univ ≠ 0 := by rw [← hEl]; exact hpos.ne'
  refine ⟨fun key ω => out (subtape key ω), fun key ω => by rw [run_subtape hf]; exact hrun _, fun key hne => ?_, fun key hne => ?_⟩
  · rw [← hEl]
    refine honestRuns_one hlm hl2 keys hk (fun r ω => hlik _) fun h => hne ⟨∫ ω, Real.exp (F ω).2.2 ∂ideal, ?_⟩
    filter_upwards [ae_subtape key h] with ω hω
    rw [hlik]
    exact hω
  · refine honestRuns hlm hnm hl2 hn2 keys hk (fun r ω => hlik _) (fun r ω => hnum _) (fun ω h => absurd h (Real.exp_pos _).ne') hpos (by rw [hEn, hEl, div_mul_cancel₀ _ hZ]) fun h => hne ?_
    filter_upwards [ae_subtape key h] with ω hω
    rw [← hnum, hlik, mul_comm _ (Real.exp _), ← mul_sub] at hω
    have := (mul_eq_zero.1 hω).resolve_left (Real.exp_pos _).ne'
    linarith

end

/-! ## Properties -/

section
variable [MeasurableSpace X] {m : Tape → Ssm.Model X (Obs dy) Keys.Key} {μ0 : ℝ → Measure X} {M : X → ℝ → ℝ → Measure X} {lik : X → Obs dy → ℝ → ℝ} (hm : ModelLaw m μ0 M lik)
include hm

/-- C165 for the bootstrap filter on any state-space model whose draws with a key are a function of the part of the tape of that key (`Handed`) and whose likelihood potentials are bounded below at the observations: for every number of
particles, threshold and family of separate keys, averages of the likelihood estimates over runs, and means of a bounded `g` pooled over runs with the likelihood estimates as weights, have honest error bars, unless the estimate (the mean
of `g`) of a run is a constant (is exact). -/
theorem C165_bootstrap (hf : Handed fun ω => bootstrap (m ω)) (y0 : Obs dy) (ys : List (Obs dy)) (t0 : ℝ) (ts : List ℝ) (hlen : ts.length = ys.length) (b : ℝ) (hb : ∀ o ∈ (y0, t0) :: ys.zip ts, ∀ x, b ≤ lik x o.1 o.2)
    (g : X → ℝ) (hg : Measurable g) (B : ℝ) (hB : ∀ x, |g x| ≤ B) (n : ℕ) [NeZero n] (cat : (Fin n → Fl) → ℝ → Fin n) (hcat : IsCategoricalReal fun (w : Fin n → ℝ) u => cat (fun i => .fin (w i)) u) (thr : ℝ)
    (keys : ℕ → Keys.Key) (hk : ∀ a b, a ≠ b → Disjoint (below (keys a)) (below (keys b))) :
    ∃ out : Keys.Key → Tape → Particles X n dy, (∀ key ω, run (tapeEnv cat ω) (bootstrap (m ω)) thr (y0 :: ys) (t0 :: ts) key = some (out key ω)) ∧
      let Φ := filteringLaw M lik ((μ0 t0).withDensity fun x => ENNReal.ofReal (Real.exp (-lik x y0 t0))) t0 (ys.zip ts)
      (∀ key, (¬∃ v : ℝ, ∀ᵐ ω ∂ideal, likelihoodEstimate thr (out key ω) = v) → HonestRuns ideal (Φ.real Set.univ) (fun _ _ => 1) fun r ω => likelihoodEstimate thr (out (keys r) ω)) ∧
      ∀ key, (¬∀ᵐ ω ∂ideal, filterMean g (out key ω) = (∫ x, g x ∂Φ) / Φ.real Set.univ) →
        HonestRuns ideal ((∫ x, g x ∂Φ) / Φ.real Set.univ) (fun r ω => likelihoodEstimate thr (out (keys r) ω)) fun r ω => filterMean g (out (keys r) ω) := by
  have h := honest_filter (n := n) (bootstrap_law hm) hf hcat thr y0 ys t0 ts hlen keys hk (W := Real.exp (-b)) (fun x => Real.exp_le_exp.mpr (neg_le_neg (hb (y0, t0) List.mem_cons_self x)))
    (fun o ho t x x' => Real.exp_le_exp.mpr (neg_le_neg (hb o (List.mem_cons_of_mem _ ho) x'))) (Real.exp_pos _).le hg hB rfl
  rw [terminal_bootstrap hm] at h
  exact h

end

section
open Matrix Mocat.NonlinearGaussian Mocat.Spec Mocat.Covariance Mocat.MatGauss
variable {d e : ℕ} {chol : Chol} (hchol : IsCholeskyAll chol) {m : NLG d e} (hm : ProperNLG m) (htr : ∀ t t', Measurable fun x => m.transFun x t t') {q : ℝ → ℝ} (hq : IsNormalDraw q)

theorem handed_nlg (chol : Chol) (m : NLG d e) (q : ℝ → ℝ) : Handed fun ω => bootstrap (reKeyModel (normalsAt q ω) (m.model chol)) := ⟨fun _ _ _ _ _ => rfl, fun _ _ => rfl, fun _ _ _ _ _ _ _ => rfl, fun _ _ => rfl⟩

theorem handed_optimal (chol : Chol) (m : NLG d e) (q : ℝ → ℝ) : Handed fun ω => reKey (normalsAt q ω) (optimalFilter chol m) := ⟨fun _ _ _ _ _ => rfl, fun _ _ => rfl, fun _ _ _ _ _ _ _ => rfl, fun _ _ => rfl⟩

include hchol hm htr hq

/-- C165 for the bootstrap filter on a nonlinear Gaussian model. -/
theorem C165_nonlinear_gaussian (y0 : Obs e) (ys : List (Obs e)) (t0 : ℝ) (ts : List ℝ) (hlen : ts.length = ys.length) (g : (Fin d → ℝ) → ℝ) (hg : Measurable g) (B : ℝ) (hB : ∀ x, |g x| ≤ B)
    (n : ℕ) [NeZero n] (cat : (Fin n → Fl) → ℝ → Fin n) (hcat : IsCategoricalReal fun (w : Fin n → ℝ) u => cat (fun i => .fin (w i)) u) (thr : ℝ) (keys : ℕ → Keys.Key)
    (hk : ∀ a b, a ≠ b → Disjoint (below (keys a)) (below (keys b))) :
    ∃ out : Keys.Key → Tape → Particles (Fin d → ℝ) n e, (∀ key ω, run (tapeEnv cat ω) (bootstrap (reKeyModel (normalsAt q ω) (m.model chol))) thr (y0 :: ys) (t0 :: ts) key = some (out key ω)) ∧
      let Φ := filteringLaw (fun x t t' => gauss (m.transFun x t t') ((chol d m.transCov)ᵀ * chol d m.transCov)) (fun x y _ => covPotential chol m.likCov (x ᵥ* m.likMatᵀ) y)
        ((gauss m.initialMean m.initialCov).withDensity fun x => ENNReal.ofReal (Real.exp (-covPotential chol m.likCov (x ᵥ* m.likMatᵀ) y0))) t0 (ys.zip ts)
      (∀ key, (¬∃ v : ℝ, ∀ᵐ ω ∂ideal, likelihoodEstimate thr (out key ω) = v) → HonestRuns ideal (Φ.real Set.univ) (fun _ _ => 1) fun r ω => likelihoodEstimate thr (out (keys r) ω)) ∧
      ∀ key, (¬∀ᵐ ω ∂ideal, filterMean g (out key ω) = (∫ x, g x ∂Φ) / Φ.real Set.univ) →
        HonestRuns ideal ((∫ x, g x ∂Φ) / Φ.real Set.univ) (fun r ω => likelihoodEstimate thr (out (keys r) ω)) fun r ω => filterMean g (out (keys r) ω) :=
  C165_bootstrap (nlg_modelLaw hchol hm htr hq) (handed_nlg chol m q) y0 ys t0 ts hlen (Gaussian.negLogZ e (some (1 / m.likCov.det))) (fun o _ x => neg_potential_le o.1 (x ᵥ* m.likMatᵀ) _ _) g hg B hB n cat hcat thr keys hk

/-- C165 for the optimal filter of a nonlinear Gaussian model, with the distribution of its first draws as the law of the first state. -/
theorem C165_optimal (y0 : Obs e) (ys : List (Obs e)) (t0 : ℝ) (ts : List ℝ) (hlen : ts.length = ys.length) (g : (Fin d → ℝ) → ℝ) (hg : Measurable g) (B : ℝ) (hB : ∀ x, |g x| ≤ B)
    (n : ℕ) [NeZero n] (cat : (Fin n → Fl) → ℝ → Fin n) (hcat : IsCategoricalReal fun (w : Fin n → ℝ) u => cat (fun i => .fin (w i)) u) (thr : ℝ) (keys : ℕ → Keys.Key)
    (hk : ∀ a b, a ≠ b → Disjoint (below (keys a)) (below (keys b))) :
    ∃ out : Keys.Key → Tape → Particles (Fin d → ℝ) n e, (∀ key ω, run (tapeEnv cat ω) (reKey (normalsAt q ω) (optimalFilter chol m)) thr (y0 :: ys) (t0 :: ts) key = some (out key ω)) ∧
      let Φ := filteringLaw (fun x t t' => gauss (m.transFun x t t') m.transCov) (fun x y _ => -Real.log (gaussDensity (m.likMat *ᵥ x) m.likCov y))
        ((stdNormal d).map (initialSample chol m y0)) t0 (ys.zip ts)
      (∀ key, (¬∃ v : ℝ, ∀ᵐ ω ∂ideal, likelihoodEstimate thr (out key ω) = v) → HonestRuns ideal (Φ.real Set.univ) (fun _ _ => 1) fun r ω => likelihoodEstimate thr (out (keys r) ω)) ∧
      ∀ key, (¬∀ᵐ ω ∂ideal, filterMean g (out key ω) = (∫ x, g x ∂Φ) / Φ.real Set.univ) →
        HonestRuns ideal ((∫ x, g x ∂Φ) / Φ.real Set.univ) (fun r ω => likelihoodEstimate thr (out (keys r) ω)) fun r ω => filterMean g (out (keys r) ω) := by
  have hL := optimal_law hchol hm htr hq
  have hterm := optimal_terminal hm htr (ys.zip ts) ((stdNormal d).map (initialSample chol m y0)) t0 (fun t y t' => measurable_kernel hL t y t')
  set W := max 1 (Real.exp (-Gaussian.negLogZ e (some (weightPrec chol m).det))) with hW
  have h := honest_filter (n := n) hL (handed_optimal chol m q) hcat thr y0 ys t0 ts hlen keys hk (W := W) (fun x => by rw [Real.exp_zero]; exact le_max_left _ _)
    (fun o ho t x x' => (Real.exp_le_exp.mpr (neg_le_neg (neg_potential_le _ _ _ _))).trans (le_max_right _ _)) (zero_le_one.trans (le_max_left _ _)) hg hB rfl
  rw [hterm] at h
  exact h

end

/-! ## A case: one particle, one observation -/

section
variable [MeasurableSpace X] {m : Tape → Ssm.Model X (Obs dy) Keys.Key} {μ0 : ℝ → Measure X} {M : X → ℝ → ℝ → Measure X} {lik : X → Obs dy → ℝ → ℝ} (hm : ModelLaw m μ0 M lik)
include hm

theorem single_mean (cat : (Fin 1 → Fl) → ℝ → Fin 1) (thr : ℝ) (y0 : Obs dy) (t0 : ℝ) (key : Keys.Key) (g : X → ℝ) (ω : Tape) {out : Particles X 1 dy}
    (h : run (tapeEnv cat ω) (bootstrap (m ω)) thr [y0] [t0] key = some out) : filterMean g out = g ((m ω).initialSample t0 (0 :: 1 :: key)) := by
  obtain rfl := Option.some.inj (h.symm.trans (run_slices (bootstrap_law hm) thr y0 [] t0 [] key ω))
  refine (filterMean_final (bootstrap_law hm) thr g [] t0 y0 _ ω).trans ?_
  simp only [finalRed, startRed, Finset.univ_unique, Finset.sum_singleton]
  rw [mul_div_assoc, mul_comm, div_mul_cancel₀ _ (Real.exp_pos _).ne']
  rfl

theorem single_likelihood (cat : (Fin 1 → Fl) → ℝ → Fin 1) (thr : ℝ) (y0 : Obs dy) (t0 : ℝ) (key : Keys.Key) (ω : Tape) {out : Particles X 1 dy}
    (h : run (tapeEnv cat ω) (bootstrap (m ω)) thr [y0] [t0] key = some out) : likelihoodEstimate thr out = Real.exp (-lik ((m ω).initialSample t0 (0 :: 1 :: key)) y0 t0) := by
  obtain rfl := Option.some.inj (h.symm.trans (run_slices (bootstrap_law hm) thr y0 [] t0 [] key ω))
  have h1 := likelihood_slices (n := 1) (G0 := fun x y t => -lik x y t) (f := fun ω => bootstrap (m ω)) thr (fun _ => 1) y0 t0 (1 :: key) ω []
  have h2 := weightedMean_one (n := 1) (cat := cat) (bootstrap_law hm) thr t0 y0 (startRed (n := 1) (fun ω => bootstrap (m ω)) (fun x y t => -lik x y t) y0 t0 (1 :: key) ω) ω []
  have h3 := estimate_final (n := 1) (cat := cat) (bootstrap_law hm) thr (fun _ => 1) [] t0 y0 (startRed (n := 1) (fun ω => bootstrap (m ω)) (fun x y t => -lik x y t) y0 t0 (1 :: key) ω) ω
  simp only [scan] at h2 h3
  rw [h2, mul_one, h3] at h1
  have hq : Q (fun _ => 1) (startRed (n := 1) (fun ω => bootstrap (m ω)) (fun x y t => -lik x y t) y0 t0 (1 :: key) ω) = ENNReal.ofReal (Real.exp (-lik ((m ω).initialSample t0 (0 :: 1 :: key)) y0 t0)) := by
    rw [Smc.Q_eq_share]
    simp only [mul_one]
    rw [← ENNReal.ofReal_sum_of_nonneg fun i _ => Smc.share_nonneg _ i, Smc.share_sum]
    simp only [startRed, Smc.lseMean, Finset.univ_unique, Finset.sum_singleton, Nat.cast_one, div_one, one_mul, Real.exp_log (Real.exp_pos _)]
    rfl
  exact (ENNReal.ofReal_eq_ofReal_iff (likelihoodEstimate_nonneg thr _) (Real.exp_pos _).le).mp (h1.trans hq)

end

section
open Matrix Mocat.NonlinearGaussian Mocat.Spec Mocat.Covariance Mocat.MatGauss

theorem not_ae_gauss {v : (Fin 1 → ℝ) → ℝ} {a : ℝ} {U : Set (Fin 1 → ℝ)} (hU : IsOpen U) (hne : U.Nonempty) (h : ∀ x ∈ U, v x ≠ a) : ¬∀ᵐ x ∂(gauss (0 : Fin 1 → ℝ) 1), v x = a := fun h0 => by
  have hac : (volume : Measure (Fin 1 → ℝ)) ≪ gauss (0 : Fin 1 → ℝ) 1 := by
    unfold gauss
    refine withDensity_absolutelyContinuous' ?_ (ae_of_all _ fun x => ?_)
    · refine (Measurable.ennreal_ofReal (Continuous.measurable ?_)).aemeasurable
      unfold gaussDensity
      fun_prop
    · exact (ENNReal.ofReal_pos.2 (gaussDensity_pos _ Matrix.PosDef.one x)).ne'
  have h1 := hac.ae_le h0
  exact hU.measure_ne_zero volume hne (measure_mono_null (fun x hx => h x hx) h1)

theorem not_ae_density (P : Matrix (Fin 1) (Fin 1) ℝ) (hP : P.PosDef) (y : Fin 1 → ℝ) (a : ℝ) : ¬∀ᵐ x ∂(gauss (0 : Fin 1 → ℝ) 1), gaussDensity x P y = a := by
  have hc : Continuous fun x : Fin 1 → ℝ => gaussDensity x P y := by
    unfold gaussDensity
    fun_prop
  refine not_ae_gauss (isOpen_ne_fun hc continuous_const) ?_ fun x hx => hx
  by_contra h
  rw [Set.not_nonempty_iff_eq_empty, Set.eq_empty_iff_forall_notMem] at h
  have h1 : gaussDensity y P y = a := by_contra fun h0 => h y h0
  have h2 : gaussDensity (y - 1) P y = a := by_contra fun h0 => h (y - 1) h0
  rw [← h2] at h1
  have hpos : 0 < (1 : Fin 1 → ℝ) ⬝ᵥ (P⁻¹ *ᵥ 1) := by
    have := hP.inv.dotProduct_mulVec_pos (x := (1 : Fin 1 → ℝ)) one_ne_zero
    simpa using this
  unfold gaussDensity at h1
  simp only [sub_self, sub_sub_cancel, zero_dotProduct] at h1
  have hs : Real.sqrt (P.det⁻¹ / (2 * Real.pi) ^ 1) ≠ 0 := by
    have := hP.det_pos
    positivity
  have h3 := Real.exp_injective (mul_left_cancel₀ hs h1)
  linarith

theorem measurable_density (P : Matrix (Fin 1) (Fin 1) ℝ) (y : Fin 1 → ℝ) : Measurable fun x : Fin 1 → ℝ => gaussDensity x P y := by
  refine Continuous.measurable ?_
  unfold gaussDensity
  fun_prop

theorem ae_law {I : Tape → Fin 1 → ℝ} {μ : Measure (Fin 1 → ℝ)} (hI : Measurable I) (hμ : ideal.map I = μ) {S : Set (Fin 1 → ℝ)} (hS : MeasurableSet S) (h : ∀ᵐ ω ∂ideal, I ω ∈ S) : ∀ᵐ x ∂μ, x ∈ S := by
  rw [← hμ]
  exact (ae_map_iff hI.aemeasurable hS).2 h

/-- Bootstrap filters of one particle with the keys of one split, for a nonlinear model with one observation: both the likelihood and the probability that the state is positive get honest error bars. -/
example (y0 : Obs 1) (key : Keys.Key) : ∃ (chol : Chol) (q : ℝ → ℝ) (cat : (Fin 1 → Fl) → ℝ → Fin 1) (out : Keys.Key → Tape → Particles (Fin 1 → ℝ) 1 1),
    (∀ k ω, run (tapeEnv cat ω) (bootstrap (reKeyModel (normalsAt q ω) (NLG.model chol ⟨0, 1, fun x t t' i => Real.sin (x i) + (t' - t), 1, 1, 1⟩))) (1 / 2) [y0] [0] k = some (out k ω)) ∧
      ∃ L p : ℝ, HonestRuns ideal L (fun _ _ => 1) (fun r ω => likelihoodEstimate (1 / 2) (out (r :: key) ω)) ∧
        HonestRuns ideal p (fun r ω => likelihoodEstimate (1 / 2) (out (r :: key) ω)) fun r ω => filterMean (Set.indicator {x | 0 < x 0} fun _ => 1) (out (r :: key) ω) := by
  obtain ⟨chol, hchol⟩ := exists_isCholeskyAll
  obtain ⟨q, hq⟩ := exists_isNormalDraw
  have hS : MeasurableSet {x : Fin 1 → ℝ | 0 < x 0} := measurableSet_lt measurable_const (measurable_pi_apply 0)
  obtain ⟨m, hmd⟩ : ∃ m : NLG 1 1, m = ⟨0, 1, fun x t t' i => Real.sin (x i) + (t' - t), 1, 1, 1⟩ := ⟨_, rfl⟩
  have hp : ProperNLG m := by rw [hmd]; exact ⟨Matrix.PosDef.one, Matrix.PosDef.one, Matrix.PosDef.one⟩
  have htr : ∀ t t', Measurable fun x => m.transFun x t t' := by rw [hmd]; intro t t'; fun_prop
  have hlaw := nlg_modelLaw hchol hp htr hq
  obtain ⟨out, h1, h2, h3⟩ := C165_nonlinear_gaussian hchol hp htr hq y0 [] 0 [] rfl (Set.indicator {x | 0 < x 0} fun _ => 1) (measurable_const.indicator hS) 1
    (fun x => by by_cases hx : x ∈ {x : Fin 1 → ℝ | 0 < x 0} <;> simp [hx]) 1 (fun lw u => invCdfReal (fun i => match lw i with | .fin x => x | _ => 0) u) isCategoricalReal_invCdfReal (1 / 2)
    (fun r => r :: key) fun _ _ h => below_disjoint h
  have hini := hlaw.law_initial 0 [0, 1]
  have hg0 : gauss m.initialMean m.initialCov = gauss (0 : Fin 1 → ℝ) 1 := by rw [hmd]
  beta_reduce at hini
  rw [hg0] at hini
  have hmi := hlaw.measurable_initial 0 [0, 1]
  refine ⟨chol, q, _, out, by rw [← hmd]; exact h1, _, _, h2 [] ?_, h3 [] ?_⟩
  · rintro ⟨v, hv⟩
    have hv' : ∀ᵐ ω ∂ideal, gaussDensity ((reKeyModel (normalsAt q ω) (m.model chol)).initialSample 0 [0, 1]) ((chol 1 1)ᵀ * chol 1 1) y0 = v := by
      filter_upwards [hv] with ω hω
      rw [single_likelihood hlaw _ _ y0 0 [] ω (h1 [] ω)] at hω
      rw [← hω, covPotential_density hchol hp.lik]
      simp [hmd]
    have hone : chol 1 1 * (chol 1 1)ᵀ = 1 := hchol 1 1 Matrix.PosDef.one
    rw [mul_eq_one_comm.1 hone] at hv'
    exact not_ae_density 1 Matrix.PosDef.one y0 v (ae_law hmi hini ((measurable_density 1 y0) (measurableSet_singleton v)) hv')
  · intro hv
    obtain ⟨a, ha⟩ : ∃ a : ℝ, ∀ᵐ ω ∂ideal, filterMean (Set.indicator {x | 0 < x 0} fun _ => 1) (out [] ω) = a := ⟨_, hv⟩
    have ha' : ∀ᵐ ω ∂ideal, Set.indicator {x : Fin 1 → ℝ | 0 < x 0} (fun _ => (1 : ℝ)) ((reKeyModel (normalsAt q ω) (m.model chol)).initialSample 0 [0, 1]) = a := by
      filter_upwards [ha] with ω hω
      rw [single_mean hlaw _ _ y0 0 [] _ ω (h1 [] ω)] at hω
      exact hω
    have hx := ae_law hmi hini ((measurable_const.indicator hS) (measurableSet_singleton a)) ha'
    by_cases h0 : a = 1
    · refine not_ae_gauss (U := {x | x 0 < 0}) (isOpen_lt (continuous_apply 0) continuous_const) ⟨fun _ => -1, by simp⟩ (fun x hx0 => ?_) hx
      have hx1 : x 0 < 0 := hx0
      rw [h0, Set.indicator_of_notMem (by simpa using hx1.le)]
      exact zero_ne_one
    · refine not_ae_gauss (U := {x | 0 < x 0}) (isOpen_lt continuous_const (continuous_apply 0)) ⟨fun _ => 1, by simp⟩ (fun x hx0 => ?_) hx
      rw [Set.indicator_of_mem hx0]
      exact Ne.symm h0

end
end Mocat.Props
