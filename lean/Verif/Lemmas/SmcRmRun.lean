import Verif.Lemmas.SmcRmFamily
import Mathlib.MeasureTheory.Constructions.Polish.Basic
/-! Convergence of the estimates of runs whose temperatures and stepsizes are chosen from the ensemble. -/
namespace Mocat.Smc
open Mocat Mocat.Ideal Mocat.Meas Mocat.Spec MeasureTheory Filter Topology
open scoped ENNReal

variable {n : ℕ} {X : Type*}

/-- The mean of `v` under normalised weights. -/
noncomputable def wMean (lw v : Fin n → ℝ) : ℝ := ∑ i, Real.exp (lw i) / (∑ j, Real.exp (lw j)) * v i

theorem wMean_mem [NeZero n] (lw : Fin n → ℝ) {v : Fin n → ℝ} (h : ∀ i, v i ∈ Set.Icc 0 1) : wMean lw v ∈ Set.Icc 0 1 := by
  have hS : 0 < ∑ j, Real.exp (lw j) := Finset.sum_pos (fun i _ => Real.exp_pos _) ⟨0, Finset.mem_univ _⟩
  have hw : ∀ i, 0 ≤ Real.exp (lw i) / ∑ j, Real.exp (lw j) := fun i => by positivity
  refine ⟨Finset.sum_nonneg fun i _ => mul_nonneg (hw i) (h i).1, ?_⟩
  calc wMean lw v ≤ ∑ i, Real.exp (lw i) / ∑ j, Real.exp (lw j) := Finset.sum_le_sum fun i _ => mul_le_of_le_one_right (hw i) (h i).2
    _ = 1 := by rw [← Finset.sum_div, div_self hS.ne']

theorem measurable_wMean : Measurable fun z : (Fin n → ℝ) × (Fin n → ℝ) => wMean z.1 z.2 := by
  unfold wMean
  have h : ∀ i : Fin n, Measurable fun z : (Fin n → ℝ) × (Fin n → ℝ) => Real.exp (z.1 i) := fun i => Real.measurable_exp.comp ((measurable_pi_apply i).comp measurable_fst)
  exact Finset.measurable_sum _ fun i _ => ((h i).div (Finset.measurable_sum _ fun j _ => h j)).mul ((measurable_pi_apply i).comp measurable_snd)

/-- Acceptance probabilities of the particles in an update; `al θ k x ω` is that of the moves with key `k` from `x`. -/
noncomputable def accs (cat : (Fin n → ℝ) → ℝ → Fin n) (thr : ℝ) (al : ℝ × ℝ → Keys.Key → X → Tape → ℝ) (κ : Keys.Key) (s : (ℝ × ℝ) × Red n X) (ω : Tape) : Fin n → ℝ :=
  fun i => al s.1 ((i : ℕ) :: κ) (redValue cat (critLe n thr) (fun i => (n :: κ, (i : ℕ))) s.2 ω i) ω

/-- Resampling and moving at the current temperature and stepsize. -/
noncomputable def cStep (cat : (Fin n → ℝ) → ℝ → Fin n) (thr : ℝ) (mv : ℝ × ℝ → Keys.Key → X → Tape → X) (κ : Keys.Key) (s : (ℝ × ℝ) × Red n X) (ω : Tape) : ℝ × Red n X :=
  (s.1.1, redStep cat (critLe n thr) (fun i => (n :: κ, (i : ℕ))) (fun _ _ => 0) (fun i => mv s.1 ((i : ℕ) :: κ)) s.2 ω)

/-- One update; the state is the temperature, the logarithm of the stepsize and the weighted particles. -/
noncomputable def tStep (cat : (Fin n → ℝ) → ℝ → Fin n) (thr : ℝ) (mv : ℝ × ℝ → Keys.Key → X → Tape → X) (al : ℝ × ℝ → Keys.Key → X → Tape → ℝ) (lik : X → ℝ)
    (nxt : ℝ → (Fin n → ℝ) → (Fin n → ℝ) → ℝ) (target rm : ℝ) (κ : Keys.Key) (s : (ℝ × ℝ) × Red n X) (ω : Tape) : (ℝ × ℝ) × Red n X :=
  let b := bStep lik nxt (cStep cat thr mv κ s ω)
  ((b.1, s.1.2 + rm * (wMean b.2.2.1 (accs cat thr al κ s ω) - target)), b.2)

/-- The states of a run. -/
noncomputable def tRun (cat : (Fin n → ℝ) → ℝ → Fin n) (thr : ℝ) (mv : ℝ × ℝ → Keys.Key → X → Tape → X) (al : ℝ × ℝ → Keys.Key → X → Tape → ℝ) (lik : X → ℝ)
    (nxt : ℕ → ℝ → (Fin n → ℝ) → (Fin n → ℝ) → ℝ) (target rm u0 : ℝ) (κ : Keys.Key) (x : Fin n → X) : ℕ → Tape → (ℝ × ℝ) × Red n X
  | 0, _ => (((bStep lik (nxt 0) (0, startAt (fun _ => 0) x)).1, u0), (bStep lik (nxt 0) (0, startAt (fun _ => 0) x)).2)
  | k + 1, ω => tStep cat thr mv al lik (nxt (k + 1)) target rm (keyAt n κ k) (tRun cat thr mv al lik nxt target rm u0 κ x k ω) ω

/-- What is used of the moves. -/
structure TuneLaw [MeasurableSpace X] (mv : ℝ × ℝ → Keys.Key → X → Tape → X) (al : ℝ × ℝ → Keys.Key → X → Tape → ℝ) (P : ℝ × ℝ → (X → ℝ≥0∞) → X → ℝ≥0∞) : Prop where
  measurable : ∀ k, Measurable fun z : ((ℝ × ℝ) × X) × Tape => mv z.1.1 k z.1.2 z.2
  dependsOn : ∀ θ k x, DependsOn (mv θ k x) (below k)
  law : ∀ θ k x {h : X → ℝ≥0∞}, Measurable h → ∫⁻ ω, h (mv θ k x ω) ∂ideal = P θ h x
  al_measurable : ∀ k, Measurable fun z : ((ℝ × ℝ) × X) × Tape => al z.1.1 k z.1.2 z.2
  al_dependsOn : ∀ θ k x, DependsOn (al θ k x) (below k)
  al_mem : ∀ θ k x ω, al θ k x ω ∈ Set.Icc 0 1

/-- Pairs of reals as reals. -/
noncomputable def code : ℝ × ℝ ≃ᵐ ℝ := PolishSpace.measurableEquivOfNotCountable (by simp) (by simp)

section
variable [MeasurableSpace X] {mv : ℝ × ℝ → Keys.Key → X → Tape → X} {al : ℝ × ℝ → Keys.Key → X → Tape → ℝ} {P : ℝ × ℝ → (X → ℝ≥0∞) → X → ℝ≥0∞} (hM : TuneLaw mv al P)
include hM

theorem TuneLaw.coded : MoveLaw (fun r => mv (code.symm r)) (fun r => P (code.symm r)) where
  measurable k := by
    have h := (hM.measurable k).comp (f := fun z : (ℝ × X) × Tape => ((code.symm z.1.1, z.1.2), z.2))
      (((code.symm.measurable.comp (measurable_fst.comp measurable_fst)).prodMk (measurable_snd.comp measurable_fst)).prodMk measurable_snd)
    exact h
  dependsOn r k x := hM.dependsOn _ k x
  law r k x _ hh := hM.law _ k x hh

omit hM [MeasurableSpace X] in
theorem cStep_coded (cat : (Fin n → ℝ) → ℝ → Fin n) (thr : ℝ) (κ : Keys.Key) (s : (ℝ × ℝ) × Red n X) (ω : Tape) :
    cStep cat thr mv κ s ω = (s.1.1, (aStep cat thr (fun r => mv (code.symm r)) κ (code s.1, s.2) ω).2) := by
  unfold cStep aStep
  simp only [MeasurableEquiv.symm_apply_apply]

theorem measurable_cStep {cat : (Fin n → ℝ) → ℝ → Fin n} (hcat : IsCategoricalReal cat) (thr : ℝ) (κ : Keys.Key) : Measurable fun z : ((ℝ × ℝ) × Red n X) × Tape => cStep cat thr mv κ z.1 z.2 := by
  have h1 : Measurable fun z : ((ℝ × ℝ) × Red n X) × Tape => ((code z.1.1, z.1.2), z.2) :=
    ((code.measurable.comp (measurable_fst.comp measurable_fst)).prodMk (measurable_snd.comp measurable_fst)).prodMk measurable_snd
  have h2 : Measurable fun z : ((ℝ × ℝ) × Red n X) × Tape => (aStep cat thr (fun r => mv (code.symm r)) κ (code z.1.1, z.1.2) z.2).2 :=
    measurable_snd.comp ((measurable_aStep hcat thr hM.coded κ).comp h1)
  simp only [cStep_coded]
  exact (measurable_fst.comp (measurable_fst.comp measurable_fst)).prodMk h2

theorem cStep_dependsOn (cat : (Fin n → ℝ) → ℝ → Fin n) (thr : ℝ) (κ : Keys.Key) (s : (ℝ × ℝ) × Red n X) : DependsOn (cStep cat thr mv κ s) (below κ \ below ((n + 1) :: κ)) := by
  intro ω ω' h
  simp only [cStep_coded]
  rw [aStep_dependsOn thr hM.coded κ _ h]

theorem measurable_accs {cat : (Fin n → ℝ) → ℝ → Fin n} (hcat : IsCategoricalReal cat) (thr : ℝ) (κ : Keys.Key) : Measurable fun z : ((ℝ × ℝ) × Red n X) × Tape => accs cat thr al κ z.1 z.2 := by
  refine measurable_pi_lambda _ fun i => ?_
  have hR : Measurable fun z : ((ℝ × ℝ) × Red n X) × Tape => (z.1.2, z.2) := (measurable_snd.comp measurable_fst).prodMk measurable_snd
  have h2 := (measurable_redValue (X := X) hcat (measurableSet_critLe (n := n) thr) (fun i => (n :: κ, (i : ℕ))) i).comp hR
  have h3 := (hM.al_measurable ((i : ℕ) :: κ)).comp (((measurable_fst.comp measurable_fst).prodMk h2).prodMk measurable_snd)
  exact h3

theorem accs_dependsOn (cat : (Fin n → ℝ) → ℝ → Fin n) (thr : ℝ) (κ : Keys.Key) (s : (ℝ × ℝ) × Red n X) : DependsOn (accs cat thr al κ s) (below κ \ below ((n + 1) :: κ)) := by
  intro ω ω' h
  funext i
  unfold accs
  have hs : ∀ t ∈ stepSites (n := n) (fun i => (n :: κ, (i : ℕ))) (fun i => below ((i : ℕ) :: κ)), ω t = ω' t := fun t ht => h t (smcSites κ ht)
  have e1 := redValue_dependsOn cat (critLe n thr) (fun i => (n :: κ, (i : ℕ))) s.2 i (x := ω) (y := ω') fun t ht => hs t ⟨i, Or.inl ht⟩
  simp only at e1
  rw [e1]
  exact hM.al_dependsOn _ _ _ fun t ht => hs t ⟨i, Or.inr ht⟩

variable {μ0 : Measure X} [IsProbabilityMeasure μ0] {lik : X → ℝ} (hlik : Measurable lik) {M W : ℝ} (hW0 : 0 ≤ W) (hW : ∀ T ∈ Set.Icc 0 M, ∀ x, Real.exp (-(T * lik x)) ≤ W)

include hlik hW in
/-- Moving at a stepsize chosen from the past. -/
theorem RunOK.tuned {κ : ℕ → Keys.Key} {A : ℝ} (hA : 0 ≤ A) {s : ∀ n, (Fin (n + 1) → X) × Tape → (ℝ × ℝ) × Red (n + 1) X} (hs : RunOK μ0 lik M κ A fun n z => ((s n z).1.1, (s n z).2))
    (hm : ∀ n, Measurable (s n)) (hd : ∀ n x, DependsOn (fun ω => s n (x, ω)) (below (κ n))ᶜ) {L U : ℝ} (hu : ∀ n z, (s n z).1.2 ∈ Set.Icc L U)
    {cat : ∀ n, (Fin (n + 1) → ℝ) → ℝ → Fin (n + 1)} (hcat : ∀ n, IsCategoricalReal (cat n)) (thr : ℝ)
    (hfam : ∀ (f : X → ℝ) (B : ℝ), Measurable f → (∀ x, 0 ≤ f x) → (∀ x, f x ≤ B) → NetFamily μ0 (Set.Icc 0 M ×ˢ Set.Icc L U) fun θ x => (P θ (fun x => ENNReal.ofReal (f x)) x).toReal)
    (hinv : ∀ θ {h : X → ℝ≥0∞}, Measurable h → ∫⁻ x, ENNReal.ofReal (Real.exp (-(θ.1 * lik x))) * P θ h x ∂μ0 = ∫⁻ x, ENNReal.ofReal (Real.exp (-(θ.1 * lik x))) * h x ∂μ0) :
    RunOK μ0 lik M (fun n => (n + 1 + 1) :: κ n) A fun n z => cStep (cat n) thr mv (κ n) (s n z) z.2 := by
  refine ⟨fun n => (measurable_cStep hM (hcat n) thr (κ n)).comp ((hm n).prodMk measurable_snd), fun n x ω ω' h => ?_, fun n z => ?_, hs.temp, fun f B hf hf0 hB => ?_⟩
  · have h1 := hd n x (fun t ht => h t fun h2 => ht (mem_below_cons h2) : ∀ t ∈ (below (κ n))ᶜ, ω t = ω' t)
    simp only at h1 ⊢
    rw [h1]
    exact cStep_dependsOn hM (cat n) thr (κ n) _ fun t ht => h t ht.2
  · have h5 : Spread A (aStep (cat n) thr (fun r => mv (code.symm r)) (κ n) (code (s n z).1, (s n z).2) z.2).2 :=
      spread_aStep (cat := cat n) (thr := thr) (mv := fun r => mv (code.symm r)) (κ := κ n) (s := (code (s n z).1, (s n z).2)) hA (hs.spread n z) z.2
    rw [cStep_coded]
    exact h5
  · obtain ⟨c, hc⟩ : ∃ c : ∀ n, (Fin (n + 1) → X) × Tape → ℝ × Red (n + 1) X, c = fun n z => (code (s n z).1, (s n z).2) := ⟨_, rfl⟩
    have hcm : ∀ n, Measurable (c n) := fun n => by
      rw [hc]
      exact (code.measurable.comp (measurable_fst.comp (hm n))).prodMk (measurable_snd.comp (hm n))
    have hcd : ∀ n x, DependsOn (fun ω => c n (x, ω)) (below (κ n))ᶜ := fun n x ω ω' h => by
      have := hd n x h
      simp only [hc] at this ⊢
      rw [this]
    have hcs : ∀ n z, Spread A (c n z).2 := fun n z => by rw [hc]; exact hs.spread n z
    have h1 := aStep_inProb (μ0 := μ0) hcat thr hM.coded κ hcm hcd hcs hf hf0 hB
    have h2 := hs.good.net hlik hW hs.temp (hfam f B hf hf0 hB) (u := fun n z => (s n z).1) fun n z => ⟨hs.temp n z, hu n z⟩
    have h3 := h1.add h2
    rw [add_zero] at h3
    refine h3.congr (Filter.Eventually.of_forall fun n z => ?_)
    have e : gam μ0 lik (s n z).1.1 (fun x => (P (s n z).1 (fun x => ENNReal.ofReal (f x)) x).toReal) = gam μ0 lik (s n z).1.1 f := by
      have hg : Measurable fun x => ENNReal.ofReal (f x) := ENNReal.measurable_ofReal.comp hf
      have hex : ∀ T : ℝ, Measurable fun x => Real.exp (-(T * lik x)) := fun T => Real.measurable_exp.comp (measurable_const.mul hlik).neg
      have hPf : ∀ x, P (s n z).1 (fun x => ENNReal.ofReal (f x)) x = ENNReal.ofReal (P (s n z).1 (fun x => ENNReal.ofReal (f x)) x).toReal := fun x => by
        have h4 := hM.coded.le hg (fun x => ENNReal.ofReal_le_ofReal (hB x)) (code (s n z).1) x
        simp only [MeasurableEquiv.symm_apply_apply] at h4
        exact (ENNReal.ofReal_toReal (ne_top_of_le_ne_top ENNReal.ofReal_ne_top h4)).symm
      have h := hinv (s n z).1 hg
      rw [lintegral_congr fun x => by rw [hPf x, ← ENNReal.ofReal_mul (Real.exp_pos _).le]] at h
      simp only [← ENNReal.ofReal_mul (Real.exp_pos _).le] at h
      unfold gam
      rw [integral_eq_lintegral_of_nonneg_ae (Filter.Eventually.of_forall fun x => mul_nonneg (Real.exp_pos _).le ((hfam f B hf hf0 hB).nonneg _ x)) ((hex _).mul ((hfam f B hf hf0 hB).measurable _)).aestronglyMeasurable,
        integral_eq_lintegral_of_nonneg_ae (Filter.Eventually.of_forall fun x => mul_nonneg (Real.exp_pos _).le (hf0 x)) ((hex _).mul hf).aestronglyMeasurable]
      exact congrArg ENNReal.toReal h
    have e2 : PR (fun r => P (code.symm r)) (code (s n z).1) f = fun x => (P (s n z).1 (fun x => ENNReal.ofReal (f x)) x).toReal := by
      funext x
      simp only [PR, MeasurableEquiv.symm_apply_apply]
    simp only [e, cStep_coded, hc, e2]
    ring

include hlik hW0 hW in
/-- The estimates after any number of updates. -/
theorem tRun_ok {cat : ∀ n, (Fin (n + 1) → ℝ) → ℝ → Fin (n + 1)} (hcat : ∀ n, IsCategoricalReal (cat n)) (thr : ℝ) (hM0 : 0 ≤ M)
    (hfam : ∀ (L U : ℝ) (f : X → ℝ) (B : ℝ), Measurable f → (∀ x, 0 ≤ f x) → (∀ x, f x ≤ B) → NetFamily μ0 (Set.Icc 0 M ×ˢ Set.Icc L U) fun θ x => (P θ (fun x => ENNReal.ofReal (f x)) x).toReal)
    (hinv : ∀ θ {h : X → ℝ≥0∞}, Measurable h → ∫⁻ x, ENNReal.ofReal (Real.exp (-(θ.1 * lik x))) * P θ h x ∂μ0 = ∫⁻ x, ENNReal.ofReal (Real.exp (-(θ.1 * lik x))) * h x ∂μ0)
    {nxt : ∀ n, ℕ → ℝ → (Fin (n + 1) → ℝ) → (Fin (n + 1) → ℝ) → ℝ}
    (hn : ∀ n k, Measurable fun z : ℝ × (Fin (n + 1) → ℝ) × (Fin (n + 1) → ℝ) => nxt n k z.1 z.2.1 z.2.2) (hnM : ∀ n k T lw l, T ≤ M → nxt n k T lw l ∈ Set.Icc T M)
    (target rm u0 : ℝ) (key : Keys.Key) (k : ℕ) :
    RunOK μ0 lik M (fun n => keyAt (n + 1) key k) (W ^ (k + 1)) (fun n z => ((tRun (cat n) thr mv al lik (nxt n) target rm u0 key z.1 k z.2).1.1, (tRun (cat n) thr mv al lik (nxt n) target rm u0 key z.1 k z.2).2)) ∧
    (∀ n, Measurable fun z : (Fin (n + 1) → X) × Tape => tRun (cat n) thr mv al lik (nxt n) target rm u0 key z.1 k z.2) ∧
    (∀ n x, DependsOn (fun ω => tRun (cat n) thr mv al lik (nxt n) target rm u0 key x k ω) (below (keyAt (n + 1) key k))ᶜ) ∧
    ∀ n (z : (Fin (n + 1) → X) × Tape), (tRun (cat n) thr mv al lik (nxt n) target rm u0 key z.1 k z.2).1.2 ∈ Set.Icc (u0 - k * (|rm| * (1 + |target|))) (u0 + k * (|rm| * (1 + |target|))) := by
  induction k with
  | zero =>
    have h := (start_ok μ0 lik hM0 (fun _ => key)).reweight hlik hW0 hW zero_le_one (fun n => hn n 0) (fun n => hnM n 0)
    rw [one_mul] at h
    rw [zero_add, pow_one]
    refine ⟨h, fun n => ?_, fun n x ω ω' _ => rfl, fun n z => by simp [tRun]⟩
    have h1 := h.measurable n
    exact ((measurable_fst.comp h1).prodMk measurable_const).prodMk (measurable_snd.comp h1)
  | succ k ih =>
    obtain ⟨h1, h2, h3, h4⟩ := ih
    have hc := RunOK.tuned hM hlik hW (by positivity) (s := fun n z => tRun (cat n) thr mv al lik (nxt n) target rm u0 key z.1 k z.2) h1 h2 h3 h4 hcat thr (hfam _ _) hinv
    have h := hc.reweight hlik hW0 hW (by positivity) (fun n => hn n (k + 1)) (fun n => hnM n (k + 1))
    rw [← pow_succ] at h
    have hmA : ∀ n, Measurable fun z : (Fin (n + 1) → X) × Tape => accs (cat n) thr al (keyAt (n + 1) key k) (tRun (cat n) thr mv al lik (nxt n) target rm u0 key z.1 k z.2) z.2 := fun n =>
      (measurable_accs hM (hcat n) thr (keyAt (n + 1) key k)).comp ((h2 n).prodMk measurable_snd)
    refine ⟨h, fun n => ?_, fun n x ω ω' hω => ?_, fun n z => ?_⟩
    · have h5 := h.measurable n
      have h6 := measurable_wMean.comp ((measurable_fst.comp (measurable_snd.comp (measurable_snd.comp h5))).prodMk (hmA n))
      have h7 : Measurable fun z : (Fin (n + 1) → X) × Tape => (tRun (cat n) thr mv al lik (nxt n) target rm u0 key z.1 (k + 1) z.2).1.2 :=
        (measurable_snd.comp (measurable_fst.comp (h2 n))).add ((h6.sub_const target).const_mul rm)
      exact ((measurable_fst.comp h5).prodMk h7).prodMk (measurable_snd.comp h5)
    · have e1 := h3 n x (fun t ht => hω t fun h2 => ht (mem_below_cons h2) : ∀ t ∈ (below (keyAt (n + 1) key k))ᶜ, ω t = ω' t)
      have hsub : ∀ t ∈ below (keyAt (n + 1) key k) \ below ((n + 1 + 1) :: keyAt (n + 1) key k), ω t = ω' t := fun t ht => hω t ht.2
      simp only at e1
      simp only [tRun, tStep, e1]
      rw [cStep_dependsOn hM (cat n) thr (keyAt (n + 1) key k) _ hsub, accs_dependsOn hM (cat n) thr (keyAt (n + 1) key k) _ hsub]
    · obtain ⟨a1, a2⟩ := h4 n z
      obtain ⟨b1, b2⟩ := wMean_mem ((bStep lik (nxt n (k + 1)) (cStep (cat n) thr mv (keyAt (n + 1) key k) (tRun (cat n) thr mv al lik (nxt n) target rm u0 key z.1 k z.2) z.2)).2.2.1)
        (v := accs (cat n) thr al (keyAt (n + 1) key k) (tRun (cat n) thr mv al lik (nxt n) target rm u0 key z.1 k z.2) z.2) fun i => hM.al_mem _ _ _ _
      obtain ⟨m, hm⟩ : ∃ m, m = wMean ((bStep lik (nxt n (k + 1)) (cStep (cat n) thr mv (keyAt (n + 1) key k) (tRun (cat n) thr mv al lik (nxt n) target rm u0 key z.1 k z.2) z.2)).2.2.1)
        (accs (cat n) thr al (keyAt (n + 1) key k) (tRun (cat n) thr mv al lik (nxt n) target rm u0 key z.1 k z.2) z.2) := ⟨_, rfl⟩
      rw [← hm] at b1 b2
      have e : (tRun (cat n) thr mv al lik (nxt n) target rm u0 key z.1 (k + 1) z.2).1.2 = (tRun (cat n) thr mv al lik (nxt n) target rm u0 key z.1 k z.2).1.2 + rm * (m - target) := by
        rw [hm]; rfl
      rw [e]
      have h8 : |rm * (m - target)| ≤ |rm| * (1 + |target|) := by
        rw [abs_mul]
        refine mul_le_mul_of_nonneg_left ?_ (abs_nonneg _)
        rw [abs_le]
        have := neg_abs_le target
        have := le_abs_self target
        constructor <;> linarith
      obtain ⟨h9, h10⟩ := abs_le.1 h8
      rw [Nat.cast_add, Nat.cast_one]
      constructor <;> linarith

end

end Mocat.Smc
