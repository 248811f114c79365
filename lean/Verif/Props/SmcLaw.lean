import Verif.Lemmas.SmcLaw
import Verif.Lemmas.TapeMoves
import Verif.Lemmas.NormalDraw
import Verif.Props.Smc
/-!
# C85: unbiased estimates of tempered SMC

The draws come from an ideal generator (`Verif.Spec.Tape`); the inner sampler is `RandomWalk` or `Underdamped` with `Metropolis`.
-/
namespace Mocat.Props
open Mocat Mocat.Smc Mocat.Ideal Mocat.Meas MeasureTheory
open Mocat.Mcmc (refreshMomenta decay hmcMap lfMap)
open scoped ENNReal

variable {n d : ℕ} {X ρ π : Type*} [NeZero n]

/-- A Metropolised SMC sampler on an ideal generator with tape `ω`, started with the key `key` from given initial values; `kern ω` is the inner sampler when its draws are read from `ω`. -/
noncomputable def tapeSmc (cat : (Fin n → ℝ) → ℝ → Fin n) (kern : Tape → Kernel Keys.Key π X ρ) (prior lik : X → ℝ) (c : Config) (p : Params) (par : π) (alpha0 : ℝ)
    (rest0 : ρ) (key : Keys.Key) (values : Fin n → X) (ω : Tape) : SmcSetup Keys.Key π X ρ n where
  splitN k i := (i : ℕ) :: k
  categorical k lw i := cat lw (ω (k, i))
  kernel := kern ω
  prior := prior
  lik := lik
  config := c
  params := p
  values := values
  alpha0 := alpha0
  rest0 := rest0
  extra0 := ⟨key, 0, par⟩

/-- `RandomWalk` with `Metropolis` on a tape. -/
noncomputable def rwTape (q : ℝ → ℝ) (prior lik : (Fin d → ℝ) → ℝ) (ω : Tape) : Kernel Keys.Key ℝ (Fin d → ℝ) ℝ :=
  rwKernel Keys.split Keys.split3 (normalAt q d ω) (fun k => ω (k, 0)) prior lik

/-- `Underdamped` with `Metropolis` on a tape; `prior` and `lik` return value and gradient. -/
noncomputable def udTape (q : ℝ → ℝ) (prior lik : (Fin d → ℝ) → ℝ × (Fin d → ℝ)) (L : ℕ) (ω : Tape) : Kernel Keys.Key Mcmc.UDParams (Fin d → ℝ) (Mcmc.LfState d × ℝ) :=
  udKernel Keys.split Keys.split3 Keys.splitN (normalAt q d ω) (fun k => ω (k, 0)) prior lik L

/-- Specification: the estimate a user forms from a weighted ensemble, `exp (log_norm_constant)` times the self-normalised weighted mean of `f`. -/
noncomputable def smcEstimate (f : X → ℝ≥0∞) (ens : Ensemble n X ρ) : ℝ≥0∞ :=
  ENNReal.ofReal (Real.exp (ens 0).logNorm) * ∑ i, ENNReal.ofReal (Real.exp (ens i).logWeight / ∑ j, Real.exp (ens j).logWeight) * f (ens i).mc.value

/-! ## Any inner sampler -/

/-- What is used of the inner sampler: `mv T k x ω` is the position to which `forward_proposal` with key `k` takes a particle at `x`. -/
structure InnerLaw [MeasurableSpace X] (kern : Tape → Kernel Keys.Key π X ρ) (prior lik : X → ℝ) (p : Params) (par : π) (mv : ℝ → Keys.Key → X → Tape → X)
    (P : ℝ → (X → ℝ≥0∞) → X → ℝ≥0∞) : Prop where
  tracks : ∀ ω, Smc.Kernel.Tracks (kern ω) prior lik
  startup : ∀ ω T s e, ((kern ω).startup T s e).2 = ⟨0 :: e.key, e.iter, e.params⟩
  value : ∀ ω T (particle : Particle X ρ) k' k i, (forwardProposal (kern ω) prior p T particle ⟨k', i, par⟩ k).mc.value = mv T k particle.mc.value ω
  measurable : ∀ T k, Measurable fun z : X × Tape => mv T k z.1 z.2
  dependsOn : ∀ T k x, DependsOn (mv T k x) (below k)
  law : ∀ T k x {h : X → ℝ≥0∞}, Measurable h → ∫⁻ ω, h (mv T k x ω) ∂ideal = P T h x
  op : ∀ T {h : X → ℝ≥0∞}, Measurable h → Measurable (P T h)

/-- The reduced state. -/
noncomputable def redOf (ens : Ensemble n X ρ) : Red n X := (fun i => (ens i).mc.value, fun i => (ens i).logWeight, (ens 0).logNorm)

theorem smcEstimate_eq (f : X → ℝ≥0∞) (ens : Ensemble n X ρ) : smcEstimate f ens = Q f (redOf ens) := by
  unfold smcEstimate Q redOf
  rw [Finset.mul_sum]
  refine Finset.sum_congr rfl fun i _ => ?_
  rw [← mul_assoc, ← ENNReal.ofReal_mul (Real.exp_pos _).le]

section
variable [MeasurableSpace X] {kern : Tape → Kernel Keys.Key π X ρ} {prior lik : X → ℝ} {p : Params} {par : π} {mv : ℝ → Keys.Key → X → Tape → X}
  {P : ℝ → (X → ℝ≥0∞) → X → ℝ≥0∞} (hI : InnerLaw kern prior lik p par mv P)
  (cat : (Fin n → ℝ) → ℝ → Fin n) (c : Config) (alpha0 : ℝ) (rest0 : ρ) (key : Keys.Key) (values : Fin n → X) (ω : Tape)
include hI

theorem tapeSmc_extra (k : ℕ) : ((tapeSmc cat kern prior lik c p par alpha0 rest0 key values ω).state k).2 = ⟨keyAt n (0 :: key) k, k, par⟩ := by
  induction k with
  | zero => exact hI.startup _ _ _ _
  | succ k ih =>
    rw [SmcSetup.state_succ, update_eq]
    change nextExtra _ _ = _
    rw [ih]
    simp [nextExtra, tapeSmc, keyAt]

theorem tapeSmc_succ (l : List ℝ) (hl : c.schedule = some l) (hne : ∀ j, scheduleAt l j ≠ 0) (k : ℕ) :
    redOf ((tapeSmc cat kern prior lik c p par alpha0 rest0 key values ω).state (k + 1)).1
      = smcStep cat p.essThresholdResample lik (scheduleAt l (k + 1) - scheduleAt l k)
        (mv (scheduleAt l k)) (keyAt n (0 :: key) k)
        (redOf ((tapeSmc cat kern prior lik c p par alpha0 rest0 key values ω).state k).1) ω := by
  set S := tapeSmc cat kern prior lik c p par alpha0 rest0 key values ω with hS
  have hki : Smc.Kernel.KeepsIter S.kernel := fun T s e => by
    change ((kern ω).startup T s e).2.iter = _
    rw [hI.startup]
  have htemp : S.temp k = scheduleAt l k := temp_schedule S hki rfl l hl k
  have hx : (S.state k).2 = ⟨keyAt n (0 :: key) k, k, par⟩ := tapeSmc_extra hI cat c alpha0 rest0 key values ω k
  have hsh := S.shared k
  set B := basis S.splitN S.categorical S.params (S.state k).1 (S.state k).2 with hB
  -- the resampling step
  have hbase : (∀ i, (B i).mc.value = redValue cat (critLe n p.essThresholdResample) (fun i => (n :: keyAt n (0 :: key) k, (i : ℕ))) (redOf (S.state k).1) ω i) ∧
      (fun i => (B i).logWeight) = redWeight (critLe n p.essThresholdResample) (redOf (S.state k).1) := by
    rcases basis_cases S.splitN S.categorical S.params (S.state k).1 (S.state k).2 with ⟨hc, hb⟩ | ⟨hc, hb⟩
    · rw [hsh.ess 0] at hc
      change (redOf (S.state k).1).2.1 ∈ critLe n p.essThresholdResample at hc
      rw [hB, hb]
      refine ⟨fun i => ?_, ?_⟩
      · unfold redValue
        rw [if_pos hc, hx]
        rfl
      · unfold redWeight
        rw [if_pos hc]
        rfl
    · rw [hsh.ess 0] at hc
      change (redOf (S.state k).1).2.1 ∉ critLe n p.essThresholdResample at hc
      rw [hB, hb]
      refine ⟨fun i => ?_, ?_⟩
      · unfold redValue
        rw [if_neg hc]
        rfl
      · unfold redWeight
        rw [if_neg hc]
        rfl
  obtain ⟨hv, hw⟩ := hbase
  have hbs := basis_shared (splitN := S.splitN) (categorical := S.categorical) (p := S.params) (e := (S.state k).2) hsh
  rw [← hB] at hbs
  -- the moves
  set M := moved S.splitN S.categorical S.kernel S.prior S.params (S.state k).1 (S.state k).2 with hM
  have hMv : ∀ i : Fin n, (M i).mc.value = mv (scheduleAt l k) ((i : ℕ) :: keyAt n (0 :: key) k) (B i).mc.value ω := fun i => by
    have : M i = forwardProposal (kern ω) prior p (scheduleAt l k) (B i)
        ⟨(n + 1) :: keyAt n (0 :: key) k, k + 1, par⟩ ((i : ℕ) :: keyAt n (0 :: key) k) := by
      have h1 : nextExtra S.splitN (S.state k).2 = ⟨(n + 1) :: keyAt n (0 :: key) k, k + 1, par⟩ := by
        rw [hx]; rfl
      have h2 : S.splitN (S.state k).2.key i.castSucc.castSucc = (i : ℕ) :: keyAt n (0 :: key) k := by
        rw [hx]; rfl
      rw [← htemp, ← h1, ← h2]
      rfl
    rw [this]
    exact hI.value ω _ _ _ _ _
  have hMl : ∀ i : Fin n, (M i).lik = lik (M i).mc.value := fun i =>
    (forward_tracks S.kernel prior lik (hI.tracks ω) p (S.temp k) (by rw [htemp]; exact hne k) (B i)
      (nextExtra S.splitN (S.state k).2) (S.splitN (S.state k).2.key i.castSucc.castSucc)).2
  have hnext : nextTemperature S.config S.params M (nextExtra S.splitN (S.state k).2) = scheduleAt l (k + 1) := by
    have : S.config.schedule = some l := hl
    simp only [nextTemperature, this, nextExtra, hx]
  have hB0 : (B 0).temperature = scheduleAt l k := by rw [hbs.2.1, ← htemp]; rfl
  have hup : S.state (k + 1) = adapt S.config S.params B M (nextExtra S.splitN (S.state k).2) := by
    rw [S.state_succ, update_eq]
  have hvm : (fun i : Fin n => (M i).mc.value) = fun i : Fin n => mv (scheduleAt l k) ((i : ℕ) :: keyAt n (0 :: key) k)
      (redValue cat (critLe n p.essThresholdResample) (fun i => (n :: keyAt n (0 :: key) k, (i : ℕ))) (redOf (S.state k).1) ω i) ω := by
    funext i; rw [hMv i, hv i]
  have hlw : (fun i => (B i).logWeight + -(scheduleAt l (k + 1) - scheduleAt l k) * (M i).lik) = fun i : Fin n =>
      redWeight (critLe n p.essThresholdResample) (redOf (S.state k).1) i + -(scheduleAt l (k + 1) - scheduleAt l k)
        * lik (mv (scheduleAt l k) ((i : ℕ) :: keyAt n (0 :: key) k)
      (redValue cat (critLe n p.essThresholdResample) (fun i => (n :: keyAt n (0 :: key) k, (i : ℕ))) (redOf (S.state k).1) ω i) ω) := by
    funext i
    rw [hMl i, congrFun hvm i, ← congrFun hw i]
  rw [hup]
  unfold smcStep redStep redOf
  simp only [adapt, hnext, hB0]
  rw [hlw, hw, hbs.2.2]
  refine Prod.ext ?_ rfl
  exact hvm

theorem tapeSmc_iter (l : List ℝ) (hl : c.schedule = some l) (hne : ∀ j, scheduleAt l j ≠ 0) (k : ℕ) :
    redOf ((tapeSmc cat kern prior lik c p par alpha0 rest0 key values ω).state k).1
      = redIter cat p.essThresholdResample lik (fun k => scheduleAt l (k + 1) - scheduleAt l k) (fun k => mv (scheduleAt l k)) (0 :: key)
        (values, fun i => -scheduleAt l 0 * lik (values i), lseMean fun i => -scheduleAt l 0 * lik (values i)) k ω := by
  induction k with
  | zero =>
    have h1 : nextTemperature c p (fun i : Fin n => (⟨⟨values i, prior (values i), alpha0, rest0⟩, prior (values i), lik (values i), 0, 0, n, lseMean fun _ : Fin n => 0⟩ : Particle X ρ))
        (⟨key, 0, par⟩ : Extra Keys.Key π) = scheduleAt l 0 := by
      simp only [nextTemperature, hl]
    unfold redIter redOf
    simp only [SmcSetup.state, bodyIter, Function.iterate_zero, id, SmcSetup.start, Smc.startup, tapeSmc]
    rw [h1]
    refine Prod.ext (funext fun i => ?_) rfl
    exact (hI.tracks ω).value _ _ _
  | succ k ih =>
    rw [tapeSmc_succ hI cat c alpha0 rest0 key values ω l hl hne k, ih]
    rfl

/-- Unbiased estimates, for any inner sampler that leaves the tempered laws invariant. -/
theorem smc_unbiased {cat : (Fin n → ℝ) → ℝ → Fin n} (hcat : IsCategoricalReal cat) (hlik : Measurable lik) (l : List ℝ) (hl : c.schedule = some l) (hne : ∀ j, scheduleAt l j ≠ 0)
    (μ0 : Measure X) (hinv : ∀ T {h : X → ℝ≥0∞}, Measurable h →
      ∫⁻ x, ENNReal.ofReal (Real.exp (-(T * lik x))) * P T h x ∂μ0 = ∫⁻ x, ENNReal.ofReal (Real.exp (-(T * lik x))) * h x ∂μ0)
    (P0 : Measure (Fin n → X)) (hP0 : ∀ i, P0.map (fun x => x i) = μ0) (k : ℕ) (f : X → ℝ≥0∞) (hf : Measurable f) :
    ∫⁻ x0, ∫⁻ ω, smcEstimate f ((tapeSmc cat kern prior lik c p par alpha0 rest0 key x0 ω).state k).1 ∂ideal ∂P0
      = ∫⁻ x, ENNReal.ofReal (Real.exp (-(scheduleAt l k * lik x))) * f x ∂μ0 := by
  simp_rw [smcEstimate_eq, tapeSmc_iter hI _ _ _ _ _ _ _ l hl hne]
  have hexp : ∀ T : ℝ, Measurable fun x => ENNReal.ofReal (Real.exp (-(T * lik x))) := fun T =>
    ENNReal.measurable_ofReal.comp (Real.measurable_exp.comp (measurable_const.mul hlik).neg)
  have hexp' : ∀ T : ℝ, Measurable fun x => ENNReal.ofReal (Real.exp (-T * lik x)) := fun T =>
    ENNReal.measurable_ofReal.comp (Real.measurable_exp.comp (measurable_const.mul hlik))
  induction k generalizing f with
  | zero =>
    have hn : (0 : ℝ) < n := by exact_mod_cast Nat.pos_of_ne_zero (NeZero.ne n)
    have e0 : ∀ x0 : Fin n → X, ∀ ω : Tape, Q f (redIter cat p.essThresholdResample lik (fun k => scheduleAt l (k + 1) - scheduleAt l k) (fun k => mv (scheduleAt l k)) (0 :: key)
        (x0, fun i => -scheduleAt l 0 * lik (x0 i), lseMean fun i => -scheduleAt l 0 * lik (x0 i)) 0 ω)
        = ∑ i : Fin n, ENNReal.ofReal (1 / n) * (ENNReal.ofReal (Real.exp (-(scheduleAt l 0 * lik (x0 i)))) * f (x0 i)) := by
      intro x0 ω
      unfold redIter Q
      refine Finset.sum_congr rfl fun i _ => ?_
      rw [← mul_assoc, ← ENNReal.ofReal_mul (by positivity)]
      congr 2
      simp only [lseMean, neg_mul]
      have hpos : (0 : ℝ) < ∑ j, Real.exp (-(scheduleAt l 0 * lik (x0 j))) := Finset.sum_pos (fun i _ => Real.exp_pos _) ⟨0, Finset.mem_univ _⟩
      rw [← Finset.mul_sum, Real.exp_log (by positivity)]
      field_simp
    simp_rw [e0]
    simp only [lintegral_const, measure_univ, mul_one]
    have hm : ∀ i : Fin n, Measurable fun x0 : Fin n → X => ENNReal.ofReal (Real.exp (-(scheduleAt l 0 * lik (x0 i)))) * f (x0 i) := fun i =>
      ((hexp _).mul hf).comp (measurable_pi_apply i)
    rw [lintegral_finsetSum _ fun i _ => (hm i).const_mul _]
    have e1 : ∀ i : Fin n, ∫⁻ x0, ENNReal.ofReal (1 / n) * (ENNReal.ofReal (Real.exp (-(scheduleAt l 0 * lik (x0 i)))) * f (x0 i)) ∂P0
        = ENNReal.ofReal (1 / n) * ∫⁻ x, ENNReal.ofReal (Real.exp (-(scheduleAt l 0 * lik x))) * f x ∂μ0 := fun i => by
      have m3 : Measurable fun x => ENNReal.ofReal (Real.exp (-(scheduleAt l 0 * lik x))) * f x := (hexp _).mul hf
      rw [lintegral_const_mul _ (hm i), ← hP0 i, lintegral_map m3 (measurable_pi_apply i)]
    rw [Finset.sum_congr rfl fun i _ => e1 i, Finset.sum_const, Finset.card_univ, Fintype.card_fin, nsmul_eq_mul, ← mul_assoc, ← ENNReal.ofReal_natCast,
      ← ENNReal.ofReal_mul hn.le, mul_one_div_cancel hn.ne', ENNReal.ofReal_one, one_mul]
  | succ k ih =>
    set T := scheduleAt l k
    set T' := scheduleAt l (k + 1)
    set g : X → ℝ≥0∞ := fun x => ENNReal.ofReal (Real.exp (-(T' - T) * lik x)) * f x with hg
    have hgm : Measurable g := (hexp' _).mul hf
    have hstep : ∀ x0 : Fin n → X, _ = _ := fun x0 =>
      lintegral_Q_succ hcat p.essThresholdResample hlik (fun k => scheduleAt l (k + 1) - scheduleAt l k) (mv := fun k => mv (scheduleAt l k))
        (fun t κ => hI.measurable _ κ) (fun t κ x => hI.dependsOn _ κ x) (P := fun t => P (scheduleAt l t)) (fun t κ x _ hh => hI.law _ κ x hh)
        (fun t _ hh => hI.op _ hh) (0 :: key)
        (x0, fun i => -scheduleAt l 0 * lik (x0 i), lseMean fun i => -scheduleAt l 0 * lik (x0 i)) k hf
    simp_rw [hstep]
    rw [ih _ (hI.op T hgm), hinv T hgm]
    refine lintegral_congr fun x => ?_
    rw [hg, ← mul_assoc, ← ENNReal.ofReal_mul (Real.exp_pos _).le, ← Real.exp_add]
    congr 3
    ring

omit hI [MeasurableSpace X] in
theorem smcEstimate_one (S : SmcSetup Keys.Key π X ρ n) (k : ℕ) (i : Fin n) :
    ENNReal.ofReal (Real.exp ((S.state k).1 i).logNorm) = smcEstimate (fun _ => 1) (S.state k).1 := by
  rw [(S.shared k).logNorm i]
  unfold smcEstimate
  simp only [mul_one]
  rw [← ENNReal.ofReal_sum_of_nonneg fun j _ => by positivity, ← Finset.sum_div, div_self, ENNReal.ofReal_one, mul_one]
  exact (Finset.sum_pos (fun i _ => Real.exp_pos _) ⟨0, Finset.mem_univ _⟩).ne'

end

omit [NeZero n] in
/-- Tempered integrals over the prior as integrals against `exp (-potential)`. -/
theorem tempered_eq {prior lik : (Fin d → ℝ) → ℝ} (hprior : Measurable prior) (hlik : Measurable lik) (a : ℝ≥0∞) (T : ℝ) {g : (Fin d → ℝ) → ℝ≥0∞} (hg : Measurable g) :
    ∫⁻ x, ENNReal.ofReal (Real.exp (-(T * lik x))) * g x ∂(a • volume.withDensity fun x => ENNReal.ofReal (Real.exp (-prior x)))
      = a * ∫⁻ x, g x ∂(volume.withDensity fun x => ENNReal.ofReal (Real.exp (-(prior x + T * lik x)))) := by
  rw [lintegral_smul_measure, smul_eq_mul]
  congr 1
  have m0 : Measurable fun x => ENNReal.ofReal (Real.exp (-(T * lik x))) :=
    ENNReal.measurable_ofReal.comp (Real.measurable_exp.comp (measurable_const.mul hlik).neg)
  have m1 : Measurable fun x => ENNReal.ofReal (Real.exp (-prior x)) := ENNReal.measurable_ofReal.comp (Real.measurable_exp.comp hprior.neg)
  have m2 : Measurable fun x => ENNReal.ofReal (Real.exp (-(prior x + T * lik x))) :=
    ENNReal.measurable_ofReal.comp (Real.measurable_exp.comp (hprior.add (measurable_const.mul hlik)).neg)
  have m3 : Measurable fun x => ENNReal.ofReal (Real.exp (-(T * lik x))) * g x := m0.mul hg
  rw [lintegral_withDensity_eq_lintegral_mul _ m1 m3, lintegral_withDensity_eq_lintegral_mul _ m2 hg]
  refine lintegral_congr fun x => ?_
  simp only [Pi.mul_apply]
  rw [← mul_assoc, ← ENNReal.ofReal_mul (Real.exp_pos _).le, ← Real.exp_add]
  congr 3
  ring

/-- The position after the inner chain, when one update moves the position by `step` with the draws of its key, whatever the other attributes. -/
theorem chain_value {D : Type*} (update : MState X ρ → Extra Keys.Key π → MState X ρ × Extra Keys.Key π) (par : π) (good : MState X ρ → Prop)
    (draw : Keys.Key → Tape → D) (next : Keys.Key → Keys.Key) (step : X → D → X) (ω : Tape)
    (h : ∀ s k i, good s → (update s ⟨k, i, par⟩).1.value = step s.value (draw k ω) ∧ (update s ⟨k, i, par⟩).2 = ⟨next k, i + 1, par⟩ ∧ good (update s ⟨k, i, par⟩).1)
    (m : ℕ) (s : MState X ρ) (k : Keys.Key) (i : ℕ) (hs : good s) :
    ((scan (fun (c : MState X ρ × Extra Keys.Key π) (_ : Unit) => let new := update c.1 c.2; (new, new.1)) (s, ⟨k, i, par⟩)
      (List.replicate m ())).2.getLastD s).value = tapeIter draw next step m k s.value ω := by
  induction m generalizing s k i with
  | zero => rfl
  | succ m ih =>
    obtain ⟨h1, h2, h3⟩ := h s k i hs
    set new := update s ⟨k, i, par⟩ with hnew
    have h4 := ih new.1 (next k) (i + 1) h3
    rw [← h2] at h4
    rw [List.replicate_succ]
    simp only [scan, tapeIter, List.getLastD_cons]
    rw [← h1, ← h4]

/-! ## RandomWalk -/

section
variable (q : ℝ → ℝ) (prior lik : (Fin d → ℝ) → ℝ) (p : Params) (step : ℝ)

/-- One update of the inner sampler. -/
theorem rwTape_update (ω : Tape) (T : ℝ) (s : MState (Fin d → ℝ) ℝ) (k : Keys.Key) (i : ℕ) (hs : s.potential = prior s.value + T * lik s.value) :
    ((rwTape q prior lik ω).update T s ⟨k, i, step⟩).1.value = rwMove Set.univ (fun x => prior x + T * lik x) step s.value (rwDraws q d k ω) ∧
    ((rwTape q prior lik ω).update T s ⟨k, i, step⟩).2 = ⟨Keys.rwNext k, i + 1, step⟩ := by
  have hpot : (fun (x : Fin d → ℝ) (_ : Keys.Key) => Fl.fin (prior x + T * lik x)) = fun x _ => Mcmc.potOn Set.univ (fun x => prior x + T * lik x) x := by
    funext x _; simp [Mcmc.potOn]
  have hst : (⟨⟨s.value, Fl.fin s.potential⟩, Fl.fin s.alpha, s.rest⟩ : Mcmc.State (Mcmc.RWPayload d)) = rwState Set.univ (fun x => prior x + T * lik x) s.value (Fl.fin s.alpha) s.rest := by
    simp [rwState, Mcmc.potOn, hs]
  obtain ⟨al', h⟩ := rwUpdate_eq Set.univ (fun x => prior x + T * lik x) Keys.split3 (normalAt q d ω) Keys.split (fun k => ω (k, 0)) s.value (Fl.fin s.alpha) s.rest k i step
  unfold rwUpdate at h
  rw [← hpot, ← hst] at h
  simp only [rwTape, rwKernel]
  rw [h]
  exact ⟨rfl, rfl⟩

theorem rwTape_inner (hq : IsNormalDraw q) (hprior : Measurable prior) (hlik : Measurable lik) :
    InnerLaw (rwTape q prior lik) prior lik p step
      (fun T k x ω => tapeIter (rwDraws q d) Keys.rwNext (rwMove Set.univ (fun x => prior x + T * lik x) step) p.mcmcSteps (0 :: k) x ω)
      (fun T => (stepOp ((stdNormal d).prod unif) (rwMove Set.univ (fun x => prior x + T * lik x) step))^[p.mcmcSteps]) where
  tracks ω := C42_randomWalk_tracks _ _ _ _ _ _
  startup ω T s e := rfl
  value ω T particle k' k i := by
    have h := C42_randomWalk_tracks Keys.split Keys.split3 (normalAt q d ω) (fun k => ω (k, 0)) prior lik
    refine chain_value ((rwTape q prior lik ω).update T) step (fun s => s.potential = prior s.value + T * lik s.value) (rwDraws q d) Keys.rwNext _ ω
      (fun s k i hs => ?_) p.mcmcSteps ((rwTape q prior lik ω).startup T particle.mc ⟨k, i, step⟩).1 (0 :: k) i rfl
    obtain ⟨h1, h2⟩ := rwTape_update q prior lik step ω T s k i hs
    exact ⟨h1, h2, h.update T s ⟨k, i, step⟩ hs⟩
  measurable T k := measurable_tapeIter (rwDraws_draws hq) (measurable_rwMove MeasurableSet.univ (hprior.add (measurable_const.mul hlik)) step) _ _
  dependsOn T k x ω ω' h := tapeIter_dependsOn (rwDraws_draws hq) _ _ _ _ fun s hs => h s (mem_below_cons hs)
  law T k x h hh := lintegral_tapeIter (rwDraws_draws hq) (measurable_rwMove MeasurableSet.univ (hprior.add (measurable_const.mul hlik)) step) _ _ _ hh
  op T h hh := measurable_stepOp_iterate (measurable_rwMove MeasurableSet.univ (hprior.add (measurable_const.mul hlik)) step) _ hh

end

/-- C85: with a fixed schedule of non-zero temperatures, initial values distributed as the prior (each one; they need not be independent) and an ideal generator, after every number of updates the estimate
`exp (log_norm_constant) * (weighted mean of f)` is unbiased for the integral of `f` times the tempered likelihood over the prior, for every non-negative measurable `f`, number of particles, dimension, stepsize, number of
inner MCMC steps and resampling threshold. Inner sampler: `RandomWalk`. -/
theorem C85_unbiased {cat : (Fin n → ℝ) → ℝ → Fin n} (hcat : IsCategoricalReal cat) {q : ℝ → ℝ} (hq : IsNormalDraw q) {prior lik : (Fin d → ℝ) → ℝ}
    (hprior : Measurable prior) (hlik : Measurable lik) (c : Config) (l : List ℝ) (hl : c.schedule = some l) (hne : ∀ j, scheduleAt l j ≠ 0)
    (p : Params) (step alpha0 rest0 : ℝ) (key : Keys.Key) (μ0 : Measure (Fin d → ℝ)) (a : ℝ≥0∞)
    (hμ : μ0 = a • volume.withDensity fun x => ENNReal.ofReal (Real.exp (-prior x))) (P0 : Measure (Fin n → Fin d → ℝ)) (hP0 : ∀ i, P0.map (fun x => x i) = μ0)
    (k : ℕ) (f : (Fin d → ℝ) → ℝ≥0∞) (hf : Measurable f) :
    ∫⁻ x0, ∫⁻ ω, smcEstimate f ((tapeSmc cat (rwTape q prior lik) prior lik c p step alpha0 rest0 key x0 ω).state k).1 ∂ideal ∂P0
      = ∫⁻ x, ENNReal.ofReal (Real.exp (-(scheduleAt l k * lik x))) * f x ∂μ0 := by
  refine smc_unbiased (rwTape_inner q prior lik p step hq hprior hlik) c alpha0 rest0 key hcat hlik l hl hne μ0 (fun T h hh => ?_) P0 hP0 k f hf
  have hV : Measurable fun x => prior x + T * lik x := hprior.add (measurable_const.mul hlik)
  have hs := measurable_rwMove MeasurableSet.univ hV step
  have htg : target Set.univ (fun x => prior x + T * lik x) = volume.withDensity fun x => ENNReal.ofReal (Real.exp (-(prior x + T * lik x))) := by
    unfold target; simp
  rw [hμ, tempered_eq hprior hlik a T (measurable_stepOp_iterate hs _ hh), tempered_eq hprior hlik a T hh, ← htg]
  congr 1
  exact stepOp_invariant hs (fun f hf => rwMove_invariant MeasurableSet.univ hV step f hf) _ hh

/-- C85: in particular `exp (log_norm_constant)` is an unbiased estimate of the normalising constant of the tempered posterior relative to the prior. -/
theorem C85_norm {cat : (Fin n → ℝ) → ℝ → Fin n} (hcat : IsCategoricalReal cat) {q : ℝ → ℝ} (hq : IsNormalDraw q) {prior lik : (Fin d → ℝ) → ℝ}
    (hprior : Measurable prior) (hlik : Measurable lik) (c : Config) (l : List ℝ) (hl : c.schedule = some l) (hne : ∀ j, scheduleAt l j ≠ 0)
    (p : Params) (step alpha0 rest0 : ℝ) (key : Keys.Key) (μ0 : Measure (Fin d → ℝ)) (a : ℝ≥0∞)
    (hμ : μ0 = a • volume.withDensity fun x => ENNReal.ofReal (Real.exp (-prior x))) (P0 : Measure (Fin n → Fin d → ℝ)) (hP0 : ∀ i, P0.map (fun x => x i) = μ0)
    (k : ℕ) (i : Fin n) :
    ∫⁻ x0, ∫⁻ ω, ENNReal.ofReal (Real.exp (((tapeSmc cat (rwTape q prior lik) prior lik c p step alpha0 rest0 key x0 ω).state k).1 i).logNorm) ∂ideal ∂P0
      = ∫⁻ x, ENNReal.ofReal (Real.exp (-(scheduleAt l k * lik x))) ∂μ0 := by
  have h := C85_unbiased hcat hq hprior hlik c l hl hne p step alpha0 rest0 key μ0 a hμ P0 hP0 k (fun _ => 1) measurable_const
  simp only [mul_one] at h
  rw [← h]
  exact lintegral_congr fun x0 => lintegral_congr fun ω => smcEstimate_one _ k i

/-! ## Underdamped -/

/-- Underdamped with Metropolis meets the contract of C42. -/
theorem C42_underdamped_tracks {K : Type*} (split : K → K × K) (split3 : Mcmc.Split3 K) (splitN : K → ℕ → K × List K) (normal : K → Fin d → ℝ) (uniform : K → ℝ)
    (prior lik : (Fin d → ℝ) → ℝ × (Fin d → ℝ)) (L : ℕ) :
    Smc.Kernel.Tracks (udKernel split split3 splitN normal uniform prior lik L) (fun x => (prior x).1) (fun x => (lik x).1) := by
  refine ⟨fun _ _ _ => rfl, fun _ _ _ => rfl, fun T s e hs => ?_⟩
  have hfold : ∀ (ε : ℝ) (keys : List K) (t : Mcmc.LfState d), t.potential = (prior t.value).1 + T * (lik t.value).1 →
      (keys.foldl (fun s k => (Mcmc.leapfrogStep (fun x _ => prior x) (fun x _ => lik x) ε T s k).1) t).potential
        = (prior (keys.foldl (fun s k => (Mcmc.leapfrogStep (fun x _ => prior x) (fun x _ => lik x) ε T s k).1) t).value).1
          + T * (lik (keys.foldl (fun s k => (Mcmc.leapfrogStep (fun x _ => prior x) (fun x _ => lik x) ε T s k).1) t).value).1 := by
    intro ε keys
    induction keys with
    | nil => exact fun t ht => ht
    | cons k ks ih => exact fun t _ => ih _ rfl
  set s' : Mcmc.State (Mcmc.LfState d) := ⟨{ s.rest.1 with value := s.value, potential := s.potential }, Fl.fin s.alpha, s.rest.2⟩
  set smp := Mcmc.underdamped split splitN normal (fun x _ => prior x) (fun x _ => lik x) T L with hsmp
  set al := smp.always s' { e with iter := e.iter + 1 } with hal
  obtain ⟨a, -, h1, h2⟩ := C14_all_or_nothing split uniform smp al.1 al.2 (smp.proposal al.1 al.2).1 (smp.proposal al.1 al.2).2
  have hupd : Mcmc.update smp (Mcmc.metropolis split uniform) s' e
    = Mcmc.metropolis split uniform smp al.1 al.2 (smp.proposal al.1 al.2).1 (smp.proposal al.1 al.2).2 := rfl
  change (Mcmc.update smp (Mcmc.metropolis split uniform) s' e).1.payload.potential
    = (prior (Mcmc.update smp (Mcmc.metropolis split uniform) s' e).1.payload.value).1
      + T * (lik (Mcmc.update smp (Mcmc.metropolis split uniform) s' e).1.payload.value).1
  rw [hupd]
  by_cases hacc : Fl.lt (Fl.fin (uniform (split (smp.proposal al.1 al.2).2.key).2)) a
  · rw [h1 hacc]
    have := hfold al.2.params.stepsize (splitN al.2.key L).2 al.1.payload hs
    rw [← Mcmc.leapfrog_last] at this
    exact this
  · rw [h2 hacc]; exact hs

section
variable (q : ℝ → ℝ) (prior lik : (Fin d → ℝ) → ℝ × (Fin d → ℝ)) (L : ℕ) (p : Params) (u : Mcmc.UDParams)

/-- One update of the inner sampler. -/
theorem udTape_update (ω : Tape) (T : ℝ) (hf : u.friction = none) (s : MState (Fin d → ℝ) (Mcmc.LfState d × ℝ)) (k : Keys.Key) (i : ℕ)
    (hs : { s.rest.1 with value := s.value, potential := s.potential } = stateAt prior lik T s.value s.rest.1.momenta) :
    ((udTape q prior lik L ω).update T s ⟨k, i, u⟩).1.value = udMove prior lik T L u s.value (udDrawsAt q d k ω) ∧
    ((udTape q prior lik L ω).update T s ⟨k, i, u⟩).2 = ⟨Keys.udNext k, i + 1, u⟩ ∧
    (let s' := ((udTape q prior lik L ω).update T s ⟨k, i, u⟩).1
     { s'.rest.1 with value := s'.value, potential := s'.potential } = stateAt prior lik T s'.value s'.rest.1.momenta) := by
  obtain ⟨al', h⟩ := udUpdate_eq prior lik T L Keys.split Keys.splitN (normalAt q d ω) (fun k => ω (k, 0)) (fun k => by simp [Keys.splitN])
    (s.value, s.rest.1.momenta) (Fl.fin s.alpha) s.rest.2 k i u
  unfold udUpdate udState at h
  rw [← hs] at h
  simp only [udTape, udKernel]
  rw [h]
  exact ⟨udStep_fst prior lik T L u hf _ _, rfl, rfl⟩

theorem udTape_inner (hq : IsNormalDraw q) (hprior : Measurable prior) (hlik : Measurable lik) (hf : u.friction = none) :
    InnerLaw (udTape q prior lik L) (fun x => (prior x).1) (fun x => (lik x).1) p u
      (fun T k x ω => tapeIter (udDrawsAt q d) Keys.udNext (udMove prior lik T L u) p.mcmcSteps (0 :: k) x ω)
      (fun T => (stepOp ((stdNormal d).prod unif) (udMove prior lik T L u))^[p.mcmcSteps]) := by
  have hg : ∀ T, Measurable (gradField prior lik T) := fun T => by unfold gradField; fun_prop
  have hU : ∀ T, Measurable (potAt prior lik T) := fun T => by unfold potAt; fun_prop
  refine ⟨fun ω => C42_underdamped_tracks _ _ _ _ _ _ _ _, fun _ _ _ _ => rfl, ?_, ?_, ?_, ?_, ?_⟩
  · intro ω T particle k' k i
    exact chain_value ((udTape q prior lik L ω).update T) u
      (fun s => { s.rest.1 with value := s.value, potential := s.potential } = stateAt prior lik T s.value s.rest.1.momenta) (udDrawsAt q d) Keys.udNext _ ω
      (fun s k i hs => udTape_update q prior lik L u ω T hf s k i hs) p.mcmcSteps ((udTape q prior lik L ω).startup T particle.mc ⟨k, i, u⟩).1 (0 :: k) i rfl
  · exact fun T k => measurable_tapeIter (udDrawsAt_draws hq) (measurable_udMove (hg T) (hU T) L u) _ _
  · exact fun T k x ω ω' h => tapeIter_dependsOn (udDrawsAt_draws hq) _ _ _ _ fun s hs => h s (mem_below_cons hs)
  · exact fun T k x h hh => lintegral_tapeIter (udDrawsAt_draws hq) (measurable_udMove (hg T) (hU T) L u) _ _ _ hh
  · exact fun T h hh => measurable_stepOp_iterate (measurable_udMove (hg T) (hU T) L u) _ hh

end

/-- C85 for the inner sampler `Underdamped` with infinite friction (its default), any number of leapfrog steps, any measurable gradient fields and any initial momenta. -/
theorem C85_underdamped_partial {cat : (Fin n → ℝ) → ℝ → Fin n} (hcat : IsCategoricalReal cat) {q : ℝ → ℝ} (hq : IsNormalDraw q) {prior lik : (Fin d → ℝ) → ℝ × (Fin d → ℝ)}
    (hprior : Measurable prior) (hlik : Measurable lik) (c : Config) (l : List ℝ) (hl : c.schedule = some l) (hne : ∀ j, scheduleAt l j ≠ 0)
    (p : Params) (L : ℕ) (stepsize : ℝ) (hε : 0 < stepsize) (alpha0 : ℝ) (rest0 : Mcmc.LfState d × ℝ) (key : Keys.Key) (μ0 : Measure (Fin d → ℝ)) (a : ℝ≥0∞)
    (hμ : μ0 = a • volume.withDensity fun x => ENNReal.ofReal (Real.exp (-(prior x).1))) (P0 : Measure (Fin n → Fin d → ℝ)) (hP0 : ∀ i, P0.map (fun x => x i) = μ0)
    (k : ℕ) (f : (Fin d → ℝ) → ℝ≥0∞) (hf : Measurable f) :
    ∫⁻ x0, ∫⁻ ω, smcEstimate f ((tapeSmc cat (udTape q prior lik L) (fun x => (prior x).1) (fun x => (lik x).1) c p ⟨stepsize, none⟩ alpha0 rest0 key x0 ω).state k).1 ∂ideal ∂P0
      = ∫⁻ x, ENNReal.ofReal (Real.exp (-(scheduleAt l k * (lik x).1))) * f x ∂μ0 := by
  refine smc_unbiased (udTape_inner q prior lik L p ⟨stepsize, none⟩ hq hprior hlik rfl) c alpha0 rest0 key hcat (measurable_fst.comp hlik) l hl hne μ0 (fun T h hh => ?_) P0 hP0 k f hf
  have hg : Measurable (gradField prior lik T) := by unfold gradField; fun_prop
  have hU : Measurable (potAt prior lik T) := by unfold potAt; fun_prop
  have hs := measurable_udMove hg hU L ⟨stepsize, none⟩
  have hp1 : Measurable fun x => (prior x).1 := measurable_fst.comp hprior
  have hl1 : Measurable fun x => (lik x).1 := measurable_fst.comp hlik
  rw [hμ, tempered_eq hp1 hl1 a T (measurable_stepOp_iterate hs _ hh), tempered_eq hp1 hl1 a T hh]
  congr 1
  exact stepOp_invariant hs (fun f hf => udMove_invariant hg hU L ⟨stepsize, none⟩ rfl hε f hf) _ hh

/-- Almost surely all uniforms are below 1. -/
theorem ae_lt_one : ∀ᵐ ω ∂ideal, ∀ s : Site, ω s < 1 := by
  rw [ae_all_iff]
  intro s
  have h := (measurePreserving_eval_infinitePi (fun _ : Site => unif) s)
  have h1 : ∀ᵐ u ∂unif, u < 1 := by
    unfold unif
    filter_upwards [ae_restrict_mem measurableSet_Ico] with u hu using hu.2
  exact h.quasiMeasurePreserving.ae h1

/-- C85 fails for `Underdamped` with finite friction: momenta start at zero, which is not their stationary law, and are not drawn afresh. Witness: standard normal prior, constant likelihood, friction 0,
stepsize `sqrt 2`, one leapfrog step, one inner step: after the first update every particle sits at the origin, so the estimate of the probability of not being at the origin is 0 instead of 1. -/
theorem C85_fails_finite_friction (cat : (Fin n → ℝ) → ℝ → Fin n) (q : ℝ → ℝ) (key : Keys.Key) (p : Params) (hp : p.mcmcSteps = 1) (alpha0 t : ℝ) (maxT : ℝ) (maxIter : ℤ) :
    ∫⁻ x0, ∫⁻ ω, smcEstimate (({0}ᶜ : Set (Fin 1 → ℝ)).indicator 1) ((tapeSmc cat (udTape (d := 1) q (fun x => (x 0 ^ 2 / 2, x)) (fun _ => (0, 0)) 1) (fun x => x 0 ^ 2 / 2) (fun _ => 0)
        ⟨some [1], maxT, maxIter⟩ p ⟨Real.sqrt 2, some 0⟩ alpha0 (⟨0, 0, 0, 0, 0, 0, 0, 0⟩, t) key x0 ω).state 1).1 ∂ideal ∂(Measure.pi fun _ : Fin n => stdNormal 1) = 0 ∧
    ∫⁻ x, ENNReal.ofReal (Real.exp (-(scheduleAt [1] 1 * 0))) * ({0}ᶜ : Set (Fin 1 → ℝ)).indicator 1 x ∂(stdNormal 1) = 1 := by
  constructor
  · refine (lintegral_congr fun x0 => ?_).trans lintegral_zero
    refine (lintegral_congr_ae ?_).trans lintegral_zero
    filter_upwards [ae_lt_one] with ω hω
    set S := tapeSmc cat (udTape (d := 1) q (fun x => (x 0 ^ 2 / 2, x)) (fun _ => (0, 0)) 1) (fun x => x 0 ^ 2 / 2) (fun _ => 0)
        ⟨some [1], maxT, maxIter⟩ p ⟨Real.sqrt 2, some 0⟩ alpha0 (⟨0, 0, 0, 0, 0, 0, 0, 0⟩, t) key x0 ω with hS
    have hmom0 : ∀ i, ((S.state 0).1 i).mc.rest.1.momenta = 0 := fun i => rfl
    have hmom : ∀ i, (basis S.splitN S.categorical S.params (S.state 0).1 (S.state 0).2 i).mc.rest.1.momenta = 0 := by
      intro i
      rcases basis_cases S.splitN S.categorical S.params (S.state 0).1 (S.state 0).2 with ⟨-, hb⟩ | ⟨-, hb⟩ <;> rw [hb]
      · exact hmom0 _
      · exact hmom0 _
    have hv : ∀ i, ((S.state 1).1 i).mc.value = 0 := by
      intro i
      have h1 : ((S.state 1).1 i).mc.value = (forwardProposal (udTape (d := 1) q (fun x => (x 0 ^ 2 / 2, x)) (fun _ => (0, 0)) 1 ω) (fun x => x 0 ^ 2 / 2) p (S.temp 0)
          (basis S.splitN S.categorical S.params (S.state 0).1 (S.state 0).2 i) (nextExtra S.splitN (S.state 0).2) (S.splitN (S.state 0).2.key i.castSucc.castSucc)).mc.value := rfl
      rw [h1]
      have hmi := hmom i
      generalize basis S.splitN S.categorical S.params (S.state 0).1 (S.state 0).2 i = b at hmi
      generalize S.splitN (S.state 0).2.key i.castSucc.castSucc = k
      have he : nextExtra S.splitN (S.state 0).2 = ⟨(n + 1) :: 0 :: key, 1, Real.sqrt 2, some 0⟩ := rfl
      rw [he]
      generalize S.temp 0 = T
      obtain ⟨al', h⟩ := udUpdate_eq (fun x => (x 0 ^ 2 / 2, x)) (fun _ => (0, 0)) T 1 Keys.split Keys.splitN (normalAt q 1 ω) (fun k => ω (k, 0)) (fun k => by simp [Keys.splitN])
        (b.mc.value, b.mc.rest.1.momenta) (Fl.fin 1) b.mc.rest.2 (0 :: k) 1 ⟨Real.sqrt 2, some 0⟩
      unfold udUpdate udState at h
      have h2 : (forwardProposal (udTape (d := 1) q (fun x => (x 0 ^ 2 / 2, x)) (fun _ => (0, 0)) 1 ω) (fun x => x 0 ^ 2 / 2) p T b ⟨(n + 1) :: 0 :: key, 1, Real.sqrt 2, some 0⟩ k).mc.value
          = (udStep (fun x : Fin 1 → ℝ => (x 0 ^ 2 / 2, x)) (fun _ => (0, 0)) T 1 ⟨Real.sqrt 2, some 0⟩ (b.mc.value, b.mc.rest.1.momenta) (udDrawsAt q 1 (0 :: k) ω)).1 := by
        simp only [forwardProposal, hp, List.replicate_succ, List.replicate_zero, scan, udTape, udKernel]
        exact congrArg (fun r => r.1.payload.value) h
      rw [h2, hmi]
      have hr : refreshMomenta (d := 1) ⟨Real.sqrt 2, some 0⟩ 0 (udDrawsAt q 1 (0 :: k) ω).1 = 0 := by
        funext i
        simp [refreshMomenta, decay]
      have hsq : Real.sqrt 2 * Real.sqrt 2 = 2 := Real.mul_self_sqrt (by norm_num)
      have hm : (hmcMap (Real.sqrt 2) (gradField (fun x : Fin 1 → ℝ => (x 0 ^ 2 / 2, x)) (fun _ => (0, 0)) T) 1 (b.mc.value, 0))
          = (0, fun i => Real.sqrt 2 / 2 * b.mc.value i) := by
        have h0 : ∀ i, b.mc.value i + Real.sqrt 2 * (0 - Real.sqrt 2 / 2 * b.mc.value i) = 0 := fun i => by linear_combination (-b.mc.value i / 2) * hsq
        simp only [hmcMap, Function.iterate_one, lfMap, gradField, Mcmc.flip, Pi.zero_apply, mul_zero, add_zero, h0]
        refine Prod.ext rfl (funext fun i => ?_)
        simp
      have hE : energy (fun x : Fin 1 → ℝ => (x 0 ^ 2 / 2, x)) (fun _ => (0, 0)) T (0, fun i => Real.sqrt 2 / 2 * b.mc.value i)
          ≤ energy (fun x : Fin 1 → ℝ => (x 0 ^ 2 / 2, x)) (fun _ => (0, 0)) T (b.mc.value, 0) := by
        have e2 : (Real.sqrt 2 / 2 * b.mc.value 0) ^ 2 = b.mc.value 0 ^ 2 / 2 := by linear_combination (b.mc.value 0 ^ 2 / 4) * hsq
        simp only [energy, potAt, Gaussian.gaussianPotentialDefault, Gaussian.gaussianPotential, Gaussian.defaultPrec,
          Gaussian.PArg.expand, Gaussian.defaultDet, Gaussian.negLogZ, Gaussian.mvGaussianPotentialDiag]
        simp
        nlinarith [sq_nonneg (b.mc.value 0)]
      have hacc : (udDrawsAt q 1 (0 :: k) ω).2 < min 1 (Real.exp (-energy (fun x : Fin 1 → ℝ => (x 0 ^ 2 / 2, x)) (fun _ => (0, 0)) T (0, fun i => Real.sqrt 2 / 2 * b.mc.value i)
          + energy (fun x : Fin 1 → ℝ => (x 0 ^ 2 / 2, x)) (fun _ => (0, 0)) T (b.mc.value, 0))) := by
        rw [min_eq_left (Real.one_le_exp (by linarith))]
        exact hω _
      unfold udStep
      simp only [hr, hm]
      rw [if_pos hacc]
    unfold smcEstimate
    simp [hv]
  · simp only [mul_zero, neg_zero, Real.exp_zero, ENNReal.ofReal_one, one_mul]
    rw [lintegral_indicator_one (MeasurableSet.singleton _).compl, prob_compl_eq_one_sub (MeasurableSet.singleton _)]
    have : stdNormal 1 {0} = 0 := by
      have : NullSingletonClass (ProbabilityTheory.gaussianReal 0 1) := ProbabilityTheory.nullSingletonClass_gaussianReal one_ne_zero
      unfold stdNormal
      rw [Measure.pi_singleton]
      simp
    rw [this, tsub_zero]

/-- A case of `C85_underdamped_partial`: three particles in two dimensions, a normal prior, a quartic likelihood with its gradient, five leapfrog steps, momenta that start at zero. -/
example : ∃ (cat : (Fin 3 → ℝ) → ℝ → Fin 3) (q : ℝ → ℝ), ∀ (key : Keys.Key) (k : ℕ) (f : (Fin 2 → ℝ) → ℝ≥0∞), Measurable f →
    ∫⁻ x0, ∫⁻ ω, smcEstimate f ((tapeSmc cat (udTape (d := 2) q (fun x => (x 0 ^ 2 / 2 + x 1 ^ 2 / 2, x)) (fun x => (x 0 ^ 4, fun i => if i = 0 then 4 * x 0 ^ 3 else 0)) 5)
        (fun x => x 0 ^ 2 / 2 + x 1 ^ 2 / 2) (fun x => x 0 ^ 4) ⟨some [1 / 2, 1], 1, 2⟩ ⟨3, 0.9, 0.5, 0.00001, 1000⟩ ⟨0.1, none⟩ 1 (⟨0, 0, 0, 0, 0, 0, 0, 0⟩, 0) key
        x0 ω).state k).1 ∂ideal ∂(Measure.pi fun _ : Fin 3 => stdNormal 2)
      = ∫⁻ x, ENNReal.ofReal (Real.exp (-(scheduleAt [1 / 2, 1] k * x 0 ^ 4))) * f x ∂(stdNormal 2) := by
  obtain ⟨q, hq⟩ := exists_isNormalDraw
  refine ⟨invCdfReal, q, fun key k f hf => ?_⟩
  have hne : ∀ j, scheduleAt [1 / 2, 1] j ≠ 0 := by
    intro j
    rcases j with _ | j
    · simp [scheduleAt]
    · simp [scheduleAt]
  refine C85_underdamped_partial (n := 3) (d := 2) isCategoricalReal_invCdfReal hq (prior := fun x => (x 0 ^ 2 / 2 + x 1 ^ 2 / 2, x)) (lik := fun x => (x 0 ^ 4, fun i => if i = 0 then 4 * x 0 ^ 3 else 0))
    (by fun_prop) ?_ ⟨some [1 / 2, 1], 1, 2⟩ [1 / 2, 1] rfl hne ⟨3, 0.9, 0.5, 0.00001, 1000⟩ 5 0.1 (by norm_num) 1 _ key (stdNormal 2) (ENNReal.ofReal ((Real.sqrt (2 * Real.pi))⁻¹ ^ 2)) ?_
    (Measure.pi fun _ : Fin 3 => stdNormal 2) (fun i => ?_) k f hf
  · refine Measurable.prodMk (by fun_prop) (measurable_pi_lambda _ fun i => ?_)
    by_cases h : i = 0
    · simp only [h, if_true]; fun_prop
    · simp only [h, if_false]; fun_prop
  · rw [stdNormal_eq_withDensity, ← withDensity_smul _ (by fun_prop)]
    congr 1
    funext x
    simp only [Fin.prod_univ_two, Pi.smul_apply, smul_eq_mul]
    rw [← ENNReal.ofReal_mul (by positivity), ProbabilityTheory.gaussianPDFReal, ProbabilityTheory.gaussianPDFReal]
    congr 1
    simp only [NNReal.coe_one, mul_one, sub_zero]
    rw [mul_mul_mul_comm, ← Real.exp_add, ← sq ((Real.sqrt (2 * Real.pi))⁻¹), show -x 0 ^ 2 / 2 + -x 1 ^ 2 / 2 = -(x 0 ^ 2 / 2 + x 1 ^ 2 / 2) by ring]
  · exact (measurePreserving_eval (fun _ : Fin 3 => stdNormal 2) i).map_eq

/-- A case: two particles from a standard normal prior in one dimension, a Gaussian likelihood, schedule `[1/2, 1]`, three inner steps. -/
example : ∃ (cat : (Fin 2 → ℝ) → ℝ → Fin 2) (q : ℝ → ℝ), IsCategoricalReal cat ∧ IsNormalDraw q ∧ ∀ key,
    ∫⁻ x0, ∫⁻ ω, ENNReal.ofReal (Real.exp (((tapeSmc cat (rwTape (d := 1) q (fun x => x 0 ^ 2 / 2) (fun x => (x 0 - 1) ^ 2 / 2)) (fun x => x 0 ^ 2 / 2) (fun x => (x 0 - 1) ^ 2 / 2) ⟨some [1 / 2, 1], 1, 2⟩ ⟨3, 0.9, 0.5, 0.00001, 1000⟩ 1 1 0 key
        x0 ω).state 1).1 0).logNorm) ∂ideal ∂(Measure.pi fun _ : Fin 2 => stdNormal 1)
      = ∫⁻ x, ENNReal.ofReal (Real.exp (-((x 0 - 1) ^ 2 / 2))) ∂(stdNormal 1) := by
  obtain ⟨q, hq⟩ := exists_isNormalDraw
  refine ⟨invCdfReal, q, isCategoricalReal_invCdfReal, hq, fun key => ?_⟩
  have hne : ∀ j, scheduleAt [1 / 2, 1] j ≠ 0 := by
    intro j
    rcases j with _ | j
    · simp [scheduleAt]
    · simp [scheduleAt]
  have h := C85_norm (n := 2) (d := 1) isCategoricalReal_invCdfReal hq (prior := fun x => x 0 ^ 2 / 2) (lik := fun x => (x 0 - 1) ^ 2 / 2) (by fun_prop) (by fun_prop)
    ⟨some [1 / 2, 1], 1, 2⟩ [1 / 2, 1] rfl hne ⟨3, 0.9, 0.5, 0.00001, 1000⟩ 1 1 0 key (stdNormal 1) (ENNReal.ofReal (Real.sqrt (2 * Real.pi))⁻¹) ?_
    (Measure.pi fun _ : Fin 2 => stdNormal 1) (fun i => ?_) 1 0
  · rw [h]
    simp [scheduleAt]
  · rw [stdNormal_eq_withDensity, ← withDensity_smul _ (by fun_prop)]
    congr 1
    funext x
    simp only [Finset.univ_unique, Finset.prod_singleton, Pi.smul_apply, smul_eq_mul]
    rw [← ENNReal.ofReal_mul (by positivity), ProbabilityTheory.gaussianPDFReal]
    congr 1
    simp
    exact Or.inl (by ring)
  · exact (measurePreserving_eval (fun _ : Fin 2 => stdNormal 1) i).map_eq

end Mocat.Props
