import Verif.Lemmas.Adaptation
import Verif.Props.AcceptanceRate
import Mathlib.Analysis.SpecialFunctions.Pow.Asymptotics
/-!
# C143: adaptation steers the average acceptance rate to its target
-/
namespace Mocat.Props
open Mocat Mocat.Mcmc Mocat.Ideal Mocat.Meas Mocat.Adaptation MeasureTheory ProbabilityTheory Filter
open scoped ENNReal Topology

variable {K σ π : Type*} {d : ℕ}

/-! ## Specification -/

/-- The mean of the acceptance probabilities recorded by the first `N` updates of a run with `RMMetropolis`. -/
noncomputable def meanAlpha (rm : RM π) (smp : Sampler K σ π) (sup : Correction K σ π) (s0 : State σ) (e0 : Extra K π) (N : ℕ) : ℝ :=
  (∑ k ∈ Finset.range N, alphaAt rm smp sup s0 e0 (k + 1)) / N

/-! ## One run -/

theorem monotonicity_sq (rm : RM π) : |rm.monotonicity| = 1 := by
  unfold RM.monotonicity
  split_ifs <;> simp

section
variable (rm : RM π) (hlens : ∀ p x, rm.get (rm.set p x) = x) (smp : Sampler K σ π)
  (sup : Correction K σ π) (hs : KeepsIter smp) (hc : CorrKeepsIter sup) (hp : KeepsParams smp)
  (hcp : CorrKeepsParams sup) (s0 : State σ) (e0 : Extra K π)

/-- The inverse of the schedule of adaptation. -/
noncomputable def invGain (rm : RM π) (i : ℕ) (k : ℕ) : ℝ := ((i + k + 1 : ℕ) : ℝ) ^ rm.negExponent / rm.scale

theorem invGain_pos (hscale : 0 < rm.scale) (i k : ℕ) : 0 < invGain rm i k :=
  div_pos (Real.rpow_pos_of_pos (by positivity) _) hscale

theorem invGain_mono (hscale : 0 < rm.scale) (hexp : 0 ≤ rm.negExponent) (i : ℕ) : Monotone (invGain rm i) := fun a b hab =>
  div_le_div_of_nonneg_right (Real.rpow_le_rpow (by positivity) (by exact_mod_cast (by omega : i + a + 1 ≤ i + b + 1)) hexp) hscale.le

theorem invGain_mul (hscale : 0 < rm.scale) (i k : ℕ) (a : ℝ) : invGain rm i k * (rm.scale * ((i + k + 1 : ℕ) : ℝ) ^ (-rm.negExponent) * a) = a := by
  have h : (0 : ℝ) < ((i + k + 1 : ℕ) : ℝ) := by positivity
  have hr := Real.rpow_pos_of_pos h rm.negExponent
  rw [invGain, Real.rpow_neg h.le]
  field_simp

theorem meanAlpha_sub (N : ℕ) (hN : 0 < N) : |meanAlpha rm smp sup s0 e0 N - rm.target|
    = |∑ k ∈ Finset.range N, (rm.target - alphaAt rm smp sup s0 e0 (k + 1)) * rm.monotonicity| / N := by
  have hN' : (N : ℝ) ≠ 0 := by exact_mod_cast hN.ne'
  rw [← Finset.sum_mul, abs_mul, monotonicity_sq, mul_one, Finset.sum_sub_distrib, Finset.sum_const, Finset.card_range, nsmul_eq_mul, meanAlpha]
  have e : (∑ k ∈ Finset.range N, alphaAt rm smp sup s0 e0 (k + 1)) / N - rm.target = -(((N : ℝ) * rm.target - ∑ k ∈ Finset.range N, alphaAt rm smp sup s0 e0 (k + 1)) / N) := by
    field_simp
    ring
  rw [e, abs_neg, abs_div, Nat.abs_cast]

include hlens hs hc hp hcp

/-- C143 for one run of any sampler on any scenario: while the tuned parameter stays between `lo` and `hi`, the mean of the recorded acceptance probabilities is within
`log (hi / lo) * (i + N) ^ rm_stepsize_neg_exponent / (rm_stepsize_scale * N)` of the target after `N` updates. -/
theorem C143_average (hlog : rm.logUpdate = true) (hscale : 0 < rm.scale) (hexp : 0 ≤ rm.negExponent) (h0 : 0 < rm.get e0.params) {N : ℕ} (hN : 0 < N) (had : Adapting rm (e0.iter + N)) {lo hi : ℝ}
    (hlo : 0 < lo) (hrange : ∀ k ≤ N, lo ≤ paramAfter rm smp sup s0 e0 k ∧ paramAfter rm smp sup s0 e0 k ≤ hi) :
    |meanAlpha rm smp sup s0 e0 N - rm.target| ≤ Real.log (hi / lo) * ((e0.iter + N : ℕ) : ℝ) ^ rm.negExponent / (rm.scale * N) := by
  obtain ⟨n, rfl⟩ : ∃ n, N = n + 1 := ⟨N - 1, by omega⟩
  have hhi : 0 < hi := hlo.trans_le ((hrange 0 (Nat.zero_le _)).1.trans (hrange 0 (Nat.zero_le _)).2)
  have hpos := C23_positive rm hlens smp sup hs hc hp hcp s0 e0 hlog h0
  have key := abs_sum_le_range (invGain rm e0.iter) (fun k => Real.log (paramAfter rm smp sup s0 e0 k)) (fun k => (rm.target - alphaAt rm smp sup s0 e0 (k + 1)) * rm.monotonicity)
    (fun k => (invGain_pos rm hscale _ k).le) (invGain_mono rm hscale hexp _) n (fun k hk => by
      rw [C23_update_rule rm hlens smp sup hs hc hp hcp s0 e0 k hlog (hpos k) (fun c hc => by have := had c hc; omega), add_sub_cancel_left, mul_assoc, invGain_mul rm hscale])
    (lo := Real.log lo) (hi := Real.log hi) (fun k hk => ⟨Real.log_le_log hlo (hrange k hk).1, Real.log_le_log (hpos k) (hrange k hk).2⟩)
  rw [meanAlpha_sub rm smp sup s0 e0 _ hN, Real.log_div hhi.ne' hlo.ne']
  refine (div_le_div_of_nonneg_right key (by positivity)).trans (le_of_eq ?_)
  rw [invGain]
  have e : e0.iter + n + 1 = e0.iter + (n + 1) := by omega
  rw [e]
  field_simp

/-- C143 without `log_update`: the same with the range of the parameter itself. -/
theorem C143_average_linear (hlog : rm.logUpdate = false) (hscale : 0 < rm.scale) (hexp : 0 ≤ rm.negExponent) {N : ℕ} (hN : 0 < N) (had : Adapting rm (e0.iter + N)) {lo hi : ℝ}
    (hrange : ∀ k ≤ N, lo ≤ paramAfter rm smp sup s0 e0 k ∧ paramAfter rm smp sup s0 e0 k ≤ hi) :
    |meanAlpha rm smp sup s0 e0 N - rm.target| ≤ (hi - lo) * ((e0.iter + N : ℕ) : ℝ) ^ rm.negExponent / (rm.scale * N) := by
  obtain ⟨n, rfl⟩ : ∃ n, N = n + 1 := ⟨N - 1, by omega⟩
  have key := abs_sum_le_range (invGain rm e0.iter) (fun k => paramAfter rm smp sup s0 e0 k) (fun k => (rm.target - alphaAt rm smp sup s0 e0 (k + 1)) * rm.monotonicity)
    (fun k => (invGain_pos rm hscale _ k).le) (invGain_mono rm hscale hexp _) n (fun k hk => by
      rw [C23_update_rule_linear rm hlens smp sup hs hc hp hcp s0 e0 k hlog (fun c hc => by have := had c hc; omega), add_sub_cancel_left, mul_assoc, invGain_mul rm hscale])
    (lo := lo) (hi := hi) (fun k hk => hrange k hk)
  rw [meanAlpha_sub rm smp sup s0 e0 _ hN]
  refine (div_le_div_of_nonneg_right key (by positivity)).trans (le_of_eq ?_)
  rw [invGain]
  have e : e0.iter + n + 1 = e0.iter + (n + 1) := by omega
  rw [e]
  field_simp

omit hlens hs hc hp hcp in
theorem tendsto_schedule (i : ℕ) {κ : ℝ} (h0 : 0 ≤ κ) (h1 : κ < 1) : Tendsto (fun N : ℕ => ((i + N : ℕ) : ℝ) ^ κ / N) atTop (𝓝 0) := by
  have h2 : Tendsto (fun N : ℕ => (2 : ℝ) ^ κ * (N : ℝ) ^ (-(1 - κ))) atTop (𝓝 0) := by
    have := ((tendsto_rpow_neg_atTop (by linarith : 0 < 1 - κ)).comp tendsto_natCast_atTop_atTop).const_mul ((2 : ℝ) ^ κ)
    simpa using this
  refine squeeze_zero' (.of_forall fun N => by positivity) ?_ h2
  filter_upwards [eventually_ge_atTop (max 1 i)] with N hN
  have hN1 : (0 : ℝ) < N := by exact_mod_cast (lt_of_lt_of_le Nat.one_pos ((le_max_left _ _).trans hN))
  have e : (2 : ℝ) ^ κ * (N : ℝ) ^ (-(1 - κ)) = (2 * N : ℝ) ^ κ / N := by
    rw [Real.mul_rpow (by norm_num) hN1.le, neg_sub, Real.rpow_sub hN1, Real.rpow_one]
    ring
  rw [e]
  refine div_le_div_of_nonneg_right (Real.rpow_le_rpow (by positivity) ?_ h0) hN1.le
  have : i + N ≤ 2 * N := by have := (le_max_right 1 i).trans hN; omega
  exact_mod_cast this

/-- C143 in the long run: if the tuned parameter stays in some bounded range away from zero, `rm_stepsize_neg_exponent` is below 1 and adaptation is never cut off, the mean of the
recorded acceptance probabilities tends to the target. -/
theorem C143_limit (hlog : rm.logUpdate = true) (hscale : 0 < rm.scale) (hexp : 0 ≤ rm.negExponent) (hexp1 : rm.negExponent < 1) (h0 : 0 < rm.get e0.params) (had : rm.adaptCutOff = none) {lo hi : ℝ}
    (hlo : 0 < lo) (hrange : ∀ k, lo ≤ paramAfter rm smp sup s0 e0 k ∧ paramAfter rm smp sup s0 e0 k ≤ hi) : Tendsto (meanAlpha rm smp sup s0 e0) atTop (𝓝 rm.target) := by
  rw [tendsto_iff_norm_sub_tendsto_zero]
  have h := (tendsto_schedule e0.iter hexp hexp1).const_mul (Real.log (hi / lo) / rm.scale)
  rw [mul_zero] at h
  refine squeeze_zero' (.of_forall fun N => norm_nonneg _) ?_ h
  filter_upwards [eventually_gt_atTop 0] with N hN
  refine (C143_average rm hlens smp sup hs hc hp hcp s0 e0 hlog hscale hexp h0 hN (fun c hc => by simp [had] at hc) hlo fun k _ => hrange k).trans (le_of_eq ?_)
  field_simp

omit hlens hp hcp in
/-- The mean over the column `alpha` of a chain without its first row is this mean. -/
theorem C143_column (n : ℕ) (hn : 2 ≤ n) (h0 : e0.iter = 0) :
    rowMean flToReal (((runFrom smp (rm.correct sup) n s0 e0).map fun s => s.alpha).tail) = meanAlpha rm smp sup s0 e0 (n - 1) := by
  rw [C12_mcmc _ _ hs (corrKeepsIter_rm _ _ hc), h0, List.map_map]
  have e : (((n : ℤ) - 1 - ((0 : ℕ) : ℤ)).toNat + 1) = n - 1 + 1 := by omega
  rw [e, List.range_succ_eq_map, List.map_cons, List.tail_cons, List.map_map, rowMean_range]
  rfl

end

/-! ## Random walks on an ideal generator -/

/-- A `RMMetropolis` that tunes the stepsize of a `RandomWalk`: the only parameter, in which acceptance decreases, on the log scale. -/
structure TunesStepsize (rm : RM ℝ) : Prop where
  get : ∀ p, rm.get p = p
  set : ∀ p x, rm.set p x = x
  decreasing : rm.increasing = false
  log : rm.logUpdate = true

open Classical in
/-- How strongly update number `i + 1` adapts. -/
noncomputable def gain (rm : RM ℝ) (i : ℕ) : ℝ := if Adapting rm (i + 1) then rm.scale * ((i + 1 : ℕ) : ℝ) ^ (-rm.negExponent) else 0

/-- The probability with which an update at stepsize `step` from `x` is accepted, on average over its proposals. -/
noncomputable def rateAt (S : Set (Fin d → ℝ)) (V : (Fin d → ℝ) → ℝ) (x : Fin d → ℝ) (step : ℝ) : ℝ := ∫ ξ, accOn S V x (rwProp (Real.sqrt step) (x, ξ)) ∂(stdNormal d)

/-- Position, stepsize and counter after an update, from its draws. -/
noncomputable def adaptMove (rm : RM ℝ) (S : Set (Fin d → ℝ)) (V : (Fin d → ℝ) → ℝ) (c : (Fin d → ℝ) × ℝ × ℕ) (w : (Fin d → ℝ) × ℝ) : (Fin d → ℝ) × ℝ × ℕ :=
  (rwMove S V c.2.1 c.1 w, Real.exp (Real.log c.2.1 + gain rm c.2.2 * (accOn S V c.1 (rwProp (Real.sqrt c.2.1) (c.1, w.1)) - rm.target)), c.2.2 + 1)

/-- `RandomWalk` with `RMMetropolis(Metropolis)` on a tape. -/
noncomputable def rmUpdateOn (rm : RM ℝ) (q : ℝ → ℝ) (S : Set (Fin d → ℝ)) (V : (Fin d → ℝ) → ℝ) (ω : Tape) : State (RWPayload d) → Extra Keys.Key ℝ → State (RWPayload d) × Extra Keys.Key ℝ :=
  update (randomWalk Keys.split3 (normalAt q d ω) fun x _ => potOn S V x) (rm.correct (metropolis Keys.split fun k => ω (k, 0)))

theorem adaptMove_pos (rm : RM ℝ) (S : Set (Fin d → ℝ)) (V : (Fin d → ℝ) → ℝ) (c w) : 0 < (adaptMove rm S V c w).2.1 := Real.exp_pos _

section
variable {rm : RM ℝ} (hrm : TunesStepsize rm) {q : ℝ → ℝ} {S : Set (Fin d → ℝ)} {V : (Fin d → ℝ) → ℝ}
include hrm

theorem rmUpdateOn_eq (ω : Tape) (x : Fin d → ℝ) (al : Fl) (t : ℝ) (k : Keys.Key) (i : ℕ) (step : ℝ) (hstep : 0 < step) :
    ∃ al' t', rmUpdateOn rm q S V ω (rwState S V x al t) ⟨k, i, step⟩
      = (rwState S V (adaptMove rm S V (x, step, i) (rwDraws q d k ω)).1 al' t', ⟨Keys.rwNext k, i + 1, (adaptMove rm S V (x, step, i) (rwDraws q d k ω)).2.1⟩) ∧
      flToReal al' = accOn S V x (rwProp (Real.sqrt step) (x, (rwDraws q d k ω).1)) := by
  obtain ⟨al', h⟩ := rwUpdate_eq S V Keys.split3 (normalAt q d ω) Keys.split (fun k => ω (k, 0)) x al t k i step
  have ha := rw_alpha S V Keys.split3 (normalAt q d ω) Keys.split (fun k => ω (k, 0)) x al t k i step
  have hal : flToReal al' = accOn S V x (rwProp (Real.sqrt step) (x, (rwDraws q d k ω).1)) := by
    have : al' = _ := (congrArg (fun r => r.1.alpha) h).symm
    rw [this]
    exact (congrArg flToReal ha).trans rfl
  have hp := (update_rm rm (fun p x => by rw [hrm.get, hrm.set]) (randomWalk Keys.split3 (normalAt q d ω) fun x _ => potOn S V x)
      (metropolis Keys.split fun k => ω (k, 0)) (keepsIter_randomWalk _ _ _) (corrKeepsIter_metropolis _ _) (keepsParams_randomWalk _ _ _)
      (corrKeepsParams_metropolis _ _) (rwState S V x al t) ⟨k, i, step⟩)
  have hgen : ∃ t' p', rmUpdateOn rm q S V ω (rwState S V x al t) ⟨k, i, step⟩
      = ({ (rwUpdate S V Keys.split3 (normalAt q d ω) Keys.split (fun k => ω (k, 0)) (rwState S V x al t) ⟨k, i, step⟩).1 with tuned := t' },
         { (rwUpdate S V Keys.split3 (normalAt q d ω) Keys.split (fun k => ω (k, 0)) (rwState S V x al t) ⟨k, i, step⟩).2 with params := p' }) := by
    simp only [rmUpdateOn, rwUpdate, update, RM.correct, RM.adapt]
    split <;> split <;> exact ⟨_, _, rfl⟩
  obtain ⟨t', p', hgen⟩ := hgen
  rw [h] at hgen
  refine ⟨al', t', ?_, hal⟩
  have hpar : (rmUpdateOn rm q S V ω (rwState S V x al t) ⟨k, i, step⟩).2.params = (adaptMove rm S V (x, step, i) (rwDraws q d k ω)).2.1 := by
    have hmono : rm.monotonicity = -1 := by simp [RM.monotonicity, hrm.decreasing]
    simp only [adaptMove, gain]
    by_cases hA : Adapting rm (i + 1)
    · have := hp.2.1 hA
      rw [hrm.get, alpha_rm, if_pos hrm.log, hrm.get, hmono, ha] at this
      refine this.trans ?_
      rw [if_pos hA]
      congr 1
      simp only [flToReal]
      change _ = Real.log step + _ * (accOn S V x (rwProp (Real.sqrt step) (x, normalAt q d ω (Keys.split3 k).2.1)) - rm.target)
      ring
    · refine (hp.1 hA).trans ?_
      rw [if_neg hA, zero_mul, add_zero, Real.exp_log hstep]
  rw [hgen] at hpar ⊢
  simp only at hpar
  rw [hpar]
  rfl

theorem rm_values (ω : Tape) (n : ℕ) : ∀ x k (al : Fl) (t : ℝ) (i : ℕ) (step : ℝ), 0 < step →
    ((bodyIter (rmUpdateOn rm q S V ω) n (rwState S V x al t, ⟨k, i, step⟩)).1.payload.value,
      (bodyIter (rmUpdateOn rm q S V ω) n (rwState S V x al t, ⟨k, i, step⟩)).2.params, (bodyIter (rmUpdateOn rm q S V ω) n (rwState S V x al t, ⟨k, i, step⟩)).2.iter)
      = tapeIter (rwDraws q d) Keys.rwNext (adaptMove rm S V) n k (x, step, i) ω := by
  induction n with
  | zero => intro x k al t i step _; rfl
  | succ n ih =>
    intro x k al t i step hstep
    obtain ⟨al', t', h, -⟩ := rmUpdateOn_eq hrm (q := q) (S := S) (V := V) ω x al t k i step hstep
    have : bodyIter (rmUpdateOn rm q S V ω) (n + 1) (rwState S V x al t, ⟨k, i, step⟩)
      = bodyIter (rmUpdateOn rm q S V ω) n (rmUpdateOn rm q S V ω (rwState S V x al t) ⟨k, i, step⟩) := by
      simp [bodyIter, Function.iterate_succ_apply]
    rw [this, h, ih _ _ _ _ _ _ (adaptMove_pos _ _ _ _ _)]
    rfl

end

theorem rateAt_eq {q : ℝ → ℝ} (hq : IsNormalDraw q) {S : Set (Fin d → ℝ)} (hS : MeasurableSet S) {V : (Fin d → ℝ) → ℝ} (hV : Measurable V) (x : Fin d → ℝ) (step : ℝ) (key : Keys.Key) (i : ℕ) (al : Fl) (t : ℝ) :
    ∫ ω, flToReal (update (randomWalk Keys.split3 (normalAt q d ω) fun x _ => potOn S V x) (metropolis Keys.split fun k => ω (k, 0)) (rwState S V x al t) ⟨key, i, step⟩).1.alpha ∂ideal
      = rateAt S V x step := by
  rw [rateAt, ← integral_acc_ideal hq hS hV step x (1 :: key)]
  refine integral_congr_ae (ae_of_all _ fun ω => ?_)
  simp only [rw_alpha, flToReal]
  rfl

theorem measurable_adaptMove (rm : RM ℝ) {S : Set (Fin d → ℝ)} (hS : MeasurableSet S) {V : (Fin d → ℝ) → ℝ} (hV : Measurable V) : Measurable (Function.uncurry (adaptMove rm S V)) := by
  have mP : Measurable fun z : ((Fin d → ℝ) × ℝ × ℕ) × ((Fin d → ℝ) × ℝ) => rwProp (Real.sqrt z.1.2.1) (z.1.1, z.2.1) := by
    unfold rwProp
    refine measurable_pi_lambda _ fun j => ?_
    have h1 : Measurable fun z : ((Fin d → ℝ) × ℝ × ℕ) × ((Fin d → ℝ) × ℝ) => z.1.1 j := (measurable_pi_apply j).comp (measurable_fst.comp measurable_fst)
    have h2 : Measurable fun z : ((Fin d → ℝ) × ℝ × ℕ) × ((Fin d → ℝ) × ℝ) => Real.sqrt z.1.2.1 := Real.continuous_sqrt.measurable.comp (measurable_fst.comp (measurable_snd.comp measurable_fst))
    have h3 : Measurable fun z : ((Fin d → ℝ) × ℝ × ℕ) × ((Fin d → ℝ) × ℝ) => z.2.1 j := (measurable_pi_apply j).comp (measurable_fst.comp measurable_snd)
    exact h1.add (h2.mul h3)
  have mA : Measurable fun z : ((Fin d → ℝ) × ℝ × ℕ) × ((Fin d → ℝ) × ℝ) => accOn S V z.1.1 (rwProp (Real.sqrt z.1.2.1) (z.1.1, z.2.1)) :=
    (measurable_accOn hS hV).comp ((measurable_fst.comp measurable_fst).prodMk mP)
  have mx : Measurable fun z : ((Fin d → ℝ) × ℝ × ℕ) × ((Fin d → ℝ) × ℝ) => z.1.1 := measurable_fst.comp measurable_fst
  have ms : Measurable fun z : ((Fin d → ℝ) × ℝ × ℕ) × ((Fin d → ℝ) × ℝ) => z.1.2.1 := measurable_fst.comp (measurable_snd.comp measurable_fst)
  have mi : Measurable fun z : ((Fin d → ℝ) × ℝ × ℕ) × ((Fin d → ℝ) × ℝ) => z.1.2.2 := measurable_snd.comp (measurable_snd.comp measurable_fst)
  have mu : Measurable fun z : ((Fin d → ℝ) × ℝ × ℕ) × ((Fin d → ℝ) × ℝ) => z.2.2 := measurable_snd.comp measurable_snd
  have mg : Measurable fun z : ((Fin d → ℝ) × ℝ × ℕ) × ((Fin d → ℝ) × ℝ) => gain rm z.1.2.2 := (measurable_of_countable (gain rm)).comp mi
  have m1 : Measurable fun z : ((Fin d → ℝ) × ℝ × ℕ) × ((Fin d → ℝ) × ℝ) => rwMove S V z.1.2.1 z.1.1 z.2 :=
    Measurable.ite (measurableSet_lt mu mA) mP mx
  have m2 : Measurable fun z : ((Fin d → ℝ) × ℝ × ℕ) × ((Fin d → ℝ) × ℝ) =>
      Real.exp (Real.log z.1.2.1 + gain rm z.1.2.2 * (accOn S V z.1.1 (rwProp (Real.sqrt z.1.2.1) (z.1.1, z.2.1)) - rm.target)) :=
    Real.measurable_exp.comp ((Real.measurable_log.comp ms).add (mg.mul (mA.sub_const _)))
  exact m1.prodMk (m2.prodMk ((measurable_of_countable Nat.succ).comp mi))

/-! ## Stepsizes stay in range -/

section
variable {rm : RM ℝ} {S : Set (Fin d → ℝ)} {V : (Fin d → ℝ) → ℝ}

theorem gain_nonneg (hscale : 0 ≤ rm.scale) (i : ℕ) : 0 ≤ gain rm i := by
  unfold gain
  split_ifs
  · exact mul_nonneg hscale (Real.rpow_nonneg (by positivity) _)
  · exact le_rfl

theorem gain_le (hscale : 0 ≤ rm.scale) (hexp : 0 ≤ rm.negExponent) (i : ℕ) : gain rm i ≤ rm.scale := by
  unfold gain
  split_ifs
  · refine mul_le_of_le_one_right hscale ?_
    rw [Real.rpow_neg (by positivity)]
    exact inv_le_one_of_one_le₀ (Real.one_le_rpow (by simp) hexp)
  · exact hscale

/-- Positions in the support with a positive stepsize. -/
def inSupport (S : Set (Fin d → ℝ)) : Set ((Fin d → ℝ) × ℝ × ℕ) := {c | c.1 ∈ S ∧ 0 < c.2.1}

theorem adaptMove_inSupport {c : (Fin d → ℝ) × ℝ × ℕ} (hc : c ∈ inSupport S) (w : (Fin d → ℝ) × ℝ) (hw : 0 ≤ w.2) : adaptMove rm S V c w ∈ inSupport S := by
  refine ⟨?_, Real.exp_pos _⟩
  simp only [adaptMove, rwMove]
  split_ifs with h
  · exact (accOn_pos S V _ _).mp (lt_of_le_of_lt hw h)
  · exact hc.1

theorem integral_acc_prod (hS : MeasurableSet S) (hV : Measurable V) (x : Fin d → ℝ) (step a : ℝ) :
    ∫ w, (accOn S V x (rwProp (Real.sqrt step) (x, w.1)) - a) ∂((stdNormal d).prod unif) = rateAt S V x step - a := by
  have hm : Measurable fun ξ : Fin d → ℝ => accOn S V x (rwProp (Real.sqrt step) (x, ξ)) :=
    (measurable_accOn hS hV).comp (measurable_const.prodMk ((measurable_rwProp _).comp (measurable_const.prodMk measurable_id)))
  have hi : Integrable (fun ξ : Fin d → ℝ => accOn S V x (rwProp (Real.sqrt step) (x, ξ)) - a) (stdNormal d) :=
    (Integrable.of_bound hm.aestronglyMeasurable 1 (.of_forall fun ξ => by rw [Real.norm_of_nonneg (accOn_nonneg _ _ _ _)]; exact accOn_le_one _ _ _ _)).sub (integrable_const _)
  have h := integral_fun_fst (μ := stdNormal d) (ν := unif) (fun ξ : Fin d → ℝ => accOn S V x (rwProp (Real.sqrt step) (x, ξ)) - a)
  rw [h, integral_sub (Integrable.of_bound hm.aestronglyMeasurable 1 (.of_forall fun ξ => by rw [Real.norm_of_nonneg (accOn_nonneg _ _ _ _)]; exact accOn_le_one _ _ _ _)) (integrable_const _)]
  simp [rateAt]

end

theorem adaptMove_stays {rm : RM ℝ} {S : Set (Fin d → ℝ)} {V : (Fin d → ℝ) → ℝ} (c : (Fin d → ℝ) × ℝ × ℕ) (hc : c ∈ inSupport S) : ∀ᵐ w ∂((stdNormal d).prod unif), adaptMove rm S V c w ∈ inSupport S := by
  have hu : ∀ᵐ u ∂unif, u ∈ Set.Ico (0 : ℝ) 1 := by unfold unif; exact ae_restrict_mem measurableSet_Ico
  have h2 : ∀ᵐ w ∂((stdNormal d).prod unif), w.2 ∈ Set.Ico (0 : ℝ) 1 := Measure.quasiMeasurePreserving_snd.ae hu
  exact h2.mono fun w hw => adaptMove_inSupport hc w hw.1

section
variable {rm : RM ℝ} {S : Set (Fin d → ℝ)} {V : (Fin d → ℝ) → ℝ}

theorem large_moment (hS : MeasurableSet S) (hV : Measurable V) (hscale : 0 < rm.scale) (hexp : 0 ≤ rm.negExponent) (ht0 : 0 ≤ rm.target) (ht1 : rm.target ≤ 1) {η b : ℝ} (hη : 0 < η) (hη1 : η ≤ 1) (hb : 0 < b)
    (hrate : ∀ x ∈ S, ∀ s ≥ b, rateAt S V x s ≤ rm.target - η) (n : ℕ) (c : (Fin d → ℝ) × ℝ × ℕ) (hc : c ∈ inSupport S) :
    (stepOp ((stdNormal d).prod unif) (adaptMove rm S V))^[n] (fun c => ENNReal.ofReal (Real.exp (η / 2 / rm.scale * Real.log c.2.1))) c
      ≤ ENNReal.ofReal (Real.exp (η / 2 / rm.scale * Real.log c.2.1) + Real.exp (η / 2 / rm.scale * Real.log b) * (4 / η + 1)) := by
  refine exp_moment_bounded (measurable_adaptMove rm hS hV) (W := fun c => Real.log c.2.1) (Real.measurable_log.comp (measurable_fst.comp measurable_snd)) (inSupport S) adaptMove_stays (fun c => c.2.2)
    (fun c _ w => rfl) (gain rm) (gain_nonneg hscale.le) (gain_le hscale.le hexp) (fun c w => accOn S V c.1 (rwProp (Real.sqrt c.2.1) (c.1, w.1)) - rm.target) (fun c => ?_) (fun c _ w => ?_) (fun c hc w => ?_)
    (by positivity) hη hη1 (by field_simp; exact le_rfl) (fun c hc hB => ?_) n c hc
  · have : Measurable fun w : (Fin d → ℝ) × ℝ => rwProp (Real.sqrt c.2.1) (c.1, w.1) := (measurable_rwProp _).comp (measurable_const.prodMk measurable_fst)
    exact ((measurable_accOn hS hV).comp (measurable_const.prodMk this)).sub_const _
  · rw [abs_le]
    constructor <;> linarith [accOn_nonneg S V c.1 (rwProp (Real.sqrt c.2.1) (c.1, w.1)), accOn_le_one S V c.1 (rwProp (Real.sqrt c.2.1) (c.1, w.1))]
  · simp only [adaptMove, Real.log_exp]
  · rw [integral_acc_prod hS hV]
    have := hrate c.1 hc.1 c.2.1 ((Real.log_le_log_iff hb hc.2).mp hB)
    linarith

theorem small_moment (hS : MeasurableSet S) (hV : Measurable V) (hscale : 0 < rm.scale) (hexp : 0 ≤ rm.negExponent) (ht0 : 0 ≤ rm.target) (ht1 : rm.target ≤ 1) {η a : ℝ} (hη : 0 < η) (hη1 : η ≤ 1) (ha : 0 < a)
    (hrate : ∀ x ∈ S, ∀ s, 0 < s → s ≤ a → rm.target + η ≤ rateAt S V x s) (n : ℕ) (c : (Fin d → ℝ) × ℝ × ℕ) (hc : c ∈ inSupport S) :
    (stepOp ((stdNormal d).prod unif) (adaptMove rm S V))^[n] (fun c => ENNReal.ofReal (Real.exp (η / 2 / rm.scale * -Real.log c.2.1))) c
      ≤ ENNReal.ofReal (Real.exp (η / 2 / rm.scale * -Real.log c.2.1) + Real.exp (η / 2 / rm.scale * -Real.log a) * (4 / η + 1)) := by
  refine exp_moment_bounded (measurable_adaptMove rm hS hV) (W := fun c => -Real.log c.2.1) (Real.measurable_log.comp (measurable_fst.comp measurable_snd)).neg (inSupport S) adaptMove_stays (fun c => c.2.2)
    (fun c _ w => rfl) (gain rm) (gain_nonneg hscale.le) (gain_le hscale.le hexp) (fun c w => -(accOn S V c.1 (rwProp (Real.sqrt c.2.1) (c.1, w.1)) - rm.target)) (fun c => ?_) (fun c _ w => ?_) (fun c hc w => ?_)
    (by positivity) hη hη1 (by field_simp; exact le_rfl) (fun c hc hB => ?_) n c hc
  · have : Measurable fun w : (Fin d → ℝ) × ℝ => rwProp (Real.sqrt c.2.1) (c.1, w.1) := (measurable_rwProp _).comp (measurable_const.prodMk measurable_fst)
    exact (((measurable_accOn hS hV).comp (measurable_const.prodMk this)).sub_const _).neg
  · rw [abs_neg, abs_le]
    constructor <;> linarith [accOn_nonneg S V c.1 (rwProp (Real.sqrt c.2.1) (c.1, w.1)), accOn_le_one S V c.1 (rwProp (Real.sqrt c.2.1) (c.1, w.1))]
  · simp only [adaptMove, Real.log_exp]; ring
  · rw [integral_neg, integral_acc_prod hS hV]
    have := hrate c.1 hc.1 c.2.1 hc.2 ((Real.log_le_log_iff hc.2 ha).mp (by linarith))
    linarith

end

/-- The stepsize after `n` updates of a random walk with `RMMetropolis(Metropolis)` from position `x` and stepsize `step`. -/
noncomputable def stepAfter (rm : RM ℝ) (q : ℝ → ℝ) (S : Set (Fin d → ℝ)) (V : (Fin d → ℝ) → ℝ) (x : Fin d → ℝ) (al : Fl) (t : ℝ) (e0 : Extra Keys.Key ℝ) (n : ℕ) (ω : Tape) : ℝ :=
  paramAfter rm (randomWalk Keys.split3 (normalAt q d ω) fun x _ => potOn S V x) (metropolis Keys.split fun k => ω (k, 0)) (rwState S V x al t) e0 n

section
variable {rm : RM ℝ} (hrm : TunesStepsize rm) {q : ℝ → ℝ} (hq : IsNormalDraw q) {S : Set (Fin d → ℝ)} (hS : MeasurableSet S) {V : (Fin d → ℝ) → ℝ} (hV : Measurable V)
include hrm

theorem stepAfter_eq (x : Fin d → ℝ) (al : Fl) (t : ℝ) (key : Keys.Key) (i : ℕ) (step : ℝ) (hstep : 0 < step) (n : ℕ) (ω : Tape) :
    stepAfter rm q S V x al t ⟨key, i, step⟩ n ω = (tapeIter (rwDraws q d) Keys.rwNext (adaptMove rm S V) n key (x, step, i) ω).2.1 := by
  rw [← rm_values hrm ω n x key al t i step hstep, stepAfter, paramAfter, hrm.get]
  rfl

include hq hS hV

theorem measurable_stepAfter (x : Fin d → ℝ) (al : Fl) (t : ℝ) (key : Keys.Key) (i : ℕ) (step : ℝ) (hstep : 0 < step) (n : ℕ) : Measurable (stepAfter rm q S V x al t ⟨key, i, step⟩ n) := by
  have h := (measurable_tapeIter (rwDraws_draws hq (d := d)) (measurable_adaptMove rm hS hV) n key).comp (measurable_prodMk_left (x := (x, step, i)))
  have h2 : Measurable fun ω => (tapeIter (rwDraws q d) Keys.rwNext (adaptMove rm S V) n key (x, step, i) ω).2.1 := measurable_fst.comp (measurable_snd.comp h)
  rw [funext (stepAfter_eq hrm x al t key i step hstep n)]
  exact h2

theorem lintegral_stepAfter (x : Fin d → ℝ) (al : Fl) (t : ℝ) (key : Keys.Key) (i : ℕ) (step : ℝ) (hstep : 0 < step) (n : ℕ) {h : ℝ → ℝ≥0∞} (hh : Measurable h) :
    ∫⁻ ω, h (stepAfter rm q S V x al t ⟨key, i, step⟩ n ω) ∂ideal = (stepOp ((stdNormal d).prod unif) (adaptMove rm S V))^[n] (fun c => h c.2.1) (x, step, i) := by
  simp only [stepAfter_eq hrm x al t key i step hstep]
  exact lintegral_tapeIter (rwDraws_draws hq) (measurable_adaptMove rm hS hV) n key (x, step, i) (h := fun c => h c.2.1) (hh.comp (measurable_fst.comp measurable_snd))

theorem prob_le_of_moment {θ C : ℝ} (sg : ℝ) (hθ : 0 < θ) (x : Fin d → ℝ) (al : Fl) (t : ℝ) (key : Keys.Key) (i : ℕ) (step : ℝ) (hstep : 0 < step) (n : ℕ)
    (hm : ∫⁻ ω, ENNReal.ofReal (Real.exp (θ * (sg * Real.log (stepAfter rm q S V x al t ⟨key, i, step⟩ n ω)))) ∂ideal ≤ ENNReal.ofReal C) {ε : ℝ} (hε : 0 < ε) {R : ℝ} (hR : C / ε ≤ Real.exp (θ * R)) :
    ideal {ω | R ≤ sg * Real.log (stepAfter rm q S V x al t ⟨key, i, step⟩ n ω)} ≤ ENNReal.ofReal ε := by
  have hmeas : Measurable fun ω => ENNReal.ofReal (Real.exp (θ * (sg * Real.log (stepAfter rm q S V x al t ⟨key, i, step⟩ n ω)))) :=
    (Real.measurable_exp.comp (((Real.measurable_log.comp (measurable_stepAfter hrm hq hS hV x al t key i step hstep n)).const_mul sg).const_mul θ)).ennreal_ofReal
  have h1 := meas_ge_le_lintegral_div (μ := ideal) hmeas.aemeasurable (ε := ENNReal.ofReal (Real.exp (θ * R))) (by simp [Real.exp_pos]) ENNReal.ofReal_ne_top
  refine (measure_mono fun ω hω => ?_).trans (h1.trans ?_)
  · exact ENNReal.ofReal_le_ofReal (Real.exp_le_exp.mpr (mul_le_mul_of_nonneg_left hω hθ.le))
  · refine (ENNReal.div_le_div_right hm _).trans ?_
    rw [← ENNReal.ofReal_div_of_pos (Real.exp_pos _)]
    refine ENNReal.ofReal_le_ofReal ?_
    rw [div_le_iff₀ (Real.exp_pos _), mul_comm]
    exact (div_le_iff₀ hε).mp hR

theorem large_lintegral (hscale : 0 < rm.scale) (hexp : 0 ≤ rm.negExponent) (ht0 : 0 ≤ rm.target) (ht1 : rm.target ≤ 1) {η b : ℝ} (hη : 0 < η) (hη1 : η ≤ 1) (hb : 0 < b)
    (hrate : ∀ x ∈ S, ∀ s ≥ b, rateAt S V x s ≤ rm.target - η) (x : Fin d → ℝ) (hx : x ∈ S) (al : Fl) (t : ℝ) (key : Keys.Key) (i : ℕ) (step : ℝ) (hstep : 0 < step) (n : ℕ) :
    ∫⁻ ω, ENNReal.ofReal (Real.exp (η / 2 / rm.scale * (1 * Real.log (stepAfter rm q S V x al t ⟨key, i, step⟩ n ω)))) ∂ideal
      ≤ ENNReal.ofReal (Real.exp (η / 2 / rm.scale * Real.log step) + Real.exp (η / 2 / rm.scale * Real.log b) * (4 / η + 1)) := by
  have h := lintegral_stepAfter hrm hq hS hV x al t key i step hstep n (h := fun s => ENNReal.ofReal (Real.exp (η / 2 / rm.scale * (1 * Real.log s))))
    (Real.measurable_exp.comp ((Real.measurable_log.const_mul _).const_mul _)).ennreal_ofReal
  rw [h]
  simp only [one_mul]
  exact large_moment hS hV hscale hexp ht0 ht1 hη hη1 hb hrate n (x, step, i) ⟨hx, hstep⟩

theorem small_lintegral (hscale : 0 < rm.scale) (hexp : 0 ≤ rm.negExponent) (ht0 : 0 ≤ rm.target) (ht1 : rm.target ≤ 1) {η a : ℝ} (hη : 0 < η) (hη1 : η ≤ 1) (ha : 0 < a)
    (hrate : ∀ x ∈ S, ∀ s, 0 < s → s ≤ a → rm.target + η ≤ rateAt S V x s) (x : Fin d → ℝ) (hx : x ∈ S) (al : Fl) (t : ℝ) (key : Keys.Key) (i : ℕ) (step : ℝ) (hstep : 0 < step) (n : ℕ) :
    ∫⁻ ω, ENNReal.ofReal (Real.exp (η / 2 / rm.scale * (-1 * Real.log (stepAfter rm q S V x al t ⟨key, i, step⟩ n ω)))) ∂ideal
      ≤ ENNReal.ofReal (Real.exp (η / 2 / rm.scale * -Real.log step) + Real.exp (η / 2 / rm.scale * -Real.log a) * (4 / η + 1)) := by
  have h := lintegral_stepAfter hrm hq hS hV x al t key i step hstep n (h := fun s => ENNReal.ofReal (Real.exp (η / 2 / rm.scale * (-1 * Real.log s))))
    (Real.measurable_exp.comp ((Real.measurable_log.const_mul _).const_mul _)).ennreal_ofReal
  rw [h]
  simp only [neg_one_mul]
  exact small_moment hS hV hscale hexp ht0 ht1 hη hη1 ha hrate n (x, step, i) ⟨hx, hstep⟩

omit hrm hq hS hV in
theorem exists_exp_ge {θ : ℝ} (hθ : 0 < θ) (c : ℝ) : ∃ R, c ≤ Real.exp (θ * R) := ⟨c / θ, by rw [mul_div_cancel₀ _ hθ.ne']; linarith [Real.add_one_le_exp c]⟩

/-- C143: if large stepsizes are accepted less often than the target, by a margin, from every position, then stepsizes do not become large: for every `ε` there is a bound that the stepsize after `n` updates
exceeds with probability at most `ε`, the same for every `n`. -/
theorem C143_not_large (hscale : 0 < rm.scale) (hexp : 0 ≤ rm.negExponent) (ht0 : 0 ≤ rm.target) (ht1 : rm.target ≤ 1) {η b : ℝ} (hη : 0 < η) (hη1 : η ≤ 1) (hb : 0 < b)
    (hrate : ∀ x ∈ S, ∀ s ≥ b, rateAt S V x s ≤ rm.target - η) (step : ℝ) (hstep : 0 < step) {ε : ℝ} (hε : 0 < ε) :
    ∃ hi, ∀ (x) (_ : x ∈ S) (al : Fl) (t : ℝ) (key : Keys.Key) (i n : ℕ), ideal {ω | hi ≤ stepAfter rm q S V x al t ⟨key, i, step⟩ n ω} ≤ ENNReal.ofReal ε := by
  have hθ : 0 < η / 2 / rm.scale := by positivity
  obtain ⟨R, hR⟩ := exists_exp_ge hθ ((Real.exp (η / 2 / rm.scale * Real.log step) + Real.exp (η / 2 / rm.scale * Real.log b) * (4 / η + 1)) / ε)
  refine ⟨Real.exp R, fun x hx al t key i n => (measure_mono fun ω hω => ?_).trans (prob_le_of_moment hrm hq hS hV 1 hθ x al t key i step hstep n
    (large_lintegral hrm hq hS hV hscale hexp ht0 ht1 hη hη1 hb hrate x hx al t key i step hstep n) hε hR)⟩
  change R ≤ 1 * Real.log _
  rw [one_mul, Real.le_log_iff_exp_le ((Real.exp_pos _).trans_le hω)]
  exact hω

/-- C143: if small stepsizes are accepted more often than the target, by a margin, from every position, then stepsizes do not become small. -/
theorem C143_not_small (hscale : 0 < rm.scale) (hexp : 0 ≤ rm.negExponent) (ht0 : 0 ≤ rm.target) (ht1 : rm.target ≤ 1) {η a : ℝ} (hη : 0 < η) (hη1 : η ≤ 1) (ha : 0 < a)
    (hrate : ∀ x ∈ S, ∀ s, 0 < s → s ≤ a → rm.target + η ≤ rateAt S V x s) (step : ℝ) (hstep : 0 < step) {ε : ℝ} (hε : 0 < ε) :
    ∃ lo > 0, ∀ (x) (_ : x ∈ S) (al : Fl) (t : ℝ) (key : Keys.Key) (i n : ℕ), ideal {ω | stepAfter rm q S V x al t ⟨key, i, step⟩ n ω ≤ lo} ≤ ENNReal.ofReal ε := by
  have hθ : 0 < η / 2 / rm.scale := by positivity
  obtain ⟨R, hR⟩ := exists_exp_ge hθ ((Real.exp (η / 2 / rm.scale * -Real.log step) + Real.exp (η / 2 / rm.scale * -Real.log a) * (4 / η + 1)) / ε)
  refine ⟨Real.exp (-R), Real.exp_pos _, fun x hx al t key i n => (measure_mono fun ω hω => ?_).trans (prob_le_of_moment hrm hq hS hV (-1) hθ x al t key i step hstep n
    (small_lintegral hrm hq hS hV hscale hexp ht0 ht1 hη hη1 ha hrate x hx al t key i step hstep n) hε hR)⟩
  change R ≤ -1 * Real.log _
  have hpos : 0 < stepAfter rm q S V x al t ⟨key, i, step⟩ n ω := C23_positive rm (fun p x => by rw [hrm.get, hrm.set]) _ _ (keepsIter_randomWalk _ _ _) (corrKeepsIter_metropolis _ _)
    (keepsParams_randomWalk _ _ _) (corrKeepsParams_metropolis _ _) _ _ hrm.log (by rw [hrm.get]; exact hstep) n
  have := Real.log_le_log hpos hω
  rw [Real.log_exp] at this
  linarith

end

theorem abs_le_exp_add_exp {θ : ℝ} (hθ : 0 < θ) (y : ℝ) : |y| ≤ (Real.exp (θ * (1 * y)) + Real.exp (θ * (-1 * y))) / θ := by
  rw [le_div_iff₀ hθ]
  rcases abs_cases y with ⟨h, _⟩ | ⟨h, _⟩ <;> rw [h]
  · have := Real.add_one_le_exp (θ * (1 * y))
    have := (Real.exp_pos (θ * (-1 * y))).le
    linarith
  · have := Real.add_one_le_exp (θ * (-1 * y))
    have := (Real.exp_pos (θ * (1 * y))).le
    linarith

/-- The mean of the first `N` acceptance probabilities recorded by a random walk with `RMMetropolis(Metropolis)`. -/
noncomputable def rwMeanAlpha (rm : RM ℝ) (q : ℝ → ℝ) (S : Set (Fin d → ℝ)) (V : (Fin d → ℝ) → ℝ) (x : Fin d → ℝ) (al : Fl) (t : ℝ) (e0 : Extra Keys.Key ℝ) (N : ℕ) (ω : Tape) : ℝ :=
  meanAlpha rm (randomWalk Keys.split3 (normalAt q d ω) fun x _ => potOn S V x) (metropolis Keys.split fun k => ω (k, 0)) (rwState S V x al t) e0 N

section
variable {rm : RM ℝ} (hrm : TunesStepsize rm) {q : ℝ → ℝ} {S : Set (Fin d → ℝ)} {V : (Fin d → ℝ) → ℝ}
include hrm

theorem stepAfter_pos (x : Fin d → ℝ) (al : Fl) (t : ℝ) (e0 : Extra Keys.Key ℝ) (hstep : 0 < e0.params) (n : ℕ) (ω : Tape) : 0 < stepAfter rm q S V x al t e0 n ω :=
  C23_positive rm (fun p x => by rw [hrm.get, hrm.set]) _ _ (keepsIter_randomWalk _ _ _) (corrKeepsIter_metropolis _ _)
    (keepsParams_randomWalk _ _ _) (corrKeepsParams_metropolis _ _) _ _ hrm.log (by rw [hrm.get]; exact hstep) n

theorem deviation_eq (hscale : 0 < rm.scale) (x : Fin d → ℝ) (al : Fl) (t : ℝ) (e0 : Extra Keys.Key ℝ) (hstep : 0 < e0.params) (ω : Tape) (N k : ℕ) (hk : k < N) (had : Adapting rm (e0.iter + N)) :
    (rm.target - alphaAt rm (randomWalk Keys.split3 (normalAt q d ω) fun x _ => potOn S V x) (metropolis Keys.split fun k => ω (k, 0)) (rwState S V x al t) e0 (k + 1)) * rm.monotonicity
      = invGain rm e0.iter k * (Real.log (stepAfter rm q S V x al t e0 (k + 1) ω) - Real.log (stepAfter rm q S V x al t e0 k ω)) := by
  have h := C23_update_rule rm (fun p x => by rw [hrm.get, hrm.set]) (randomWalk Keys.split3 (normalAt q d ω) fun x _ => potOn S V x) (metropolis Keys.split fun k => ω (k, 0)) (keepsIter_randomWalk _ _ _)
    (corrKeepsIter_metropolis _ _) (keepsParams_randomWalk _ _ _) (corrKeepsParams_metropolis _ _) (rwState S V x al t) e0 k hrm.log (stepAfter_pos hrm x al t e0 hstep k ω) (fun c hc => by have := had c hc; omega)
  simp only [stepAfter]
  rw [h, add_sub_cancel_left, mul_assoc, invGain_mul rm hscale]

theorem rwMeanAlpha_eq (hscale : 0 < rm.scale) (x : Fin d → ℝ) (al : Fl) (t : ℝ) (e0 : Extra Keys.Key ℝ) (hstep : 0 < e0.params) (ω : Tape) (N : ℕ) (hN : 0 < N) (had : Adapting rm (e0.iter + N)) :
    |rwMeanAlpha rm q S V x al t e0 N ω - rm.target|
      = |∑ k ∈ Finset.range N, invGain rm e0.iter k * (Real.log (stepAfter rm q S V x al t e0 (k + 1) ω) - Real.log (stepAfter rm q S V x al t e0 k ω))| / N := by
  rw [rwMeanAlpha, meanAlpha_sub _ _ _ _ _ _ hN, Finset.sum_congr rfl fun k hk => deviation_eq hrm hscale x al t e0 hstep ω N k (Finset.mem_range.mp hk) had]

theorem rwMeanAlpha_le (hscale : 0 < rm.scale) (hexp : 0 ≤ rm.negExponent) (x : Fin d → ℝ) (al : Fl) (t : ℝ) (e0 : Extra Keys.Key ℝ) (hstep : 0 < e0.params) (ω : Tape) (n : ℕ) (had : Adapting rm (e0.iter + (n + 1))) :
    |rwMeanAlpha rm q S V x al t e0 (n + 1) ω - rm.target|
      ≤ (invGain rm e0.iter n * |Real.log (stepAfter rm q S V x al t e0 (n + 1) ω)| + invGain rm e0.iter 0 * |Real.log (stepAfter rm q S V x al t e0 0 ω)|
        + ∑ k ∈ Finset.range n, (invGain rm e0.iter (k + 1) - invGain rm e0.iter k) * |Real.log (stepAfter rm q S V x al t e0 (k + 1) ω)|) / ((n + 1 : ℕ) : ℝ) := by
  rw [rwMeanAlpha_eq hrm hscale x al t e0 hstep ω (n + 1) n.succ_pos had]
  exact div_le_div_of_nonneg_right (abs_sum_le (invGain rm e0.iter) (fun k => Real.log (stepAfter rm q S V x al t e0 k ω))
    (fun k => invGain rm e0.iter k * (Real.log (stepAfter rm q S V x al t e0 (k + 1) ω) - Real.log (stepAfter rm q S V x al t e0 k ω)))
    (fun k => (invGain_pos rm hscale _ k).le) (invGain_mono rm hscale hexp _) n fun k _ => rfl) (by positivity)

variable (hq : IsNormalDraw q) (hS : MeasurableSet S) (hV : Measurable V)
include hq hS hV

theorem measurable_logStep (x : Fin d → ℝ) (al : Fl) (t : ℝ) (e0 : Extra Keys.Key ℝ) (hstep : 0 < e0.params) (n : ℕ) : Measurable fun ω => Real.log (stepAfter rm q S V x al t e0 n ω) :=
  Real.measurable_log.comp (measurable_stepAfter hrm hq hS hV x al t e0.key e0.iter e0.params hstep n)

theorem measurable_rwMeanAlpha (hscale : 0 < rm.scale) (x : Fin d → ℝ) (al : Fl) (t : ℝ) (e0 : Extra Keys.Key ℝ) (hstep : 0 < e0.params) (N : ℕ) (hN : 0 < N) (had : Adapting rm (e0.iter + N)) :
    Measurable fun ω => |rwMeanAlpha rm q S V x al t e0 N ω - rm.target| := by
  simp only [rwMeanAlpha_eq hrm hscale x al t e0 hstep _ N hN had]
  have hm : Measurable fun ω => ∑ k ∈ Finset.range N, invGain rm e0.iter k * (Real.log (stepAfter rm q S V x al t e0 (k + 1) ω) - Real.log (stepAfter rm q S V x al t e0 k ω)) :=
    Finset.measurable_fun_sum _ fun k _ => ((measurable_logStep hrm hq hS hV x al t e0 hstep (k + 1)).sub (measurable_logStep hrm hq hS hV x al t e0 hstep k)).const_mul _
  exact (continuous_abs.measurable.comp hm).div_const _

/-- What bounds the mean size of the logarithm of the stepsize. -/
theorem logStep_bound (hscale : 0 < rm.scale) (hexp : 0 ≤ rm.negExponent) (ht0 : 0 ≤ rm.target) (ht1 : rm.target ≤ 1) {η a b : ℝ} (hη : 0 < η) (hη1 : η ≤ 1) (ha : 0 < a) (hb : 0 < b)
    (hsmall : ∀ x ∈ S, ∀ s, 0 < s → s ≤ a → rm.target + η ≤ rateAt S V x s) (hlarge : ∀ x ∈ S, ∀ s ≥ b, rateAt S V x s ≤ rm.target - η) (step : ℝ) (hstep : 0 < step) :
    ∃ R, 0 ≤ R ∧ ∀ (x) (_ : x ∈ S) (al : Fl) (t : ℝ) (key : Keys.Key) (i n : ℕ),
      Integrable (fun ω => |Real.log (stepAfter rm q S V x al t ⟨key, i, step⟩ n ω)|) ideal ∧ ∫ ω, |Real.log (stepAfter rm q S V x al t ⟨key, i, step⟩ n ω)| ∂ideal ≤ R := by
  have hθ : 0 < η / 2 / rm.scale := by positivity
  obtain ⟨C1, hC1⟩ : ∃ z, z = Real.exp (η / 2 / rm.scale * Real.log step) + Real.exp (η / 2 / rm.scale * Real.log b) * (4 / η + 1) := ⟨_, rfl⟩
  obtain ⟨C2, hC2⟩ : ∃ z, z = Real.exp (η / 2 / rm.scale * -Real.log step) + Real.exp (η / 2 / rm.scale * -Real.log a) * (4 / η + 1) := ⟨_, rfl⟩
  have h1 : 0 ≤ C1 := by rw [hC1]; positivity
  have h2 : 0 ≤ C2 := by rw [hC2]; positivity
  refine ⟨(C1 + C2) / (η / 2 / rm.scale), by positivity, fun x hx al t key i n => ?_⟩
  have hL := large_lintegral hrm hq hS hV hscale hexp ht0 ht1 hη hη1 hb hlarge x hx al t key i step hstep n
  have hs := small_lintegral hrm hq hS hV hscale hexp ht0 ht1 hη hη1 ha hsmall x hx al t key i step hstep n
  rw [← hC1] at hL
  rw [← hC2] at hs
  obtain ⟨θ, hθe⟩ : ∃ z, z = η / 2 / rm.scale := ⟨_, rfl⟩
  rw [← hθe] at hL hs hθ ⊢
  have hmL := measurable_logStep hrm hq hS hV x al t ⟨key, i, step⟩ hstep n
  have hme : ∀ sg : ℝ, Measurable fun ω => Real.exp (θ * (sg * Real.log (stepAfter rm q S V x al t ⟨key, i, step⟩ n ω))) := fun sg => Real.measurable_exp.comp ((hmL.const_mul sg).const_mul θ)
  have hle : ∫⁻ ω, ENNReal.ofReal |Real.log (stepAfter rm q S V x al t ⟨key, i, step⟩ n ω)| ∂ideal ≤ ENNReal.ofReal ((C1 + C2) / θ) := by
    calc _ ≤ ∫⁻ ω, (ENNReal.ofReal (Real.exp (θ * (1 * Real.log (stepAfter rm q S V x al t ⟨key, i, step⟩ n ω)))) + ENNReal.ofReal (Real.exp (θ * (-1 * Real.log (stepAfter rm q S V x al t ⟨key, i, step⟩ n ω)))))
            * ENNReal.ofReal (1 / θ) ∂ideal := lintegral_mono fun ω => by
          rw [← ENNReal.ofReal_add (Real.exp_pos _).le (Real.exp_pos _).le, ← ENNReal.ofReal_mul (by positivity)]
          refine ENNReal.ofReal_le_ofReal ((abs_le_exp_add_exp hθ _).trans (le_of_eq ?_))
          ring
      _ = _ := by
          have hadd : Measurable fun ω => ENNReal.ofReal (Real.exp (θ * (1 * Real.log (stepAfter rm q S V x al t ⟨key, i, step⟩ n ω)))) + ENNReal.ofReal (Real.exp (θ * (-1 * Real.log (stepAfter rm q S V x al t ⟨key, i, step⟩ n ω)))) :=
            (hme 1).ennreal_ofReal.add (hme (-1)).ennreal_ofReal
          rw [lintegral_mul_const _ hadd, lintegral_add_left (hme 1).ennreal_ofReal]
      _ ≤ (ENNReal.ofReal C1 + ENNReal.ofReal C2) * ENNReal.ofReal (1 / θ) := by gcongr
      _ = _ := by rw [← ENNReal.ofReal_add h1 h2, ← ENNReal.ofReal_mul (by positivity)]; congr 1; ring
  have hma : Measurable fun ω => |Real.log (stepAfter rm q S V x al t ⟨key, i, step⟩ n ω)| := continuous_abs.measurable.comp hmL
  have hint : Integrable (fun ω => |Real.log (stepAfter rm q S V x al t ⟨key, i, step⟩ n ω)|) ideal := by
    refine ⟨hma.aestronglyMeasurable, ?_⟩
    rw [hasFiniteIntegral_iff_ofReal (.of_forall fun ω => abs_nonneg _)]
    exact hle.trans_lt ENNReal.ofReal_lt_top
  refine ⟨hint, ?_⟩
  rw [integral_eq_lintegral_of_nonneg_ae (.of_forall fun ω => abs_nonneg _) hma.aestronglyMeasurable]
  exact ENNReal.toReal_le_of_le_ofReal (by positivity) hle

/-- C143 for a random walk on an ideal generator, on any scenario where small stepsizes are accepted more often and large ones less often than the target, by a margin: the mean of the acceptance
probabilities recorded by the first `N` updates has a mean distance from the target of at most a constant times `(i + N) ^ rm_stepsize_neg_exponent / N`. -/
theorem C143_randomWalk (hscale : 0 < rm.scale) (hexp : 0 ≤ rm.negExponent) (ht0 : 0 ≤ rm.target) (ht1 : rm.target ≤ 1) {η a b : ℝ} (hη : 0 < η) (hη1 : η ≤ 1) (ha : 0 < a) (hb : 0 < b)
    (hsmall : ∀ x ∈ S, ∀ s, 0 < s → s ≤ a → rm.target + η ≤ rateAt S V x s) (hlarge : ∀ x ∈ S, ∀ s ≥ b, rateAt S V x s ≤ rm.target - η) (step : ℝ) (hstep : 0 < step) :
    ∃ C, 0 ≤ C ∧ ∀ (x) (_ : x ∈ S) (al : Fl) (t : ℝ) (key : Keys.Key) (i N : ℕ), 0 < N → Adapting rm (i + N) →
      ∫⁻ ω, ENNReal.ofReal |rwMeanAlpha rm q S V x al t ⟨key, i, step⟩ N ω - rm.target| ∂ideal ≤ ENNReal.ofReal (C * (((i + N : ℕ) : ℝ) ^ rm.negExponent / N)) := by
  obtain ⟨R, hR0, hR⟩ := logStep_bound hrm hq hS hV hscale hexp ht0 ht1 hη hη1 ha hb hsmall hlarge step hstep
  refine ⟨2 * R / rm.scale, by positivity, fun x hx al t key i N hN had => ?_⟩
  obtain ⟨n, rfl⟩ : ∃ n, N = n + 1 := ⟨N - 1, by omega⟩
  have hg0 := fun k => (invGain_pos rm hscale i k).le
  have hgm := invGain_mono rm hscale hexp i
  have hint := fun k => (hR x hx al t key i k).1
  have i1 : Integrable (fun ω => invGain rm i n * |Real.log (stepAfter rm q S V x al t ⟨key, i, step⟩ (n + 1) ω)|) ideal := (hint (n + 1)).const_mul _
  have i2 : Integrable (fun ω => invGain rm i 0 * |Real.log (stepAfter rm q S V x al t ⟨key, i, step⟩ 0 ω)|) ideal := (hint 0).const_mul _
  have i3 : ∀ k ∈ Finset.range n, Integrable (fun ω => (invGain rm i (k + 1) - invGain rm i k) * |Real.log (stepAfter rm q S V x al t ⟨key, i, step⟩ (k + 1) ω)|) ideal := fun k _ => (hint (k + 1)).const_mul _
  have i12 : Integrable (fun ω => invGain rm i n * |Real.log (stepAfter rm q S V x al t ⟨key, i, step⟩ (n + 1) ω)| + invGain rm i 0 * |Real.log (stepAfter rm q S V x al t ⟨key, i, step⟩ 0 ω)|) ideal := i1.add i2
  have i4 := integrable_finsetSum _ i3
  have itot : Integrable (fun ω => invGain rm i n * |Real.log (stepAfter rm q S V x al t ⟨key, i, step⟩ (n + 1) ω)| + invGain rm i 0 * |Real.log (stepAfter rm q S V x al t ⟨key, i, step⟩ 0 ω)|
        + ∑ k ∈ Finset.range n, (invGain rm i (k + 1) - invGain rm i k) * |Real.log (stepAfter rm q S V x al t ⟨key, i, step⟩ (k + 1) ω)|) ideal := i12.add i4
  refine (lintegral_mono fun ω => ENNReal.ofReal_le_ofReal (rwMeanAlpha_le hrm hscale hexp x al t ⟨key, i, step⟩ hstep ω n had)).trans ?_
  rw [← ofReal_integral_eq_lintegral_ofReal (itot.div_const _) (.of_forall fun ω => div_nonneg (add_nonneg (add_nonneg (mul_nonneg (hg0 _) (abs_nonneg _)) (mul_nonneg (hg0 _) (abs_nonneg _)))
    (Finset.sum_nonneg fun k _ => mul_nonneg (sub_nonneg.mpr (hgm k.le_succ)) (abs_nonneg _))) (by positivity))]
  refine ENNReal.ofReal_le_ofReal ?_
  rw [integral_div, integral_add i12 i4, integral_add i1 i2, integral_finsetSum _ i3]
  simp only [integral_const_mul]
  have hle : invGain rm i n * ∫ ω, |Real.log (stepAfter rm q S V x al t ⟨key, i, step⟩ (n + 1) ω)| ∂ideal + invGain rm i 0 * ∫ ω, |Real.log (stepAfter rm q S V x al t ⟨key, i, step⟩ 0 ω)| ∂ideal
      + ∑ k ∈ Finset.range n, (invGain rm i (k + 1) - invGain rm i k) * ∫ ω, |Real.log (stepAfter rm q S V x al t ⟨key, i, step⟩ (k + 1) ω)| ∂ideal ≤ 2 * R * invGain rm i n := by
    rw [← sum_bound (invGain rm i) n R]
    exact add_le_add (add_le_add (mul_le_mul_of_nonneg_left (hR x hx al t key i _).2 (hg0 _)) (mul_le_mul_of_nonneg_left (hR x hx al t key i _).2 (hg0 _)))
      (Finset.sum_le_sum fun k _ => mul_le_mul_of_nonneg_left (hR x hx al t key i _).2 (sub_nonneg.mpr (hgm k.le_succ)))
  refine (div_le_div_of_nonneg_right hle (by positivity)).trans (le_of_eq ?_)
  rw [invGain]
  have e : i + n + 1 = i + (n + 1) := by omega
  rw [e]
  field_simp

/-- C143 in the long run: with the exponent below 1 and adaptation never cut off, the mean of the recorded acceptance probabilities tends to the target, in mean. -/
theorem C143_randomWalk_limit (hscale : 0 < rm.scale) (hexp : 0 ≤ rm.negExponent) (hexp1 : rm.negExponent < 1) (hcut : rm.adaptCutOff = none) (ht0 : 0 ≤ rm.target) (ht1 : rm.target ≤ 1) {η a b : ℝ} (hη : 0 < η) (hη1 : η ≤ 1)
    (ha : 0 < a) (hb : 0 < b) (hsmall : ∀ x ∈ S, ∀ s, 0 < s → s ≤ a → rm.target + η ≤ rateAt S V x s) (hlarge : ∀ x ∈ S, ∀ s ≥ b, rateAt S V x s ≤ rm.target - η) (step : ℝ) (hstep : 0 < step)
    (x : Fin d → ℝ) (hx : x ∈ S) (al : Fl) (t : ℝ) (key : Keys.Key) (i : ℕ) :
    Tendsto (fun N => ∫⁻ ω, ENNReal.ofReal |rwMeanAlpha rm q S V x al t ⟨key, i, step⟩ N ω - rm.target| ∂ideal) atTop (𝓝 0) := by
  obtain ⟨C, -, hC⟩ := C143_randomWalk hrm hq hS hV hscale hexp ht0 ht1 hη hη1 ha hb hsmall hlarge step hstep
  have h := ENNReal.tendsto_ofReal ((tendsto_schedule i hexp hexp1).const_mul C)
  rw [mul_zero, ENNReal.ofReal_zero] at h
  refine tendsto_of_tendsto_of_tendsto_of_le_of_le' tendsto_const_nhds h (.of_forall fun _ => bot_le) ?_
  filter_upwards [eventually_gt_atTop 0] with N hN
  exact hC x hx al t key i N hN fun c hc => by simp [hcut] at hc

end

/-! ## Scenarios where the rates are as required -/

section
variable {S : Set (Fin d → ℝ)} {V : (Fin d → ℝ) → ℝ}

theorem gauss_interval_le {r : ℝ} (hr : 0 ≤ r) : (gaussianReal 0 1).real (Set.Icc (-r) r) ≤ 2 * r := by
  have h : gaussianReal 0 1 (Set.Icc (-r) r) ≤ ENNReal.ofReal (2 * r) := by
    rw [gaussianReal_of_var_ne_zero 0 one_ne_zero, withDensity_apply _ measurableSet_Icc]
    calc _ ≤ ∫⁻ _ in Set.Icc (-r) r, 1 := by
          refine lintegral_mono fun x => ?_
          rw [gaussianPDF, ← ENNReal.ofReal_one]
          refine ENNReal.ofReal_le_ofReal ?_
          rw [gaussianPDFReal]
          have h1 : (1 : ℝ) ≤ Real.sqrt (2 * Real.pi * ((1 : NNReal) : ℝ)) := by
            rw [Real.one_le_sqrt]
            have := Real.pi_gt_three
            norm_num
            linarith
          have h2 : Real.exp (-(x - 0) ^ 2 / (2 * ((1 : NNReal) : ℝ))) ≤ 1 := Real.exp_le_one_iff.mpr (by
            apply div_nonpos_of_nonpos_of_nonneg
            · have := sq_nonneg (x - 0); linarith
            · positivity)
          exact mul_le_one₀ (inv_le_one_of_one_le₀ h1) (Real.exp_pos _).le h2
      _ = ENNReal.ofReal (2 * r) := by
          rw [setLIntegral_one, Real.volume_Icc]
          congr 1
          ring
  exact ENNReal.toReal_le_of_le_ofReal (by positivity) h

theorem measurable_acc (hS : MeasurableSet S) (hV : Measurable V) (x : Fin d → ℝ) (step : ℝ) : Measurable fun ξ : Fin d → ℝ => accOn S V x (rwProp (Real.sqrt step) (x, ξ)) :=
  (measurable_accOn hS hV).comp (measurable_const.prodMk ((measurable_rwProp _).comp (measurable_const.prodMk measurable_id)))

theorem integrable_acc (hS : MeasurableSet S) (hV : Measurable V) (x : Fin d → ℝ) (step : ℝ) : Integrable (fun ξ : Fin d → ℝ => accOn S V x (rwProp (Real.sqrt step) (x, ξ))) (stdNormal d) :=
  Integrable.of_bound (measurable_acc hS hV x step).aestronglyMeasurable 1 (.of_forall fun ξ => by rw [Real.norm_of_nonneg (accOn_nonneg _ _ _ _)]; exact accOn_le_one _ _ _ _)

/-- On a support that is bounded in some direction, a large stepsize is rarely accepted. -/
theorem rateAt_le (hS : MeasurableSet S) (hV : Measurable V) (j : Fin d) {D : ℝ} (hD : ∀ x ∈ S, ∀ y ∈ S, |y j - x j| ≤ D) {x : Fin d → ℝ} (hx : x ∈ S) {s : ℝ} (hs : 0 < s) : rateAt S V x s ≤ 2 * (D / Real.sqrt s) := by
  have hsq : 0 < Real.sqrt s := Real.sqrt_pos.mpr hs
  have hD0 : 0 ≤ D := (abs_nonneg _).trans (hD x hx x hx)
  have hms : MeasurableSet {ξ : Fin d → ℝ | ξ j ∈ Set.Icc (-(D / Real.sqrt s)) (D / Real.sqrt s)} := measurableSet_Icc.preimage (measurable_pi_apply j)
  have hle : ∀ ξ : Fin d → ℝ, accOn S V x (rwProp (Real.sqrt s) (x, ξ)) ≤ {ξ : Fin d → ℝ | ξ j ∈ Set.Icc (-(D / Real.sqrt s)) (D / Real.sqrt s)}.indicator 1 ξ := by
    intro ξ
    by_cases hy : rwProp (Real.sqrt s) (x, ξ) ∈ S
    · have h1 := hD x hx _ hy
      have h2 : rwProp (Real.sqrt s) (x, ξ) j - x j = Real.sqrt s * ξ j := by simp [rwProp]
      rw [h2, abs_mul, abs_of_pos hsq] at h1
      have h3 : |ξ j| ≤ D / Real.sqrt s := by rw [le_div_iff₀ hsq, mul_comm]; exact h1
      have h4 : ξ ∈ {ξ : Fin d → ℝ | ξ j ∈ Set.Icc (-(D / Real.sqrt s)) (D / Real.sqrt s)} := abs_le.mp h3
      rw [Set.indicator_of_mem h4]
      exact accOn_le_one _ _ _ _
    · have : accOn S V x (rwProp (Real.sqrt s) (x, ξ)) = 0 := by unfold accOn; rw [if_neg hy]
      rw [this]
      exact Set.indicator_nonneg (fun _ _ => zero_le_one) _
  calc rateAt S V x s ≤ ∫ ξ, {ξ : Fin d → ℝ | ξ j ∈ Set.Icc (-(D / Real.sqrt s)) (D / Real.sqrt s)}.indicator 1 ξ ∂(stdNormal d) :=
        integral_mono (integrable_acc hS hV x s) ((integrable_const (1 : ℝ)).indicator hms) hle
    _ = (stdNormal d).real {ξ : Fin d → ℝ | ξ j ∈ Set.Icc (-(D / Real.sqrt s)) (D / Real.sqrt s)} := integral_indicator_one hms
    _ = (gaussianReal 0 1).real (Set.Icc (-(D / Real.sqrt s)) (D / Real.sqrt s)) := by
        have hmp : MeasurePreserving (Function.eval j) (stdNormal d) (gaussianReal 0 1) := measurePreserving_eval (fun _ : Fin d => gaussianReal 0 1) j
        exact hmp.measureReal_preimage measurableSet_Icc.nullMeasurableSet
    _ ≤ _ := gauss_interval_le (by positivity)

/-- C143: on a support that is bounded in some direction, with a positive target, stepsizes above some bound are accepted less often than the target. -/
theorem C143_large_rejected (hS : MeasurableSet S) (hV : Measurable V) (j : Fin d) {D : ℝ} (hD : ∀ x ∈ S, ∀ y ∈ S, |y j - x j| ≤ D) {target : ℝ} (ht : 0 < target) :
    ∃ b > 0, ∀ x ∈ S, ∀ s ≥ b, rateAt S V x s ≤ target - target / 2 := by
  refine ⟨(4 * |D| / target) ^ 2 + 1, by positivity, fun x hx s hs => ?_⟩
  have hs0 : 0 < s := lt_of_lt_of_le (by positivity) hs
  refine (rateAt_le hS hV j hD hx hs0).trans ?_
  have h1 : 4 * |D| / target ≤ Real.sqrt s := Real.le_sqrt_of_sq_le (by linarith)
  rw [div_le_iff₀ ht] at h1
  have h2 := le_abs_self D
  have : 2 * (D / Real.sqrt s) ≤ target / 2 := by
    rw [← mul_div_assoc, div_le_iff₀ (Real.sqrt_pos.mpr hs0)]
    linarith
  linarith

/-- The box with opposite corners `lo` and `hi`. -/
def boxOf (lo hi : Fin d → ℝ) : Set (Fin d → ℝ) := Set.Icc lo hi

/-- Which way to go from `x` to stay in the box for long. -/
noncomputable def inward (lo hi x : Fin d → ℝ) (r : ℝ) (i : Fin d) : Set ℝ := if x i ≤ (lo i + hi i) / 2 then Set.Icc 0 r else Set.Icc (-r) 0

theorem gauss_half_neg (r : ℝ) : gaussianReal 0 1 (Set.Icc (-r) 0) = gaussianReal 0 1 (Set.Icc 0 r) := by
  have h : (gaussianReal 0 1).map (fun y => -y) = gaussianReal 0 1 := by simp [gaussianReal_map_neg]
  conv_lhs => rw [← h]
  rw [Measure.map_apply measurable_neg measurableSet_Icc]
  congr 1
  ext y
  simp only [Set.mem_preimage, Set.mem_Icc]
  constructor <;> rintro ⟨h1, h2⟩ <;> constructor <;> linarith

theorem stdNormal_inward (lo hi x : Fin d → ℝ) (r : ℝ) : (stdNormal d).real (Set.univ.pi (inward lo hi x r)) = (gaussianReal 0 1).real (Set.Icc 0 r) ^ d := by
  rw [measureReal_def, stdNormal, Measure.pi_pi]
  have : ∀ i, gaussianReal 0 1 (inward lo hi x r i) = gaussianReal 0 1 (Set.Icc 0 r) := fun i => by
    unfold inward
    split_ifs
    · rfl
    · exact gauss_half_neg r
  rw [Finset.prod_congr rfl fun i _ => this i, Finset.prod_const, Finset.card_univ, Fintype.card_fin, ENNReal.toReal_pow, measureReal_def]

theorem gauss_half : (gaussianReal 0 1).real (Set.Ici 0) = 1 / 2 := by
  have hn : gaussianReal 0 1 (Set.Iic 0) = gaussianReal 0 1 (Set.Ici 0) := by
    have h : (gaussianReal 0 1).map (fun y => -y) = gaussianReal 0 1 := by simp [gaussianReal_map_neg]
    conv_lhs => rw [← h]
    rw [Measure.map_apply measurable_neg measurableSet_Iic]
    congr 1
    ext y
    simp
  have : NullSingletonClass (gaussianReal 0 1) := nullSingletonClass_gaussianReal one_ne_zero
  have hci : gaussianReal 0 1 (Set.Iic 0) = gaussianReal 0 1 (Set.Iio 0) := (measure_congr Iio_ae_eq_Iic).symm
  have hc := prob_compl_eq_one_sub (μ := gaussianReal 0 1) (s := Set.Ici (0 : ℝ)) measurableSet_Ici
  rw [Set.compl_Ici, ← hci, hn] at hc
  have hc' := congrArg ENNReal.toReal hc
  rw [ENNReal.toReal_sub_of_le prob_le_one ENNReal.one_ne_top, ENNReal.toReal_one] at hc'
  rw [measureReal_def]
  linarith

theorem tendsto_gauss_half : Tendsto (fun n : ℕ => (gaussianReal 0 1).real (Set.Icc 0 (n : ℝ))) atTop (𝓝 (1 / 2)) := by
  have hmono : Monotone fun n : ℕ => Set.Icc (0 : ℝ) n := fun a b hab => Set.Icc_subset_Icc_right (by exact_mod_cast hab)
  have h := tendsto_measure_iUnion_atTop (μ := gaussianReal 0 1) hmono
  have hU : (⋃ n : ℕ, Set.Icc (0 : ℝ) n) = Set.Ici 0 := by
    ext y
    simp only [Set.mem_iUnion, Set.mem_Icc, Set.mem_Ici]
    constructor
    · rintro ⟨n, h1, _⟩; exact h1
    · intro h1
      obtain ⟨n, hn⟩ := exists_nat_ge y
      exact ⟨n, h1, hn⟩
  rw [hU] at h
  have h2 := (ENNReal.tendsto_toReal (measure_ne_top (gaussianReal 0 1) _)).comp h
  rw [← gauss_half]
  exact h2

/-- Every proposal that goes inward by less than half the width stays in the box. -/
theorem inward_mem {lo hi x : Fin d → ℝ} (hx : x ∈ boxOf lo hi) {r h : ℝ} (hh : 0 ≤ h) (hr : ∀ i, h * r ≤ (hi i - lo i) / 2) {ξ : Fin d → ℝ} (hξ : ξ ∈ Set.univ.pi (inward lo hi x r)) :
    rwProp h (x, ξ) ∈ boxOf lo hi ∧ ∀ i, |rwProp h (x, ξ) i - x i| ≤ h * r := by
  have key : ∀ i, (lo i ≤ x i + h * ξ i ∧ x i + h * ξ i ≤ hi i) ∧ |h * ξ i| ≤ h * r := fun i => by
    have h1 := hξ i (Set.mem_univ i)
    have hl := hx.1 i
    have hu := hx.2 i
    have h2 := hr i
    unfold inward at h1
    split_ifs at h1 with hc
    · have a1 : 0 ≤ h * ξ i := mul_nonneg hh h1.1
      have a2 : h * ξ i ≤ h * r := mul_le_mul_of_nonneg_left h1.2 hh
      exact ⟨⟨by linarith, by linarith⟩, by rw [abs_of_nonneg a1]; exact a2⟩
    · have a1 : h * ξ i ≤ 0 := mul_nonpos_of_nonneg_of_nonpos hh h1.2
      have a2 : -(h * r) ≤ h * ξ i := by have := mul_le_mul_of_nonneg_left h1.1 hh; linarith
      push Not at hc
      exact ⟨⟨by linarith, by linarith⟩, by rw [abs_of_nonpos a1]; linarith⟩
  refine ⟨⟨fun i => (key i).1.1, fun i => (key i).1.2⟩, fun i => ?_⟩
  have e : rwProp h (x, ξ) i - x i = h * ξ i := by simp [rwProp]
  rw [e]
  exact (key i).2

/-- A lower bound on the acceptance rate in a box. -/
theorem le_rateAt {lo hi : Fin d → ℝ} (hV : Measurable V) {r s δ ρ : ℝ} (hr : ∀ i, Real.sqrt s * r ≤ (hi i - lo i) / 2) (hρ : Real.sqrt s * r ≤ ρ)
    (hmod : ∀ x ∈ boxOf lo hi, ∀ y ∈ boxOf lo hi, (∀ i, |y i - x i| ≤ ρ) → V y - V x ≤ δ) (hδ : 0 ≤ δ) {x : Fin d → ℝ} (hx : x ∈ boxOf lo hi) :
    Real.exp (-δ) * (gaussianReal 0 1).real (Set.Icc 0 r) ^ d ≤ rateAt (boxOf lo hi) V x s := by
  have hSm : MeasurableSet (boxOf lo hi) := measurableSet_Icc
  have hms : MeasurableSet (Set.univ.pi (inward lo hi x r)) := MeasurableSet.univ_pi fun i => by unfold inward; split_ifs <;> exact measurableSet_Icc
  have hle : ∀ ξ : Fin d → ℝ, (Set.univ.pi (inward lo hi x r)).indicator (fun _ => Real.exp (-δ)) ξ ≤ accOn (boxOf lo hi) V x (rwProp (Real.sqrt s) (x, ξ)) := fun ξ => by
    by_cases h : ξ ∈ Set.univ.pi (inward lo hi x r)
    · obtain ⟨h1, h2⟩ := inward_mem hx (Real.sqrt_nonneg s) hr h
      rw [Set.indicator_of_mem h, accOn, if_pos h1, if_pos hx]
      have := hmod x hx _ h1 fun i => (h2 i).trans hρ
      exact le_min (Real.exp_le_one_iff.mpr (by linarith)) (Real.exp_le_exp.mpr (by linarith))
    · rw [Set.indicator_of_notMem h]
      exact accOn_nonneg _ _ _ _
  calc _ = ∫ ξ, (Set.univ.pi (inward lo hi x r)).indicator (fun _ => Real.exp (-δ)) ξ ∂(stdNormal d) := by
        rw [integral_indicator_const _ hms, stdNormal_inward, smul_eq_mul, mul_comm]
    _ ≤ _ := integral_mono ((integrable_const _).indicator hms) (integrable_acc hSm hV x s) hle

/-- C143: on a box with a continuous potential, if the target is below `1 / 2 ^ dim`, stepsizes below some bound are accepted more often than the target. -/
theorem C143_small_accepted {lo hi : Fin d → ℝ} (hbox : ∀ i, lo i < hi i) (hV : Measurable V) (hc : ContinuousOn V (boxOf lo hi)) {target : ℝ} (ht : target < (1 / 2) ^ d) :
    ∃ a > 0, ∃ η > 0, ∀ x ∈ boxOf lo hi, ∀ s, 0 < s → s ≤ a → target + η ≤ rateAt (boxOf lo hi) V x s := by
  have h1 : Tendsto (fun n : ℕ => Real.exp (-(1 / ((n : ℝ) + 1))) * (gaussianReal 0 1).real (Set.Icc 0 (n : ℝ)) ^ d) atTop (𝓝 ((1 / 2) ^ d)) := by
    have e1 : Tendsto (fun n : ℕ => Real.exp (-(1 / ((n : ℝ) + 1)))) atTop (𝓝 (Real.exp (-0))) := (Real.continuous_exp.tendsto _).comp tendsto_one_div_add_atTop_nhds_zero_nat.neg
    have := e1.mul (tendsto_gauss_half.pow d)
    simpa using this
  have hmid : target < (target + (1 / 2) ^ d) / 2 ∧ (target + (1 / 2) ^ d) / 2 < (1 / 2) ^ d := by constructor <;> linarith
  obtain ⟨n, hn⟩ := (h1.eventually (lt_mem_nhds hmid.2)).exists
  have huc : UniformContinuousOn V (boxOf lo hi) := isCompact_Icc.uniformContinuousOn_of_continuous hc
  rw [Metric.uniformContinuousOn_iff] at huc
  obtain ⟨ρ, hρ0, hρ⟩ := huc (1 / ((n : ℝ) + 1)) (by positivity)
  obtain ⟨w, hw0, hw⟩ : ∃ w > 0, ∀ i, w ≤ (hi i - lo i) / 2 := by
    rcases isEmpty_or_nonempty (Fin d) with h | h
    · exact ⟨1, one_pos, fun i => h.elim i⟩
    · obtain ⟨i0, hi0⟩ := Finite.exists_min fun i => (hi i - lo i) / 2
      exact ⟨(hi i0 - lo i0) / 2, by linarith [hbox i0], hi0⟩
  have hm0 : 0 < min w (ρ / 2) / ((n : ℝ) + 1) := by positivity
  refine ⟨(min w (ρ / 2) / ((n : ℝ) + 1)) ^ 2, by positivity, (target + (1 / 2) ^ d) / 2 - target, by linarith, fun x hx s _ hsa => ?_⟩
  have hsq : Real.sqrt s * n ≤ min w (ρ / 2) := by
    have a1 : Real.sqrt s ≤ min w (ρ / 2) / ((n : ℝ) + 1) := Real.sqrt_le_iff.mpr ⟨hm0.le, hsa⟩
    have a2 : Real.sqrt s * n ≤ Real.sqrt s * ((n : ℝ) + 1) := mul_le_mul_of_nonneg_left (by linarith) (Real.sqrt_nonneg s)
    rw [le_div_iff₀ (by positivity)] at a1
    exact a2.trans a1
  have := le_rateAt (V := V) (lo := lo) (hi := hi) hV (r := n) (δ := 1 / ((n : ℝ) + 1)) (ρ := ρ / 2) (fun i => hsq.trans ((min_le_left _ _).trans (hw i))) (hsq.trans (min_le_right _ _)) (fun x hx y hy hxy => by
    have hd : dist y x < ρ := by
      refine lt_of_le_of_lt ((dist_pi_le_iff (by positivity)).mpr fun i => ?_) (half_lt_self hρ0)
      rw [Real.dist_eq]
      exact hxy i
    have := hρ y hy x hx hd
    rw [Real.dist_eq] at this
    exact (le_abs_self _).trans this.le) (by positivity) hx
  linarith

end

/-- C143 for every continuous potential on a box: with a target between 0 and `1 / 2 ^ dim`, the mean of the acceptance probabilities recorded by the first `N` updates tends to the target, in mean. The
default target of a random walk, 0.234, is such a target in one and two dimensions. -/
theorem C143_box {rm : RM ℝ} (hrm : TunesStepsize rm) {q : ℝ → ℝ} (hq : IsNormalDraw q) {lo hi : Fin d → ℝ} (hd : 0 < d) (hbox : ∀ i, lo i < hi i) {V : (Fin d → ℝ) → ℝ} (hV : Measurable V) (hc : ContinuousOn V (boxOf lo hi))
    (hscale : 0 < rm.scale) (hexp : 0 ≤ rm.negExponent) (hexp1 : rm.negExponent < 1) (hcut : rm.adaptCutOff = none) (ht0 : 0 < rm.target) (ht : rm.target < (1 / 2) ^ d) (step : ℝ) (hstep : 0 < step) (x : Fin d → ℝ)
    (hx : x ∈ boxOf lo hi) (al : Fl) (t : ℝ) (key : Keys.Key) (i : ℕ) :
    Tendsto (fun N => ∫⁻ ω, ENNReal.ofReal |rwMeanAlpha rm q (boxOf lo hi) V x al t ⟨key, i, step⟩ N ω - rm.target| ∂ideal) atTop (𝓝 0) := by
  have hSm : MeasurableSet (boxOf lo hi) := measurableSet_Icc
  obtain ⟨b, hb, hlarge⟩ := C143_large_rejected (S := boxOf lo hi) hSm hV ⟨0, hd⟩ (D := hi ⟨0, hd⟩ - lo ⟨0, hd⟩) (fun x hx y hy => by
    have h1 := hx.1 ⟨0, hd⟩
    have h2 := hx.2 ⟨0, hd⟩
    have h3 := hy.1 ⟨0, hd⟩
    have h4 := hy.2 ⟨0, hd⟩
    rw [abs_le]
    constructor <;> linarith) ht0
  obtain ⟨a, ha, η, hη, hsmall⟩ := C143_small_accepted hbox hV hc ht
  have ht1 : rm.target ≤ 1 := ht.le.trans (pow_le_one₀ (by norm_num) (by norm_num))
  have hm0 : 0 < min η (rm.target / 2) := lt_min hη (by linarith)
  exact C143_randomWalk_limit hrm hq hSm hV hscale hexp hexp1 hcut ht0.le ht1 (η := min η (rm.target / 2)) hm0 ((min_le_right _ _).trans (by linarith)) ha hb
    (fun x hx s h1 h2 => (by linarith [min_le_left η (rm.target / 2)] : rm.target + min η (rm.target / 2) ≤ rm.target + η).trans (hsmall x hx s h1 h2))
    (fun x hx s hs => (hlarge x hx s hs).trans (by linarith [min_le_right η (rm.target / 2)])) step hstep x hx al t key i

/-! ## The rates are needed -/

/-- `RMMetropolis` as a `RandomWalk` uses it by default: target 0.234, gains `iter ^ (-2/3)`, no cut-off. -/
noncomputable def defaultRM : RM ℝ where
  get p := p
  set _ x := x
  target := 0.234
  increasing := false
  adaptCutOff := none
  scale := 1
  negExponent := 2 / 3
  logUpdate := true

theorem tunes_defaultRM : TunesStepsize defaultRM := ⟨fun _ => rfl, fun _ _ => rfl, rfl, rfl⟩

/-- C143 cannot do without conditions on the rates: on a flat potential every proposal is accepted, whatever the stepsize, and the mean is 1 for every `N`. -/
theorem C143_flat {q : ℝ → ℝ} (x : Fin d → ℝ) (al : Fl) (t : ℝ) (key : Keys.Key) (i : ℕ) (step : ℝ) (hstep : 0 < step) (N : ℕ) (hN : 0 < N) (ω : Tape) :
    rwMeanAlpha defaultRM q Set.univ (fun _ => 0) x al t ⟨key, i, step⟩ N ω = 1 := by
  have hacc : ∀ x y : Fin d → ℝ, accOn Set.univ (fun _ => 0) x y = 1 := fun x y => by simp [accOn]
  have key' : ∀ n x al t k i step, 0 < step → flToReal (bodyIter (rmUpdateOn defaultRM q (Set.univ : Set (Fin d → ℝ)) (fun _ => 0) ω) (n + 1) (rwState Set.univ (fun _ => 0) x al t, ⟨k, i, step⟩)).1.alpha = 1 := by
    intro n
    induction n with
    | zero =>
      intro x al t k i step hstep
      obtain ⟨al', t', h, ha⟩ := rmUpdateOn_eq tunes_defaultRM (q := q) (S := Set.univ) (V := fun _ => 0) ω x al t k i step hstep
      have : bodyIter (rmUpdateOn defaultRM q (Set.univ : Set (Fin d → ℝ)) (fun _ => 0) ω) (0 + 1) (rwState Set.univ (fun _ => 0) x al t, ⟨k, i, step⟩)
        = rmUpdateOn defaultRM q Set.univ (fun _ => 0) ω (rwState Set.univ (fun _ => 0) x al t) ⟨k, i, step⟩ := by simp [bodyIter]
      rw [this, h]
      exact ha.trans (hacc _ _)
    | succ n ih =>
      intro x al t k i step hstep
      obtain ⟨al', t', h, -⟩ := rmUpdateOn_eq tunes_defaultRM (q := q) (S := Set.univ) (V := fun _ => 0) ω x al t k i step hstep
      have : bodyIter (rmUpdateOn defaultRM q (Set.univ : Set (Fin d → ℝ)) (fun _ => 0) ω) (n + 1 + 1) (rwState Set.univ (fun _ => 0) x al t, ⟨k, i, step⟩)
        = bodyIter (rmUpdateOn defaultRM q (Set.univ : Set (Fin d → ℝ)) (fun _ => 0) ω) (n + 1) (rmUpdateOn defaultRM q Set.univ (fun _ => 0) ω (rwState Set.univ (fun _ => 0) x al t) ⟨k, i, step⟩) := by
        simp [bodyIter, Function.iterate_succ_apply]
      rw [this, h]
      exact ih _ _ _ _ _ _ (adaptMove_pos _ _ _ _ _)
  have hsum : ∀ k ∈ Finset.range N, alphaAt defaultRM (randomWalk Keys.split3 (normalAt q d ω) fun x _ => potOn Set.univ (fun _ => 0) x) (metropolis Keys.split fun k => ω (k, 0)) (rwState Set.univ (fun _ => 0) x al t)
      ⟨key, i, step⟩ (k + 1) = 1 := fun k _ => key' k x al t key i step hstep
  rw [rwMeanAlpha, meanAlpha, Finset.sum_congr rfl hsum]
  have : (N : ℝ) ≠ 0 := by exact_mod_cast hN.ne'
  simp [this]

/-! ## Cases -/

/-- A random walk with default adaptation on the unit square, with the potential `x ↦ x 0 ^ 2 + x 1`. -/
example {q : ℝ → ℝ} (hq : IsNormalDraw q) (key : Keys.Key) :
    Tendsto (fun N => ∫⁻ ω, ENNReal.ofReal |rwMeanAlpha defaultRM q (boxOf (fun _ : Fin 2 => 0) fun _ => 1) (fun x => x 0 ^ 2 + x 1) (fun _ => 1 / 2) (Fl.fin 1) 1 ⟨key, 0, 1⟩ N ω - 0.234| ∂ideal) atTop (𝓝 0) :=
  C143_box tunes_defaultRM hq two_pos (fun _ => one_pos) (by fun_prop) (by fun_prop) one_pos (by norm_num [defaultRM]) (by norm_num [defaultRM]) rfl (by norm_num [defaultRM]) (by norm_num [defaultRM]) 1 one_pos _
    ⟨fun _ => by norm_num, fun _ => by norm_num⟩ _ _ _ _

end Mocat.Props
