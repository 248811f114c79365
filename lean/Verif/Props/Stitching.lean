import Verif.Props.OnlineSmoothingLaw
/-!
# C139: the choices made by fixed-lag stitching

The draws come from an ideal generator (`Verif.Spec.Tape`).
-/
namespace Mocat.Props
open Mocat Mocat.Filtering Mocat.Backward Mocat.Online Mocat.Metrics Mocat.Ideal Mocat.Meas MeasureTheory
open scoped ENNReal

variable {X : Type} {n dy : ℕ}

/-- Specification: the probability that a trajectory which stands at `x0` at the stitching time is continued by recent trajectory `j`, when recent trajectory `k` has weight `w k`, stands at `r0 k` at the stitching time and at
`r1 k` at the next time, and the transition density is `f`: in proportion to `w j * f x0 (r1 j) / f (r0 j) (r1 j)`. -/
noncomputable def stitchProb (w : Fin n → ℝ) (f : X → X → ℝ) (x0 : X) (r0 r1 : Fin n → X) (j : Fin n) : ℝ :=
  w j * (f x0 (r1 j) / f (r0 j) (r1 j)) / ∑ k, w k * (f x0 (r1 k) / f (r0 k) (r1 k))

/-- The transition density between two times. -/
noncomputable def transDens (trans : X → ℝ → X → ℝ → ℝ) (t t' : ℝ) (x x' : X) : ℝ := Real.exp (-trans x t x' t')

theorem stitch_weight {lw : Fin n → Fl} {w : Fin n → ℝ} (hw : ∀ j, Fl.exp (lw j) = .fin (w j)) (trans : X → ℝ → X → ℝ → ℝ) (t t' : ℝ) (r0 r1 : Fin n → X) (j : Fin n) :
    Fl.exp (Fl.add (lw j) (Fl.fin (trans (r0 j) t (r1 j) t'))) = .fin (w j * (transDens trans t t' (r0 j) (r1 j))⁻¹) := by
  have := hw j
  generalize lw j = z at this
  rw [transDens, ← Real.exp_neg, neg_neg]
  cases z with
  | nan => simp [Fl.exp] at this
  | ninf => simp [Fl.exp] at this; simp [Fl.add, Fl.exp, ← this]
  | fin x => simp [Fl.exp] at this; simp [Fl.add, Fl.exp, ← this, Real.exp_add]
  | pinf => simp [Fl.exp] at this

theorem stitch_total {lw : Fin n → Fl} {w : Fin n → ℝ} (hw : ∀ j, Fl.exp (lw j) = .fin (w j)) (hw0 : 0 < ∑ j, w j) (trans : X → ℝ → X → ℝ → ℝ) (t t' : ℝ) (r0 r1 : Fin n → X) :
    0 < ∑ j, w j * (transDens trans t t' (r0 j) (r1 j))⁻¹ := by
  have hn : ∀ k, 0 ≤ w k := weight_nonneg hw
  obtain ⟨k, -, hk⟩ := Finset.exists_lt_of_sum_lt (s := Finset.univ) (f := fun _ : Fin n => (0 : ℝ)) (g := w) (by simpa using hw0)
  have hp : ∀ l, 0 < (transDens trans t t' (r0 l) (r1 l))⁻¹ := fun l => inv_pos.mpr (Real.exp_pos _)
  exact Finset.sum_pos' (fun l _ => mul_nonneg (hn l) (hp l).le) ⟨k, Finset.mem_univ _, mul_pos hk (hp k)⟩

/-- The library's backward distribution with these weights is the specification. -/
theorem backwardProb_stitch (w : Fin n → ℝ) (trans : X → ℝ → X → ℝ → ℝ) (t t' : ℝ) (x0 : X) (r0 r1 : Fin n → X) (j : Fin n) :
    backwardProb (fun j => w j * (transDens trans t t' (r0 j) (r1 j))⁻¹) (fun j => trans x0 t (r1 j) t') j = stitchProb w (transDens trans t t') x0 r0 r1 j := by
  have e : ∀ k, w k * (transDens trans t t' (r0 k) (r1 k))⁻¹ * Real.exp (-trans x0 t (r1 k) t') = w k * (transDens trans t t' x0 (r1 k) / transDens trans t t' (r0 k) (r1 k)) := fun k => by
    simp only [transDens]
    ring
  unfold backwardProb stitchProb
  simp only [e]

section law
variable [NeZero n] {cat : (Fin n → Fl) → ℝ → Fin n} (hcat : IsCategorical cat) {trans : X → ℝ → X → ℝ → ℝ} {t t' : ℝ} {maxRej : ℤ} {bound : ℝ}
  (hb : 0 < maxRej → ∀ x x', transDens trans t t' x x' ≤ bound)
include hcat hb

/-- One choice. -/
theorem stitch_one {c : Tape → Cfg X Keys.Key n dy} (hc1 : ∀ ω, (c ω).rand = tapeRand cat ω) (hc2 : ∀ ω, (c ω).trans = trans) (hc3 : ∀ ω, (c ω).maxRej = maxRej) (hc4 : ∀ ω, (c ω).initBound = bound)
    {inflation : ℝ} (hc5 : ∀ ω, (c ω).inflation = inflation) (x0 r0 r1 : Fin n → X) {lw : Fin n → Fl} {w : Fin n → ℝ} (hw : ∀ j, Fl.exp (lw j) = .fin (w j)) (hw0 : 0 < ∑ j, w j) (key : Keys.Key) (i j : Fin n) :
    ideal.real {ω | (stitchInds (c ω) x0 r0 r1 lw t t' key).1 i = j} = stitchProb w (transDens trans t t') (x0 i) r0 r1 j ∧
      MeasurableSet {ω | (stitchInds (c ω) x0 r0 r1 lw t t' key).1 i = j} := by
  have hw' := stitch_weight hw trans t t' r0 r1
  have hw0' := stitch_total hw hw0 trans t t' r0 r1
  simp only [stitchInds, hc1, hc2, hc3, hc4, hc5]
  rw [← backwardProb_stitch]
  by_cases h : 0 < maxRej
  · simp only [if_pos h]
    have hB : 0 < bound := (Real.exp_pos _).trans_le (hb h (x0 i) (r1 j))
    exact rejection_law hcat _ (fun i j => trans (x0 i) t (r1 j) t') hw' hw0' hB (fun i j => hb h (x0 i) (r1 j)) inflation maxRej key i j
  · simp only [if_neg h]
    exact full_law hcat _ (fun j => trans (x0 i) t (r1 j) t') hw' hw0' ((i : ℕ) :: key, 0) j

/-- C139: `fixed_lag_stitching` with a key of its own keeps the early block and continues the trajectories with the recent part of recent trajectories, chosen independently and each in proportion to weight times ratio of transition
densities: from the trajectory's own state, over from the recent trajectory's. With rejections this needs an initial bound at least every transition density. -/
theorem C139_law (early recent : List (Fin n → X)) (he : 0 < early.length) (hr : 1 < recent.length) {lw : Fin n → Fl} {w : Fin n → ℝ} (hw : ∀ j, Fl.exp (lw j) = .fin (w j)) (hw0 : 0 < ∑ j, w j)
    (env : Tape → Filtering.Env Keys.Key n) (f : Tape → Filter X Keys.Key dy) (lag : ℕ) (thr inflation : ℝ) (key : Keys.Key) :
    ∃ J : Tape → Fin n → Fin n,
      (∀ ω, ∃ cost, fixedLagStitching ⟨env ω, tapeRand cat ω, trans, f ω, lag, thr, maxRej, bound, inflation⟩ early t recent lw t' key = some (early ++ (recent.drop 1).map (fun v => v ∘ J ω), cost)) ∧
      ∀ j : Fin n → Fin n, ideal.real {ω | J ω = j} = ∏ i, stitchProb w (transDens trans t t') (early[early.length - 1] i) recent[0] recent[1] (j i) := by
  refine ⟨fun ω => (stitchInds (⟨env ω, tapeRand cat ω, trans, f ω, lag, thr, maxRej, bound, inflation⟩ : Cfg X Keys.Key n dy) early[early.length - 1] recent[0] recent[1] lw t t' key).1,
    fun ω => ⟨_, stitching_eq _ early recent t t' lw key he hr⟩, fun j => ?_⟩
  have hw' := stitch_weight hw trans t t' recent[0] recent[1]
  have hw0' := stitch_total hw hw0 trans t t' recent[0] recent[1]
  simp only [← backwardProb_stitch, stitchInds]
  by_cases h : 0 < maxRej
  · simp only [if_pos h]
    exact C83_exact_partial hcat _ (fun i j => trans (early[early.length - 1] i) t (recent[1] j) t') _ hw' hw0' bound (fun i j => hb h _ _) inflation maxRej key j
  · simp only [if_neg h]
    exact C83_full hcat _ (fun i j => trans (early[early.length - 1] i) t (recent[1] j) t') _ hw' hw0' key j

end law

/-! ## The smoother with backward simulation -/

/-- A call of the backward version that stitches. -/
theorem bs_stitched {K : Type} [NeZero n] (c : Cfg X K n dy) (hlag : 1 ≤ c.lag) (s : Smoother X n dy) (hs : Aligned s) (hm : MarginalAligned s) (hL : c.lag ≤ s.t.length) (yNew : Obs dy) (tNew : ℝ) (key : K)
    {mf : Particles X n dy} (hmf : propagate c.env c.filter c.thr false s.marginal yNew tNew (c.env.splitN 4 key 1) = some mf) {back : List (Fin n → X) × List ℕ}
    (hback : backSim c mf (s.t.length - c.lag) (c.env.splitN 4 key 2) = some back) :
    ∃ (h0 : 1 < back.1.length) (ev : List ℕ), back.1.length = c.lag + 1 ∧ propagateBs c s yNew tNew key = some
      { value := s.value.take (s.t.length + 1 - c.lag) ++ (back.1.drop 1).map (fun v => v ∘ (stitchInds c (s.value[s.t.length - c.lag]'(by have := hs.value; omega)) back.1[0] back.1[1] (fun _ => .fin 0)
          ((s.t ++ [tNew])[s.t.length - c.lag]'(by simp)) ((s.t ++ [tNew])[s.t.length + 1 - c.lag]'(by simp; omega)) key).1)
        logWeight := fun _ => .fin 0, t := s.t ++ [tNew], y := s.y ++ [yNew], evals := ev, marginal := mf } := by
  have hpos := hs.pos
  have hval := hs.value
  obtain ⟨mf', hmf', m1, m2, m3, m4⟩ := propagate_aligned c.env c.filter c.thr false s.marginal yNew tNew (c.env.splitN 4 key 1) s.t.length hpos hm.mValue hm.mLogWeight hm.mT hm.mEss
  rw [hmf, Option.some.injEq] at hmf'
  subst hmf'
  obtain ⟨back', hb', b1, -⟩ := backSim_spec c mf (s.t.length - c.lag) (s.t.length + 1) (c.env.splitN 4 key 2) (by omega) m1 m2 m3
  rw [hback, Option.some.injEq] at hb'
  subst hb'
  have hlenT : (s.t ++ [tNew]).length = s.t.length + 1 := by simp
  have e1 : s.t.length + 1 - c.lag - 1 = s.t.length - c.lag := by omega
  have e2 : s.t.length + 1 - c.lag = s.t.length - c.lag + 1 := by omega
  have h0 : 1 < back.1.length := by omega
  have hst := stitching_eq c (s.value.take (s.t.length - c.lag + 1)) back.1
    ((s.t ++ [tNew])[s.t.length - c.lag]'(by simp)) ((s.t ++ [tNew])[s.t.length - c.lag + 1]'(by simp; omega))
    (fun _ => .fin 0) key (by rw [List.length_take]; omega) h0
  simp only [List.length_take, hval, min_eq_left (show s.t.length - c.lag + 1 ≤ s.t.length by omega), Nat.add_sub_cancel, List.getElem_take] at hst
  obtain ⟨out, hout⟩ : ∃ out, out = stitchInds c (s.value[s.t.length - c.lag]'(by omega)) back.1[0] back.1[1] (fun _ => .fin 0)
      ((s.t ++ [tNew])[s.t.length - c.lag]'(by simp)) ((s.t ++ [tNew])[s.t.length - c.lag + 1]'(by simp; omega)) key := ⟨_, rfl⟩
  rw [← hout] at hst
  refine ⟨h0, s.evals ++ [out.2 + back.2.sum], by omega, ?_⟩
  simp only [e2]
  rw [← hout]
  unfold propagateBs
  dsimp only
  rw [hmf]
  simp only [Option.bind_eq_bind, Option.bind_some, hlenT]
  rw [if_pos (by omega), e1, e2, clampGet_lt (by simp; omega), List.getElem?_eq_getElem (by simp), hback]
  simp only [Option.bind_some]
  exact (congrArg (fun o => Option.bind o _) hst).trans rfl

/-- Two tapes that agree at what a filter step reads give the same step. -/
theorem propagate_tape (cat : (Fin n → Fl) → ℝ → Fin n) {f : Tape → Filter X Keys.Key dy} (hf1 : ∀ ω ω', (f ω).intermediateLogWeight = (f ω').intermediateLogWeight)
    (hf2 : ∀ x t y t' k, DependsOn (fun ω => (f ω).proposalSample x t y t' k) (below k)) (thr : ℝ) (full : Bool) (p : Particles X n dy) (y : Obs dy) (t : ℝ) (κ : Keys.Key) {ω ω' : Tape}
    (h1 : (∀ e, p.ess.getLast? = some e → Fl.lt e (.fin (thr * n))) → ∀ i : Fin n, ω (κ, i) = ω' (κ, i)) (h2 : ∀ i : ℕ, ∀ s ∈ below (i :: κ), ω s = ω' s) :
    propagate (tapeEnv cat ω) (f ω) thr full p y t κ = propagate (tapeEnv cat ω') (f ω') thr full p y t κ := by
  have hp : ∀ (i : ℕ) x t y t', (f ω).proposalSample x t y t' (i :: κ) = (f ω').proposalSample x t y t' (i :: κ) := fun i x t y t' => hf2 x t y t' (i :: κ) fun s hs => h2 i s hs
  unfold propagate
  cases he : p.ess.getLast? with
  | none => rfl
  | some e =>
    cases hw : p.logWeight.getLast? with
    | none => rfl
    | some lw =>
      simp only [Option.bind_eq_bind, Option.bind_some]
      have hq : (@ite _ (Fl.lt e (.fin (thr * n))) (Classical.propDecidable _) (resampleParticles (tapeEnv cat ω) p lw κ full) p)
          = @ite _ (Fl.lt e (.fin (thr * n))) (Classical.propDecidable _) (resampleParticles (tapeEnv cat ω') p lw κ full) p := by
        by_cases h : Fl.lt e (.fin (thr * n))
        · rw [if_pos h, if_pos h]
          have h3 := h1 fun e' he' => by rw [he, Option.some.injEq] at he'; rw [← he']; exact h
          have : (tapeEnv cat ω).categorical κ lw = (tapeEnv cat ω').categorical κ lw := funext fun i => by
            simp only [tapeEnv, pathEnv, h3 i]
          simp only [resampleParticles, this]
        · rw [if_neg h, if_neg h]
      rw [hq]
      simp only [tapeEnv, pathEnv, hp, hf1 ω ω']

/-- Backward simulation without rejections reads the tape only under the keys split from its key. -/
theorem backSim_tape [NeZero n] (cat : (Fin n → Fl) → ℝ → Fin n) {c : Tape → Cfg X Keys.Key n dy} (hc1 : ∀ ω, (c ω).rand = tapeRand cat ω) (hc2 : ∀ ω, (c ω).env = tapeEnv cat ω)
    (hc3 : ∀ ω ω', (c ω).trans = (c ω').trans) (hc4 : ∀ ω, (c ω).maxRej ≤ 0) (p : Particles X n dy) (k : ℕ) (κ : Keys.Key) (hk : k < p.value.length) {ω ω' : Tape}
    (h : ∀ i : ℕ, ∀ s ∈ below (i :: κ), ω s = ω' s) : backSim (c ω) p k κ = backSim (c ω') p k κ := by
  unfold backSim
  cases marginalsFrom p k with
  | none => rfl
  | some mg =>
    simp only [Option.bind_eq_bind, Option.bind_some]
    obtain ⟨T, hT⟩ : ∃ T, T = p.value.length - k := ⟨_, rfl⟩
    obtain ⟨tk, htk⟩ : ∃ tk : ℕ → Keys.Key, tk = fun i => if _ : i < T then i :: κ else κ := ⟨_, rfl⟩
    have e1 : ∀ ω, (fun i => if h : i < p.value.length - k then (c ω).env.splitN (p.value.length - k) κ ⟨i, h⟩ else κ) = tk := fun ω => by
      rw [htk, ← hT]
      funext i
      simp only [hc2]
      rfl
    rw [← hT] at e1 ⊢
    rw [e1 ω, e1 ω']
    have hfin : ∀ i : Fin n, (c ω).rand.choices (tk (T - 1)) (mg.logWeight (T - 1)) i = (c ω').rand.choices (tk (T - 1)) (mg.logWeight (T - 1)) i := fun i => by
      rw [hc1, hc1, htk]
      simp only [dif_pos (show T - 1 < T by omega), tapeRand]
      rw [h (T - 1) _ ⟨[], rfl⟩]
    have hstep : ∀ x ind, backStep (c ω).rand (c ω).trans mg (c ω).maxRej (c ω).initBound (c ω).inflation tk x ind
        = backStep (c ω').rand (c ω').trans mg (c ω').maxRej (c ω').initBound (c ω').inflation tk x ind := fun x ind => by
      have hfull : ∀ lw pot, full (c ω).rand lw pot (tk ind) = full (c ω').rand lw pot (tk ind) := fun lw pot => by
        funext i
        simp only [full, hc1, tapeRand]
        by_cases hi : ind < T
        · rw [htk]
          simp only [dif_pos hi]
          rw [h ind _ ⟨[(i : ℕ)], rfl⟩]
        · rw [htk]
          simp only [dif_neg hi]
          rw [h i _ ⟨[], rfl⟩]
      unfold backStep
      simp only [if_neg (not_lt.mpr (hc4 _)), hfull, hc3 ω ω']
    unfold backwardSimulation
    simp only [hfin, hstep]

/-- C139 for the smoother with backward simulation, without rejections: in a call that stitches, every choice except that of trajectory 1 is a fresh draw. The filter's particles `mf` and the trajectories `recent` simulated back through
them do not depend on it, and given them (and all other choices) trajectory `i` is continued by `recent` trajectory `j` with the probability required. For trajectory 1 this needs that the filter does not resample in the call.
`u` is the uniform that decides the choice; `reads`: a proposal reads the tape under its key only. -/
theorem C139_backward_partial [NeZero n] {cat : (Fin n → Fl) → ℝ → Fin n} (hcat : IsCategorical cat) (trans : X → ℝ → X → ℝ → ℝ) {f : Tape → Filter X Keys.Key dy}
    (weights : ∀ ω ω', (f ω).intermediateLogWeight = (f ω').intermediateLogWeight) (reads : ∀ x t y t' k, DependsOn (fun ω => (f ω).proposalSample x t y t' k) (below k))
    (lag : ℕ) (hlag : 1 ≤ lag) (thr : ℝ) (maxRej : ℤ) (hrej : maxRej ≤ 0) (bound inflation : ℝ) (s : Smoother X n dy) (hs : Ready true s) (hL : lag ≤ s.t.length) (yNew : Obs dy) (tNew : ℝ) (key : Keys.Key)
    (i : Fin n) (hi : (i : ℕ) = 1 → ∀ e, s.marginal.ess.getLast? = some e → ¬ Fl.lt e (.fin (thr * n))) (ω : Tape) :
    ∃ (mf : Particles X n dy) (recent : List (Fin n → X)) (h : 1 < recent.length) (J : ℝ → Fin n), recent.length = lag + 1 ∧
      (∃ cost, backSim ⟨tapeEnv cat ω, tapeRand cat ω, trans, f ω, lag, thr, maxRej, bound, inflation⟩ mf (s.t.length - lag) (2 :: key) = some (recent, cost)) ∧
      (∀ u, ∃ s', propagateSmoother true ⟨tapeEnv cat (Function.update ω ((i : ℕ) :: key, 0) u), tapeRand cat (Function.update ω ((i : ℕ) :: key, 0) u), trans, f (Function.update ω ((i : ℕ) :: key, 0) u),
          lag, thr, maxRej, bound, inflation⟩ s yNew tNew key = some s' ∧ s'.marginal = mf ∧
        s'.value.map (fun x => x i) = (s.value.take (s.t.length + 1 - lag)).map (fun x => x i) ++ (recent.drop 1).map (fun x => x (J u))) ∧
      ∀ j, unif {u | J u = j} = ENNReal.ofReal (stitchProb (fun _ => 1) (transDens trans ((s.t ++ [tNew])[s.t.length - lag]'(by simp)) ((s.t ++ [tNew])[s.t.length + 1 - lag]'(by simp; omega)))
        ((s.value[s.t.length - lag]'(by have := hs.1.value; have := hs.1.pos; omega)) i) recent[0] recent[1] j) := by
  have hal := hs.1
  have hma := hs.2 rfl
  obtain ⟨c, hc⟩ : ∃ c : Tape → Cfg X Keys.Key n dy, c = fun ω => ⟨tapeEnv cat ω, tapeRand cat ω, trans, f ω, lag, thr, maxRej, bound, inflation⟩ := ⟨_, rfl⟩
  obtain ⟨mf, hmf, m1, m2, m3, m4⟩ := propagate_aligned (tapeEnv cat ω) (f ω) thr false s.marginal yNew tNew (1 :: key) s.t.length hal.pos hma.mValue hma.mLogWeight hma.mT hma.mEss
  obtain ⟨⟨recent, cost⟩, hback, b1, -⟩ := backSim_spec (c ω) mf (s.t.length - lag) (s.t.length + 1) (2 :: key) (by omega) m1 m2 m3
  have hu : ∀ (u : ℝ) (a : ℕ) (κ : Keys.Key), κ.length = key.length + 1 → ∀ s ∈ below (a :: κ), ω s = Function.update ω ((i : ℕ) :: key, 0) u s := fun u a κ hκ s hs => by
    obtain ⟨p, hp⟩ := hs
    rw [Function.update_of_ne]
    intro h
    rw [h] at hp
    have := congrArg List.length hp
    simp at this
    omega
  have hmf' : ∀ u, propagate (tapeEnv cat (Function.update ω ((i : ℕ) :: key, 0) u)) (f (Function.update ω ((i : ℕ) :: key, 0) u)) thr false s.marginal yNew tNew (1 :: key) = some mf := fun u => by
    rw [← hmf]
    refine (propagate_tape cat weights reads thr false s.marginal yNew tNew (1 :: key) (fun hres a => ?_) (fun a s hs => hu u a (1 :: key) (by simp) s hs)).symm
    rw [Function.update_of_ne]
    intro h
    rw [Prod.mk.injEq, List.cons.injEq] at h
    obtain ⟨e, he⟩ := getLast?_some (l := s.marginal.ess) (by rw [hma.mEss]; exact hal.pos)
    exact hi h.1.1.symm e he (hres e he)
  have hback' : ∀ u, backSim (c (Function.update ω ((i : ℕ) :: key, 0) u)) mf (s.t.length - lag) (2 :: key) = some (recent, cost) := fun u => by
    rw [← hback]
    exact (backSim_tape cat (c := c) (fun ω => by rw [hc]) (fun ω => by rw [hc]) (fun ω ω' => by rw [hc]) (fun ω => by rw [hc]; exact hrej) mf _ (2 :: key) (by rw [m1]; omega)
      (fun a s hs => hu u a (2 :: key) (by simp) s hs)).symm
  have h0 : 1 < recent.length := by simp only at b1; omega
  have hx : s.t.length - lag < s.value.length := by have := hal.value; have := hal.pos; omega
  obtain ⟨τ, hτ⟩ : ∃ τ, τ = (s.t ++ [tNew])[s.t.length - lag]'(by simp) := ⟨_, rfl⟩
  obtain ⟨τ', hτ'⟩ : ∃ τ', τ' = (s.t ++ [tNew])[s.t.length + 1 - lag]'(by simp; omega) := ⟨_, rfl⟩
  refine ⟨mf, recent, h0, fun u => cat (fullLogWeight (fun j => Fl.add (Fl.fin 0) (Fl.fin (trans (recent[0] j) τ (recent[1] j) τ'))) fun j => trans (s.value[s.t.length - lag] i) τ (recent[1] j) τ') u, by simp only at b1; omega,
    ⟨cost, by rw [hc] at hback; exact hback⟩, fun u => ?_, fun j => ?_⟩
  · have hb2 := hback' u
    rw [hc] at hb2
    obtain ⟨h0', ev, -, hout⟩ := bs_stitched (⟨tapeEnv cat (Function.update ω ((i : ℕ) :: key, 0) u), tapeRand cat (Function.update ω ((i : ℕ) :: key, 0) u), trans, f (Function.update ω ((i : ℕ) :: key, 0) u),
          lag, thr, maxRej, bound, inflation⟩ : Cfg X Keys.Key n dy) hlag s hal hma hL yNew tNew key (hmf' u) hb2
    refine ⟨_, hout, rfl, ?_⟩
    simp only [List.map_append, List.map_map]
    congr 1
    refine List.map_congr_left fun v _ => ?_
    simp only [Function.comp_apply, stitchInds, if_neg (not_lt.mpr hrej), full, tapeRand, Function.update_self]
    rw [← hτ, ← hτ']
  · have hw : ∀ j : Fin n, Fl.exp (Fl.fin 0) = .fin ((fun _ : Fin n => (1 : ℝ)) j) := fun j => by simp [Fl.exp]
    have hw0 : 0 < ∑ j : Fin n, (fun _ : Fin n => (1 : ℝ)) j := by simp [Nat.pos_of_ne_zero (NeZero.ne n)]
    have := (full_law hcat _ (fun j => trans (s.value[s.t.length - lag] i) τ (recent[1] j) τ') (stitch_weight hw trans τ τ' recent[0] recent[1]) (stitch_total hw hw0 trans τ τ' recent[0] recent[1]) ([], 0) j).1
    rw [backwardProb_stitch] at this
    rw [← hτ, ← hτ', ← this, Measure.real, ENNReal.ofReal_toReal (measure_ne_top _ _)]
    exact (site ([], 0) ((hcat.measurable _) (measurableSet_singleton j))).symm

/-! ## Where the choices are not fresh draws -/

/-- A model whose states are independent and uniform on `[0, 1)`, with observations that say nothing about them. -/
def uniformModel (dy : ℕ) (ω : Tape) : Ssm.Model ℝ (Obs dy) Keys.Key where
  initialPotential _ _ := 0
  initialSample _ k := ω (k, 0)
  transitionPotential _ _ _ _ := 0
  transitionSample _ _ _ k := ω (k, 0)
  likelihoodPotential _ _ _ := 0
  likelihoodSample _ _ _ := fun _ => 0

/-- A fair choice between two by inversion. -/
theorem invCdf_fair {u : ℝ} (h0 : 0 ≤ u) (h1 : u < 1) : invCdf (N := 2) (fun _ => .fin 0) u = 0 ↔ u < 1 / 2 := by
  have e : (fun j : Fin 2 => Ideal.weightOf ((fun _ => Fl.fin 0 : Fin 2 → Fl) j)) = fun _ => 1 := by
    funext j
    simp [Ideal.weightOf, Fl.exp]
  have h2 : (∑ _ : Fin 2, (1 : ℝ)) = 2 := by simp
  unfold invCdf
  rw [e, h2, firstAbove_eq_iff (fun _ => zero_le_one) (by linarith) (by rw [h2]; linarith)]
  simp only [cum, Fin.sum_univ_two]
  norm_num
  constructor
  · intro h
    linarith [h.2]
  · intro h
    constructor <;> linarith

theorem uniform_quarter : unif {u : ℝ | u < 1 / 4} = ENNReal.ofReal (1 / 4) := by
  have hm : MeasurableSet {u : ℝ | u < 1 / 4} := measurableSet_Iio
  have e : {u : ℝ | u < 1 / 4} ∩ Set.Ico 0 1 = Set.Ico 0 (1 / 4) := by
    ext u
    simp only [Set.mem_inter_iff, Set.mem_ofPred_eq, Set.mem_Ico]
    constructor
    · rintro ⟨h1, h2, -⟩
      exact ⟨h2, h1⟩
    · rintro ⟨h1, h2⟩
      exact ⟨h2, h1, by linarith⟩
  rw [unif, Measure.restrict_apply hm, e, Real.volume_Ico, sub_zero]

theorem uniform_quarter_first : unif {u : ℝ | invCdf (N := 2) (fun _ => .fin 0) u = 0 ∧ u < 1 / 4} = ENNReal.ofReal (1 / 4) := by
  have hm : MeasurableSet {u : ℝ | invCdf (N := 2) (fun _ => .fin 0) u = 0 ∧ u < 1 / 4} :=
    ((isCategorical_invCdf.measurable _) (measurableSet_singleton 0)).inter measurableSet_Iio
  have e : {u : ℝ | invCdf (N := 2) (fun _ => .fin 0) u = 0 ∧ u < 1 / 4} ∩ Set.Ico 0 1 = Set.Ico 0 (1 / 4) := by
    ext u
    simp only [Set.mem_inter_iff, Set.mem_ofPred_eq, Set.mem_Ico]
    constructor
    · rintro ⟨⟨-, h1⟩, h2, -⟩
      exact ⟨h2, h1⟩
    · rintro ⟨h1, h2⟩
      exact ⟨⟨(invCdf_fair h1 (by linarith)).mpr (by linarith), h2⟩, h1, by linarith⟩
  rw [unif, Measure.restrict_apply hm, e, Real.volume_Ico, sub_zero]

/-- The choice and the new state of trajectory 0 are read from the same uniform. -/
theorem shared_draw (key : Keys.Key) :
    ideal {ω : Tape | ω (((invCdf (N := 2) (fun _ => .fin 0) (ω (0 :: key, 0)) : Fin 2) : ℕ) :: key, 0) < 1 / 4} = ENNReal.ofReal (3 / 8) := by
  set A : Set Tape := {ω | ω ((0 :: key, 0) : Site) ∈ {u : ℝ | invCdf (N := 2) (fun _ => .fin 0) u = 0 ∧ u < 1 / 4}} with hA
  set A1 : Set Tape := {ω | ω ((0 :: key, 0) : Site) ∈ {u : ℝ | invCdf (N := 2) (fun _ => .fin 0) u = 1}} with hA1
  set B1 : Set Tape := {ω | ω ((1 :: key, 0) : Site) ∈ {u : ℝ | u < 1 / 4}} with hB1
  have hAm : MeasurableSet {u : ℝ | invCdf (N := 2) (fun _ => .fin 0) u = 0 ∧ u < 1 / 4} := ((isCategorical_invCdf.measurable _) (measurableSet_singleton 0)).inter measurableSet_Iio
  have hA1m : MeasurableSet {u : ℝ | invCdf (N := 2) (fun _ => .fin 0) u = 1} := (isCategorical_invCdf.measurable _) (measurableSet_singleton 1)
  have hB1m : MeasurableSet {u : ℝ | u < 1 / 4} := measurableSet_Iio
  have hs : {ω : Tape | ω (((invCdf (N := 2) (fun _ => .fin 0) (ω (0 :: key, 0)) : Fin 2) : ℕ) :: key, 0) < 1 / 4} = A ∪ (A1 ∩ B1) := by
    ext ω
    simp only [hA, hA1, hB1, Set.mem_ofPred_eq, Set.mem_union, Set.mem_inter_iff]
    generalize hj : invCdf (N := 2) (fun _ => .fin 0) (ω (0 :: key, 0)) = j
    fin_cases j <;> simp
  have hp : ∀ s : Site, MeasurableSet {u : ℝ | invCdf (N := 2) (fun _ => .fin 0) u = 1} → MeasurableSet A1 := fun _ h => (measurable_pi_apply ((0 :: key, 0) : Site)) h
  have hA1m' : MeasurableSet A1 := hp ([], 0) hA1m
  have hB1m' : MeasurableSet B1 := (measurable_pi_apply ((1 :: key, 0) : Site)) hB1m
  have hd : Disjoint A (A1 ∩ B1) := by
    rw [Set.disjoint_left]
    rintro ω h1 ⟨h2, -⟩
    simp only [hA, hA1, Set.mem_ofPred_eq] at h1 h2
    rw [h1.1] at h2
    exact absurd h2 (by decide)
  rw [hs, measure_union hd (hA1m'.inter hB1m')]
  rw [inter (S := {(0 :: key, 0)}) (T := {(1 :: key, 0)}) (by simp) hA1m' hB1m' (fun ω ω' h => by simp only [hA1, Set.mem_ofPred_eq]; rw [h _ rfl])
    (fun ω ω' h => by simp only [hB1, Set.mem_ofPred_eq]; rw [h _ rfl])]
  rw [hA, site _ hAm, uniform_quarter_first, hA1, site _ hA1m, hB1, site _ hB1m, uniform_quarter]
  have h2 := isCategorical_invCdf.prob (N := 2) (fun _ => .fin 0) (fun _ => 1) (fun j => by simp [Fl.exp]) (by simp) 1
  rw [h2, ← ENNReal.ofReal_mul (by simp), ← ENNReal.ofReal_add (by norm_num) (by simp)]
  congr 1
  norm_num [Fin.sum_univ_two]

/-- The property fails for the smoother without backward simulation: the choice for trajectory `i` is drawn with the key that the new state of particle `i` was drawn with. For independent uniform states and observations that say nothing about
them, two particles and any lag that has been reached, the latest state of trajectory 0 is below a quarter with probability `3/8`; the state the model draws is so with probability `1/4`. -/
theorem C139_fails_filter (lag : ℕ) (hlag : 1 ≤ lag) (thr bound inflation : ℝ) (maxRej : ℤ) (hrej : maxRej ≤ 0) (s : Smoother ℝ 2 dy) (hs : Ready false s) (hL : lag ≤ s.t.length)
    (yNew : Obs dy) (tNew : ℝ) (key : Keys.Key) :
    (∃ out : Tape → Smoother ℝ 2 dy,
      (∀ ω, propagateSmoother false ⟨tapeEnv invCdf ω, tapeRand invCdf ω, (uniformModel dy ω).transitionPotential, bootstrap (uniformModel dy ω), lag, thr, maxRej, bound, inflation⟩ s yNew tNew key = some (out ω)) ∧
      ideal {ω | ∃ x, (out ω).value.getLast? = some x ∧ x 0 < 1 / 4} = ENNReal.ofReal (3 / 8)) ∧
    ∀ x t t' k, ideal {ω | (uniformModel dy ω).transitionSample x t t' k < 1 / 4} = ENNReal.ofReal (1 / 4) := by
  refine ⟨?_, fun x t t' k => (site (k, 0) (measurableSet_Iio : MeasurableSet {u : ℝ | u < 1 / 4})).trans uniform_quarter⟩
  have hstep : ∀ ω, ∃ s', propagatePf ⟨tapeEnv invCdf ω, tapeRand invCdf ω, (uniformModel dy ω).transitionPotential, bootstrap (uniformModel dy ω), lag, thr, maxRej, bound, inflation⟩ s yNew tNew key = some s' ∧
      s'.value.getLast? = some fun i : Fin 2 => ω (((invCdf (N := 2) (fun _ => .fin 0) (ω ((i : ℕ) :: key, 0)) : Fin 2) : ℕ) :: key, 0) := fun ω => by
    obtain ⟨s', anc, h1, -, -, -, -, h2, -⟩ := pf_step (⟨tapeEnv invCdf ω, tapeRand invCdf ω, (uniformModel dy ω).transitionPotential, bootstrap (uniformModel dy ω), lag, thr, maxRej, bound, inflation⟩ :
      Cfg ℝ Keys.Key 2 dy) hlag s hs.1 yNew tNew key
    obtain ⟨-, inds, hinds, hv⟩ := h2 hL
    refine ⟨s', h1, ?_⟩
    have hi : inds = fun i : Fin 2 => invCdf (N := 2) (fun _ => .fin 0) (ω ((i : ℕ) :: key, 0)) := by
      rw [hinds]
      funext i
      simp only [stitchInds, if_neg (not_lt.mpr hrej), full, tapeRand, uniformModel, pfWeight, bootstrap, bootstrapLogWeight, Fl.add, neg_zero, add_zero]
      congr 1
      funext j
      simp [fullLogWeight, Fl.sub, Fl.add, Fl.neg]
    rw [hv]
    have hdrop : (pfPropagated (⟨tapeEnv invCdf ω, tapeRand invCdf ω, (uniformModel dy ω).transitionPotential, bootstrap (uniformModel dy ω), lag, thr, maxRej, bound, inflation⟩ : Cfg ℝ Keys.Key 2 dy) s hs.1 anc yNew tNew key).drop
        (s.t.length + 1 - lag) ≠ [] := by
      intro h
      have := congrArg List.length h
      rw [List.length_drop, pfPropagated_length] at this
      simp at this
      omega
    rw [List.getLast?_append_of_ne_nil _ (by simpa using hdrop), List.getLast?_map, List.getLast?_drop, if_neg (by rw [pfPropagated_length]; dsimp only; omega)]
    simp only [pfPropagated, List.getLast?_append, List.getLast?_singleton, Option.some_or, Option.map_some, hi]
    rfl
  choose out h1 h2 using hstep
  refine ⟨out, h1, ?_⟩
  rw [← shared_draw key]
  congr 1
  ext ω
  simp only [Set.mem_ofPred_eq, h2 ω, Option.some.injEq]
  constructor
  · rintro ⟨x, rfl, hx⟩
    exact hx
  · intro h
    exact ⟨_, rfl, h⟩

/-- It fails for trajectory 1 of the smoother with backward simulation when the filter resamples: its choice is drawn with the key that the resampling was drawn with. Here four particles have equal weights and all transitions equal
densities: `anc` are the ancestors of the resampled particles, and trajectory 1 is always continued by the recent trajectory with the number of the ancestor of particle 0. (With four particles the two splits of the key that collide,
into four and into `n`, are the same call of `random.split`.) -/
theorem C139_fails_backward {cat : (Fin 4 → Fl) → ℝ → Fin 4} (f : Tape → Filter X Keys.Key dy) (lag : ℕ) (hlag : 1 ≤ lag) (thr : ℝ) (maxRej : ℤ) (hrej : maxRej ≤ 0) (bound inflation : ℝ) (s : Smoother X 4 dy) (hs : Ready true s)
    (hL : lag ≤ s.t.length) (hw : s.marginal.logWeight.getLast? = some fun _ => .fin 0) (hres : ∀ e, s.marginal.ess.getLast? = some e → Fl.lt e (.fin (thr * (4 : ℕ)))) (yNew : Obs dy) (tNew : ℝ) (key : Keys.Key) (ω : Tape) :
    ∃ (s' : Smoother X 4 dy) (anc J : Fin 4 → Fin 4) (recent : List (Fin 4 → X)), propagateSmoother true ⟨tapeEnv cat ω, tapeRand cat ω, fun _ _ _ _ => 0, f ω, lag, thr, maxRej, bound, inflation⟩ s yNew tNew key = some s' ∧
      s'.marginal.value.take s.t.length = mapLast (fun x => x ∘ anc) s.marginal.value ∧
      (∃ cost, backSim ⟨tapeEnv cat ω, tapeRand cat ω, fun _ _ _ _ => 0, f ω, lag, thr, maxRej, bound, inflation⟩ s'.marginal (s.t.length - lag) (2 :: key) = some (recent, cost)) ∧
      s'.value = s.value.take (s.t.length + 1 - lag) ++ (recent.drop 1).map (fun x => x ∘ J) ∧ J 1 = anc 0 := by
  have hal := hs.1
  have hma := hs.2 rfl
  obtain ⟨mf, hmf, m1, m2, m3, m4⟩ := propagate_aligned (tapeEnv cat ω) (f ω) thr false s.marginal yNew tNew (1 :: key) s.t.length hal.pos hma.mValue hma.mLogWeight hma.mT hma.mEss
  obtain ⟨⟨recent, cost⟩, hback, b1, -⟩ := backSim_spec (⟨tapeEnv cat ω, tapeRand cat ω, fun _ _ _ _ => 0, f ω, lag, thr, maxRej, bound, inflation⟩ : Cfg X Keys.Key 4 dy) mf (s.t.length - lag) (s.t.length + 1) (2 :: key)
    (by omega) m1 m2 m3
  obtain ⟨h0, ev, -, hout⟩ := bs_stitched (⟨tapeEnv cat ω, tapeRand cat ω, fun _ _ _ _ => 0, f ω, lag, thr, maxRej, bound, inflation⟩ : Cfg X Keys.Key 4 dy) hlag s hal hma hL yNew tNew key hmf hback
  refine ⟨_, fun i => cat (fun _ => .fin 0) (ω (1 :: key, i)), _, recent, hout, ?_, ⟨cost, hback⟩, rfl, ?_⟩
  · obtain ⟨e, he⟩ := getLast?_some (l := s.marginal.ess) (by rw [hma.mEss]; exact hal.pos)
    obtain ⟨x, hx⟩ := getLast?_some (l := mapLast (fun x => x ∘ fun i : Fin 4 => cat (fun _ => .fin 0) (ω (1 :: key, (i : ℕ)))) s.marginal.value) (by rw [mapLast_length', hma.mValue]; exact hal.pos)
    obtain ⟨l, hl⟩ := getLast?_some (l := mapLast (fun _ : Fin 4 → Fl => fun _ : Fin 4 => Fl.fin 0) s.marginal.logWeight) (by rw [mapLast_length', hma.mLogWeight]; exact hal.pos)
    obtain ⟨τ, hτ⟩ := getLast?_some (l := s.marginal.t) (by rw [hma.mT]; exact hal.pos)
    unfold propagate at hmf
    simp only [he, hw, Option.bind_eq_bind, Option.bind_some, if_pos (hres e he), resampleParticles, Bool.false_eq_true, if_false, tapeEnv, pathEnv, hx, hl, hτ, Option.some.injEq] at hmf
    rw [← hmf]
    simp only
    rw [List.take_append_of_le_length (by rw [mapLast_length', hma.mValue]), List.take_of_length_le (by rw [mapLast_length', hma.mValue])]
  · simp only [stitchInds, if_neg (not_lt.mpr hrej), full, tapeRand]
    have e : (fullLogWeight (fun _ : Fin 4 => Fl.add (Fl.fin 0) (Fl.fin 0)) fun _ => 0) = fun _ => .fin 0 := by
      funext j
      simp [fullLogWeight, Fl.sub, Fl.add, Fl.neg]
    rw [e]
    rfl

/-! ## Cases that meet the hypotheses -/

/-- Two trajectories, Gaussian transitions: an early block ending in states 0 and 1, recent trajectories from 0 to 2 and from 1 to 3, with unequal weights; up to 7 rejections. -/
example : ∃ J : Tape → Fin 2 → Fin 2, (∀ ω, ∃ cost, fixedLagStitching (dy := 1) ⟨tapeEnv invCdf ω, tapeRand invCdf ω, fun x _ x' _ => (x' - x) ^ 2 / 2, bootstrap (uniformModel 1 ω), 5, 1 / 2, 7, 1, 2⟩ [![0, 1]] 0
      [![0, 1], ![2, 3], ![4, 5]] ![.fin 0, .fin 1] 1 [] = some ([![0, 1]] ++ [![2, 3], ![4, 5]].map (fun v => v ∘ J ω), cost)) ∧
    ideal.real {ω | J ω = ![1, 0]} = stitchProb ![1, Real.exp 1] (transDens (fun x _ x' _ => (x' - x) ^ 2 / 2) 0 1) 0 ![0, 1] ![2, 3] 1 * stitchProb ![1, Real.exp 1] (transDens (fun x _ x' _ => (x' - x) ^ 2 / 2) 0 1) 1 ![0, 1] ![2, 3] 0 := by
  obtain ⟨J, h1, h2⟩ := C139_law (dy := 1) (X := ℝ) isCategorical_invCdf (trans := fun x _ x' _ => (x' - x) ^ 2 / 2) (maxRej := 7) (bound := 1) (t := 0) (t' := 1)
    (fun _ x x' => Real.exp_le_one_iff.mpr (neg_nonpos.mpr (by positivity))) [![0, 1]] [![0, 1], ![2, 3], ![4, 5]] (by simp) (by simp) (lw := ![.fin 0, .fin 1]) (w := ![1, Real.exp 1])
    (fun j => by fin_cases j <;> simp [Fl.exp]) (by simp [Fin.sum_univ_two]; positivity) (fun ω => tapeEnv invCdf ω) (fun ω => bootstrap (uniformModel 1 ω)) 5 (1 / 2) 2 []
  refine ⟨J, h1, ?_⟩
  rw [h2, Fin.prod_univ_two]
  rfl

theorem start_uniform [NeZero n] {key : Keys.Key} {y0 : Obs dy} {ω : Tape} {s : Smoother ℝ n dy} (hs : ofParticles (initiateParticles (tapeEnv invCdf ω) (bootstrap (uniformModel dy ω)) key y0 0) = some s) :
    s.t.length = 1 ∧ s.marginal.logWeight.getLast? = some (fun _ => .fin 0) ∧ s.marginal.ess.getLast? = some (.fin n) := by
  obtain rfl := Option.some.inj hs
  have h1 : (fun _ : Fin n => Fl.fin (-(0 : ℝ))) = fun _ => .fin 0 := by
    funext i
    simp
  refine ⟨rfl, congrArg some h1, congrArg some ?_⟩
  have h2 : essLogWeight (fun _ : Fin n => Fl.fin (-(0 : ℝ))) = .fin n := by
    rw [h1]
    exact ess_unweighted fun _ => rfl
  exact h2

/-- Uniform states, three particles, lag 1: the call for the second observation stitches. Trajectory 0, and trajectory 1 if the filter does not resample. -/
example (y0 y1 : Obs 1) (i : Fin 3) (thr : ℝ) (hthr : (i : ℕ) = 1 → thr = 0) (ω : Tape) : ∃ (s : Smoother ℝ 3 1) (mf : Particles ℝ 3 1) (recent : List (Fin 3 → ℝ)) (_ : 1 < recent.length) (J : ℝ → Fin 3),
    ofParticles (initiateParticles (tapeEnv invCdf ω) (bootstrap (uniformModel 1 ω)) [0] y0 0) = some s ∧
    (∀ u, ∃ s', propagateSmoother true ⟨tapeEnv invCdf (Function.update ω ((i : ℕ) :: [1], 0) u), tapeRand invCdf (Function.update ω ((i : ℕ) :: [1], 0) u), fun _ _ _ _ => 0,
        bootstrap (uniformModel 1 (Function.update ω ((i : ℕ) :: [1], 0) u)), 1, thr, 0, 1, 2⟩ s y1 1 [1] = some s' ∧ s'.marginal = mf ∧
      s'.value.map (fun x => x i) = (s.value.take 1).map (fun x => x i) ++ (recent.drop 1).map (fun x => x (J u))) ∧
    ∀ j, unif {u | J u = j} = ENNReal.ofReal (1 / 3) := by
  obtain ⟨s, hs, hr⟩ := C55_start (tapeEnv invCdf ω) (bootstrap (uniformModel 1 ω)) [0] y0 0 true (n := 3)
  obtain ⟨ht, -, he⟩ := start_uniform hs
  obtain ⟨mf, recent, h, J, -, -, h1, h2⟩ := C139_backward_partial isCategorical_invCdf (fun _ _ _ _ => 0) (f := fun ω => bootstrap (uniformModel 1 ω)) (fun _ _ => rfl)
    (fun x t y t' k ω ω' h => h _ ⟨[], rfl⟩) 1 le_rfl thr 0 le_rfl 1 2 s hr (by rw [ht]) y1 1 [1] i
    (fun h e he' => by
      rw [he, Option.some.injEq] at he'
      subst he'
      rw [hthr h]
      simp [Fl.lt]) ω
  refine ⟨s, mf, recent, h, J, hs, fun u => ?_, fun j => ?_⟩
  · obtain ⟨s', a, b, c⟩ := h1 u
    refine ⟨s', a, b, ?_⟩
    rw [c, ht]
  · rw [h2]
    simp [stitchProb, transDens]

/-- The same start with two particles and no backward simulation: the call for the second observation draws the latest state of trajectory 0 with the wrong law. -/
example (y0 y1 : Obs 1) (ω : Tape) : ∃ (s : Smoother ℝ 2 1) (out : Tape → Smoother ℝ 2 1), ofParticles (initiateParticles (tapeEnv invCdf ω) (bootstrap (uniformModel 1 ω)) [0] y0 0) = some s ∧
    (∀ ω, propagateSmoother false ⟨tapeEnv invCdf ω, tapeRand invCdf ω, (uniformModel 1 ω).transitionPotential, bootstrap (uniformModel 1 ω), 1, 1 / 2, 0, 1, 2⟩ s y1 1 [1] = some (out ω)) ∧
    ideal {ω | ∃ x, (out ω).value.getLast? = some x ∧ x 0 < 1 / 4} = ENNReal.ofReal (3 / 8) := by
  obtain ⟨s, hs, hr⟩ := C55_start (tapeEnv invCdf ω) (bootstrap (uniformModel 1 ω)) [0] y0 0 false (n := 2)
  obtain ⟨⟨out, h1, h2⟩, -⟩ := C139_fails_filter 1 le_rfl (1 / 2) 1 2 0 le_rfl s hr (by rw [(start_uniform hs).1]) y1 1 [1]
  exact ⟨s, out, hs, h1, h2⟩

/-- Four particles with backward simulation and a threshold that makes the filter resample. -/
example (y0 y1 : Obs 1) (ω : Tape) : ∃ (s s' : Smoother ℝ 4 1) (anc J : Fin 4 → Fin 4) (recent : List (Fin 4 → ℝ)), ofParticles (initiateParticles (tapeEnv invCdf ω) (bootstrap (uniformModel 1 ω)) [0] y0 0) = some s ∧
    propagateSmoother true ⟨tapeEnv invCdf ω, tapeRand invCdf ω, fun _ _ _ _ => 0, bootstrap (uniformModel 1 ω), 1, 2, 0, 1, 2⟩ s y1 1 [1] = some s' ∧
    s'.marginal.value.take 1 = mapLast (fun x => x ∘ anc) s.marginal.value ∧ s'.value = s.value.take 1 ++ (recent.drop 1).map (fun x => x ∘ J) ∧ J 1 = anc 0 := by
  obtain ⟨s, hs, hr⟩ := C55_start (tapeEnv invCdf ω) (bootstrap (uniformModel 1 ω)) [0] y0 0 true (n := 4)
  obtain ⟨ht, hw, he⟩ := start_uniform hs
  obtain ⟨s', anc, J, recent, h1, h2, -, h3, h4⟩ := C139_fails_backward (cat := invCdf) (fun ω => bootstrap (uniformModel 1 ω)) 1 le_rfl 2 0 le_rfl 1 2 s hr (by rw [ht]) hw (fun e he' => by
    rw [he, Option.some.injEq] at he'
    subst he'
    simp only [Fl.lt]
    norm_num) y1 1 [1] ω
  rw [ht] at h2 h3
  exact ⟨s, s', anc, J, recent, hs, h1, h2, h3, h4⟩

end Mocat.Props
