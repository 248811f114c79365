import Verif.Model.OnlineSmoothing
import Verif.Props.Backward
import Verif.Props.Metrics
/-!
# C55, C56: fixed-lag smoothing
-/
namespace Mocat.Props
open Mocat Mocat.Metrics Mocat.Filtering Mocat.Backward Mocat.Online

variable {X K : Type} {n dy : ℕ} [NeZero n]

/-- The records of a smoother are aligned: one entry per time in all of them. -/
structure Aligned (s : Smoother X n dy) : Prop where
  pos : 0 < s.t.length
  value : s.value.length = s.t.length
  y : s.y.length = s.t.length

/-- So are those of its marginal filter. -/
structure MarginalAligned (s : Smoother X n dy) : Prop where
  mValue : s.marginal.value.length = s.t.length
  mLogWeight : s.marginal.logWeight.length = s.t.length
  mT : s.marginal.t.length = s.t.length
  mEss : s.marginal.ess.length = s.t.length

/-- All log weights zero. -/
def Unweighted (lw : Fin n → Fl) : Prop := ∀ i, lw i = Fl.fin 0

omit [NeZero n] in
theorem ess_unweighted [NeZero n] {lw : Fin n → Fl} (h : Unweighted lw) : essLogWeight lw = Fl.fin n := by
  have := C33_count lw 0 Finset.univ ⟨0, Finset.mem_univ 0⟩ (fun i => ⟨fun _ => h i, fun hi => absurd (Finset.mem_univ i) hi⟩)
  simpa using this

/-- `mapLast` keeps the length. -/
theorem mapLast_length' {α : Type*} (g : α → α) (l : List α) : (mapLast g l).length = l.length := by
  induction l with
  | nil => rfl
  | cons a l ih => cases l with
    | nil => rfl
    | cons b l => simpa [mapLast] using ih

theorem getLast?_some {α : Type*} {l : List α} (h : 0 < l.length) : ∃ a, l.getLast? = some a := by
  cases l with
  | nil => simp at h
  | cons a l => exact ⟨_, List.getLast?_cons⟩

theorem clampGet_lt {α : Type*} {l : List α} {i : ℕ} (h : i < l.length) : clampGet l i = some l[i] := by
  rw [clampGet, if_pos h, List.getElem?_eq_getElem h]

/-- Stitching keeps the early block and appends the recent part (from its second entry on) of trajectories chosen by `stitchInds`. -/
theorem stitching_eq (c : Cfg X K n dy) (early recent : List (Fin n → X)) (t t' : ℝ) (lw : Fin n → Fl) (key : K)
    (he : 0 < early.length) (hr : 1 < recent.length) :
    fixedLagStitching c early t recent lw t' key
      = some (early ++ (recent.drop 1).map (fun v => v ∘ (stitchInds c (early[early.length - 1]) recent[0] recent[1] lw t t' key).1),
        (stitchInds c (early[early.length - 1]) recent[0] recent[1] lw t t' key).2) := by
  unfold fixedLagStitching
  rw [List.getLast?_eq_getElem?, List.getElem?_eq_getElem (by omega), List.getElem?_eq_getElem (by omega), clampGet_lt hr]
  rfl

/-- The new particles of a call of the particle filter version, from particle `anc i` of the latest ensemble. -/
noncomputable def pfNew (c : Cfg X K n dy) (s : Smoother X n dy) (hs : Aligned s) (anc : Fin n → Fin n) (yNew : Obs dy) (tNew : ℝ) (key : K) (i : Fin n) : X :=
  c.filter.proposalSample ((s.value[s.t.length - 1]'(by have := hs.value; have := hs.pos; omega)) (anc i)) (s.t[s.t.length - 1]'(by have := hs.pos; omega)) yNew tNew (c.env.splitN n key i)

/-- Their log weights. -/
noncomputable def pfWeight (c : Cfg X K n dy) (s : Smoother X n dy) (hs : Aligned s) (anc : Fin n → Fin n) (yNew : Obs dy) (tNew : ℝ) (key : K) (i : Fin n) : Fl :=
  c.filter.intermediateLogWeight ((s.value[s.t.length - 1]'(by have := hs.value; have := hs.pos; omega)) (anc i)) (s.t[s.t.length - 1]'(by have := hs.pos; omega))
    (pfNew c s hs anc yNew tNew key i) yNew tNew

/-- The values before stitching in a call of the particle filter version: all trajectories, resampled if they are weighted, then the new particles. -/
noncomputable def pfPropagated (c : Cfg X K n dy) (s : Smoother X n dy) (hs : Aligned s) (anc : Fin n → Fin n) (yNew : Obs dy) (tNew : ℝ) (key : K) : List (Fin n → X) :=
  s.value.map (fun v => v ∘ anc) ++ [pfNew c s hs anc yNew tNew key]

omit [NeZero n] in
theorem pfPropagated_length (c : Cfg X K n dy) (s : Smoother X n dy) (hs : Aligned s) (anc : Fin n → Fin n) (yNew : Obs dy) (tNew : ℝ) (key : K) :
    (pfPropagated c s hs anc yNew tNew key).length = s.t.length + 1 := by simp [pfPropagated, hs.value]

theorem pf_step (c : Cfg X K n dy) (hlag : 1 ≤ c.lag) (s : Smoother X n dy) (hs : Aligned s) (yNew : Obs dy) (tNew : ℝ) (key : K) :
    ∃ (s' : Smoother X n dy) (anc : Fin n → Fin n), propagatePf c s yNew tNew key = some s' ∧ s'.t = s.t ++ [tNew] ∧ s'.y = s.y ++ [yNew] ∧
      s'.marginal = s.marginal ∧ (Unweighted s.logWeight → anc = id) ∧
      (∀ hL : c.lag ≤ s.t.length, Unweighted s'.logWeight ∧ ∃ inds : Fin n → Fin n,
        inds = (stitchInds c
          ((pfPropagated c s hs anc yNew tNew key)[s.t.length - c.lag]'(by rw [pfPropagated_length]; omega))
          ((pfPropagated c s hs anc yNew tNew key)[s.t.length - c.lag]'(by rw [pfPropagated_length]; omega))
          ((pfPropagated c s hs anc yNew tNew key)[s.t.length - c.lag + 1]'(by rw [pfPropagated_length]; omega))
          (pfWeight c s hs anc yNew tNew key)
          ((s.t ++ [tNew])[s.t.length - c.lag]'(by simp)) ((s.t ++ [tNew])[s.t.length - c.lag + 1]'(by simp; omega)) key).1 ∧
        s'.value = (pfPropagated c s hs anc yNew tNew key).take (s.t.length + 1 - c.lag)
          ++ ((pfPropagated c s hs anc yNew tNew key).drop (s.t.length + 1 - c.lag)).map (fun x => x ∘ inds)) ∧
      (s.t.length < c.lag → s'.value = pfPropagated c s hs anc yNew tNew key ∧ s'.logWeight = pfWeight c s hs anc yNew tNew key) := by
  have hpos := hs.pos
  have hval := hs.value
  obtain ⟨anc, hanc, hid⟩ : ∃ anc : Fin n → Fin n,
      (@ite _ (Fl.lt (essLogWeight s.logWeight) (.fin (n - 1e-3))) (Classical.propDecidable _) (s.value.map (fun v => v ∘ c.env.categorical key s.logWeight)) s.value)
        = s.value.map (fun v => v ∘ anc) ∧ (Unweighted s.logWeight → anc = id) := by
    by_cases h : Fl.lt (essLogWeight s.logWeight) (.fin (n - 1e-3))
    · refine ⟨_, if_pos h, fun hu => ?_⟩
      rw [ess_unweighted hu] at h
      simp only [Fl.lt] at h
      exfalso
      linarith
    · refine ⟨id, ?_, fun _ => rfl⟩
      rw [if_neg h]
      simp
  have hlast : (s.value.map (fun v => v ∘ anc)).getLast? = some (s.value[s.t.length - 1] ∘ anc) := by
    rw [List.getLast?_eq_getElem?, List.length_map, List.getElem?_eq_getElem (by simp; omega), List.getElem_map]
    simp only [hval]
  have htlast : s.t.getLast? = some s.t[s.t.length - 1] := by
    rw [List.getLast?_eq_getElem?, List.getElem?_eq_getElem (by omega)]
  have hlenT : (s.t ++ [tNew]).length = s.t.length + 1 := by simp
  have hvlen := pfPropagated_length c s hs anc yNew tNew key
  by_cases hL : c.lag ≤ s.t.length
  · have e1 : s.t.length + 1 - c.lag - 1 = s.t.length - c.lag := by omega
    have e2 : s.t.length + 1 - c.lag = s.t.length - c.lag + 1 := by omega
    have hst := stitching_eq c ((pfPropagated c s hs anc yNew tNew key).take (s.t.length - c.lag + 1)) ((pfPropagated c s hs anc yNew tNew key).drop (s.t.length - c.lag))
      ((s.t ++ [tNew])[s.t.length - c.lag]'(by simp)) ((s.t ++ [tNew])[s.t.length - c.lag + 1]'(by simp; omega))
      (pfWeight c s hs anc yNew tNew key) key
      (by rw [List.length_take, hvlen]; omega) (by rw [List.length_drop, hvlen]; omega)
    simp only [List.drop_drop, List.length_take, hvlen, List.getElem_take, List.getElem_drop, min_eq_left (show s.t.length - c.lag + 1 ≤ s.t.length + 1 by omega),
        Nat.add_sub_cancel, add_zero] at hst
    obtain ⟨out, hout⟩ : ∃ out, out = stitchInds c
          ((pfPropagated c s hs anc yNew tNew key)[s.t.length - c.lag]'(by rw [pfPropagated_length]; omega))
          ((pfPropagated c s hs anc yNew tNew key)[s.t.length - c.lag]'(by rw [pfPropagated_length]; omega))
          ((pfPropagated c s hs anc yNew tNew key)[s.t.length - c.lag + 1]'(by rw [pfPropagated_length]; omega))
          (pfWeight c s hs anc yNew tNew key)
          ((s.t ++ [tNew])[s.t.length - c.lag]'(by simp)) ((s.t ++ [tNew])[s.t.length - c.lag + 1]'(by simp; omega)) key := ⟨_, rfl⟩
    rw [← hout] at hst
    refine ⟨{ s with
      value := (pfPropagated c s hs anc yNew tNew key).take (s.t.length - c.lag + 1)
          ++ ((pfPropagated c s hs anc yNew tNew key).drop (s.t.length - c.lag + 1)).map (fun x => x ∘ out.1)
      logWeight := fun _ => .fin 0, t := s.t ++ [tNew], y := s.y ++ [yNew], evals := s.evals ++ [out.2] }, anc, ?_, ?_⟩
    rotate_left
    · refine ⟨rfl, rfl, rfl, hid, fun _ => ⟨fun _ => rfl, out.1, by rw [hout], ?_⟩, fun h => absurd h (by omega)⟩
      rw [e2]
    · unfold propagatePf
      dsimp only
      rw [hanc, hlast, htlast]
      simp only [Option.bind_eq_bind, Option.bind_some, hlenT]
      rw [if_pos (by omega), e1, e2, clampGet_lt (by simp; omega), List.getElem?_eq_getElem (by simp)]
      simp only [Option.bind_some]
      change Option.bind (fixedLagStitching c ((pfPropagated c s hs anc yNew tNew key).take (s.t.length - c.lag + 1)) _
        ((pfPropagated c s hs anc yNew tNew key).drop (s.t.length - c.lag)) (pfWeight c s hs anc yNew tNew key) _ key) _ = _
      exact (congrArg (fun o => Option.bind o _) hst).trans rfl
  · refine ⟨{ s with value := pfPropagated c s hs anc yNew tNew key, logWeight := pfWeight c s hs anc yNew tNew key, t := s.t ++ [tNew], y := s.y ++ [yNew], evals := s.evals ++ [0] }, anc, ?_, ?_⟩
    rotate_left
    · exact ⟨rfl, rfl, rfl, hid, fun h => absurd h hL, fun _ => ⟨rfl, rfl⟩⟩
    · unfold propagatePf
      dsimp only
      rw [hanc, hlast, htlast]
      simp only [Option.bind_eq_bind, Option.bind_some, hlenT]
      rw [if_neg (by omega)]
      rfl

omit [NeZero n] in
/-- One filter step on aligned records succeeds and keeps them aligned. -/
theorem propagate_aligned (env : Env K n) (f : Filter X K dy) (thr : ℝ) (full : Bool) (p : Particles X n dy) (y : Obs dy) (t : ℝ) (key : K) (L : ℕ) (hL : 0 < L)
    (h1 : p.value.length = L) (h2 : p.logWeight.length = L) (h3 : p.t.length = L) (h4 : p.ess.length = L) :
    ∃ p', propagate env f thr full p y t key = some p' ∧ p'.value.length = L + 1 ∧ p'.logWeight.length = L + 1 ∧ p'.t.length = L + 1 ∧ p'.ess.length = L + 1 := by
  obtain ⟨e, he⟩ := getLast?_some (l := p.ess) (by omega)
  obtain ⟨w, hw⟩ := getLast?_some (l := p.logWeight) (by omega)
  obtain ⟨q, hq, q1, q2, q3, q4⟩ : ∃ q : Particles X n dy,
      (@ite _ (Fl.lt e (.fin (thr * n))) (Classical.propDecidable _) (resampleParticles env p w key full) p) = q ∧
      q.value.length = L ∧ q.logWeight.length = L ∧ q.t.length = L ∧ q.ess.length = L := by
    refine ⟨_, rfl, ?_⟩
    split_ifs
    · refine ⟨?_, ?_, h3, h4⟩
      · unfold resampleParticles
        dsimp only
        split_ifs
        · simpa using h1
        · rw [mapLast_length']; exact h1
      · unfold resampleParticles
        dsimp only
        rw [mapLast_length']; exact h2
    · exact ⟨h1, h2, h3, h4⟩
  obtain ⟨a1, ha1⟩ := getLast?_some (l := q.value) (by omega)
  obtain ⟨a2, ha2⟩ := getLast?_some (l := q.logWeight) (by omega)
  obtain ⟨a3, ha3⟩ := getLast?_some (l := q.t) (by omega)
  unfold propagate
  simp only [he, hw, hq, ha1, ha2, ha3, Option.bind_eq_bind, Option.bind_some]
  exact ⟨_, rfl, by simp [q1], by simp [q2], by simp [q3], by simp [q4]⟩

/-- Backward simulation from entry `k` of aligned filter records succeeds; every value is a filter particle of its time. -/
theorem backSim_spec (c : Cfg X K n dy) (p : Particles X n dy) (k L : ℕ) (key : K) (hk : k < L)
    (h1 : p.value.length = L) (h2 : p.logWeight.length = L) (h3 : p.t.length = L) :
    ∃ out, backSim c p k key = some out ∧ out.1.length = L - k ∧
      ∀ s (h : s < out.1.length) (h' : k + s < p.value.length) (i : Fin n), ∃ j, out.1[s] i = p.value[k + s] j := by
  obtain ⟨x, hx⟩ := getLast?_some (l := p.value) (by omega)
  obtain ⟨w, hw⟩ := getLast?_some (l := p.logWeight) (by omega)
  obtain ⟨t, ht⟩ := getLast?_some (l := p.t) (by omega)
  refine ⟨_, by unfold backSim marginalsFrom; simp only [hx, hw, ht, Option.bind_eq_bind, Option.bind_some]; rfl, ?_⟩
  have hm := C53_membership c.rand c.trans
    { value := fun i => p.value.getD (k + i) x, logWeight := fun i => p.logWeight.getD (k + i) w, t := fun i => p.t.getD (k + i) t }
    (p.value.length - k) c.maxRej c.initBound c.inflation
    (fun i => if h : i < p.value.length - k then c.env.splitN (p.value.length - k) key ⟨i, h⟩ else key) (by omega)
  refine ⟨by rw [hm.1, h1], fun s h h' i => ?_⟩
  obtain ⟨j, hj⟩ := hm.2 s h i
  refine ⟨j, hj.trans ?_⟩
  dsimp only
  rw [List.getD_eq_getElem _ _ h']

theorem bs_step (c : Cfg X K n dy) (hlag : 1 ≤ c.lag) (s : Smoother X n dy) (hs : Aligned s) (hm : MarginalAligned s) (yNew : Obs dy) (tNew : ℝ) (key : K) :
    ∃ (s' : Smoother X n dy), propagateBs c s yNew tNew key = some s' ∧ s'.t = s.t ++ [tNew] ∧ s'.y = s.y ++ [yNew] ∧ (Aligned s' ∧ MarginalAligned s') ∧ Unweighted s'.logWeight ∧
      (c.lag ≤ s.t.length → ∃ (recent : List (Fin n → X)) (inds : Fin n → Fin n), recent.length = c.lag ∧
        s'.value = s.value.take (s.t.length + 1 - c.lag) ++ recent.map (fun x => x ∘ inds) ∧
        ∀ k (h : k < recent.length) (h' : s.t.length + 1 - c.lag + k < s'.marginal.value.length) i, ∃ j, recent[k] i = s'.marginal.value[s.t.length + 1 - c.lag + k] j) ∧
      (s.t.length < c.lag → ∀ k (h : k < s'.value.length) (h' : k < s'.marginal.value.length) i, ∃ j, s'.value[k] i = s'.marginal.value[k] j) := by
  have hpos := hs.pos
  have hval := hs.value
  obtain ⟨mf, hmf, m1, m2, m3, m4⟩ := propagate_aligned c.env c.filter c.thr false s.marginal yNew tNew (c.env.splitN 4 key 1) s.t.length hpos hm.mValue hm.mLogWeight hm.mT hm.mEss
  have hlenT : (s.t ++ [tNew]).length = s.t.length + 1 := by simp
  by_cases hL : c.lag ≤ s.t.length
  · have e1 : s.t.length + 1 - c.lag - 1 = s.t.length - c.lag := by omega
    have e2 : s.t.length + 1 - c.lag = s.t.length - c.lag + 1 := by omega
    obtain ⟨back, hb, b1, b2⟩ := backSim_spec c mf (s.t.length - c.lag) (s.t.length + 1) (c.env.splitN 4 key 2) (by omega) m1 m2 m3
    have hst := stitching_eq c (s.value.take (s.t.length - c.lag + 1)) back.1
      ((s.t ++ [tNew])[s.t.length - c.lag]'(by simp)) ((s.t ++ [tNew])[s.t.length - c.lag + 1]'(by simp; omega))
      (fun _ => .fin 0) key (by rw [List.length_take]; omega) (by omega)
    obtain ⟨out, hout⟩ : ∃ out, out = stitchInds c ((s.value.take (s.t.length - c.lag + 1))[(s.value.take (s.t.length - c.lag + 1)).length - 1]'(by
        rw [List.length_take]; omega)) (back.1[0]'(by omega)) (back.1[1]'(by omega)) (fun _ => .fin 0)
        ((s.t ++ [tNew])[s.t.length - c.lag]'(by simp)) ((s.t ++ [tNew])[s.t.length - c.lag + 1]'(by simp; omega)) key := ⟨_, rfl⟩
    rw [← hout] at hst
    refine ⟨{ value := s.value.take (s.t.length - c.lag + 1) ++ (back.1.drop 1).map (fun x => x ∘ out.1), logWeight := fun _ => .fin 0, t := s.t ++ [tNew], y := s.y ++ [yNew], evals := s.evals ++ [out.2 + back.2.sum], marginal := mf }, ?_, rfl, rfl, ?_, fun _ => rfl, ?_, fun h => absurd h (by omega)⟩
    · unfold propagateBs
      dsimp only
      rw [hmf]
      simp only [Option.bind_eq_bind, Option.bind_some, hlenT]
      rw [if_pos (by omega), e1, e2, clampGet_lt (by simp; omega), List.getElem?_eq_getElem (by simp), hb]
      simp only [Option.bind_some]
      exact (congrArg (fun o => Option.bind o _) hst).trans rfl
    · refine ⟨⟨by simp, ?_, by simp [hs.y]⟩, ⟨by simp [m1], by simp [m2], by simp [m3], by simp [m4]⟩⟩
      simp only [List.length_append, List.length_take, List.length_map, List.length_drop, b1, List.length_singleton]
      omega
    · intro _
      refine ⟨back.1.drop 1, out.1, by rw [List.length_drop]; omega, by rw [e2], ?_⟩
      intro k h h' i
      rw [List.length_drop] at h
      obtain ⟨j, hj⟩ := b2 (1 + k) (by omega) (by dsimp only at h'; omega) i
      refine ⟨j, ?_⟩
      rw [List.getElem_drop, hj]
      have e3 : s.t.length - c.lag + (1 + k) = s.t.length + 1 - c.lag + k := by omega
      exact congrFun (getElem_congr_idx e3) j
  · obtain ⟨back, hb, b1, b2⟩ := backSim_spec c mf 0 (s.t.length + 1) (c.env.splitN 4 key 2) (by omega) m1 m2 m3
    refine ⟨{ value := back.1, logWeight := fun _ => .fin 0, t := s.t ++ [tNew], y := s.y ++ [yNew], evals := s.evals ++ [back.2.sum], marginal := mf }, ?_, rfl, rfl, ?_, fun _ => rfl, fun h => absurd h hL, ?_⟩
    · unfold propagateBs
      dsimp only
      rw [hmf]
      simp only [Option.bind_eq_bind, Option.bind_some, hlenT]
      rw [if_neg (by omega), hb]
      rfl
    · exact ⟨⟨by simp, by simp [b1], by simp [hs.y]⟩, ⟨by simp [m1], by simp [m2], by simp [m3], by simp [m4]⟩⟩
    · intro _ k h h' i
      obtain ⟨j, hj⟩ := b2 k h (by simpa using h') i
      refine ⟨j, hj.trans ?_⟩
      exact congrFun (getElem_congr_idx (Nat.zero_add k)) j

/-! ## C55 -/

/-- What a call needs: aligned records, and for backward simulation aligned records of the marginal filter. -/
def Ready (backward : Bool) (s : Smoother X n dy) : Prop := Aligned s ∧ (backward = true → MarginalAligned s)

omit [NeZero n] in
/-- Particles from the filter are ready. -/
theorem C55_start (env : Env K n) (f : Filter X K dy) (key : K) (y : Obs dy) (t : ℝ) (backward : Bool) :
    ∃ s, ofParticles (initiateParticles env f key y t) = some s ∧ Ready backward s :=
  ⟨_, rfl, ⟨by simp [initiateParticles], rfl, rfl⟩, fun _ => ⟨rfl, rfl, rfl, rfl⟩⟩

/-- C55: one call on ready particles succeeds, appends the observation and time, and leaves them ready. If at least `lag` times were recorded, afterwards the weights are uniform; and if they already were (or with backward
simulation in any case) every value at least `lag` steps older than the new time is unchanged. -/
theorem C55_call (backward : Bool) (c : Cfg X K n dy) (hlag : 1 ≤ c.lag) (s : Smoother X n dy) (hs : Ready backward s) (yNew : Obs dy) (tNew : ℝ) (key : K) :
    ∃ s', propagateSmoother backward c s yNew tNew key = some s' ∧ Ready backward s' ∧ s'.t = s.t ++ [tNew] ∧ s'.y = s.y ++ [yNew] ∧
      (c.lag ≤ s.t.length → Unweighted s'.logWeight ∧
        ((backward = true ∨ Unweighted s.logWeight) → ∀ i, i + c.lag ≤ s.t.length → s'.value[i]? = s.value[i]?)) := by
  obtain ⟨ha, hm⟩ := hs
  have hpos := ha.pos
  have hval := ha.value
  cases backward with
  | true =>
    obtain ⟨s', h1, h2, h3, h4, h5, h6, -⟩ := bs_step c hlag s ha (hm rfl) yNew tNew key
    refine ⟨s', by rw [propagateSmoother, if_pos rfl]; exact h1, ⟨h4.1, fun _ => h4.2⟩, h2, h3, fun hL => ⟨h5, fun _ i hi => ?_⟩⟩
    obtain ⟨recent, inds, -, h8, -⟩ := h6 hL
    rw [h8, List.getElem?_append_left (by rw [List.length_take]; omega), List.getElem?_take_of_lt (by omega)]
  | false =>
    obtain ⟨s', anc, h1, h2, h3, -, h5, h6, h7⟩ := pf_step c hlag s ha yNew tNew key
    have hlen := pfPropagated_length c s ha anc yNew tNew key
    have hval' : s'.value.length = s'.t.length := by
      rw [h2]
      by_cases hL : c.lag ≤ s.t.length
      · obtain ⟨-, inds, -, h9⟩ := h6 hL
        rw [h9]
        simp only [List.length_append, List.length_take, List.length_map, List.length_drop, hlen, List.length_singleton]
        omega
      · rw [(h7 (by omega)).1, hlen]; simp
    refine ⟨s', by rw [propagateSmoother]; exact h1, ⟨⟨by rw [h2]; simp, hval', by rw [h2, h3]; simp [ha.y]⟩, fun h => by cases h⟩, h2, h3, fun hL => ?_⟩
    obtain ⟨h8, inds, -, h9⟩ := h6 hL
    refine ⟨h8, fun hu i hi => ?_⟩
    have hid := h5 (by simpa using hu)
    rw [h9, List.getElem?_append_left (by rw [List.length_take, hlen]; omega), List.getElem?_take_of_lt (by omega), hid]
    unfold pfPropagated
    rw [List.getElem?_append_left (by simp; omega)]
    simp

/-- C55: once some call has been made with at least `lag` times recorded, all later calls leave the values at every time at least `lag` steps old as they are, and the weights uniform. -/
theorem C55_frozen (backward : Bool) (c : Cfg X K n dy) (hlag : 1 ≤ c.lag) (s₀ : Smoother X n dy) (hs : Ready backward s₀) (before : List (Obs dy × ℝ × K)) (hb : before ≠ [])
    (later : List (Obs dy × ℝ × K)) (hL : c.lag + 1 ≤ s₀.t.length + before.length) :
    ∃ s₁ s₂, calls backward c s₀ before = some s₁ ∧ calls backward c s₁ later = some s₂ ∧ s₁.t.length = s₀.t.length + before.length ∧
      s₂.t.length = s₁.t.length + later.length ∧ Unweighted s₁.logWeight ∧ Unweighted s₂.logWeight ∧
      ∀ i, i + c.lag ≤ s₁.t.length → s₂.value[i]? = s₁.value[i]? := by
  have hlater : ∀ (later : List (Obs dy × ℝ × K)) (s₁ : Smoother X n dy), Ready backward s₁ → c.lag ≤ s₁.t.length → Unweighted s₁.logWeight →
      ∃ s₂, calls backward c s₁ later = some s₂ ∧ s₂.t.length = s₁.t.length + later.length ∧ Unweighted s₂.logWeight ∧
        ∀ i, i + c.lag ≤ s₁.t.length → s₂.value[i]? = s₁.value[i]? := by
    intro later
    induction later with
    | nil => intro s₁ _ _ hu; exact ⟨s₁, rfl, by simp, hu, fun _ _ => rfl⟩
    | cons o os ih =>
      intro s₁ hr hL hu
      obtain ⟨y, t, k⟩ := o
      obtain ⟨s', h1, h2, h3, -, h5⟩ := C55_call backward c hlag s₁ hr y t k
      have hlen : s'.t.length = s₁.t.length + 1 := by rw [h3]; simp
      obtain ⟨s₂, g1, g2, g3, g4⟩ := ih s' h2 (by omega) (h5 hL).1
      refine ⟨s₂, by rw [calls, h1]; exact g1, by rw [g2, hlen, List.length_cons]; omega, g3, fun i hi => ?_⟩
      rw [g4 i (by omega), (h5 hL).2 (Or.inr hu) i hi]
  have hbefore : ∀ (before : List (Obs dy × ℝ × K)) (s₀ : Smoother X n dy), Ready backward s₀ → before ≠ [] → c.lag + 1 ≤ s₀.t.length + before.length →
      ∃ s₁, calls backward c s₀ before = some s₁ ∧ Ready backward s₁ ∧ s₁.t.length = s₀.t.length + before.length ∧ Unweighted s₁.logWeight := by
    intro before
    induction before with
    | nil => intro _ _ h; exact absurd rfl h
    | cons o os ih =>
      intro s₀ hr _ hL
      obtain ⟨y, t, k⟩ := o
      obtain ⟨s', h1, h2, h3, -, h5⟩ := C55_call backward c hlag s₀ hr y t k
      have hlen : s'.t.length = s₀.t.length + 1 := by rw [h3]; simp
      rw [List.length_cons] at hL
      cases os with
      | nil => exact ⟨s', by rw [calls, h1]; rfl, h2, by rw [hlen]; rfl, (h5 (by simp at hL; omega)).1⟩
      | cons o' os =>
        obtain ⟨s₁, g1, g2, g3, g4⟩ := ih s' h2 (by simp) (by rw [hlen]; omega)
        exact ⟨s₁, by rw [calls, h1]; exact g1, g2, by rw [g3, hlen, List.length_cons (a := (y, t, k))]; omega, g4⟩
  obtain ⟨s₁, h1, h2, h3, h4⟩ := hbefore before s₀ hs hb hL
  obtain ⟨s₂, g1, g2, g3, g4⟩ := hlater later s₁ h2 (by omega) h4
  exact ⟨s₁, s₂, h1, g1, h3, g2, h4, g3, g4⟩

/-- C55: in a stitching call of the particle filter version on unweighted particles, trajectory `i` afterwards is trajectory `i` up to time index `q = (number of times) - lag`, followed by the recent part of one
trajectory `inds i` (the last entry being the new particle). Without rejection `inds i` is drawn with the weights `w_j p(x_q^i -> x_{q+1}^j) / p(x_q^j -> x_{q+1}^j)`. -/
theorem C55_trajectories_pf (c : Cfg X K n dy) (hlag : 1 ≤ c.lag) (s : Smoother X n dy) (hs : Aligned s) (hu : Unweighted s.logWeight) (hL : c.lag ≤ s.t.length)
    (yNew : Obs dy) (tNew : ℝ) (key : K) :
    ∃ s' inds, propagatePf c s yNew tNew key = some s' ∧
      (∀ k, k + c.lag ≤ s.t.length → s'.value[k]? = s.value[k]?) ∧
      (∀ k, s.t.length < k + c.lag → s'.value[k]? = ((s.value ++ [pfNew c s hs id yNew tNew key])[k]?).map fun v => v ∘ inds) ∧
      ∀ (_ : c.maxRej ≤ 0) (x x' : Fin n → X) (t t' : ℝ), (s.value ++ [pfNew c s hs id yNew tNew key])[s.t.length - c.lag]? = some x →
        (s.value ++ [pfNew c s hs id yNew tNew key])[s.t.length - c.lag + 1]? = some x' → (s.t ++ [tNew])[s.t.length - c.lag]? = some t → (s.t ++ [tNew])[s.t.length - c.lag + 1]? = some t' →
        ∀ i, inds i = c.rand.choice (c.rand.splitN key i) fun j =>
          Fl.sub (Fl.add (pfWeight c s hs id yNew tNew key j) (Fl.fin (c.trans (x j) t (x' j) t'))) (Fl.fin (c.trans (x i) t (x' j) t')) := by
  have hpos := hs.pos
  have hval := hs.value
  obtain ⟨s', anc, h1, -, -, -, h5, h6, -⟩ := pf_step c hlag s hs yNew tNew key
  obtain ⟨-, inds, hinds, h9⟩ := h6 hL
  obtain rfl := h5 hu
  have hlen := pfPropagated_length c s hs id yNew tNew key
  have hv : pfPropagated c s hs id yNew tNew key = s.value ++ [pfNew c s hs id yNew tNew key] := by simp [pfPropagated]
  refine ⟨s', inds, h1, fun k hk => ?_, fun k hk => ?_, ?_⟩
  · rw [h9, List.getElem?_append_left (by rw [List.length_take, hlen]; omega), List.getElem?_take_of_lt (by omega), hv, List.getElem?_append_left (by omega)]
  · rw [h9, List.getElem?_append_right (by rw [List.length_take, hlen]; omega), List.getElem?_map, List.getElem?_drop, List.length_take, hlen, hv]
    congr 2
    omega
  · intro hR x x' t t' hx hx' ht ht' i
    rw [← hv, List.getElem?_eq_getElem (by rw [hlen]; omega)] at hx hx'
    rw [List.getElem?_eq_getElem (by simp)] at ht
    rw [List.getElem?_eq_getElem (by simp; omega)] at ht'
    simp only [Option.some.injEq] at hx hx' ht ht'
    rw [hinds]
    unfold stitchInds
    dsimp only
    rw [if_neg (by omega), hx, hx', ht, ht']
    rfl

/-- C55: in a stitching call with backward simulation, trajectory `i` afterwards is trajectory `i` up to time index `(number of times) - lag`, followed by the recent part of one backward trajectory, whose values are particles of
the marginal filter at their times; before that all values are such particles. -/
theorem C55_trajectories_bs (c : Cfg X K n dy) (hlag : 1 ≤ c.lag) (s : Smoother X n dy) (hs : Aligned s) (hm : MarginalAligned s) (yNew : Obs dy) (tNew : ℝ) (key : K) :
    ∃ s', propagateBs c s yNew tNew key = some s' ∧
      (c.lag ≤ s.t.length → ∃ (recent : List (Fin n → X)) (inds : Fin n → Fin n), recent.length = c.lag ∧
        s'.value = s.value.take (s.t.length + 1 - c.lag) ++ recent.map (fun x => x ∘ inds) ∧
        ∀ k (h : k < recent.length) (h' : s.t.length + 1 - c.lag + k < s'.marginal.value.length) i, ∃ j, recent[k] i = s'.marginal.value[s.t.length + 1 - c.lag + k] j) ∧
      (s.t.length < c.lag → ∀ k (h : k < s'.value.length) (h' : k < s'.marginal.value.length) i, ∃ j, s'.value[k] i = s'.marginal.value[k] j) := by
  obtain ⟨s', h1, -, -, -, -, h6, h7⟩ := bs_step c hlag s hs hm yNew tNew key
  exact ⟨s', h1, h6, h7⟩

/-! ## C56 -/

/-- One call with lag zero of the particle filter version on unweighted particles: the new particles are appended with weight one whatever their likelihood. -/
theorem C56_zero_call (c : Cfg X K n dy) (hlag : c.lag = 0) (s : Smoother X n dy) (hs : Aligned s) (hu : Unweighted s.logWeight) (yNew : Obs dy) (tNew : ℝ) (key : K) :
    ∃ s', propagatePf c s yNew tNew key = some s' ∧ Aligned s' ∧ Unweighted s'.logWeight ∧ s'.t = s.t ++ [tNew] ∧ s'.value = s.value ++ [pfNew c s hs id yNew tNew key] := by
  have hpos := hs.pos
  have hval := hs.value
  have hlast : s.value.getLast? = some (s.value[s.t.length - 1]) := by
    rw [List.getLast?_eq_getElem?, List.getElem?_eq_getElem (by omega)]
    simp only [hval]
  have htlast : s.t.getLast? = some s.t[s.t.length - 1] := by
    rw [List.getLast?_eq_getElem?, List.getElem?_eq_getElem (by omega)]
  have hlenT : (s.t ++ [tNew]).length = s.t.length + 1 := by simp
  have hnot : ¬ Fl.lt (essLogWeight s.logWeight) (.fin (n - 1e-3)) := by
    rw [ess_unweighted hu]
    simp only [Fl.lt]
    intro h
    linarith
  have hv : (@ite _ (Fl.lt (essLogWeight s.logWeight) (.fin (n - 1e-3))) (Classical.propDecidable _) (s.value.map (fun v => v ∘ c.env.categorical key s.logWeight)) s.value)
      = s.value := if_neg hnot
  obtain ⟨x0, hx0⟩ : ∃ x0, ((s.value ++ [pfNew c s hs id yNew tNew key]).take (s.t.length + 1)).getLast? = some x0 := getLast?_some (by simp)
  obtain ⟨r0, hr0⟩ : ∃ r0, ((s.value ++ [pfNew c s hs id yNew tNew key]).drop s.t.length)[0]? = some r0 :=
    ⟨_, List.getElem?_eq_getElem (by simp [hval])⟩
  obtain ⟨r1, hr1⟩ : ∃ r1, clampGet ((s.value ++ [pfNew c s hs id yNew tNew key]).drop s.t.length) 1 = some r1 := by
    unfold clampGet
    rw [if_neg (by simp [hval])]
    exact getLast?_some (by simp [hval])
  obtain ⟨t', ht'⟩ : ∃ t', clampGet (s.t ++ [tNew]) (s.t.length + 1) = some t' := by
    unfold clampGet
    rw [if_neg (by simp)]
    exact getLast?_some (by simp)
  refine ⟨?_, ?_, ?_⟩
  · exact
    { s with
      value := s.value ++ [pfNew c s hs id yNew tNew key], logWeight := fun _ => .fin 0, t := s.t ++ [tNew], y := s.y ++ [yNew],
      evals := s.evals ++ [(stitchInds c x0 r0 r1 (pfWeight c s hs id yNew tNew key) ((s.t ++ [tNew])[s.t.length]'(by simp)) t' key).2] }
  · unfold propagatePf
    dsimp only
    rw [hv, hlast, htlast]
    simp only [Option.bind_eq_bind, Option.bind_some, hlenT, hlag, Nat.zero_add, Nat.sub_zero, Nat.add_sub_cancel]
    rw [if_pos (by omega), ht', List.getElem?_eq_getElem (by simp)]
    simp only [Option.bind_some]
    change Option.bind (fixedLagStitching c ((s.value ++ [pfNew c s hs id yNew tNew key]).take (s.t.length + 1)) _
        ((s.value ++ [pfNew c s hs id yNew tNew key]).drop s.t.length) (pfWeight c s hs id yNew tNew key) _ key) _ = _
    unfold fixedLagStitching
    rw [hx0, hr0, hr1]
    simp only [Option.bind_eq_bind, Option.bind_some, List.drop_drop]
    rw [List.take_of_length_le (by simp [hval]), List.drop_of_length_le (by simp [hval])]
    simp
  · exact ⟨⟨by simp, by simp [hval], by simp [hs.y]⟩, fun _ => rfl, rfl, rfl⟩

/-- C56 fails: with lag zero and the bootstrap filter, the particle filter version ignores the observations: any two sequences of observations (at the same times with the same keys) give the same particles, with uniform
weights. -/
theorem C56_fails_ignores_observations (m : Ssm.Model X (Obs dy) K) (c : Cfg X K n dy) (hlag : c.lag = 0) (hf : c.filter = bootstrap m) (s₁ s₂ : Smoother X n dy) (h₁ : Aligned s₁) (h₂ : Aligned s₂)
    (u₁ : Unweighted s₁.logWeight) (u₂ : Unweighted s₂.logWeight) (ht : s₁.t = s₂.t) (hv : s₁.value = s₂.value) (os : List ((Obs dy × Obs dy) × ℝ × K)) :
    ∃ r₁ r₂, calls false c s₁ (os.map fun o => (o.1.1, o.2)) = some r₁ ∧ calls false c s₂ (os.map fun o => (o.1.2, o.2)) = some r₂ ∧
      r₁.value = r₂.value ∧ Unweighted r₁.logWeight ∧ Unweighted r₂.logWeight ∧ r₁.value.length = s₁.value.length + os.length := by
  induction os generalizing s₁ s₂ with
  | nil => exact ⟨s₁, s₂, rfl, rfl, hv, u₁, u₂, by simp⟩
  | cons o os ih =>
    obtain ⟨⟨y₁, y₂⟩, t, k⟩ := o
    obtain ⟨a₁, e₁, b₁, v₁, d₁, w₁⟩ := C56_zero_call c hlag s₁ h₁ u₁ y₁ t k
    obtain ⟨a₂, e₂, b₂, v₂, d₂, w₂⟩ := C56_zero_call c hlag s₂ h₂ u₂ y₂ t k
    have hnew : pfNew c s₁ h₁ id y₁ t k = pfNew c s₂ h₂ id y₂ t k := by
      funext i
      unfold pfNew
      rw [hf]
      have e : s₁.value[s₁.t.length - 1]'(by have := h₁.value; have := h₁.pos; omega) = s₂.value[s₂.t.length - 1]'(by have := h₂.value; have := h₂.pos; omega) :=
        getElem_congr hv (by rw [ht]) _
      rw [e]
      simp only [bootstrap, ht]
    obtain ⟨r₁, r₂, g₁, g₂, g₃, g₄, g₅, g₆⟩ := ih a₁ a₂ b₁ b₂ v₁ v₂ (by rw [d₁, d₂, ht]) (by rw [w₁, w₂, hv, hnew])
    refine ⟨r₁, r₂, ?_, ?_, g₃, g₄, g₅, ?_⟩
    · rw [List.map_cons, calls, propagateSmoother, if_neg (by simp), e₁]; exact g₁
    · rw [List.map_cons, calls, propagateSmoother, if_neg (by simp), e₂]; exact g₂
    · rw [g₆, w₁]; simp; omega

/-- C56 fails: with lag zero the backward simulation version never records a new particle: after any calls `value` is what it was, while `t` has grown. -/
theorem C56_fails_backward (c : Cfg X K n dy) (hlag : c.lag = 0) (s : Smoother X n dy) (hp : 0 < s.value.length) (hv : s.value.length ≤ s.t.length) (hm : MarginalAligned s)
    (os : List (Obs dy × ℝ × K)) :
    ∃ r, calls true c s os = some r ∧ r.value = s.value ∧ r.t.length = s.t.length + os.length := by
  induction os generalizing s with
  | nil => exact ⟨s, rfl, rfl, by simp⟩
  | cons o os ih =>
    obtain ⟨yNew, tNew, key⟩ := o
    obtain ⟨mf, hmf, m1, m2, m3, m4⟩ := propagate_aligned c.env c.filter c.thr false s.marginal yNew tNew (c.env.splitN 4 key 1) s.t.length (by omega) hm.mValue hm.mLogWeight hm.mT hm.mEss
    obtain ⟨back, hb, b1, -⟩ := backSim_spec c mf s.t.length (s.t.length + 1) (c.env.splitN 4 key 2) (by omega) m1 m2 m3
    have hlenT : (s.t ++ [tNew]).length = s.t.length + 1 := by simp
    obtain ⟨t', ht'⟩ : ∃ t', clampGet (s.t ++ [tNew]) (s.t.length + 1) = some t' := by
      unfold clampGet
      rw [if_neg (by simp)]
      exact getLast?_some (by simp)
    obtain ⟨x0, hx0⟩ : ∃ x0, s.value.getLast? = some x0 := getLast?_some hp
    obtain ⟨r0, hr0⟩ : ∃ r0, back.1[0]? = some r0 := ⟨_, List.getElem?_eq_getElem (by omega)⟩
    obtain ⟨r1, hr1⟩ : ∃ r1, clampGet back.1 1 = some r1 := by
      unfold clampGet
      rw [if_neg (by omega)]
      exact getLast?_some (by omega)
    obtain ⟨s', hs', hv', ht2, hm2⟩ : ∃ s', propagateBs c s yNew tNew key = some s' ∧ s'.value = s.value ∧ s'.t.length = s.t.length + 1 ∧ s'.marginal = mf := by
      unfold propagateBs
      dsimp only
      rw [hmf]
      simp only [Option.bind_eq_bind, Option.bind_some, hlenT, hlag, Nat.zero_add, Nat.sub_zero, Nat.add_sub_cancel]
      rw [if_pos (by omega), ht', List.getElem?_eq_getElem (by simp), hb]
      simp only [Option.bind_some]
      unfold fixedLagStitching
      rw [List.take_of_length_le (by omega), hx0, hr0, hr1, List.drop_of_length_le (by omega)]
      exact ⟨_, rfl, by simp, hlenT, rfl⟩
    obtain ⟨r, g1, g2, g3⟩ := ih s' (by rw [hv']; exact hp) (by rw [hv', ht2]; omega) ⟨by rw [hm2, m1, ht2], by rw [hm2, m2, ht2], by rw [hm2, m3, ht2], by rw [hm2, m4, ht2]⟩
    exact ⟨r, by rw [calls, propagateSmoother, if_pos rfl, hs']; exact g1, g2.trans hv', by rw [g3, ht2, List.length_cons]; omega⟩

/-- C56, what does hold: with lag zero the particle filter version on unweighted particles records one ensemble per time, each proposed from the one before as a filter would. Missing: weighting or resampling by the likelihood. -/
theorem C56_partial (c : Cfg X K n dy) (hlag : c.lag = 0) (s : Smoother X n dy) (hs : Aligned s) (hu : Unweighted s.logWeight) (yNew : Obs dy) (tNew : ℝ) (key : K) :
    ∃ s' x t x', propagatePf c s yNew tNew key = some s' ∧ s.value.getLast? = some x ∧ s.t.getLast? = some t ∧ s'.value = s.value ++ [x'] ∧ s'.t = s.t ++ [tNew] ∧
      ∀ i, x' i = c.filter.proposalSample (x i) t yNew tNew (c.env.splitN n key i) := by
  obtain ⟨s', h1, -, -, h4, h5⟩ := C56_zero_call c hlag s hs hu yNew tNew key
  have hpos := hs.pos
  have hval := hs.value
  refine ⟨s', _, _, _, h1, ?_, ?_, h5, h4, fun i => rfl⟩
  · rw [List.getLast?_eq_getElem?, List.getElem?_eq_getElem (by omega)]
    simp only [hval]; rfl
  · rw [List.getLast?_eq_getElem?, List.getElem?_eq_getElem (by omega)]

/-! ## C73 -/

/-- C73 fails: with backward simulation and lag one, started from the bootstrap filter's initial particles, the particles at the first time are for ever the draws from the initial distribution, with uniform weights: the first
observation's weights are dropped. -/
theorem C73_fails (m : Ssm.Model X (Obs dy) K) (c : Cfg X K n dy) (hlag : c.lag = 1) (hf : c.filter = bootstrap m) (k₀ : K) (y₀ : Obs dy) (t₀ : ℝ) (os : List (Obs dy × ℝ × K)) (hos : os ≠ []) :
    ∃ s r, ofParticles (initiateParticles c.env c.filter k₀ y₀ t₀) = some s ∧ calls true c s os = some r ∧ Unweighted r.logWeight ∧
      r.value[0]? = some fun i => m.initialSample t₀ (c.env.splitN n k₀ i) := by
  obtain ⟨s, h1, h2⟩ := C55_start c.env c.filter k₀ y₀ t₀ true
  have ht : s.t.length = 1 := by
    simp only [ofParticles, initiateParticles, List.getLast?_singleton, Option.some.injEq] at h1
    rw [← h1]; rfl
  have hv : s.value = [fun i => m.initialSample t₀ (c.env.splitN n k₀ i)] := by
    simp only [ofParticles, initiateParticles, List.getLast?_singleton, Option.some.injEq] at h1
    rw [← h1, hf]; rfl
  cases os with
  | nil => exact absurd rfl hos
  | cons o os =>
    obtain ⟨y, t, k⟩ := o
    obtain ⟨s', g1, -, -, -, g5⟩ := C55_call true c (by omega) s h2 y t k
    obtain ⟨s₁, s₂, f1, f2, f3, -, -, f6, f7⟩ := C55_frozen true c (by omega) s h2 [(y, t, k)] (by simp) os (by rw [ht, hlag]; simp)
    have e : s₁ = s' := by
      have : some s₁ = some s' := by rw [← f1, calls, g1]; rfl
      simpa using this
    refine ⟨s, s₂, h1, ?_, f6, ?_⟩
    · rw [calls, g1]
      rw [e] at f2
      exact f2
    · rw [f7 0 (by rw [f3, ht, hlag]; simp), e, (g5 (by omega)).2 (Or.inl rfl) 0 (by omega), hv]
      rfl

/-- C73, what does hold: with lag two or more the first call draws all trajectories by backward simulation from the weighted marginal filter. -/
theorem C73_partial (c : Cfg X K n dy) (hlag : 2 ≤ c.lag) (k₀ : K) (y₀ : Obs dy) (t₀ : ℝ) (y₁ : Obs dy) (t₁ : ℝ) (k₁ : K) :
    ∃ s mf back s', ofParticles (initiateParticles c.env c.filter k₀ y₀ t₀) = some s ∧
      propagate c.env c.filter c.thr false (initiateParticles c.env c.filter k₀ y₀ t₀) y₁ t₁ (c.env.splitN 4 k₁ 1) = some mf ∧
      backSim c mf 0 (c.env.splitN 4 k₁ 2) = some back ∧ propagateBs c s y₁ t₁ k₁ = some s' ∧ s'.value = back.1 := by
  obtain ⟨mf, hmf, m1, m2, m3, m4⟩ := propagate_aligned c.env c.filter c.thr false (initiateParticles c.env c.filter k₀ y₀ t₀) y₁ t₁ (c.env.splitN 4 k₁ 1) 1 (by omega) rfl rfl rfl rfl
  obtain ⟨back, hb, -, -⟩ := backSim_spec c mf 0 2 (c.env.splitN 4 k₁ 2) (by omega) m1 m2 m3
  refine ⟨_, mf, back, { value := back.1, logWeight := fun _ => .fin 0, t := [t₀, t₁], y := [y₀, y₁], evals := [0, back.2.sum], marginal := mf }, rfl, hmf, hb, ?_, rfl⟩
  unfold propagateBs
  dsimp only
  rw [hmf]
  simp only [Option.bind_eq_bind, Option.bind_some]
  rw [if_neg (by simp [initiateParticles]; omega), hb]
  rfl

end Mocat.Props
