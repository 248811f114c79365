import Verif.Props.FfbsConsistency
import Verif.Props.Metrics
/-!
# C136: filtering one observation at a time: unbiased estimates, and convergence of weighted trajectories to the smoothing distribution

The draws come from an ideal generator (`Verif.Spec.Tape`).
-/
namespace Mocat.Props
open Mocat Mocat.Filtering Mocat.Metrics Mocat.Ideal Mocat.Meas MeasureTheory
open Mocat.Smc (Red Q redStep redValue redWeight StepLaw stepSites critLt lse logEss lseMean Spread Apart share)
open scoped ENNReal

variable {X : Type} {n dy : ℕ}

/-! ## Specification -/

/-- Neither key comes from the other by splitting. -/
def Unrelated (k k' : Keys.Key) : Prop := ¬ k <:+ k' ∧ ¬ k' <:+ k

/-- What a program sees that starts from `p` and passes its observations to `propagate_particle_filter` in turn: the particles before the first call and after each call. -/
noncomputable def reports {K : Type} (env : Filtering.Env K n) (f : Filter X K dy) (thr : ℝ) (full : Bool) (p : Particles X n dy) : List (Obs dy × ℝ × K) → Option (List (Particles X n dy))
  | [] => some [p]
  | (y, t, k) :: os => (propagate env f thr full p y t k).bind fun p' => (reports env f thr full p' os).map (p :: ·)

/-- The latest log weights and effective sample size of reported particles. -/
def latestWeights (p : Particles X n dy) : (Fin n → Fl) × Fl := (p.logWeight.getLastD fun _ => .fin 0, p.ess.getLastD (.fin 0))

/-- The likelihood estimate a program forms from the latest weights after each call: the mean of the first weights, times, for each call, the total weight after it over the total weight before it (`n` where the call resampled). -/
noncomputable def onlineEstimate (thr : ℝ) : List (Particles X n dy) → ℝ
  | [] => 1
  | p :: ps => totalWeight (latestWeights p).1 / n * increments thr ((p :: ps).map latestWeights)

/-- The mean of `g` over the trajectories stored in `value`, weighted by the latest weights. -/
noncomputable def trajectoryMean (g : List X → ℝ) (p : Particles X n dy) : ℝ :=
  match p.logWeight.getLast? with
  | some lw => (∑ i, weightOf (lw i) * g (p.value.map fun x => x i)) / totalWeight lw
  | none => 0

/-! ## Keys -/

theorem Unrelated.disjoint {k k' : Keys.Key} (h : Unrelated k k') : Disjoint (below k) (below k') := by
  rw [Set.disjoint_left]
  rintro s ⟨p, hp⟩ ⟨q, hq⟩
  have h1 : k <:+ s.1 := ⟨p, hp.symm⟩
  have h2 : k' <:+ s.1 := ⟨q, hq.symm⟩
  exact (List.suffix_or_suffix_of_suffix h1 h2).elim h.1 h.2

/-! ## A filter on trajectories -/

/-- A trajectory with one more state; the latest state comes first. -/
def consPath (x : X) (p : ℕ → X) : ℕ → X
  | 0 => x
  | j + 1 => p j

/-- The states in their order. -/
def pathList (L : ℕ) (p : ℕ → X) : List X := (List.range L).reverse.map p

theorem pathList_cons (L : ℕ) (x : X) (p : ℕ → X) : pathList (L + 1) (consPath x p) = pathList L p ++ [x] := by
  unfold pathList
  rw [List.range_succ_eq_map, List.reverse_cons, List.map_append, ← List.map_reverse, List.map_map]
  rfl

/-- The filter that carries its particles' trajectories along. -/
def pathFilter {K : Type} (f : Filter X K dy) : Filter (ℕ → X) K dy where
  initialSample y t k := fun _ => f.initialSample y t k
  initialLogWeight p y t := f.initialLogWeight (p 0) y t
  proposalSample p t y t' k := consPath (f.proposalSample (p 0) t y t' k) p
  intermediateLogWeight p t p' y t' := f.intermediateLogWeight (p 0) t (p' 0) y t'

/-- The particles of a filter, with their histories, are those of the filter on trajectories. -/
structure Tracks (p : Particles X n dy) (s : Slice (ℕ → X) n dy) : Prop where
  value : ∀ i, p.value.map (fun v => v i) = pathList p.value.length (s.value i)
  pos : 0 < p.value.length
  logWeight : p.logWeight.getLast? = some s.logWeight
  t : p.t.getLast? = some s.t
  ess : p.ess.getLast? = some s.ess

theorem Tracks.last {p : Particles X n dy} {s : Slice (ℕ → X) n dy} (h : Tracks p s) : p.value.getLast? = some fun i => s.value i 0 := by
  obtain ⟨v, hv⟩ : ∃ v, p.value.getLast? = some v := ⟨_, List.getLast?_eq_some_getLast (List.ne_nil_of_length_pos h.pos)⟩
  rw [hv]
  congr 1
  funext i
  have h1 := congrArg List.getLast? (h.value i)
  rw [List.getLast?_map, hv, pathList, List.getLast?_map, List.getLast?_reverse] at h1
  obtain ⟨L, hL⟩ : ∃ L, p.value.length = L + 1 := ⟨p.value.length - 1, by have := h.pos; omega⟩
  rw [hL] at h1
  simpa [List.range_succ_eq_map] using h1

theorem propagate_tracks {K : Type} (env : Filtering.Env K n) (f : Filter X K dy) (thr : ℝ) {p : Particles X n dy} {s : Slice (ℕ → X) n dy} (h : Tracks p s) (y : Obs dy) (t : ℝ) (k : K) :
    ∃ p', propagate env f thr true p y t k = some p' ∧ Tracks p' (body env (pathFilter f) thr s (y, t, k)) ∧ p'.value.length = p.value.length + 1 := by
  have hlast := h.last
  by_cases hr : Fl.lt s.ess (.fin (thr * n))
  · have hv : (resampleParticles env p s.logWeight k true).value.getLast? = some fun i => s.value (env.categorical k s.logWeight i) 0 := by
      simp only [resampleParticles, if_true, List.getLast?_map, hlast]
      rfl
    have hw : (resampleParticles env p s.logWeight k true).logWeight.getLast? = some (fun _ => Fl.fin 0) := by
      simp [resampleParticles, getLast?_mapLast, h.logWeight]
    have ht : (resampleParticles env p s.logWeight k true).t.getLast? = some s.t := h.t
    have hlen : (resampleParticles env p s.logWeight k true).value.length = p.value.length := by simp [resampleParticles]
    unfold propagate
    simp only [h.ess, h.logWeight, Option.bind_eq_bind, Option.bind_some, if_pos hr, hv, hw, ht]
    refine ⟨_, rfl, ⟨fun i => ?_, ?_, ?_, ?_, ?_⟩, ?_⟩
    · simp only [List.map_append, List.map_cons, List.map_nil, List.length_append, List.length_cons, List.length_nil, hlen, Nat.zero_add, body, if_pos hr]
      simp only [pathFilter, pathList_cons, Function.comp_apply]
      rw [← h.value (env.categorical k s.logWeight i)]
      simp [resampleParticles]
    · simp
    · simp only [List.getLast?_append, List.getLast?_singleton, Option.some_or, body, if_pos hr]
      rfl
    · simp only [List.getLast?_append, List.getLast?_singleton, Option.some_or, body]
    · simp only [List.getLast?_append, List.getLast?_singleton, Option.some_or, body, if_pos hr]
      rfl
    · simp [hlen]
  · unfold propagate
    simp only [h.ess, h.logWeight, Option.bind_eq_bind, Option.bind_some, if_neg hr, hlast, h.t]
    refine ⟨_, rfl, ⟨fun i => ?_, ?_, ?_, ?_, ?_⟩, ?_⟩
    · simp only [List.map_append, List.map_cons, List.map_nil, List.length_append, List.length_cons, List.length_nil, Nat.zero_add, body, if_neg hr]
      simp only [pathFilter, pathList_cons]
      rw [← h.value i]
    · simp
    · simp only [List.getLast?_append, List.getLast?_singleton, Option.some_or, body, if_neg hr]
      rfl
    · simp only [List.getLast?_append, List.getLast?_singleton, Option.some_or, body]
    · simp only [List.getLast?_append, List.getLast?_singleton, Option.some_or, body, if_neg hr]
      rfl
    · simp

theorem Tracks.weights {p : Particles X n dy} {s : Slice (ℕ → X) n dy} (h : Tracks p s) : latestWeights p = (s.logWeight, s.ess) := by
  unfold latestWeights
  rw [List.getLastD_eq_getLast?, List.getLastD_eq_getLast?, h.logWeight, h.ess]
  rfl

/-- A program that keeps whole trajectories sees the slices of the filter on trajectories. -/
theorem online_tracks {K : Type} (env : Filtering.Env K n) (f : Filter X K dy) (thr : ℝ) (os : List (Obs dy × ℝ × K)) {p : Particles X n dy} {s : Slice (ℕ → X) n dy} (h : Tracks p s) :
    ∃ rs p', reports env f thr true p os = some rs ∧ online env f thr true p os = some p' ∧ rs.getLast? = some p' ∧ p'.value.length = p.value.length + os.length ∧
      Tracks p' (os.foldl (body env (pathFilter f) thr) s) ∧
      rs.map latestWeights = (s :: (scan (fun s o => (body env (pathFilter f) thr s o, body env (pathFilter f) thr s o)) s os).2).map fun s => (s.logWeight, s.ess) := by
  induction os generalizing p s with
  | nil => exact ⟨[p], p, rfl, rfl, rfl, rfl, h, by simp [scan, h.weights]⟩
  | cons o os ih =>
    obtain ⟨y, t, k⟩ := o
    obtain ⟨p1, e1, h1, l1⟩ := propagate_tracks env f thr h y t k
    obtain ⟨rs, p', e2, e3, e4, e5, e6, e7⟩ := ih h1
    refine ⟨p :: rs, p', ?_, ?_, ?_, ?_, e6, ?_⟩
    · rw [reports, e1, Option.bind_some, e2]
      rfl
    · rw [online, e1, Option.bind_some, e3]
    · rw [List.getLast?_cons, e4]
      rfl
    · rw [e5, l1, List.length_cons]; omega
    · rw [List.map_cons, e7, h.weights, scan]
      rfl

section
variable [MeasurableSpace X] {f : Tape → Filter X Keys.Key dy} {G0 : X → Obs dy → ℝ → ℝ} {G : X → ℝ → X → Obs dy → ℝ → ℝ} {Γ0 : Obs dy → ℝ → Measure X} {Γ : X → ℝ → Obs dy → ℝ → Measure X}

theorem measurable_consPath : Measurable fun z : X × (ℕ → X) => consPath z.1 z.2 := by
  refine measurable_pi_lambda _ fun j => ?_
  cases j with
  | zero => exact measurable_fst
  | succ j => exact (measurable_pi_apply j).comp measurable_snd

theorem measurable_onPathList {h : List X → ℝ≥0∞} (hh : PathMeasurable h) (L : ℕ) : Measurable fun p : ℕ → X => h (pathList L p) := by
  have e : (fun p : ℕ → X => h (pathList L p)) = fun p : ℕ → X => h (List.ofFn fun s : Fin L => p (L - 1 - s)) := by
    funext p
    congr 1
    refine List.ext_getElem (by simp [pathList]) fun i h1 h2 => ?_
    simp [pathList, List.getElem_reverse]
  rw [e]
  have h1 : Measurable fun p : ℕ → X => fun s : Fin L => p (L - 1 - s) := measurable_pi_lambda _ fun s => measurable_pi_apply (L - 1 - (s : ℕ))
  exact (hh L).comp h1

/-- A filter with properly weighted proposals still has them when it carries trajectories along. -/
theorem pathFilter_law (hF : FilterLaw f G0 G Γ0 Γ) : FilterLaw (fun ω => pathFilter (f ω)) (fun p => G0 (p 0)) (fun p t p' => G (p 0) t (p' 0)) (fun y t => (Γ0 y t).map fun x _ => x)
    (fun p t y t' => (Γ (p 0) t y t').map fun x' => consPath x' p) := by
  have h0 : Measurable fun p : ℕ → X => p 0 := measurable_pi_apply 0
  have hc : Measurable fun x : X => (fun _ => x : ℕ → X) := measurable_pi_lambda _ fun _ => measurable_id
  have hcp : ∀ p : ℕ → X, Measurable fun x : X => consPath x p := fun p => by
    have h := measurable_consPath.comp (measurable_id.prodMk (measurable_const (a := p)) : Measurable fun x : X => (x, p))
    exact h
  have hprop : ∀ t y t' k, Measurable fun z : (ℕ → X) × Tape => (f z.2).proposalSample (z.1 0) t y t' k := fun t y t' k => by
    have h := (hF.measurable_proposal t y t' k).comp ((h0.comp measurable_fst).prodMk (measurable_snd (α := ℕ → X) (β := Tape)))
    exact h
  have hlaw : ∀ (p : ℕ → X) t y t' k {h : (ℕ → X) → ℝ≥0∞}, Measurable h →
      ∫⁻ ω, ENNReal.ofReal (Real.exp (G (p 0) t ((f ω).proposalSample (p 0) t y t' k) y t')) * h (consPath ((f ω).proposalSample (p 0) t y t' k) p) ∂ideal
        = ∫⁻ p', h p' ∂((Γ (p 0) t y t').map fun x' => consPath x' p) := fun p t y t' k h hh => by
    rw [lintegral_map hh (hcp p)]
    exact hF.law_proposal (p 0) t y t' k (hh.comp (hcp p))
  refine ⟨fun ω p y t => hF.initialLogWeight ω (p 0) y t, fun ω p t p' y t' => hF.logWeight ω (p 0) t (p' 0) y t', fun y t => (hF.measurable_initialLogWeight y t).comp h0, fun t y t' => ?_,
    fun y t k => hc.comp (hF.measurable_initial y t k), fun t y t' k => ?_, fun y t k ω ω' hω => ?_, fun p t y t' k ω ω' hω => ?_, fun y t k h hh => ?_, fun p t y t' k h hh => hlaw p t y t' k hh,
    fun t y t' h hh => ?_⟩
  · have h := (hF.measurable_logWeight t y t').comp ((h0.comp measurable_fst).prodMk (h0.comp (measurable_snd (α := ℕ → X) (β := ℕ → X))))
    exact h
  · have h := measurable_consPath.comp ((hprop t y t' k).prodMk measurable_fst)
    exact h
  · funext _
    exact hF.reads_initial y t k hω
  · exact congrArg (fun x => consPath x p) (hF.reads_proposal (p 0) t y t' k hω)
  · rw [lintegral_map hh hc]
    exact hF.law_initial y t k (hh.comp hc)
  · have e : (fun p : ℕ → X => ∫⁻ p', h p' ∂((Γ (p 0) t y t').map fun x' => consPath x' p))
        = fun p => ∫⁻ ω, ENNReal.ofReal (Real.exp (G (p 0) t ((f ω).proposalSample (p 0) t y t' []) y t')) * h (consPath ((f ω).proposalSample (p 0) t y t' []) p) ∂ideal := funext fun p => (hlaw p t y t' [] hh).symm
    rw [e]
    have h1 := (hF.measurable_logWeight t y t').comp ((h0.comp measurable_fst).prodMk (hprop t y t' []))
    have h2 := hh.comp (measurable_consPath.comp ((hprop t y t' []).prodMk measurable_fst))
    exact Measurable.lintegral_prod_right' (f := fun z : (ℕ → X) × Tape => ENNReal.ofReal (Real.exp (G (z.1 0) t ((f z.2).proposalSample (z.1 0) t y t' []) y t')) * h (consPath ((f z.2).proposalSample (z.1 0) t y t' []) z.1))
      ((ENNReal.measurable_ofReal.comp (Real.measurable_exp.comp h1)).mul h2)

theorem future_path (hF : FilterLaw f G0 G Γ0 Γ) {h : List X → ℝ≥0∞} (hh : PathMeasurable h) (L : ℕ) (os : List (Obs dy × ℝ)) (k : ℕ) (hk : k + 1 + os.length = L) (t : ℝ) (p : ℕ → X) :
    future (fun p t y t' => (Γ (p 0) t y t').map fun x' => consPath x' p) (fun p => h (pathList L p)) t os p = pathIntegral Γ h t os ((List.range k).reverse.map fun j => p (j + 1)) (p 0) := by
  have hsucc : ∀ k (p : ℕ → X), pathList (k + 1) p = ((List.range k).reverse.map fun j => p (j + 1)) ++ [p 0] := fun k p => by
    unfold pathList
    rw [List.range_succ_eq_map, List.reverse_cons, List.map_append, ← List.map_reverse, List.map_map]
    rfl
  induction os generalizing k t p with
  | nil =>
    obtain rfl : k + 1 = L := by simpa using hk
    simp only [future, pathIntegral, hsucc]
  | cons o os ih =>
    have hcp : Measurable fun x : X => consPath x p := by
      have h := measurable_consPath.comp (measurable_id.prodMk (measurable_const (a := p)) : Measurable fun x : X => (x, p))
      exact h
    have hm := measurable_future (pathFilter_law hF) (measurable_onPathList hh L) os o.2
    rw [future, pathIntegral, lintegral_map hm hcp]
    refine lintegral_congr fun x' => ?_
    rw [ih (k + 1) (by simp at hk; omega) o.2, ← hsucc]
    rfl

theorem path_terminal (hF : FilterLaw f G0 G Γ0 Γ) {h : List X → ℝ≥0∞} (hh : PathMeasurable h) (y0 : Obs dy) (t0 : ℝ) (os : List (Obs dy × ℝ)) :
    ∫⁻ p, h (pathList (os.length + 1) p) ∂(terminal (fun p t y t' => (Γ (p 0) t y t').map fun x' => consPath x' p) ((Γ0 y0 t0).map fun x _ => x) t0 os)
      = ∫⁻ x, pathIntegral Γ h t0 os [] x ∂(Γ0 y0 t0) := by
  have hc : Measurable fun x : X => (fun _ => x : ℕ → X) := measurable_pi_lambda _ fun _ => measurable_id
  have hm := measurable_onPathList hh (os.length + 1)
  rw [lintegral_terminal (pathFilter_law hF) hm, lintegral_map (measurable_future (pathFilter_law hF) hm os t0) hc]
  refine lintegral_congr fun x => ?_
  rw [future_path hF hh (os.length + 1) os 0 (by omega)]
  rfl

end

/-! ## The run of the filter on trajectories -/

section
variable [MeasurableSpace X] [NeZero n] {cat : (Fin n → Fl) → ℝ → Fin n} {f : Tape → Filter X Keys.Key dy} {G0 : X → Obs dy → ℝ → ℝ} {G : X → ℝ → X → Obs dy → ℝ → ℝ}
  {Γ0 : Obs dy → ℝ → Measure X} {Γ : X → ℝ → Obs dy → ℝ → Measure X} (hF : FilterLaw f G0 G Γ0 Γ)

include hF in
theorem foldl_red (thr : ℝ) (os : List (Obs dy × ℝ × Keys.Key)) (t : ℝ) (y : Obs dy) (R : Red n X) (ω : Tape) :
    ∃ t' y', os.foldl (body (tapeEnv cat ω) (f ω) thr) (sliceOf R t y) = sliceOf (finalRed cat f G thr t os R ω) t' y' := by
  induction os generalizing t y R with
  | nil => exact ⟨t, y, rfl⟩
  | cons o os ih =>
    rw [List.foldl_cons, body_red hF]
    exact ih o.2.1 o.1 _

include hF in
/-- The likelihood estimate from the slices is the one of the reduced state. -/
theorem estimate_eq_exp (thr : ℝ) (y0 : Obs dy) (t0 : ℝ) (κ : Keys.Key) (os : List (Obs dy × ℝ × Keys.Key)) (ω : Tape) :
    likelihoodEstimate thr (ofSlices (sliceOf (startRed (n := n) f G0 y0 t0 κ ω) t0 y0)
        (scan (fun s o => (body (tapeEnv cat ω) (f ω) thr s o, body (tapeEnv cat ω) (f ω) thr s o)) (sliceOf (startRed (n := n) f G0 y0 t0 κ ω) t0 y0) os).2)
      = Real.exp (finalRed cat f G thr t0 os (startRed (n := n) f G0 y0 t0 κ ω) ω).2.2 := by
  have hl := likelihood_slices (G0 := G0) (f := f) thr (fun _ => 1) y0 t0 κ ω
    (scan (fun s o => (body (tapeEnv cat ω) (f ω) thr s o, body (tapeEnv cat ω) (f ω) thr s o)) (sliceOf (startRed (n := n) f G0 y0 t0 κ ω) t0 y0) os).2
  rw [weightedMean_one hF thr t0 y0 _ ω os, mul_one, estimate_final hF thr _ os t0 y0] at hl
  have hq : ∀ R : Red n X, Q (fun _ => 1) R = ENNReal.ofReal (Real.exp R.2.2) := fun R => by
    rw [← Smc.share_sum R, ENNReal.ofReal_sum_of_nonneg fun i _ => by unfold share; positivity, Smc.Q_eq_share]
    simp
  exact (ENNReal.ofReal_eq_ofReal_iff (likelihoodEstimate_nonneg thr _) (Real.exp_pos _).le).mp (hl.trans (hq _))

include hF in
/-- What the program sees, in terms of the reduced state of the filter on trajectories. -/
theorem online_red (thr : ℝ) (y0 : Obs dy) (t0 : ℝ) (κ : Keys.Key) (os : List (Obs dy × ℝ × Keys.Key)) (ω : Tape) :
    ∃ rs p, reports (tapeEnv cat ω) (f ω) thr true (initiateParticles (tapeEnv (n := n) cat ω) (f ω) κ y0 t0) os = some rs ∧
      online (tapeEnv cat ω) (f ω) thr true (initiateParticles (tapeEnv (n := n) cat ω) (f ω) κ y0 t0) os = some p ∧ rs.getLast? = some p ∧ p.value.length = os.length + 1 ∧
      ∃ R, R = finalRed cat (fun ω => pathFilter (f ω)) (fun p t p' => G (p 0) t (p' 0)) thr t0 os (startRed (n := n) (fun ω => pathFilter (f ω)) (fun p => G0 (p 0)) y0 t0 κ ω) ω ∧
        onlineEstimate thr rs = Real.exp R.2.2 ∧
        ∀ g : List X → ℝ, trajectoryMean g p = (∑ i, Real.exp (R.2.1 i) * g (pathList (os.length + 1) (R.1 i))) / ∑ i, Real.exp (R.2.1 i) := by
  have hP := pathFilter_law hF
  obtain ⟨s0, hs0⟩ : ∃ s0, s0 = sliceOf (startRed (n := n) (fun ω => pathFilter (f ω)) (fun p => G0 (p 0)) y0 t0 κ ω) t0 y0 := ⟨_, rfl⟩
  have hT : Tracks (initiateParticles (tapeEnv (n := n) cat ω) (f ω) κ y0 t0) s0 := by
    rw [hs0]
    refine ⟨fun i => rfl, Nat.zero_lt_one, ?_, rfl, ?_⟩
    · simp only [initiateParticles, List.getLast?_singleton, hF.initialLogWeight]
      rfl
    · simp only [initiateParticles, List.getLast?_singleton, hF.initialLogWeight]
      rfl
  obtain ⟨rs, p, e1, e2, e3, e4, e5, e6⟩ := online_tracks (tapeEnv cat ω) (f ω) thr os hT
  have hlen : p.value.length = os.length + 1 := by
    rw [e4, Nat.add_comm]
    rfl
  refine ⟨rs, p, e1, e2, e3, hlen, _, rfl, ?_, fun g => ?_⟩
  · refine Eq.trans ?_ (estimate_eq_exp (cat := cat) hP thr y0 t0 κ os ω)
    rw [← hs0]
    cases rs with
    | nil => simp at e3
    | cons a l =>
      have h1 : latestWeights a = (s0.logWeight, s0.ess) := by
        have := congrArg List.head? e6
        simpa using this
      simp only [onlineEstimate, likelihoodEstimate, ofSlices, e6, h1, List.map_cons, List.zip_cons_cons]
      congr 2
      congr 1
      rw [List.zip_map']
  · obtain ⟨t', y', e7⟩ := foldl_red (cat := cat) hP thr os t0 y0 (startRed (n := n) (fun ω => pathFilter (f ω)) (fun p => G0 (p 0)) y0 t0 κ ω) ω
    rw [hs0, e7] at e5
    unfold trajectoryMean
    rw [e5.logWeight]
    simp only [e5.value, hlen]
    rfl

omit [MeasurableSpace X] in
theorem Q_mean (R : Red n X) {g : X → ℝ} (hg : ∀ x, 0 ≤ g x) :
    Q (fun x => ENNReal.ofReal (g x)) R = ENNReal.ofReal (Real.exp R.2.2 * ((∑ i, Real.exp (R.2.1 i) * g (R.1 i)) / ∑ i, Real.exp (R.2.1 i))) := by
  rw [Smc.Q_eq_share]
  have hs : ∀ i, 0 ≤ share R i := fun i => by unfold share; positivity
  have e : ∀ i, ENNReal.ofReal (share R i) * ENNReal.ofReal (g (R.1 i)) = ENNReal.ofReal (share R i * g (R.1 i)) := fun i => (ENNReal.ofReal_mul (hs i)).symm
  simp only [e]
  rw [← ENNReal.ofReal_sum_of_nonneg fun i _ => mul_nonneg (hs i) (hg _)]
  congr 1
  rw [Finset.sum_div, Finset.mul_sum]
  refine Finset.sum_congr rfl fun i _ => ?_
  unfold share
  ring

theorem second_ofReal (k n : ℕ) [NeZero n] {v b : ℝ} (hv : 0 ≤ v) (hb : 0 ≤ b) :
    ((k : ℝ≥0∞) + 1) * (ENNReal.ofReal v * ENNReal.ofReal b) ^ 2 / n = ENNReal.ofReal ((k + 1) * (v * b) ^ 2 / n) := by
  have hn : (0 : ℝ) < n := by exact_mod_cast Nat.pos_of_ne_zero (NeZero.ne n)
  rw [ENNReal.ofReal_div_of_pos hn, ENNReal.ofReal_natCast, ENNReal.ofReal_mul (by positivity), ENNReal.ofReal_add (by positivity) zero_le_one, ENNReal.ofReal_natCast, ENNReal.ofReal_one,
    ← ENNReal.ofReal_mul hv, ← ENNReal.ofReal_pow (mul_nonneg hv hb)]

include hF in
/-- C136 for any filter whose proposals are properly weighted for the kernels `Γ`, run from the first observation with keys that are unrelated, keeping whole trajectories (`resample_full`):
every call succeeds; the likelihood estimate formed from the latest weights times the weighted mean of `g` over the trajectories is unbiased; and if the weights are at most `w` and `0 ≤ g ≤ B`, the weighted mean
over the `n` trajectories has a mean squared distance of order `1/n` from its target. -/
theorem C136_proper (hcat : IsCategoricalReal fun (w : Fin n → ℝ) u => cat (fun i => .fin (w i)) u) (thr : ℝ) (y0 : Obs dy) (t0 : ℝ) (k0 : Keys.Key) (os : List (Obs dy × ℝ × Keys.Key))
    (hk : (k0 :: os.map fun o => o.2.2).Pairwise Unrelated) :
    ∃ (rs : Tape → List (Particles X n dy)) (out : Tape → Particles X n dy),
      (∀ ω, reports (tapeEnv cat ω) (f ω) thr true (initiateParticles (tapeEnv cat ω) (f ω) k0 y0 t0) os = some (rs ω)) ∧
      (∀ ω, online (tapeEnv cat ω) (f ω) thr true (initiateParticles (tapeEnv cat ω) (f ω) k0 y0 t0) os = some (out ω)) ∧
      (∀ ω, (out ω).value.length = os.length + 1) ∧
      ∀ g : List X → ℝ, PathMeasurable (fun l => ENNReal.ofReal (g l)) → (∀ l, 0 ≤ g l) →
        ∫⁻ ω, ENNReal.ofReal (onlineEstimate thr (rs ω) * trajectoryMean g (out ω)) ∂ideal
            = ∫⁻ x, pathIntegral Γ (fun l => ENNReal.ofReal (g l)) t0 (os.map fun o => (o.1, o.2.1)) [] x ∂(Γ0 y0 t0) ∧
        ∀ w B : ℝ, 0 ≤ w → (∀ x, Real.exp (G0 x y0 t0) ≤ w) → (∀ o ∈ os, ∀ t x x', Real.exp (G x t x' o.1 o.2.1) ≤ w) → (∀ l, g l ≤ B) →
          ∀ z, z = (∫⁻ x, pathIntegral Γ (fun _ => 1) t0 (os.map fun o => (o.1, o.2.1)) [] x ∂(Γ0 y0 t0)).toReal →
          ∀ s, s = (∫⁻ x, pathIntegral Γ (fun l => ENNReal.ofReal (g l)) t0 (os.map fun o => (o.1, o.2.1)) [] x ∂(Γ0 y0 t0)).toReal / z →
          0 < z ∧ ∫⁻ ω, ENNReal.ofReal ((trajectoryMean g (out ω) - s) ^ 2) ∂ideal ≤ ENNReal.ofReal (4 * (os.length + 1) * (w ^ (os.length + 1) * B / z) ^ 2 / n) := by
  have hP := pathFilter_law hF
  rw [List.pairwise_cons] at hk
  have hk2 : os.Pairwise fun a b => Disjoint (below a.2.2) (below b.2.2) := (List.pairwise_map.mp hk.2).imp fun h => h.disjoint
  have hdis : ∀ o ∈ os, Disjoint (below k0) (below o.2.2) := fun o ho => (hk.1 _ (List.mem_map.mpr ⟨o, ho, rfl⟩)).disjoint
  choose rs out h1 h2 h3 h4 R hR h5 h6 using online_red (n := n) (cat := cat) hF thr y0 t0 k0 os
  have hRf : R = fun ω => finalRed cat (fun ω => pathFilter (f ω)) (fun p t p' => G (p 0) t (p' 0)) thr t0 os (startRed (n := n) (fun ω => pathFilter (f ω)) (fun p => G0 (p 0)) y0 t0 k0 ω) ω := funext hR
  have hmom : ∀ {h : List X → ℝ≥0∞}, PathMeasurable h →
      ∫⁻ ω, Q (fun p => h (pathList (os.length + 1) p)) (R ω) ∂ideal = ∫⁻ x, pathIntegral Γ h t0 (os.map fun o => (o.1, o.2.1)) [] x ∂(Γ0 y0 t0) := fun {h} hh => by
    have e := path_terminal hF hh y0 t0 (os.map fun o => (o.1, o.2.1))
    rw [List.length_map] at e
    rw [← e, hRf]
    exact red_first_moment hP hcat thr y0 t0 k0 os hk2 hdis (measurable_onPathList hh _)
  have hq : ∀ g : List X → ℝ, (∀ l, 0 ≤ g l) → ∀ ω, Q (fun p => ENNReal.ofReal (g (pathList (os.length + 1) p))) (R ω) = ENNReal.ofReal (onlineEstimate thr (rs ω) * trajectoryMean g (out ω)) := fun g hg0 ω => by
    rw [Q_mean (R ω) (g := fun p => g (pathList (os.length + 1) p)) fun p => hg0 _, h5 ω, h6 ω]
  refine ⟨rs, out, h1, h2, h4, fun g hg hg0 => ⟨?_, fun w B hw0 hw hw' hgB z hz s hs => ?_⟩⟩
  · rw [← hmom hg]
    exact lintegral_congr fun ω => (hq g hg0 ω).symm
  · have hB0 : 0 ≤ B := (hg0 []).trans (hgB [])
    have hn : (0 : ℝ) < n := by exact_mod_cast Nat.pos_of_ne_zero (NeZero.ne n)
    have hRm : Measurable R := by
      rw [hRf]
      exact measurable_final hP hcat thr os t0 (measurable_startRed hP y0 t0 k0)
    have hw2 : ∀ o ∈ os.map (fun o => (o.1, o.2.1)), ∀ t x x', Real.exp (G x t x' o.1 o.2) ≤ w := fun o ho => by
      obtain ⟨o', ho', rfl⟩ := List.mem_map.mp ho
      exact hw' o' ho'
    have hsec : ∀ {h : List X → ℝ≥0∞} {b : ℝ}, PathMeasurable h → 0 ≤ b → (∀ l, h l ≤ ENNReal.ofReal b) →
        ∫⁻ ω, Q (fun p => h (pathList (os.length + 1) p)) (R ω) ^ 2 ∂ideal
          ≤ (∫⁻ x, pathIntegral Γ h t0 (os.map fun o => (o.1, o.2.1)) [] x ∂(Γ0 y0 t0)) ^ 2 + ENNReal.ofReal ((os.length + 1) * (w ^ (os.length + 1) * b) ^ 2 / n) := fun {h b} hh hb0 hhb => by
      have e := path_terminal hF hh y0 t0 (os.map fun o => (o.1, o.2.1))
      rw [List.length_map] at e
      rw [← e, ← second_ofReal os.length n (by positivity) hb0, hRf]
      exact red_second_moment hP hcat thr y0 t0 k0 os hk2 hdis (fun p => hw (p 0)) (fun o ho t p p' => hw2 o ho t (p 0) (p' 0)) hw0 (measurable_onPathList hh _) (fun p => hhb _)
    have h1m : PathMeasurable fun _ : List X => (1 : ℝ≥0∞) := fun k => measurable_const
    have h11 : ∀ _ : List X, (1 : ℝ≥0∞) ≤ ENNReal.ofReal 1 := fun _ => by rw [ENNReal.ofReal_one]
    have hgB' : ∀ l, ENNReal.ofReal (g l) ≤ ENNReal.ofReal B := fun l => ENNReal.ofReal_le_ofReal (hgB l)
    have hpos : ∀ ω, 0 < ∑ i, Real.exp ((R ω).2.1 i) := fun ω => sumExp_pos _
    have hE : ∀ ω, onlineEstimate thr (rs ω) = Real.exp (R ω).2.2 := h5
    have hone : ∀ ω, Q (fun _ : ℕ → X => (1 : ℝ≥0∞)) (R ω) = ENNReal.ofReal (Real.exp (R ω).2.2) := fun ω => by
      have e := Q_mean (R ω) (g := fun _ => 1) fun _ => zero_le_one
      simp only [ENNReal.ofReal_one, mul_one] at e
      rw [e, div_self (hpos ω).ne', mul_one]
    have hz0 : ∫⁻ x, pathIntegral Γ (fun _ => 1) t0 (os.map fun o => (o.1, o.2.1)) [] x ∂(Γ0 y0 t0) ≠ 0 := by
      rw [← hmom h1m]
      simp only [hone]
      intro h0
      rw [lintegral_eq_zero_iff (by
        have := (Real.measurable_exp.comp (measurable_snd.comp (measurable_snd.comp hRm)))
        exact ENNReal.measurable_ofReal.comp this)] at h0
      obtain ⟨ω, hω⟩ := h0.exists
      exact absurd (ENNReal.ofReal_eq_zero.mp hω) (not_le.mpr (Real.exp_pos _))
    have hzt := pathIntegral_finite hF (t0 := t0) (y0 := y0) hw0 hw hw2 h1m h11
    have hat := pathIntegral_finite hF (t0 := t0) (y0 := y0) hw0 hw hw2 hg hgB'
    have hr0 : ∀ ω, 0 ≤ trajectoryMean g (out ω) := fun ω => by
      rw [h6 ω]
      exact div_nonneg (Finset.sum_nonneg fun i _ => mul_nonneg (Real.exp_pos _).le (hg0 _)) (hpos ω).le
    have hrB : ∀ ω, trajectoryMean g (out ω) ≤ B := fun ω => by
      rw [h6 ω, div_le_iff₀ (hpos ω), Finset.mul_sum]
      exact Finset.sum_le_sum fun i _ => by rw [mul_comm]; exact mul_le_mul_of_nonneg_right (hgB _) (Real.exp_pos _).le
    have hratio := mse_ratio ideal ((Smc.measurable_Q (measurable_onPathList hg (os.length + 1))).comp hRm) ((Smc.measurable_Q (measurable_onPathList h1m (os.length + 1))).comp hRm) hat hzt hz0 ENNReal.ofReal_ne_top ENNReal.ofReal_ne_top
      (hmom hg) (hsec hg hB0 hgB') (hmom h1m) (hsec h1m zero_le_one h11) hr0 hrB (fun ω => by
        simp only [Function.comp_apply]
        rw [hq g hg0 ω, hone ω, hE ω, ENNReal.toReal_ofReal (mul_nonneg (Real.exp_pos _).le (hr0 ω)), ENNReal.toReal_ofReal (Real.exp_pos _).le, mul_comm])
    rw [← hz, ← hs] at hratio
    have hzp : 0 < z := by rw [hz]; exact ENNReal.toReal_pos hz0 hzt
    refine ⟨hzp, hratio.trans (ENNReal.ofReal_le_ofReal (le_of_eq ?_))⟩
    rw [ENNReal.toReal_ofReal (by positivity), ENNReal.toReal_ofReal (by positivity)]
    field_simp
    ring

/-- A function of the last state of a path. -/
def onLast (h : X → ℝ≥0∞) (l : List X) : ℝ≥0∞ := (l.getLast?.map h).getD 0

omit [NeZero n] in
theorem pathMeasurable_onLast {h : X → ℝ≥0∞} (hh : Measurable h) : PathMeasurable (onLast h) := fun k => by
  cases k with
  | zero => exact measurable_const
  | succ k =>
    have e : (fun v : Fin (k + 1) → X => onLast h (List.ofFn v)) = fun v => h (v (Fin.last k)) := by
      funext v
      simp only [onLast]
      rw [List.getLast?_eq_some_getLast (by simp), List.getLast_ofFn]
      rfl
    rw [e]
    exact hh.comp (measurable_pi_apply _)

omit [NeZero n] in
theorem pathIntegral_onLast (Γ : X → ℝ → Obs dy → ℝ → Measure X) (h : X → ℝ≥0∞) (t : ℝ) (os : List (Obs dy × ℝ)) (l : List X) (x : X) :
    pathIntegral Γ (onLast h) t os l x = future Γ h t os x := by
  induction os generalizing t l x with
  | nil => simp [pathIntegral, future, onLast]
  | cons o os ih =>
    rw [pathIntegral, future]
    exact lintegral_congr fun x' => ih _ _ _

include hF in
/-- C136 for the latest particles, with or without resampling of the whole history. -/
theorem C136_latest (hcat : IsCategoricalReal fun (w : Fin n → ℝ) u => cat (fun i => .fin (w i)) u) (thr : ℝ) (full : Bool) (y0 : Obs dy) (t0 : ℝ) (k0 : Keys.Key) (os : List (Obs dy × ℝ × Keys.Key))
    (hk : (k0 :: os.map fun o => o.2.2).Pairwise Unrelated) {w : ℝ} (hw0 : 0 ≤ w) (hw : ∀ x, Real.exp (G0 x y0 t0) ≤ w) (hw' : ∀ o ∈ os, ∀ t x x', Real.exp (G x t x' o.1 o.2.1) ≤ w)
    {g : X → ℝ} (hg : Measurable g) (hg0 : ∀ x, 0 ≤ g x) {B : ℝ} (hgB : ∀ x, g x ≤ B) {Φ : Measure X} (hΦ : Φ = terminal Γ (Γ0 y0 t0) t0 (os.map fun o => (o.1, o.2.1))) :
    ∃ out : Tape → Particles X n dy,
      (∀ ω, online (tapeEnv cat ω) (f ω) thr full (initiateParticles (tapeEnv cat ω) (f ω) k0 y0 t0) os = some (out ω)) ∧
      0 < Φ.real Set.univ ∧
      ∫⁻ ω, ENNReal.ofReal ((filterMean g (out ω) - (∫ x, g x ∂Φ) / Φ.real Set.univ) ^ 2) ∂ideal ≤ ENNReal.ofReal (4 * (os.length + 1) * (w ^ (os.length + 1) * B / Φ.real Set.univ) ^ 2 / n) := by
  obtain ⟨rs, out, -, h2, h3, h4⟩ := C136_proper hF hcat thr y0 t0 k0 os hk
  have hB0 : 0 ≤ B := (hg0 ((f fun _ => 0).initialSample y0 t0 [])).trans (hgB _)
  have hgm : Measurable fun x => ENNReal.ofReal (g x) := ENNReal.measurable_ofReal.comp hg
  have hgl : (fun l : List X => ENNReal.ofReal (((l.getLast?.map g).getD 0))) = onLast fun x => ENNReal.ofReal (g x) := by
    funext l
    unfold onLast
    cases l.getLast? <;> simp
  obtain ⟨-, h5⟩ := h4 (fun l => (l.getLast?.map g).getD 0) (by rw [hgl]; exact pathMeasurable_onLast hgm) (fun l => by cases l.getLast? <;> simp [hg0])
  have hint : ∀ {h : X → ℝ≥0∞}, Measurable h → ∫⁻ x, pathIntegral Γ (onLast h) t0 (os.map fun o => (o.1, o.2.1)) [] x ∂(Γ0 y0 t0) = ∫⁻ x, h x ∂Φ := fun {h} hh => by
    rw [hΦ, lintegral_terminal hF hh]
    exact lintegral_congr fun x => pathIntegral_onLast _ _ _ _ _ _
  have h1 : ∫⁻ x, pathIntegral Γ (fun _ => 1) t0 (os.map fun o => (o.1, o.2.1)) [] x ∂(Γ0 y0 t0) = Φ Set.univ := by
    have hz : ∀ t (os : List (Obs dy × ℝ)) (l : List X) x, pathIntegral Γ (fun _ => 1) t os l x = future Γ (fun _ => 1) t os x := fun t os => by
      induction os generalizing t with
      | nil => exact fun _ _ => rfl
      | cons o os ih =>
        intro l x
        rw [pathIntegral, future]
        exact lintegral_congr fun x' => ih _ _ _
    have e := lintegral_terminal hF (h := fun _ => 1) measurable_const (os.map fun o => (o.1, o.2.1)) (Γ0 y0 t0) t0
    rw [← hΦ, lintegral_const, one_mul] at e
    rw [e]
    exact lintegral_congr fun x => hz _ _ _ _
  obtain ⟨hz0, hmse⟩ := h5 w B hw0 hw hw' (fun l => by cases l.getLast? <;> simp [hgB, hB0]) (Φ.real Set.univ) (by rw [h1]; rfl) _ rfl
  rw [hgl, hint hgm] at hmse
  have hgi : (∫⁻ x, ENNReal.ofReal (g x) ∂Φ).toReal = ∫ x, g x ∂Φ := (integral_eq_lintegral_of_nonneg_ae (Filter.Eventually.of_forall hg0) hg.aestronglyMeasurable).symm
  rw [hgi] at hmse
  -- the latest particles do not depend on `full`
  have hlast : ∀ ω full, ∃ p, online (tapeEnv cat ω) (f ω) thr full (initiateParticles (tapeEnv cat ω) (f ω) k0 y0 t0) os = some p ∧ filterMean g p = trajectoryMean (fun l => (l.getLast?.map g).getD 0) (out ω) := by
    intro ω full
    obtain ⟨s, hs⟩ : ∃ s : Slice X n dy, lastOf (initiateParticles (tapeEnv (n := n) cat ω) (f ω) k0 y0 t0) = some (s.value, s.logWeight, s.t, s.ess) :=
      ⟨⟨_, _, _, y0, _⟩, rfl⟩
    obtain ⟨p, hp1, hp2⟩ := online_last (tapeEnv cat ω) (f ω) thr full os _ s hs
    obtain ⟨q, hq1, hq2⟩ := online_last (tapeEnv cat ω) (f ω) thr true os _ s hs
    rw [h2 ω] at hq1
    cases hq1
    refine ⟨p, hp1, ?_⟩
    obtain ⟨a1, a2, -, -⟩ := (lastOf_iff _ _ _ _ _).1 hp2
    obtain ⟨b1, b2, -, -⟩ := (lastOf_iff _ _ _ _ _).1 hq2
    unfold filterMean trajectoryMean
    rw [a1, a2, b2]
    simp only [List.getLast?_map, b1, Option.map_some, Option.getD_some]
  choose out' ho1 ho2 using fun ω => hlast ω full
  refine ⟨out', ho1, hz0, ?_⟩
  simp only [ho2]
  exact hmse

end

/-! ## The bootstrap filter -/

/-- C136 for the bootstrap filter, with the model's own laws: for bounded likelihoods, the weighted mean of a bounded function of the trajectory converges to its smoothing expectation. The constant does not depend on
the number of particles, the threshold or the keys. -/
theorem C136_bootstrap [MeasurableSpace X] {mo : Tape → Ssm.Model X (Obs dy) Keys.Key} {μ0 : ℝ → Measure X} {M : X → ℝ → ℝ → Measure X} {lik : X → Obs dy → ℝ → ℝ} (hm : ModelLaw mo μ0 M lik)
    (y0 : Obs dy) (t0 : ℝ) (obs : List (Obs dy × ℝ)) {w : ℝ} (hw : ∀ o ∈ (y0, t0) :: obs, ∀ x, Real.exp (-lik x o.1 o.2) ≤ w)
    (g : List X → ℝ) (B : ℝ) (hg : PathMeasurable fun l => ENNReal.ofReal (g l)) (hg0 : ∀ l, 0 ≤ g l) (hgB : ∀ l, g l ≤ B) :
    let S := fun h : List X → ℝ≥0∞ => ∫⁻ x, ENNReal.ofReal (Real.exp (-lik x y0 t0)) * smoothingExpectation M lik h t0 obs [] x ∂(μ0 t0)
    ∃ C : ℝ, ∀ (n : ℕ) [NeZero n] (cat : (Fin n → Fl) → ℝ → Fin n), (IsCategoricalReal fun (w : Fin n → ℝ) u => cat (fun i => .fin (w i)) u) →
      ∀ (thr : ℝ) (k0 : Keys.Key) (os : List (Obs dy × ℝ × Keys.Key)), os.map (fun o => (o.1, o.2.1)) = obs → (k0 :: os.map fun o => o.2.2).Pairwise Unrelated →
      ∃ (rs : Tape → List (Particles X n dy)) (out : Tape → Particles X n dy),
        (∀ ω, reports (tapeEnv cat ω) (bootstrap (mo ω)) thr true (initiateParticles (tapeEnv cat ω) (bootstrap (mo ω)) k0 y0 t0) os = some (rs ω)) ∧
        (∀ ω, online (tapeEnv cat ω) (bootstrap (mo ω)) thr true (initiateParticles (tapeEnv cat ω) (bootstrap (mo ω)) k0 y0 t0) os = some (out ω)) ∧
        (∀ ω, (out ω).value.length = obs.length + 1) ∧
        ∫⁻ ω, ENNReal.ofReal (onlineEstimate thr (rs ω) * trajectoryMean g (out ω)) ∂ideal = S (fun l => ENNReal.ofReal (g l)) ∧
        ∫⁻ ω, ENNReal.ofReal ((trajectoryMean g (out ω) - (S fun l => ENNReal.ofReal (g l)).toReal / (S fun _ => 1).toReal) ^ 2) ∂ideal ≤ ENNReal.ofReal (C / n) := by
  intro S
  have hF := bootstrap_law hm
  have he : ∀ {h : List X → ℝ≥0∞}, PathMeasurable h → ∫⁻ x, pathIntegral (fun x t y t' => (M x t t').withDensity fun x' => ENNReal.ofReal (Real.exp (-lik x' y t'))) h t0 obs [] x
      ∂((μ0 t0).withDensity fun x => ENNReal.ofReal (Real.exp (-lik x y0 t0))) = S h := fun {h} hh => by
    rw [lintegral_withDensity_eq_lintegral_mul _ (measurable_likDensity hm y0 t0) (measurable_pathIntegral hF hh t0 _ [])]
    refine lintegral_congr fun x => ?_
    rw [Pi.mul_apply, pathIntegral_bootstrap hm hh]
  have hw0 : 0 ≤ w := (Real.exp_pos _).le.trans (hw _ List.mem_cons_self ((mo fun _ => 0).initialSample t0 []))
  refine ⟨4 * (obs.length + 1) * (w ^ (obs.length + 1) * B / (S fun _ => 1).toReal) ^ 2, fun n _ cat hcat thr k0 os hos hk => ?_⟩
  obtain ⟨rs, out, h1, h2, h3, h4⟩ := C136_proper (n := n) hF hcat thr y0 t0 k0 os hk
  obtain ⟨h5, h6⟩ := h4 g hg hg0
  have hl : os.length = obs.length := by rw [← hos, List.length_map]
  rw [hos] at h5 h6
  rw [he hg] at h5 h6
  rw [he (h := fun _ => 1) fun k => measurable_const, hl] at h6
  refine ⟨rs, out, h1, h2, fun ω => by rw [h3, hl], h5, ?_⟩
  exact (h6 w B hw0 (hw _ List.mem_cons_self) (fun o ho _ _ x' => hw (o.1, o.2.1) (List.mem_cons_of_mem _ (by rw [← hos]; exact List.mem_map.mpr ⟨o, ho, rfl⟩)) x') hgB _ rfl _ rfl).2

/-! ## The stored weights are not enough -/

/-- A call that resamples replaces the previous weights in the record by zeros: with a constant likelihood `exp c`, two observations and a threshold above 1, the likelihood is `exp (2 * c)`, and so is the estimate
formed during the run, but the estimate formed from the final record is `exp c`. -/
theorem C136_record_overwritten {K : Type} [NeZero n] (env : Filtering.Env K n) (mo : Ssm.Model X (Obs dy) K) (c thr : ℝ) (hthr : 1 < thr) (hl : ∀ x y t, mo.likelihoodPotential x y t = -c) (full : Bool)
    (y0 y1 : Obs dy) (t0 t1 : ℝ) (k0 k1 : K) :
    ∃ rs out, reports env (bootstrap mo) thr full (initiateParticles env (bootstrap mo) k0 y0 t0) [(y1, t1, k1)] = some rs ∧
      online env (bootstrap mo) thr full (initiateParticles env (bootstrap mo) k0 y0 t0) [(y1, t1, k1)] = some out ∧
      onlineEstimate thr rs = Real.exp (2 * c) ∧ likelihoodEstimate thr out = Real.exp c := by
  have hn : (0 : ℝ) < n := by exact_mod_cast Nat.pos_of_neZero n
  have hess : ∀ a : ℝ, essLogWeight (fun _ : Fin n => Fl.fin a) = .fin n := fun a => by
    have := C33_count (n := n) (fun _ => .fin a) a Finset.univ Finset.univ_nonempty (by simp)
    simpa using this
  have hlt : Fl.lt (.fin n) (.fin (thr * n)) := by
    simp only [Fl.lt]
    nlinarith
  have htot : ∀ a : ℝ, totalWeight (fun _ : Fin n => Fl.fin a) = n * Real.exp a := fun a => by simp [totalWeight, weightOf]
  have h1 : ∀ p' : Particles X n dy, propagate env (bootstrap mo) thr full (initiateParticles env (bootstrap mo) k0 y0 t0) y1 t1 k1 = some p' →
      p'.logWeight = [fun _ => .fin 0, fun _ => .fin c] ∧ p'.ess = [.fin n, .fin n] := fun p' hp => by
    cases full <;>
    · simp only [propagate, initiateParticles, bootstrap, bootstrapLogWeight, hl, neg_neg, hess, List.getLast?_singleton, Option.bind_eq_bind, Option.bind_some, if_pos hlt, resampleParticles, mapLast, List.map_cons, List.map_nil,
        Bool.false_eq_true, if_true, if_false, Option.some.injEq, Fl.add, zero_add, List.singleton_append] at hp
      subst hp
      exact ⟨rfl, rfl⟩
  obtain ⟨p', hp⟩ : ∃ p', propagate env (bootstrap mo) thr full (initiateParticles env (bootstrap mo) k0 y0 t0) y1 t1 k1 = some p' := by
    cases full <;>
    · simp only [propagate, initiateParticles, bootstrap, bootstrapLogWeight, hl, neg_neg, hess, List.getLast?_singleton, Option.bind_eq_bind, Option.bind_some, if_pos hlt, resampleParticles, mapLast, List.map_cons, List.map_nil,
        Bool.false_eq_true, if_true, if_false]
      exact ⟨_, rfl⟩
  obtain ⟨e1, e2⟩ := h1 p' hp
  refine ⟨[initiateParticles env (bootstrap mo) k0 y0 t0, p'], p', ?_, ?_, ?_, ?_⟩
  · simp [reports, hp]
  · simp [online, hp]
  · have e3 : latestWeights (initiateParticles env (bootstrap mo) k0 y0 t0) = ((fun _ => .fin c, .fin n) : (Fin n → Fl) × Fl) := by
      simp [latestWeights, initiateParticles, bootstrap, hl, hess]
    have e4 : latestWeights p' = (fun _ => .fin c, .fin n) := by simp [latestWeights, e1, e2]
    simp only [onlineEstimate, List.map_cons, List.map_nil, e3, e4, increments, if_pos hlt, htot, mul_one]
    rw [two_mul, Real.exp_add]
    field_simp
  · simp only [likelihoodEstimate, e1, e2, List.zip_cons_cons, List.zip_nil_right, increments, if_pos hlt, htot, Real.exp_zero]
    field_simp

/-! ## Nonlinear Gaussian models -/

section
open Matrix Mocat.NonlinearGaussian Mocat.Spec Mocat.Covariance Mocat.MatGauss
variable {d e : ℕ} {chol : Chol} (hchol : IsCholeskyAll chol) {mo : NLG d e} (hm : ProperNLG mo) (htr : ∀ t t', Measurable fun x => mo.transFun x t t') {q : ℝ → ℝ} (hq : IsNormalDraw q)
include hchol hm htr hq

/-- C136 for nonlinear Gaussian models with the bootstrap filter. -/
theorem C136_nonlinear_gaussian (y0 : Obs e) (t0 : ℝ) (obs : List (Obs e × ℝ)) (g : List (Fin d → ℝ) → ℝ) (B : ℝ) (hg : PathMeasurable fun l => ENNReal.ofReal (g l)) (hg0 : ∀ l, 0 ≤ g l) (hgB : ∀ l, g l ≤ B) :
    let S := fun h : List (Fin d → ℝ) → ℝ≥0∞ => ∫⁻ x, ENNReal.ofReal (Real.exp (-covPotential chol mo.likCov (x ᵥ* mo.likMatᵀ) y0))
      * smoothingExpectation (fun x t t' => gauss (mo.transFun x t t') ((chol d mo.transCov)ᵀ * chol d mo.transCov)) (fun x y _ => covPotential chol mo.likCov (x ᵥ* mo.likMatᵀ) y) h t0 obs [] x
      ∂(gauss mo.initialMean mo.initialCov)
    let f := fun ω => bootstrap (reKeyModel (normalsAt q ω) (mo.model chol))
    ∃ C : ℝ, ∀ (n : ℕ) [NeZero n] (cat : (Fin n → Fl) → ℝ → Fin n), (IsCategoricalReal fun (w : Fin n → ℝ) u => cat (fun i => .fin (w i)) u) →
      ∀ (thr : ℝ) (k0 : Keys.Key) (os : List (Obs e × ℝ × Keys.Key)), os.map (fun o => (o.1, o.2.1)) = obs → (k0 :: os.map fun o => o.2.2).Pairwise Unrelated →
      ∃ (rs : Tape → List (Particles (Fin d → ℝ) n e)) (out : Tape → Particles (Fin d → ℝ) n e),
        (∀ ω, reports (tapeEnv cat ω) (f ω) thr true (initiateParticles (tapeEnv cat ω) (f ω) k0 y0 t0) os = some (rs ω)) ∧
        (∀ ω, online (tapeEnv cat ω) (f ω) thr true (initiateParticles (tapeEnv cat ω) (f ω) k0 y0 t0) os = some (out ω)) ∧
        (∀ ω, (out ω).value.length = obs.length + 1) ∧
        ∫⁻ ω, ENNReal.ofReal (onlineEstimate thr (rs ω) * trajectoryMean g (out ω)) ∂ideal = S (fun l => ENNReal.ofReal (g l)) ∧
        ∫⁻ ω, ENNReal.ofReal ((trajectoryMean g (out ω) - (S fun l => ENNReal.ofReal (g l)).toReal / (S fun _ => 1).toReal) ^ 2) ∂ideal ≤ ENNReal.ofReal (C / n) :=
  C136_bootstrap (nlg_modelLaw hchol hm htr hq) y0 t0 obs (w := Real.exp (-Gaussian.negLogZ e (some (1 / mo.likCov.det))))
    (fun o _ x => Real.exp_le_exp.mpr (neg_le_neg (neg_potential_le o.1 (x ᵥ* mo.likMatᵀ) _ _))) g B hg hg0 hgB

end

/-! ## A case that meets the hypotheses -/

section
open Matrix Mocat.NonlinearGaussian Mocat.Spec Mocat.Covariance Mocat.MatGauss

/-- A nonlinear model in dimension 2 with three observations that come one at a time: the smoothing probability that the first coordinate rises from the first time to the last. -/
example (y0 y1 y2 : Obs 2) : ∃ (chol : Chol) (q : ℝ → ℝ) (C : ℝ), ∀ (n : ℕ) [NeZero n], ∃ (cat : (Fin n → Fl) → ℝ → Fin n) (out : Tape → Particles (Fin 2 → ℝ) n 2),
    let f := fun ω => bootstrap (reKeyModel (normalsAt q ω) ((⟨0, 1, fun x t t' i => Real.sin (x i) + (t' - t), covEx, 1, 1⟩ : NLG 2 2).model chol))
    let S := fun h : List (Fin 2 → ℝ) → ℝ≥0∞ => ∫⁻ x, ENNReal.ofReal (Real.exp (-covPotential chol 1 (x ᵥ* (1 : Matrix (Fin 2) (Fin 2) ℝ)ᵀ) y0))
      * smoothingExpectation (fun x t t' => gauss (fun i => Real.sin (x i) + (t' - t)) ((chol 2 covEx)ᵀ * chol 2 covEx)) (fun x y _ => covPotential chol 1 (x ᵥ* (1 : Matrix (Fin 2) (Fin 2) ℝ)ᵀ) y) h 0
        [(y1, 1), (y2, 3)] [] x ∂(gauss 0 1)
    (∀ ω, online (tapeEnv cat ω) (f ω) (1 / 2) true (initiateParticles (tapeEnv cat ω) (f ω) [0] y0 0) [(y1, 1, [1]), (y2, 3, [2])] = some (out ω)) ∧
    ∫⁻ ω, ENNReal.ofReal ((trajectoryMean (fun l => {z : (Fin 2 → ℝ) × (Fin 2 → ℝ) | z.1 0 < z.2 0}.indicator (fun _ => (1 : ℝ)) (l.getD 0 0, l.getD 2 0)) (out ω)
      - (S fun l => ENNReal.ofReal ({z : (Fin 2 → ℝ) × (Fin 2 → ℝ) | z.1 0 < z.2 0}.indicator (fun _ => (1 : ℝ)) (l.getD 0 0, l.getD 2 0))).toReal / (S fun _ => 1).toReal) ^ 2) ∂ideal
      ≤ ENNReal.ofReal (C / n) := by
  obtain ⟨chol, hchol⟩ := exists_isCholeskyAll
  obtain ⟨q, hq⟩ := exists_isNormalDraw
  have hA : MeasurableSet {z : (Fin 2 → ℝ) × (Fin 2 → ℝ) | z.1 0 < z.2 0} := measurableSet_lt ((measurable_pi_apply 0).comp measurable_fst) ((measurable_pi_apply 0).comp measurable_snd)
  obtain ⟨C, hC⟩ := C136_nonlinear_gaussian hchol (mo := ⟨0, 1, fun x t t' i => Real.sin (x i) + (t' - t), covEx, 1, 1⟩) ⟨PosDef.one, covEx_posDef, PosDef.one⟩ (fun t t' => by fun_prop) hq
    y0 0 [(y1, 1), (y2, 3)] _ 1 (pathMeasurable_indicator hA 0 0 2) (fun l => Set.indicator_nonneg (fun _ _ => zero_le_one) _) (fun l => Set.indicator_le_self' (fun _ _ => zero_le_one) _)
  refine ⟨chol, q, C, fun n _ => ?_⟩
  obtain ⟨rs, out, -, h2, -, -, h5⟩ := hC n invCdf isCategoricalReal_invCdfReal (1 / 2) [0] [(y1, 1, [1]), (y2, 3, [2])] rfl (by simp [Unrelated, List.suffix_cons_iff])
  exact ⟨invCdf, out, h2, h5⟩

end

end Mocat.Props
