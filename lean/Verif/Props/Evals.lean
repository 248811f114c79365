import Verif.Props.OnlineSmoothing
/-!
# C94: `num_transition_evals` is an honest count
-/
namespace Mocat.Props
open Mocat Mocat.Backward Mocat.Online

variable {X K : Type} {m N n dy : ℕ}

/-- The list of pending particles. -/
def pendingList (s : RState K m N) : List (Fin m) := (List.finRange m).filter fun i => s.notYet i

theorem pendingList_length (s : RState K m N) : (pendingList s).length = s.pending := by
  unfold pendingList RState.pending
  rw [Finset.card_def]
  have h : (Finset.univ.filter fun i => s.notYet i = true).val = Multiset.filter (fun i => s.notYet i = true) (List.finRange m : List (Fin m)) := rfl
  rw [h, Multiset.filter_coe, Multiset.coe_card]
  congr 2
  funext i
  cases s.notYet i <;> rfl

theorem mem_pendingList {s : RState K m N} {i : Fin m} : i ∈ pendingList s ↔ s.notYet i = true := by simp [pendingList]

/-- The densities one round looks at. -/
def roundQueries (r : Rand K m N) (lw : Fin N → Fl) (s : RState K m N) : List (Fin m × Fin N) := (pendingList s).map fun i => (i, r.choice (r.split3 (s.keys i)).2.1 lw)

theorem proposalAll_congr [NeZero m] (r : Rand K m N) (lw : Fin N → Fl) {dens dens' : Fin m → Fin N → ℝ} (inflation : ℝ) (s : RState K m N)
    (h : ∀ q ∈ roundQueries r lw s, dens' q.1 q.2 = dens q.1 q.2) : proposalAll r lw dens' inflation s = proposalAll r lw dens inflation s := by
  have h1 : proposalSingle r lw dens' s = proposalSingle r lw dens s := by
    funext i
    unfold proposalSingle
    split_ifs with hi
    · have := h (i, r.choice (r.split3 (s.keys i)).2.1 lw) (List.mem_map.2 ⟨i, mem_pendingList.2 hi, rfl⟩)
      simp only at this ⊢
      rw [this]
    · rfl
  unfold proposalAll
  rw [h1]

theorem loop_queries [NeZero m] (r : Rand K m N) (lw : Fin N → Fl) (dens : Fin m → Fin N → ℝ) (inflation : ℝ) (maxRej : ℤ) (s : RState K m N) :
    ∃ Q : List (Fin m × Fin N), s.evals + Q.length = (rejectionLoop r lw dens inflation maxRej s).evals ∧
      ∀ dens' : Fin m → Fin N → ℝ, (∀ q ∈ Q, dens' q.1 q.2 = dens q.1 q.2) → rejectionLoop r lw dens' inflation maxRej s = rejectionLoop r lw dens inflation maxRej s := by
  induction s using rejectionLoop.induct (r := r) (lw := lw) (dens := dens) (inflation := inflation) (maxRej := maxRej) with
  | case1 s hc ih =>
    obtain ⟨Q, h1, h2⟩ := ih
    refine ⟨roundQueries r lw s ++ Q, ?_, fun dens' hq => ?_⟩
    · rw [rejectionLoop, if_pos hc, ← h1, List.length_append]
      have : (roundQueries r lw s).length = s.pending := by rw [roundQueries, List.length_map, pendingList_length]
      rw [this]
      change s.evals + (s.pending + Q.length) = s.evals + s.pending + Q.length
      omega
    · rw [rejectionLoop, if_pos hc, proposalAll_congr r lw inflation s fun q h => hq q (List.mem_append_left _ h), h2 dens' fun q h => hq q (List.mem_append_right _ h)]
      conv_rhs => rw [rejectionLoop, if_pos hc]
  | case2 s hc =>
    refine ⟨[], ?_, fun dens' _ => ?_⟩
    · rw [rejectionLoop, if_neg hc]; rfl
    · rw [rejectionLoop, if_neg hc, rejectionLoop, if_neg hc]

theorem evals_init [NeZero m] (r : Rand K m N) (lw : Fin N → Fl) (dens : Fin m → Fin N → ℝ) (initBound inflation : ℝ) (key : K) :
    (rejectionInit r lw dens initBound inflation key).evals = m := rfl

/-- C94, rejection resampling: the indices drawn are determined by as many transition densities as are reported. -/
theorem C94_rejection [NeZero m] (r : Rand K m N) (lw : Fin N → Fl) (pot : Fin m → Fin N → ℝ) (initBound inflation : ℝ) (maxRej : ℤ) (key : K) :
    ∃ Q : List (Fin m × Fin N), Q.length = (rejection r lw pot initBound inflation maxRej key).2 ∧
      ∀ pot' : Fin m → Fin N → ℝ, (∀ q ∈ Q, pot' q.1 q.2 = pot q.1 q.2) → rejection r lw pot' initBound inflation maxRej key = rejection r lw pot initBound inflation maxRej key := by
  set dens : Fin m → Fin N → ℝ := fun i j => Real.exp (-pot i j) with hdens
  set s0 := rejectionInit r lw dens initBound inflation key with hs0
  set s := rejectionLoop r lw dens inflation maxRej s0 with hs
  obtain ⟨Q, h1, h2⟩ := loop_queries r lw dens inflation maxRej s0
  refine ⟨(List.finRange m).map (fun i => (i, r.choices (r.split3 key).1 lw i)) ++ Q ++ (pendingList s).flatMap fun i => (List.finRange N).map fun j => (i, j), ?_, fun pot' hq => ?_⟩
  · have h3 : ((pendingList s).flatMap fun i => (List.finRange N).map fun j => (i, j)).length = N * s.pending := by
      rw [List.length_flatMap, ← pendingList_length]
      simp [mul_comm]
    simp only [List.length_append, List.length_map, List.length_finRange, h3]
    rw [show m + Q.length = s.evals from h1]
    rfl
  · have hi : rejectionInit r lw (fun i j => Real.exp (-pot' i j)) initBound inflation key = s0 := by
      have : (fun i => Real.exp (-pot' i (r.choices (r.split3 key).1 lw i))) = fun i => dens i (r.choices (r.split3 key).1 lw i) := by
        funext i
        rw [hdens]
        simp only
        rw [hq (i, r.choices (r.split3 key).1 lw i) (List.mem_append_left _ (List.mem_append_left _ (List.mem_map.2 ⟨i, List.mem_finRange i, rfl⟩)))]
      exact congrArg (fun d : Fin m → ℝ => open Classical in
        ({ notYet := fun i => decide (Rejects (r.uniforms (r.split3 key).2.1 i) (d i) (if initBound < maxOf d then maxOf d * inflation else initBound)), idx := r.choices (r.split3 key).1 lw,
           bound := if initBound < maxOf d then maxOf d * inflation else initBound, keys := r.splitN (r.split3 key).2.2, iter := 1, evals := m } : RState K m N)) this
    have hl : rejectionLoop r lw (fun i j => Real.exp (-pot' i j)) inflation maxRej s0 = s :=
      h2 _ fun q hQ => by rw [hdens, hq q (List.mem_append_left _ (List.mem_append_right _ hQ))]
    have e1 : rejection r lw pot' initBound inflation maxRej key = (fun i => if s.notYet i then r.choice (s.keys i) (fullLogWeight lw (pot' i)) else s.idx i, s.evals + N * s.pending) := by
      unfold rejection
      simp only
      rw [hi, hl]
    have e2 : rejection r lw pot initBound inflation maxRej key = (fun i => if s.notYet i then r.choice (s.keys i) (fullLogWeight lw (pot i)) else s.idx i, s.evals + N * s.pending) := rfl
    rw [e1, e2]
    refine Prod.ext ?_ rfl
    funext i
    simp only
    split_ifs with hn
    · have : pot' i = pot i := funext fun j => hq (i, j) (List.mem_append_right _ (List.mem_flatMap.2 ⟨i, mem_pendingList.2 hn, List.mem_map.2 ⟨j, List.mem_finRange j, rfl⟩⟩))
      rw [this]
    · rfl

/-! ## Bounds -/

theorem pending_le (s : RState K m N) : s.pending ≤ m := by
  unfold RState.pending
  exact (Finset.card_filter_le _ _).trans (by simp)

theorem loop_bound [NeZero m] (r : Rand K m N) (lw : Fin N → Fl) (dens : Fin m → Fin N → ℝ) (inflation : ℝ) (maxRej : ℤ) (s : RState K m N) :
    s.evals ≤ (rejectionLoop r lw dens inflation maxRej s).evals ∧ (rejectionLoop r lw dens inflation maxRej s).evals ≤ s.evals + m * (maxRej - s.iter).toNat := by
  induction s using rejectionLoop.induct (r := r) (lw := lw) (dens := dens) (inflation := inflation) (maxRej := maxRej) with
  | case1 s hc ih =>
    rw [rejectionLoop, if_pos hc]
    have h1 : (proposalAll r lw dens inflation s).evals = s.evals + s.pending := rfl
    have h2 : (proposalAll r lw dens inflation s).iter = s.iter + 1 := rfl
    rw [h1, h2] at ih
    simp only [continues, Bool.and_eq_true, decide_eq_true_eq] at hc
    have h3 : (maxRej - s.iter).toNat = (maxRej - (s.iter + 1 : ℕ)).toNat + 1 := by push_cast; omega
    have h4 := pending_le s
    rw [h3, Nat.mul_succ]
    omega
  | case2 s hc => rw [rejectionLoop, if_neg hc]; omega

/-- C94, cost of rejection resampling of `m` particles among `N` candidates: at least `m`, and at most `m` per round plus `m * N`. -/
theorem C94_cost [NeZero m] (r : Rand K m N) (lw : Fin N → Fl) (pot : Fin m → Fin N → ℝ) (initBound inflation : ℝ) {maxRej : ℕ} (h : 1 ≤ maxRej) (key : K) :
    m ≤ (rejection r lw pot initBound inflation maxRej key).2 ∧ (rejection r lw pot initBound inflation maxRej key).2 ≤ m * maxRej + N * m := by
  have h1 := loop_bound r lw (fun i j => Real.exp (-pot i j)) inflation maxRej (rejectionInit r lw (fun i j => Real.exp (-pot i j)) initBound inflation key)
  have h2 := pending_le (rejectionLoop r lw (fun i j => Real.exp (-pot i j)) inflation maxRej (rejectionInit r lw (fun i j => Real.exp (-pot i j)) initBound inflation key))
  rw [evals_init] at h1
  have h3 : ((maxRej : ℤ) - ((rejectionInit r lw (fun i j => Real.exp (-pot i j)) initBound inflation key).iter : ℤ)).toNat = maxRej - 1 := by
    have : (rejectionInit r lw (fun i j => Real.exp (-pot i j)) initBound inflation key).iter = 1 := rfl
    rw [this]
    omega
  rw [h3] at h1
  have h4 : m + m * (maxRej - 1) = m * maxRej := by
    obtain ⟨k, rfl⟩ : ∃ k, maxRej = k + 1 := ⟨maxRej - 1, by omega⟩
    simp [Nat.mul_succ, add_comm]
  have h5 := Nat.mul_le_mul_left N h2
  change m ≤ _ + N * _ ∧ _ + N * _ ≤ _
  omega

/-! ## Backward simulation -/

/-- The densities at which transition potentials are compared. -/
def Agree (Q : List (X × ℝ × X × ℝ)) (f g : X → ℝ → X → ℝ → ℝ) : Prop := ∀ q ∈ Q, f q.1 q.2.1 q.2.2.1 q.2.2.2 = g q.1 q.2.1 q.2.2.1 q.2.2.2

theorem backStep_queries [NeZero m] (r : Rand K m N) (trans : X → ℝ → X → ℝ → ℝ) (p : Marginals X N) (maxRej : ℤ) (initBound inflation : ℝ) (tKeys : ℕ → K) (x : Fin m → X) (ind : ℕ) :
    ∃ Q : List (X × ℝ × X × ℝ), Q.length = (backStep r trans p maxRej initBound inflation tKeys x ind).2 ∧
      ∀ trans', Agree Q trans' trans → backStep r trans' p maxRej initBound inflation tKeys x ind = backStep r trans p maxRej initBound inflation tKeys x ind := by
  by_cases hr : 0 < maxRej
  · obtain ⟨Q, h1, h2⟩ := C94_rejection r (p.logWeight ind) (fun i j => trans (p.value ind j) (p.t ind) (x i) (p.t (ind + 1))) initBound inflation maxRej (tKeys ind)
    refine ⟨Q.map fun q => (p.value ind q.2, p.t ind, x q.1, p.t (ind + 1)), ?_, fun trans' h => ?_⟩
    · rw [List.length_map, h1]
      unfold backStep
      simp only
      rw [if_pos hr]
    · have h3 := h2 (fun i j => trans' (p.value ind j) (p.t ind) (x i) (p.t (ind + 1))) fun q hq => h _ (List.mem_map.2 ⟨q, hq, rfl⟩)
      unfold backStep
      simp only
      rw [if_pos hr, if_pos hr, h3]
  · refine ⟨(List.finRange N).flatMap fun j => (List.finRange m).map fun i => (p.value ind j, p.t ind, x i, p.t (ind + 1)), ?_, fun trans' h => ?_⟩
    · unfold backStep
      simp only
      rw [if_neg hr, List.length_flatMap]
      simp
    · have h3 : (fun i j => trans' (p.value ind j) (p.t ind) (x i) (p.t (ind + 1))) = fun i j => trans (p.value ind j) (p.t ind) (x i) (p.t (ind + 1)) := by
        funext i j
        exact h _ (List.mem_flatMap.2 ⟨j, List.mem_finRange j, List.mem_map.2 ⟨i, List.mem_finRange i, rfl⟩⟩)
      unfold backStep
      simp only
      rw [if_neg hr, if_neg hr, h3]

theorem scan_queries [NeZero m] (r : Rand K m N) (trans : X → ℝ → X → ℝ → ℝ) (p : Marginals X N) (maxRej : ℤ) (initBound inflation : ℝ) (tKeys : ℕ → K) (inds : List ℕ) (x : Fin m → X) :
    ∃ Q : List (X × ℝ × X × ℝ), Q.length = ((scan (fun x ind => let s := backStep r trans p maxRej initBound inflation tKeys x ind; (s.1, s)) x inds).2.map Prod.snd).sum ∧
      ∀ trans', Agree Q trans' trans → scan (fun x ind => let s := backStep r trans' p maxRej initBound inflation tKeys x ind; (s.1, s)) x inds
        = scan (fun x ind => let s := backStep r trans p maxRej initBound inflation tKeys x ind; (s.1, s)) x inds := by
  induction inds generalizing x with
  | nil => exact ⟨[], rfl, fun _ _ => rfl⟩
  | cons i is ih =>
    obtain ⟨Q, h1, h2⟩ := backStep_queries r trans p maxRej initBound inflation tKeys x i
    obtain ⟨Q', h3, h4⟩ := ih (backStep r trans p maxRej initBound inflation tKeys x i).1
    refine ⟨Q ++ Q', ?_, fun trans' h => ?_⟩
    · rw [List.length_append, h1, h3]; rfl
    · have e1 := h2 trans' fun q hq => h q (List.mem_append_left _ hq)
      have e2 := h4 trans' fun q hq => h q (List.mem_append_right _ hq)
      simp only [scan] at e2 ⊢
      rw [e1, e2]

/-- C94, backward simulation: the trajectories (and the counts) are determined by as many transition densities as are reported in total. -/
theorem C94_backward [NeZero m] (r : Rand K m N) (trans : X → ℝ → X → ℝ → ℝ) (p : Marginals X N) (T : ℕ) (maxRej : ℤ) (initBound inflation : ℝ) (tKeys : ℕ → K) :
    ∃ Q : List (X × ℝ × X × ℝ), Q.length = (backwardSimulation r trans p T maxRej initBound inflation tKeys).2.sum ∧
      ∀ trans', Agree Q trans' trans → backwardSimulation r trans' p T maxRej initBound inflation tKeys = backwardSimulation r trans p T maxRej initBound inflation tKeys := by
  obtain ⟨Q, h1, h2⟩ := scan_queries r trans p maxRej initBound inflation tKeys (List.range (T - 1)).reverse (fun i => p.value (T - 1) (r.choices (tKeys (T - 1)) (p.logWeight (T - 1)) i))
  refine ⟨Q, ?_, fun trans' h => ?_⟩
  · rw [h1]
    unfold backwardSimulation
    simp only [List.sum_cons, zero_add, List.sum_reverse]
  · unfold backwardSimulation
    simp only
    have := h2 trans' h
    simp only at this
    rw [this]

/-- C94, cost of backward simulation of `m` trajectories from `T` times: nothing is counted for the last time; without rejection `N * m` evaluations for every other time, with at most `maxRej` rounds between `m` and
`m * maxRej + N * m`. -/
theorem C94_backward_cost [NeZero m] (r : Rand K m N) (trans : X → ℝ → X → ℝ → ℝ) (p : Marginals X N) (T : ℕ) (maxRej : ℕ) (initBound inflation : ℝ) (tKeys : ℕ → K) :
    ∃ costs : List ℕ, (backwardSimulation r trans p T maxRej initBound inflation tKeys).2 = 0 :: costs ∧ costs.length = T - 1 ∧
      ∀ k ∈ costs, if maxRej = 0 then k = N * m else m ≤ k ∧ k ≤ m * maxRej + N * m := by
  refine ⟨_, rfl, ?_, fun k hk => ?_⟩
  · have : ∀ (inds : List ℕ) (x : Fin m → X), (scan (fun x ind => let s := backStep r trans p maxRej initBound inflation tKeys x ind; (s.1, s)) x inds).2.length = inds.length := fun inds x => by
      induction inds generalizing x with
      | nil => rfl
      | cons i is ih => simp only [scan, List.length_cons] at ih ⊢; rw [ih]
    rw [List.length_reverse, List.length_map, this, List.length_reverse, List.length_range]
  · have hall : ∀ (inds : List ℕ) (x : Fin m → X), ∀ y ∈ (scan (fun x ind => let s := backStep r trans p maxRej initBound inflation tKeys x ind; (s.1, s)) x inds).2,
        ∃ x' ind, y = backStep r trans p maxRej initBound inflation tKeys x' ind := fun inds x y hy => by
      induction inds generalizing x with
      | nil => simp [scan] at hy
      | cons i is ih =>
        simp only [scan, List.mem_cons] at hy ih
        rcases hy with rfl | hy
        · exact ⟨x, i, rfl⟩
        · exact ih _ hy
    rw [List.mem_reverse, List.mem_map] at hk
    obtain ⟨y, hy, rfl⟩ := hk
    obtain ⟨x', ind, rfl⟩ := hall _ _ y hy
    unfold backStep
    simp only
    by_cases h : maxRej = 0
    · subst h
      simp
    · rw [if_neg h, if_pos (by exact_mod_cast Nat.pos_of_ne_zero h)]
      exact C94_cost r _ _ initBound inflation (Nat.pos_of_ne_zero h) _

/-! ## Online smoothing -/

/-- C94, online smoothing: what stitching returns is determined by as many transition densities as it reports, and the `n` densities of the transitions that are cut. -/
theorem C94_stitching [NeZero n] (c : Cfg X K n dy) (x0 r0 r1 : Fin n → X) (lw : Fin n → Fl) (t t' : ℝ) (key : K) :
    ∃ Q : List (X × ℝ × X × ℝ), Q.length = (stitchInds c x0 r0 r1 lw t t' key).2 + n ∧
      ∀ trans', Agree Q trans' c.trans → stitchInds { c with trans := trans' } x0 r0 r1 lw t t' key = stitchInds c x0 r0 r1 lw t t' key := by
  set w := fun j => Fl.add (lw j) (Fl.fin (c.trans (r0 j) t (r1 j) t')) with hw
  have hw' : ∀ (Q : List (X × ℝ × X × ℝ)) trans', Agree (Q ++ (List.finRange n).map fun j => (r0 j, t, r1 j, t')) trans' c.trans →
      (fun j => Fl.add (lw j) (Fl.fin (trans' (r0 j) t (r1 j) t'))) = w := fun Q trans' h => by
    funext j
    have := h (r0 j, t, r1 j, t') (List.mem_append_right _ (List.mem_map.2 ⟨j, List.mem_finRange j, rfl⟩))
    simp only at this
    rw [hw, this]
  by_cases hr : 0 < c.maxRej
  · obtain ⟨Q, h1, h2⟩ := C94_rejection c.rand w (fun i j => c.trans (x0 i) t (r1 j) t') c.initBound c.inflation c.maxRej key
    refine ⟨Q.map (fun q => (x0 q.1, t, r1 q.2, t')) ++ (List.finRange n).map fun j => (r0 j, t, r1 j, t'), ?_, fun trans' h => ?_⟩
    · rw [List.length_append, List.length_map, List.length_map, List.length_finRange, h1]
      unfold stitchInds
      simp only
      rw [if_pos hr]
    · have h3 := h2 (fun i j => trans' (x0 i) t (r1 j) t') fun q hq => h _ (List.mem_append_left _ (List.mem_map.2 ⟨q, hq, rfl⟩))
      unfold stitchInds
      simp only
      rw [if_pos hr, if_pos hr, hw' _ trans' h, h3]
  · refine ⟨((List.finRange n).flatMap fun i => (List.finRange n).map fun j => (x0 i, t, r1 j, t')) ++ (List.finRange n).map fun j => (r0 j, t, r1 j, t'), ?_, fun trans' h => ?_⟩
    · rw [List.length_append, List.length_flatMap]
      unfold stitchInds
      simp only
      rw [if_neg hr]
      simp [pow_two]
    · have h3 : (fun i j => trans' (x0 i) t (r1 j) t') = fun i j => c.trans (x0 i) t (r1 j) t' := by
        funext i j
        exact h _ (List.mem_append_left _ (List.mem_flatMap.2 ⟨i, List.mem_finRange i, List.mem_map.2 ⟨j, List.mem_finRange j, rfl⟩⟩))
      unfold stitchInds
      simp only
      rw [if_neg hr, if_neg hr, hw' _ trans' h, h3]

/-- Option-valued version: what the `some` results depend on. -/
theorem fixedLag_queries [NeZero n] (c : Cfg X K n dy) (early : List (Fin n → X)) (t : ℝ) (recent : List (Fin n → X)) (lw : Fin n → Fl) (t' : ℝ) (key : K) {out : List (Fin n → X) × ℕ}
    (ho : fixedLagStitching c early t recent lw t' key = some out) :
    ∃ Q : List (X × ℝ × X × ℝ), Q.length = out.2 + n ∧
      ∀ trans', Agree Q trans' c.trans → fixedLagStitching { c with trans := trans' } early t recent lw t' key = some out := by
  unfold fixedLagStitching at ho ⊢
  simp only [Option.bind_eq_bind, Option.bind_eq_some_iff, Option.some.injEq] at ho
  obtain ⟨x0, h0, r0, h1, r1, h2, rfl⟩ := ho
  obtain ⟨Q, h3, h4⟩ := C94_stitching c x0 r0 r1 lw t t' key
  refine ⟨Q, h3, fun trans' h => ?_⟩
  simp only [h0, h1, h2, Option.bind_eq_bind, Option.bind_some, h4 trans' h]

theorem backSim_queries [NeZero n] (c : Cfg X K n dy) (p : Filtering.Particles X n dy) (k : ℕ) (key : K) {out : List (Fin n → X) × List ℕ} (ho : backSim c p k key = some out) :
    ∃ Q : List (X × ℝ × X × ℝ), Q.length = out.2.sum ∧ ∀ trans', Agree Q trans' c.trans → backSim { c with trans := trans' } p k key = some out := by
  unfold backSim at ho ⊢
  simp only [Option.bind_eq_bind, Option.bind_eq_some_iff, Option.some.injEq] at ho
  obtain ⟨mg, h0, rfl⟩ := ho
  obtain ⟨Q, h3, h4⟩ := C94_backward c.rand c.trans mg (p.value.length - k) c.maxRej c.initBound c.inflation fun i => if h : i < p.value.length - k then c.env.splitN (p.value.length - k) key ⟨i, h⟩ else key
  refine ⟨Q, h3, fun trans' h => ?_⟩
  simp only [h0, Option.bind_eq_bind, Option.bind_some, h4 trans' h]

/-- C94, one call of the online smoother: the call appends one number to `num_transition_evals`; the new state is determined by that many transition densities and, once the lag is reached, `n` more. -/
theorem C94_online [NeZero n] (backward : Bool) (c : Cfg X K n dy) (s s' : Smoother X n dy) (yNew : Filtering.Obs dy) (tNew : ℝ) (key : K) (ho : propagateSmoother backward c s yNew tNew key = some s') :
    ∃ (k : ℕ) (Q : List (X × ℝ × X × ℝ)), s'.evals = s.evals ++ [k] ∧ Q.length = k + (if c.lag ≤ s.t.length then n else 0) ∧
      ∀ trans', Agree Q trans' c.trans → propagateSmoother backward { c with trans := trans' } s yNew tNew key = some s' := by
  cases backward with
  | false =>
    simp only [propagateSmoother, Bool.false_eq_true, if_false] at ho ⊢
    unfold propagatePf at ho ⊢
    simp only [Option.bind_eq_bind, Option.bind_eq_some_iff] at ho
    obtain ⟨xPrev, h1, tPrev, h2, ho⟩ := ho
    simp only [h1, h2, Option.bind_eq_bind, Option.bind_some, List.length_append, List.length_singleton, Nat.add_le_add_iff_right] at ho ⊢
    by_cases hl : c.lag ≤ s.t.length
    · simp only [hl, if_true, Option.bind_eq_some_iff, Option.some.injEq] at ho ⊢
      obtain ⟨tt, h3, t', h4, out, h5, rfl⟩ := ho
      obtain ⟨Q, h6, h7⟩ := fixedLag_queries c _ _ _ _ _ _ h5
      refine ⟨out.2, Q, rfl, h6, fun trans' h => ⟨tt, h3, t', h4, out, h7 trans' h, rfl⟩⟩
    · simp only [hl, if_false, Option.some.injEq] at ho ⊢
      subst ho
      exact ⟨0, [], rfl, rfl, fun _ _ => rfl⟩
  | true =>
    simp only [propagateSmoother, if_true] at ho ⊢
    unfold propagateBs at ho ⊢
    simp only [Option.bind_eq_bind, Option.bind_eq_some_iff] at ho
    obtain ⟨mf, h1, ho⟩ := ho
    simp only [h1, Option.bind_eq_bind, Option.bind_some, List.length_append, List.length_singleton, Nat.add_le_add_iff_right] at ho ⊢
    by_cases hl : c.lag ≤ s.t.length
    · simp only [hl, if_true, Option.bind_eq_some_iff, Option.some.injEq] at ho ⊢
      obtain ⟨tt, h3, t', h4, back, h5, out, h6, rfl⟩ := ho
      obtain ⟨Q, h7, h8⟩ := backSim_queries c _ _ _ h5
      obtain ⟨Q', h9, h10⟩ := fixedLag_queries c _ _ _ _ _ _ h6
      refine ⟨out.2 + back.2.sum, Q' ++ Q, rfl, by rw [List.length_append, h7, h9]; omega, fun trans' h => ?_⟩
      exact ⟨tt, h3, t', h4, back, h8 trans' fun q hq => h q (List.mem_append_right _ hq), out, h10 trans' fun q hq => h q (List.mem_append_left _ hq), rfl⟩
    · simp only [hl, if_false, Option.bind_eq_some_iff, Option.some.injEq] at ho ⊢
      obtain ⟨back, h5, rfl⟩ := ho
      obtain ⟨Q, h7, h8⟩ := backSim_queries c _ _ _ h5
      exact ⟨back.2.sum, Q, rfl, h7, fun trans' h => ⟨back, h8 trans' h, rfl⟩⟩

theorem calls_queries [NeZero n] (backward : Bool) (c : Cfg X K n dy) (hlag : 1 ≤ c.lag) (os : List (Filtering.Obs dy × ℝ × K)) (s : Smoother X n dy) (hs : Ready backward s) :
    ∃ (s' : Smoother X n dy) (Q : List (X × ℝ × X × ℝ)), calls backward c s os = some s' ∧ s'.evals.length = s.evals.length + os.length ∧
      Q.length + s.evals.sum = s'.evals.sum + n * (s.t.length + os.length - c.lag - (s.t.length - c.lag)) ∧
      ∀ trans', Agree Q trans' c.trans → calls backward { c with trans := trans' } s os = some s' := by
  induction os generalizing s with
  | nil => exact ⟨s, [], rfl, rfl, by simp, fun _ _ => rfl⟩
  | cons o os ih =>
    obtain ⟨y, t, k⟩ := o
    obtain ⟨s1, h1, h2, h3, -, -⟩ := C55_call backward c hlag s hs y t k
    obtain ⟨m, Q, h4, h5, h6⟩ := C94_online backward c s s1 y t k h1
    obtain ⟨s', Q', h7, h8, h9, h10⟩ := ih s1 h2
    refine ⟨s', Q ++ Q', by simp [calls, h1, h7], ?_, ?_, fun trans' h => ?_⟩
    · rw [h8, h4]; simp; omega
    · have hl : s1.t.length = s.t.length + 1 := by rw [h3]; simp
      rw [h4, hl] at h9
      simp only [List.sum_append, List.sum_cons, List.sum_nil, List.length_append, List.length_cons] at h9 ⊢
      have e : (s.t.length + (os.length + 1) - c.lag - (s.t.length - c.lag)) =
          (s.t.length + 1 + os.length - c.lag - (s.t.length + 1 - c.lag)) + (if c.lag ≤ s.t.length then 1 else 0) := by split_ifs <;> omega
      rw [e, Nat.mul_add]
      split_ifs at h5 ⊢ <;> omega
    · have a1 := h6 trans' fun q hq => h q (List.mem_append_left _ hq)
      have a2 := h10 trans' fun q hq => h q (List.mem_append_right _ hq)
      simp [calls, a1, a2]

/-- C94, a whole session of an online smoother, from the first observation on: one number is recorded per observation, and the particles after the last call are determined by as many transition densities
as the recorded numbers sum to and `n` more for each call at which the lag was reached. -/
theorem C94_session [NeZero n] (backward : Bool) (c : Cfg X K n dy) (hlag : 1 ≤ c.lag) (k₀ : K) (y₀ : Filtering.Obs dy) (t₀ : ℝ) (os : List (Filtering.Obs dy × ℝ × K)) :
    ∃ (s s' : Smoother X n dy) (Q : List (X × ℝ × X × ℝ)), ofParticles (Filtering.initiateParticles c.env c.filter k₀ y₀ t₀) = some s ∧ calls backward c s os = some s' ∧
      s'.evals.length = 1 + os.length ∧ Q.length = s'.evals.sum + n * (1 + os.length - c.lag) ∧
      ∀ trans', Agree Q trans' c.trans → calls backward { c with trans := trans' } s os = some s' := by
  obtain ⟨s, h1, h2⟩ := C55_start c.env c.filter k₀ y₀ t₀ backward
  obtain ⟨s', Q, h3, h4, h5, h6⟩ := calls_queries backward c hlag os s h2
  have e : s = ⟨_, _, _, _, _, _⟩ := (Option.some.inj h1).symm
  have e1 : s.evals = [0] := by rw [e]
  have e2 : s.t = [t₀] := by rw [e]; rfl
  rw [e1] at h4 h5
  rw [e2] at h5
  have : ([t₀].length - c.lag) = 0 := by simp; omega
  rw [this] at h5
  exact ⟨s, s', Q, h1, h3, h4, by simpa using h5, h6⟩

/-- The hypothesis of `C94_online` holds for the second observation after `initiate_particles`, for every filter, model and positive lag. -/
example [NeZero n] (c : Cfg X K n dy) (hlag : 1 ≤ c.lag) (backward : Bool) (k₀ k₁ : K) (y₀ y₁ : Filtering.Obs dy) (t₀ t₁ : ℝ) :
    ∃ s s', ofParticles (Filtering.initiateParticles c.env c.filter k₀ y₀ t₀) = some s ∧ propagateSmoother backward c s y₁ t₁ k₁ = some s' := by
  obtain ⟨s, h1, h2⟩ := C55_start c.env c.filter k₀ y₀ t₀ backward
  obtain ⟨s', h3, -⟩ := C55_call backward c hlag s h2 y₁ t₁ k₁
  exact ⟨s, s', h1, h3⟩

end Mocat.Props
