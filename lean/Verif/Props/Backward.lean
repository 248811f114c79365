import Verif.Model.Backward
import Verif.Props.Filtering
/-!
# C53, C54: backward simulation and the rejection sampler
-/
namespace Mocat.Props
open Mocat Mocat.Filtering Mocat.Backward

variable {X K : Type} {m N : ℕ}

/-- The carries and outputs of a `scan`. -/
theorem scan_steps {σ ι ω : Type*} (f : σ → ι → σ × ω) (s : σ) (l : List ι) :
    (scan f s l).2.length = l.length ∧ ∃ c : ℕ → σ, c 0 = s ∧ ∀ k (h : k < l.length) (h' : k < (scan f s l).2.length),
      c (k + 1) = (f (c k) l[k]).1 ∧ (scan f s l).2[k] = (f (c k) l[k]).2 := by
  induction l generalizing s with
  | nil => exact ⟨rfl, fun _ => s, rfl, fun k h => absurd h (by simp)⟩
  | cons a l ih =>
    obtain ⟨h1, c, hc0, hc⟩ := ih (f s a).1
    refine ⟨by simp [scan, h1], fun k => if k = 0 then s else c (k - 1), by simp, ?_⟩
    intro k h h'
    cases k with
    | zero => simp [hc0, scan]
    | succ k =>
      have := hc k (by simpa using h) (by rw [h1]; simpa using h)
      simp only [Nat.add_eq_zero_iff, one_ne_zero, and_false, if_false, Nat.add_sub_cancel]
      refine ⟨?_, ?_⟩
      · cases k with
        | zero => simpa [hc0] using this.1
        | succ k => simpa using this.1
      · cases k with
        | zero => simpa [hc0, scan] using this.2
        | succ k => simpa [scan] using this.2

/-! ## C53 -/

section
variable [NeZero m] (r : Rand K m N) (trans : X → ℝ → X → ℝ → ℝ) (p : Marginals X N) (T : ℕ) (maxRej : ℤ) (initBound inflation : ℝ) (tKeys : ℕ → K)

/-- C53: the output has one ensemble per time; the last is drawn with the filter weights; each earlier one is obtained from the one after it by one backward step, whose cost is recorded. -/
theorem C53_steps (hT : 1 ≤ T) :
    ∃ traj : ℕ → Fin m → X, (backwardSimulation r trans p T maxRej initBound inflation tKeys).1 = (List.range T).map traj ∧
      (backwardSimulation r trans p T maxRej initBound inflation tKeys).2.length = T ∧
      (∀ i, traj (T - 1) i = p.value (T - 1) (r.choices (tKeys (T - 1)) (p.logWeight (T - 1)) i)) ∧
      ∀ s, s + 1 < T → traj s = (backStep r trans p maxRej initBound inflation tKeys (traj (s + 1)) s).1 ∧
        (backwardSimulation r trans p T maxRej initBound inflation tKeys).2[s + 1]? =
          some (backStep r trans p maxRej initBound inflation tKeys (traj (s + 1)) s).2 := by
  set final : Fin m → X := fun i => p.value (T - 1) (r.choices (tKeys (T - 1)) (p.logWeight (T - 1)) i) with hfinal
  set f := fun (x : Fin m → X) (ind : ℕ) => ((backStep r trans p maxRej initBound inflation tKeys x ind).1,
    backStep r trans p maxRej initBound inflation tKeys x ind) with hf
  obtain ⟨hlen, c, hc0, hc⟩ := scan_steps f final ((List.range (T - 1)).reverse)
  have hlen' : (scan f final ((List.range (T - 1)).reverse)).2.length = T - 1 := by rw [hlen]; simp
  have hidx : ∀ k (h : k < T - 1), ((List.range (T - 1)).reverse)[k]'(by simpa using h) = T - 2 - k := by
    intro k h
    rw [List.getElem_reverse]
    simp; omega
  have hout : ∀ k (h : k < T - 1), c (k + 1) = (backStep r trans p maxRej initBound inflation tKeys (c k) (T - 2 - k)).1 ∧
      (scan f final ((List.range (T - 1)).reverse)).2[k]'(by omega) = backStep r trans p maxRej initBound inflation tKeys (c k) (T - 2 - k) := by
    intro k h
    have := hc k (by simpa using h) (by omega)
    rw [hidx k h] at this
    exact this
  have hR : (backwardSimulation r trans p T maxRej initBound inflation tKeys).1 = (List.range T).map fun s => c (T - 1 - s) := by
    change ((scan f final ((List.range (T - 1)).reverse)).2.map Prod.fst).reverse ++ [final] = _
    apply List.ext_getElem
    · simp [hlen']; omega
    · intro s h1 h2
      simp only [List.length_map, List.length_range] at h2
      rw [List.getElem_map, List.getElem_range]
      by_cases hs : s < T - 1
      · rw [List.getElem_append_left (by simp [hlen']; exact hs), List.getElem_reverse, List.getElem_map]
        simp only [List.length_map, hlen']
        have := hout (T - 1 - 1 - s) (by omega)
        rw [this.2, ← this.1]
        congr 1; omega
      · have : s = T - 1 := by omega
        subst this
        rw [List.getElem_append_right (by simp [hlen'])]
        simp [hc0]
  refine ⟨fun s => c (T - 1 - s), hR, ?_, ?_, ?_⟩
  · change (0 :: ((scan f final ((List.range (T - 1)).reverse)).2.map Prod.snd).reverse).length = T
    simp [hlen']; omega
  · intro i
    simp only [Nat.sub_self, hc0, hfinal]
  · intro s hs
    have h1 := hout (T - 2 - s) (by omega)
    have e1 : T - 2 - (T - 2 - s) = s := by omega
    have e2 : T - 1 - (s + 1) = T - 2 - s := by omega
    have e3 : T - 1 - s = T - 2 - s + 1 := by omega
    rw [e1] at h1
    dsimp only
    rw [e2, e3]
    refine ⟨h1.1, ?_⟩
    change (0 :: ((scan f final ((List.range (T - 1)).reverse)).2.map Prod.snd).reverse)[s + 1]? = _
    rw [List.getElem?_cons_succ, List.getElem?_eq_getElem (by simp [hlen']; omega), List.getElem_reverse, List.getElem_map]
    simp only [List.length_map, hlen']
    have e4 : T - 1 - 1 - s = T - 2 - s := by omega
    simp only [e4, h1.2]

/-- C53: every trajectory takes at every time the value of a filter particle at that time, with or without rejection; there are `T` times and `m = n_samps` trajectories. -/
theorem C53_membership (hT : 1 ≤ T) :
    (backwardSimulation r trans p T maxRej initBound inflation tKeys).1.length = T ∧
    ∀ s (h : s < (backwardSimulation r trans p T maxRej initBound inflation tKeys).1.length) (i : Fin m),
      ∃ j, (backwardSimulation r trans p T maxRej initBound inflation tKeys).1[s] i = p.value s j := by
  obtain ⟨traj, h1, -, h3, h4⟩ := C53_steps r trans p T maxRej initBound inflation tKeys hT
  rw [h1]
  refine ⟨by simp, ?_⟩
  intro s h i
  simp only [List.length_map, List.length_range] at h
  rw [List.getElem_map, List.getElem_range]
  by_cases hs : s + 1 < T
  · rw [(h4 s hs).1]
    unfold backStep
    dsimp only
    split_ifs
    · exact ⟨_, rfl⟩
    · exact ⟨_, rfl⟩
  · obtain rfl : s = T - 1 := by omega
    exact ⟨_, h3 i⟩

/-- C53: without rejection, the particle of trajectory `i` at time `s` is drawn among the filter particles at `s` with log weights `log w_j - transition potential (particle j -> its particle at s + 1)`. -/
theorem C53_full_weights (hT : 1 ≤ T) (hR : maxRej ≤ 0) :
    ∃ traj : ℕ → Fin m → X, (backwardSimulation r trans p T maxRej initBound inflation tKeys).1 = (List.range T).map traj ∧
      ∀ s, s + 1 < T → ∀ i, traj s i = p.value s (r.choice (r.splitN (tKeys s) i) fun j =>
        Fl.sub (p.logWeight s j) (Fl.fin (trans (p.value s j) (p.t s) (traj (s + 1) i) (p.t (s + 1))))) := by
  obtain ⟨traj, h1, -, -, h4⟩ := C53_steps r trans p T maxRej initBound inflation tKeys hT
  refine ⟨traj, h1, fun s hs i => ?_⟩
  rw [(h4 s hs).1]
  unfold backStep
  dsimp only
  rw [if_neg (by omega)]
  rfl

end

/-! ## C54 -/

section
variable [NeZero m] (r : Rand K m N) (lw : Fin N → Fl)

theorem le_maxOf (f : Fin m → ℝ) (i : Fin m) : f i ≤ maxOf f := Finset.le_sup' f (Finset.mem_univ i)

theorem maxOf_mem (f : Fin m → ℝ) : ∃ i, maxOf f = f i := by
  obtain ⟨i, -, h⟩ := Finset.exists_mem_eq_sup' (⟨0, Finset.mem_univ 0⟩ : (Finset.univ : Finset (Fin m)).Nonempty) f
  exact ⟨i, h⟩

/-- `k` rounds of the loop body. -/
noncomputable def rounds (dens : Fin m → Fin N → ℝ) (inflation : ℝ) (s : RState K m N) : ℕ → RState K m N
  | 0 => s
  | k + 1 => proposalAll r lw dens inflation (rounds dens inflation s k)

theorem rounds_shift (dens : Fin m → Fin N → ℝ) (inflation : ℝ) (s : RState K m N) (k : ℕ) :
    rounds r lw dens inflation (proposalAll r lw dens inflation s) k = rounds r lw dens inflation s (k + 1) := by
  induction k with
  | zero => rfl
  | succ k ih => rw [rounds, ih]; rfl

theorem rounds_iter (dens : Fin m → Fin N → ℝ) (inflation : ℝ) (s : RState K m N) (k : ℕ) :
    (rounds r lw dens inflation s k).iter = s.iter + k := by
  induction k with
  | zero => rfl
  | succ k ih => rw [rounds]; change _ + 1 = _; rw [ih]; omega

/-- The loop makes `k` rounds for some `k`, all of them with the condition true, and ends with it false. -/
theorem rejectionLoop_eq (dens : Fin m → Fin N → ℝ) (inflation : ℝ) (maxRej : ℤ) (s : RState K m N) :
    ∃ k, rejectionLoop r lw dens inflation maxRej s = rounds r lw dens inflation s k ∧
      (∀ j < k, continues maxRej (rounds r lw dens inflation s j) = true) ∧ continues maxRej (rounds r lw dens inflation s k) = false := by
  induction hn : (maxRej - s.iter).toNat using Nat.strong_induction_on generalizing s with
  | _ q ih =>
    rw [rejectionLoop]
    by_cases h : continues maxRej s = true
    · rw [if_pos h]
      have hlt : (s.iter : ℤ) < maxRej := by
        simp only [continues, Bool.and_eq_true, decide_eq_true_eq] at h; exact h.2
      obtain ⟨k, h1, h2, h3⟩ := ih _ (by
        have e : (proposalAll r lw dens inflation s).iter = s.iter + 1 := rfl
        rw [← hn, e]; push_cast; omega) (proposalAll r lw dens inflation s) rfl
      refine ⟨k + 1, by rw [h1, rounds_shift], ?_, by rw [← rounds_shift]; exact h3⟩
      intro j hj
      cases j with
      | zero => exact h
      | succ j => rw [← rounds_shift]; exact h2 j (by omega)
    · rw [if_neg h]
      exact ⟨0, rfl, fun j hj => absurd hj (by omega), by rw [rounds]; simpa using h⟩

/-- C54: the loop makes at most `maximum_rejections - 1` rounds after the first one (which precedes it), none if `maximum_rejections` is not above 1, and ends with no particle pending or with
`maximum_rejections` rounds made. -/
theorem C54_bounded (dens : Fin m → Fin N → ℝ) (initBound inflation : ℝ) (maxRej : ℤ) (key : K) :
    ∃ k : ℕ, (k : ℤ) ≤ max 0 (maxRej - 1) ∧
      rejectionLoop r lw dens inflation maxRej (rejectionInit r lw dens initBound inflation key)
        = rounds r lw dens inflation (rejectionInit r lw dens initBound inflation key) k ∧
      ((∀ i, (rounds r lw dens inflation (rejectionInit r lw dens initBound inflation key) k).notYet i = false) ∨ maxRej ≤ k + 1) ∧
      ∀ j < k, ∃ i, (rounds r lw dens inflation (rejectionInit r lw dens initBound inflation key) j).notYet i = true := by
  set s := rejectionInit r lw dens initBound inflation key
  have hs : s.iter = 1 := rfl
  obtain ⟨k, h1, h2, h3⟩ := rejectionLoop_eq r lw dens inflation maxRej s
  refine ⟨k, ?_, h1, ?_, ?_⟩
  · cases k with
    | zero => simp
    | succ k =>
      have := h2 k (by omega)
      simp only [continues, Bool.and_eq_true, decide_eq_true_eq, rounds_iter, hs] at this
      push_cast
      omega
  · simp only [continues, Bool.and_eq_false_iff, decide_eq_false_iff_not, rounds_iter, hs] at h3
    rcases h3 with h | h
    · left
      intro i
      rw [RState.pending, Finset.card_pos, Finset.not_nonempty_iff_eq_empty] at h
      by_contra hi
      have : i ∈ Finset.univ.filter fun i => (rounds r lw dens inflation s k).notYet i = true := by simpa using hi
      rw [h] at this
      simp at this
    · right
      push_cast at h ⊢
      omega
  · intro j hj
    have := h2 j hj
    simp only [continues, Bool.and_eq_true, decide_eq_true_eq, RState.pending, Finset.card_pos] at this
    obtain ⟨i, hi⟩ := this.1
    exact ⟨i, by simpa using hi⟩

/-- C54: one round. The bound does not decrease; if it is not raised accepted particles stay accepted and keep their index and key; if it is raised every particle is pending again and the new bound is at least
every density seen in the round. -/
theorem C54_round (dens : Fin m → Fin N → ℝ) (hd : ∀ i j, 0 ≤ dens i j) (inflation : ℝ) (hinf : 1 ≤ inflation) (s : RState K m N) :
    s.bound ≤ (proposalAll r lw dens inflation s).bound ∧
    ((proposalAll r lw dens inflation s).bound = s.bound → ∀ i, s.notYet i = false →
      (proposalAll r lw dens inflation s).notYet i = false ∧ (proposalAll r lw dens inflation s).idx i = s.idx i ∧
      (proposalAll r lw dens inflation s).keys i = s.keys i) ∧
    (s.bound < (proposalAll r lw dens inflation s).bound → ∀ i, (proposalAll r lw dens inflation s).notYet i = true) ∧
    ∀ i, s.notYet i = true → dens i ((proposalAll r lw dens inflation s).idx i) ≤ (proposalAll r lw dens inflation s).bound := by
  have hmapped : ∀ i, s.notYet i = true → (proposalSingle r lw dens s i).2.1 = dens i (proposalSingle r lw dens s i).1 := by
    intro i hi
    simp [proposalSingle, hi]
  have hnn : ∀ i, 0 ≤ (proposalSingle r lw dens s i).2.1 := by
    intro i
    unfold proposalSingle
    split_ifs
    · exact hd _ _
    · exact le_refl _
  set M := maxOf fun i => (proposalSingle r lw dens s i).2.1 with hM
  have hM0 : 0 ≤ M := (hnn 0).trans (le_maxOf (fun i => (proposalSingle r lw dens s i).2.1) 0)
  by_cases h : s.bound < M
  · have hb : (proposalAll r lw dens inflation s).bound = M * inflation := by
      unfold proposalAll; dsimp only; rw [← hM, @decide_eq_true _ (_) h]; rfl
    have hle : M ≤ M * inflation := le_mul_of_one_le_right hM0 hinf
    refine ⟨by rw [hb]; linarith, fun he => ?_, fun _ i => ?_, fun i hi => ?_⟩
    · rw [hb] at he; linarith
    · unfold proposalAll; dsimp only; rw [← hM, @decide_eq_true _ (_) h]; rfl
    · rw [hb]
      refine le_trans ?_ hle
      change dens i (proposalSingle r lw dens s i).1 ≤ M
      rw [← hmapped i hi]
      exact le_maxOf (fun i => (proposalSingle r lw dens s i).2.1) i
  · have hb : (proposalAll r lw dens inflation s).bound = s.bound := by
      unfold proposalAll; dsimp only; rw [← hM, @decide_eq_false _ (_) h]; rfl
    refine ⟨hb.ge, fun _ i hi => ?_, fun hlt => absurd hlt (by rw [hb]; exact lt_irrefl _), fun i hi => ?_⟩
    · refine ⟨?_, ?_, ?_⟩
      · unfold proposalAll; dsimp only; rw [← hM, @decide_eq_false _ (_) h]; simp [proposalSingle, hi]
      · simp [proposalAll, proposalSingle, hi]
      · simp [proposalAll, proposalSingle, hi]
    · rw [hb]
      change dens i (proposalSingle r lw dens s i).1 ≤ s.bound
      rw [← hmapped i hi]
      exact (le_maxOf (fun i => (proposalSingle r lw dens s i).2.1) i).trans (not_lt.1 h)

/-- The invariant: every accepted particle's density is at most the current bound, and it was accepted against the current bound by some uniform drawn by the generator. -/
def Accepted (dens : Fin m → Fin N → ℝ) (s : RState K m N) : Prop :=
  ∀ i, s.notYet i = false → dens i (s.idx i) ≤ s.bound ∧ ∃ u, ((∃ k, u = r.uniform k) ∨ ∃ k j, u = r.uniforms k j) ∧ ¬ Rejects u (dens i (s.idx i)) s.bound

/-- C54: after every number of rounds, every accepted particle was accepted against the current bound, which dominates its density: a raised bound voids all earlier acceptances. -/
theorem C54_accepted (dens : Fin m → Fin N → ℝ) (hd : ∀ i j, 0 ≤ dens i j) (inflation : ℝ) (hinf : 1 ≤ inflation) (initBound : ℝ) (key : K) (k : ℕ) :
    Accepted r dens (rounds r lw dens inflation (rejectionInit r lw dens initBound inflation key) k) := by
  induction k with
  | zero =>
    intro i hi
    change (rejectionInit r lw dens initBound inflation key).notYet i = false at hi
    change dens i ((rejectionInit r lw dens initBound inflation key).idx i) ≤ (rejectionInit r lw dens initBound inflation key).bound ∧ _
    set s := rejectionInit r lw dens initBound inflation key with hs
    refine ⟨?_, r.uniforms (r.split3 key).2.1 i, Or.inr ⟨_, _, rfl⟩, ?_⟩
    · have hle := le_maxOf (fun i => dens i (s.idx i)) i
      have h0 : 0 ≤ maxOf fun i => dens i (s.idx i) := (hd _ _).trans hle
      by_cases hb : initBound < maxOf fun i => dens i (s.idx i)
      · have : s.bound = (maxOf fun i => dens i (s.idx i)) * inflation := by
          rw [hs]; unfold rejectionInit; exact if_pos hb
        rw [this]
        exact hle.trans (le_mul_of_one_le_right h0 hinf)
      · have : s.bound = initBound := by
          rw [hs]; unfold rejectionInit; exact if_neg hb
        rw [this]
        exact hle.trans (not_lt.1 hb)
    · intro hr
      have : s.notYet i = true := by
        rw [hs]; unfold rejectionInit
        exact @decide_eq_true _ (_) hr
      rw [this] at hi; cases hi
  | succ k ih =>
    rw [rounds]
    set s := rounds r lw dens inflation (rejectionInit r lw dens initBound inflation key) k
    intro i hi
    obtain ⟨h1, h2, h3, h4⟩ := C54_round r lw dens hd inflation hinf s
    have hb : (proposalAll r lw dens inflation s).bound = s.bound := by
      rcases h1.lt_or_eq with h | h
      · rw [h3 h i] at hi; cases hi
      · exact h.symm
    cases hy : s.notYet i with
    | false =>
      obtain ⟨-, hidx, -⟩ := h2 hb i hy
      rw [hidx, hb]
      exact ih i hy
    | true =>
      refine ⟨h4 i hy, r.uniform (r.split3 (s.keys i)).2.2, Or.inl ⟨_, rfl⟩, ?_⟩
      intro hr
      rw [hb] at hr
      have : (proposalAll r lw dens inflation s).notYet i = true := by
        change (if _ then true else (proposalSingle r lw dens s i).2.2.1) = true
        split_ifs
        · rfl
        · change Rejects _ (dens i (proposalSingle r lw dens s i).1) _ at hr
          simp only [proposalSingle, hy, if_true] at hr ⊢
          exact @decide_eq_true _ (_) hr
      rw [this] at hi; cases hi

theorem rounds_evals (dens : Fin m → Fin N → ℝ) (inflation : ℝ) (s : RState K m N) (k : ℕ) :
    (rounds r lw dens inflation s k).evals = s.evals + ∑ j ∈ Finset.range k, (rounds r lw dens inflation s j).pending := by
  induction k with
  | zero => simp [rounds]
  | succ k ih =>
    rw [Finset.sum_range_succ, ← add_assoc, ← ih]
    rfl

/-- C54: the result. Particles accepted by the loop are kept; each leftover is drawn from the full conditional weights; the reported cost is one evaluation per particle for the first round, one per pending
particle in each later round, and `N` per leftover. -/
theorem C54_result (pot : Fin m → Fin N → ℝ) (initBound inflation : ℝ) (maxRej : ℤ) (key : K) :
    ∃ (k : ℕ) (states : ℕ → RState K m N), (∀ j, states (j + 1) = proposalAll r lw (fun i j => Real.exp (-pot i j)) inflation (states j)) ∧
      states 0 = rejectionInit r lw (fun i j => Real.exp (-pot i j)) initBound inflation key ∧
      (k : ℤ) ≤ max 0 (maxRej - 1) ∧
      (rejection r lw pot initBound inflation maxRej key).2 = m + (∑ j ∈ Finset.range k, (states j).pending) + N * (states k).pending ∧
      ∀ i, ((states k).notYet i = false → (rejection r lw pot initBound inflation maxRej key).1 i = (states k).idx i) ∧
        ((states k).notYet i = true → (rejection r lw pot initBound inflation maxRej key).1 i
          = r.choice ((states k).keys i) fun j => Fl.sub (lw j) (Fl.fin (pot i j))) := by
  obtain ⟨k, h1, h2, -, -⟩ := C54_bounded r lw (fun i j => Real.exp (-pot i j)) initBound inflation maxRej key
  refine ⟨k, rounds r lw (fun i j => Real.exp (-pot i j)) inflation (rejectionInit r lw (fun i j => Real.exp (-pot i j)) initBound inflation key),
    fun j => rfl, rfl, h1, ?_, ?_⟩
  · unfold rejection
    dsimp only
    rw [h2, rounds_evals]
    rfl
  · intro i
    unfold rejection
    dsimp only
    rw [h2]
    refine ⟨fun h => by rw [h]; rfl, fun h => by rw [h]; rfl⟩

/-- The hypotheses of `C54_round` and `C54_accepted` on densities are met by those of the code, with its default inflation 1.01. -/
example (pot : Fin m → Fin N → ℝ) : (∀ i j, 0 ≤ Real.exp (-pot i j)) ∧ (1 : ℝ) ≤ 1.01 := ⟨fun _ _ => (Real.exp_pos _).le, by norm_num⟩

end

end Mocat.Props
