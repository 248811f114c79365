import Verif.Lemmas.Mcmc
import Mathlib.Tactic.NormNum
import Mathlib.Tactic.Linarith
/-!
# C12, C14, C15, C21: runs of MCMC samplers
-/
namespace Mocat.Props
open Mocat Mocat.Mcmc

variable {K σ π : Type*} {d : ℕ}

/-! ## C12: the chain returned by `run` -/

/-- C12, any sampler: the chain is the initial state followed by the states after 1, 2, ..., m updates;
no state before the last satisfied the termination criterion; if fewer than `max_iter` updates were
made the last state satisfies it. -/
theorem C12_run {σ ε : Type*} (update : σ → ε → σ × ε) (terminated : σ → ε → Bool) (maxIter : ℤ)
    (init : σ × ε) :
    ∃ m : ℕ, m ≤ maxIter.toNat ∧
      Run.run update terminated maxIter init
        = (List.range (m + 1)).map (fun i => (bodyIter update i init).1) ∧
      (∀ i < m, terminated (bodyIter update i init).1 (bodyIter update i init).2 = false) ∧
      (m < maxIter.toNat → terminated (bodyIter update m init).1 (bodyIter update m init).2 = true) := by
  obtain ⟨m, h1, h2, h3, h4⟩ :=
    C11_while_loop_stacked (fun s e => !(terminated s e)) update init maxIter
  refine ⟨m, h1, ?_, ?_, ?_⟩
  · rw [Run.run, h2, List.range_succ_eq_map, List.map_cons, List.map_map]; rfl
  · intro i hi; simpa using h3 i hi
  · intro h; simpa using h4 h

/-- The hooks of a sampler leave `extra.iter` alone. -/
structure KeepsIter (smp : Sampler K σ π) : Prop where
  always : ∀ s e, (smp.always s e).2.iter = e.iter
  proposal : ∀ s e, (smp.proposal s e).2.iter = e.iter

/-- A correction returns an `extra` with the counter of one of the two extras it is given. -/
def CorrKeepsIter (corr : Correction K σ π) : Prop :=
  ∀ smp rs re ps pe, (corr smp rs re ps pe).2.iter = re.iter ∨ (corr smp rs re ps pe).2.iter = pe.iter

theorem keepsIter_randomWalk (split3 : Split3 K) (normal : K → Fin d → ℝ) (pot : (Fin d → ℝ) → K → Fl) :
    KeepsIter (randomWalk split3 normal pot) := ⟨fun _ _ => rfl, fun _ _ => rfl⟩

theorem keepsIter_underdamped (split : K → K × K) (splitN : K → ℕ → K × List K) (normal : K → Fin d → ℝ)
    (prior lik : ValGrad K d) (T : ℝ) (L : ℕ) :
    KeepsIter (underdamped split splitN normal prior lik T L) := ⟨fun _ _ => rfl, fun _ _ => rfl⟩

theorem corrKeepsIter_uncorrected : CorrKeepsIter (uncorrected : Correction K σ π) :=
  fun _ _ _ _ _ => Or.inr rfl

theorem corrKeepsIter_metropolis (split : K → K × K) (uniform : K → ℝ) :
    CorrKeepsIter (metropolis split uniform : Correction K σ π) := by
  intro smp rs re ps pe
  classical
  simp only [metropolis]
  by_cases h : Fl.lt (Fl.fin (uniform (split pe.key).2))
      (if (smp.acceptance rs re ps pe).isNan then Fl.fin 0 else smp.acceptance rs re ps pe)
  · right; rw [if_pos h]
  · left; rw [if_neg h]

theorem corrKeepsIter_rm (rm : RM π) (sup : Correction K σ π) (h : CorrKeepsIter sup) :
    CorrKeepsIter (rm.correct sup) := by
  intro smp rs re ps pe
  have := h smp rs re ps pe
  simp only [RM.correct]
  split <;> (split <;> exact this)

theorem update_iter (smp : Sampler K σ π) (corr : Correction K σ π) (hs : KeepsIter smp)
    (hc : CorrKeepsIter corr) (s : State σ) (e : Extra K π) :
    (update smp corr s e).2.iter = e.iter + 1 := by
  simp only [update]
  rcases hc smp _ _ _ _ with h | h <;> rw [h]
  · rw [hs.always]
  · rw [hs.proposal, hs.always]

/-- C21: after `k` updates the counter has increased by exactly `k`, for every sampler whose hooks do
not touch the counter and every correction that returns one of its extras (so in particular for
`RandomWalk` and `Underdamped` with no correction, `Metropolis`, or `RMMetropolis` around either). -/
theorem C21_iter_counts (smp : Sampler K σ π) (corr : Correction K σ π) (hs : KeepsIter smp)
    (hc : CorrKeepsIter corr) (s0 : State σ) (e0 : Extra K π) (k : ℕ) :
    (bodyIter (update smp corr) k (s0, e0)).2.iter = e0.iter + k := by
  induction k with
  | zero => rfl
  | succ k ih => rw [bodyIter_succ, update_iter _ _ hs hc, ih]; omega

/-- Non-vacuity of C21: RandomWalk with RMMetropolis around Metropolis. -/
example (split3 : Split3 K) (normal : K → Fin d → ℝ) (pot : (Fin d → ℝ) → K → Fl) (split : K → K × K)
    (uniform : K → ℝ) (rm : RM ℝ) (s0) (e0 : Extra K ℝ) :
    (bodyIter (update (randomWalk split3 normal pot) (rm.correct (metropolis split uniform))) 7 (s0, e0)).2.iter
      = e0.iter + 7 :=
  C21_iter_counts _ _ (keepsIter_randomWalk _ _ _) (corrKeepsIter_rm _ _ (corrKeepsIter_metropolis _ _)) _ _ _

/-- C12 for MCMC samplers: a run of size `n` started at counter `k` returns the states after
`0, 1, ..., n - 1 - k` updates (natural subtraction), hence exactly `n` states when `k = 0`, `n ≥ 1`. -/
theorem C12_mcmc (smp : Sampler K σ π) (corr : Correction K σ π) (hs : KeepsIter smp)
    (hc : CorrKeepsIter corr) (n : ℤ) (s0 : State σ) (e0 : Extra K π) :
    runFrom smp corr n s0 e0
      = (List.range ((n - 1 - e0.iter).toNat + 1)).map
          (fun i => (bodyIter (update smp corr) i (s0, e0)).1) := by
  obtain ⟨m, h1, h2, h3, h4⟩ := C12_run (update smp corr) (fun _ e => terminated (n - 1) e) (n - 1) (s0, e0)
  have hit := C21_iter_counts smp corr hs hc s0 e0
  have hm : m = (n - 1 - e0.iter).toNat := by
    have a : ∀ i < m, (e0.iter : ℤ) + i < n - 1 := by
      intro i hi
      have := h3 i hi
      simp only [terminated, hit, decide_eq_false_iff_not, not_le] at this
      push_cast at this; exact this
    have b : m < (n - 1).toNat → n - 1 ≤ (e0.iter : ℤ) + m := by
      intro h
      have := h4 h
      simp only [terminated, hit, decide_eq_true_eq] at this
      push_cast at this; exact this
    rcases Nat.lt_trichotomy m ((n - 1 - e0.iter).toNat) with h | h | h
    · have := b (by omega); omega
    · exact h
    · have := a (m - 1) (by omega); omega
  rw [runFrom, h2, hm]

/-- C12: exactly `n` states. -/
theorem C12_mcmc_length (smp : Sampler K σ π) (corr : Correction K σ π) (hs : KeepsIter smp)
    (hc : CorrKeepsIter corr) (n : ℤ) (hn : 1 ≤ n) (s0 : State σ) (e0 : Extra K π) (h0 : e0.iter = 0) :
    ((runFrom smp corr n s0 e0).length : ℤ) = n := by
  rw [C12_mcmc smp corr hs hc]; simp [h0]; omega

/-- Non-vacuity of C12: a run of size 5 of Underdamped + Metropolis has 5 states. -/
example (split : K → K × K) (splitN : K → ℕ → K × List K) (normal : K → Fin 2 → ℝ) (prior lik : ValGrad K 2)
    (uniform : K → ℝ) (s0) (key : K) (p : UDParams) :
    ((runFrom (underdamped split splitN normal prior lik 1 3) (metropolis split uniform) 5 s0 ⟨key, 0, p⟩).length : ℤ) = 5 :=
  C12_mcmc_length _ _ (keepsIter_underdamped _ _ _ _ _ _ _) (corrKeepsIter_metropolis _ _) 5 (by norm_num) _ _ rfl

/-! ## C14: accept/reject is all or nothing -/

/-- C14. With `a` the acceptance probability computed by the sampler (NaN replaced by 0) and `u` the
uniform drawn from the second half of the proposed key: the new state is the whole proposed state if
`u < a` and the whole rejected state otherwise, except `alpha := a`; likewise the extra, except for the
key, which is always the first half of the split. -/
theorem C14_all_or_nothing (split : K → K × K) (uniform : K → ℝ) (smp : Sampler K σ π)
    (rs : State σ) (re : Extra K π) (ps : State σ) (pe : Extra K π) :
    ∃ a : Fl, a = (if (smp.acceptance rs re ps pe).isNan then Fl.fin 0 else smp.acceptance rs re ps pe) ∧
      (Fl.lt (Fl.fin (uniform (split pe.key).2)) a →
        metropolis split uniform smp rs re ps pe
          = ({ ps with alpha := a }, ⟨(split pe.key).1, pe.iter, pe.params⟩)) ∧
      (¬ Fl.lt (Fl.fin (uniform (split pe.key).2)) a →
        metropolis split uniform smp rs re ps pe
          = ({ rs with alpha := a }, ⟨(split pe.key).1, re.iter, re.params⟩)) := by
  classical
  refine ⟨_, rfl, ?_, ?_⟩ <;> intro h
  · simp only [metropolis]; rw [if_pos h]
  · simp only [metropolis]; rw [if_neg h]

/-- C14 for a whole update: the fallback of a rejected proposal is the state after `always`, the proposal starts from that same state. -/
theorem C14_update (split : K → K × K) (uniform : K → ℝ) (smp : Sampler K σ π) (s : State σ) (e : Extra K π)
    (rs : State σ) (re : Extra K π) (hr : smp.always s { e with iter := e.iter + 1 } = (rs, re))
    (ps : State σ) (pe : Extra K π) (hp : smp.proposal rs re = (ps, pe)) :
    ∃ a : Fl, a = (if (smp.acceptance rs re ps pe).isNan then Fl.fin 0 else smp.acceptance rs re ps pe) ∧
      (Fl.lt (Fl.fin (uniform (split pe.key).2)) a →
        update smp (metropolis split uniform) s e = ({ ps with alpha := a }, ⟨(split pe.key).1, pe.iter, pe.params⟩)) ∧
      (¬ Fl.lt (Fl.fin (uniform (split pe.key).2)) a →
        update smp (metropolis split uniform) s e = ({ rs with alpha := a }, ⟨(split pe.key).1, re.iter, re.params⟩)) := by
  obtain ⟨a, h1, h2, h3⟩ := C14_all_or_nothing split uniform smp rs re ps pe
  have hu : update smp (metropolis split uniform) s e = metropolis split uniform smp rs re ps pe := by
    simp only [update, hr, hp]
  exact ⟨a, h1, fun h => by rw [hu, h2 h], fun h => by rw [hu, h3 h]⟩

/-- C14: a NaN acceptance probability is never accepted (uniforms are `≥ 0`). -/
theorem C14_nan_rejected (split : K → K × K) (uniform : K → ℝ) (hu : ∀ k, 0 ≤ uniform k)
    (smp : Sampler K σ π) (rs : State σ) (re : Extra K π) (ps : State σ) (pe : Extra K π)
    (hnan : smp.acceptance rs re ps pe = Fl.nan) :
    (metropolis split uniform smp rs re ps pe).1 = { rs with alpha := Fl.fin 0 } := by
  obtain ⟨a, ha, _, h2⟩ := C14_all_or_nothing split uniform smp rs re ps pe
  have ha : a = Fl.fin 0 := by rw [ha, hnan]; rfl
  rw [h2 (by rw [ha]; simpa [Fl.lt] using hu _), ha]

/-- C14: acceptance probability 1 is always accepted (uniforms are `< 1`). -/
theorem C14_certain_accept (split : K → K × K) (uniform : K → ℝ) (hu : ∀ k, uniform k < 1)
    (smp : Sampler K σ π) (rs : State σ) (re : Extra K π) (ps : State σ) (pe : Extra K π)
    (hone : smp.acceptance rs re ps pe = Fl.fin 1) :
    (metropolis split uniform smp rs re ps pe).1 = { ps with alpha := Fl.fin 1 } := by
  obtain ⟨a, ha, h1, _⟩ := C14_all_or_nothing split uniform smp rs re ps pe
  have ha : a = Fl.fin 1 := by rw [ha, hone]; rfl
  rw [h1 (by rw [ha]; exact hu _), ha]

/-- C14: acceptance probability 0 is never accepted. -/
theorem C14_zero_rejected (split : K → K × K) (uniform : K → ℝ) (hu : ∀ k, 0 ≤ uniform k)
    (smp : Sampler K σ π) (rs : State σ) (re : Extra K π) (ps : State σ) (pe : Extra K π)
    (hzero : smp.acceptance rs re ps pe = Fl.fin 0) :
    (metropolis split uniform smp rs re ps pe).1 = { rs with alpha := Fl.fin 0 } := by
  obtain ⟨a, ha, _, h2⟩ := C14_all_or_nothing split uniform smp rs re ps pe
  have ha : a = Fl.fin 0 := by rw [ha, hzero]; rfl
  rw [h2 (by rw [ha]; simpa [Fl.lt] using hu _), ha]

theorem alpha_range_aux (split : K → K × K) (uniform : K → ℝ) (smp : Sampler K σ π)
    (rs : State σ) (re : Extra K π) (ps : State σ) (pe : Extra K π) (x : Fl)
    (h : smp.acceptance rs re ps pe = Fl.minimum (Fl.fin 1) (Fl.exp x)) :
    ∃ a, 0 ≤ a ∧ a ≤ 1 ∧ (metropolis split uniform smp rs re ps pe).1.alpha = Fl.fin a := by
  simp only [metropolis, h]
  by_cases hn : (Fl.minimum (Fl.fin 1) (Fl.exp x)).isNan = true
  · exact ⟨0, le_refl _, zero_le_one, by simp [hn]⟩
  · obtain ⟨a, h0, h1, h2⟩ := Fl.minimum_one_exp x (by simpa using hn)
    exact ⟨a, h0, h1, by simp [Fl.isNan, h2]⟩

/-- C14: the recorded acceptance probability of a RandomWalk step is a number in `[0, 1]`, whatever the
potentials (finite, infinite or NaN). -/
theorem C14_alpha_range_randomWalk (split3 : Split3 K) (normal : K → Fin d → ℝ)
    (pot : (Fin d → ℝ) → K → Fl) (split : K → K × K) (uniform : K → ℝ)
    (s : State (RWPayload d)) (e : Extra K ℝ) :
    ∃ a, 0 ≤ a ∧ a ≤ 1 ∧
      (update (randomWalk split3 normal pot) (metropolis split uniform) s e).1.alpha = Fl.fin a :=
  alpha_range_aux _ _ _ _ _ _ _ _ rfl

/-- C14: the same for Underdamped. -/
theorem C14_alpha_range_underdamped (split : K → K × K) (splitN : K → ℕ → K × List K)
    (normal : K → Fin d → ℝ) (prior lik : ValGrad K d) (T : ℝ) (L : ℕ) (uniform : K → ℝ)
    (s : State (LfState d)) (e : Extra K UDParams) :
    ∃ a, 0 ≤ a ∧ a ≤ 1 ∧
      (update (underdamped split splitN normal prior lik T L) (metropolis split uniform) s e).1.alpha = Fl.fin a := by
  have h : ∀ rs re ps pe, ∃ x, (underdamped split splitN normal prior lik T L).acceptance rs re ps pe
      = Fl.minimum (Fl.fin 1) (Fl.exp x) := by
    intros; simp only [underdamped]; exact ⟨_, rfl⟩
  unfold update
  obtain ⟨x, hx⟩ := h _ _ _ _
  exact alpha_range_aux _ _ _ _ _ _ _ x hx

/-- Non-vacuity: both branches of C14 occur. -/
example (ps rs : State ℕ) (e : Extra Unit Unit) :
    let smp : Sampler Unit ℕ Unit := ⟨fun s e => (s, e), fun s e => (s, e), fun _ _ _ _ => Fl.fin (1 / 2)⟩
    (metropolis (fun _ => ((), ())) (fun _ => 1 / 4) smp rs e ps e).1.payload = ps.payload ∧
    (metropolis (fun _ => ((), ())) (fun _ => 3 / 4) smp rs e ps e).1.payload = rs.payload := by
  intro smp
  obtain ⟨a, ha, h1, -⟩ := C14_all_or_nothing (fun _ => ((), ())) (fun _ => 1 / 4) smp rs e ps e
  obtain ⟨b, hb, -, h2⟩ := C14_all_or_nothing (fun _ => ((), ())) (fun _ => 3 / 4) smp rs e ps e
  simp only [smp, Fl.isNan, Bool.false_eq_true, if_false] at ha hb
  subst ha hb
  rw [h1 (by norm_num [Fl.lt]), h2 (by norm_num [Fl.lt])]
  exact ⟨rfl, rfl⟩

/-! ## C15: a chain never enters a zero-density or NaN state -/

/-- Neither `+inf` (zero density) nor NaN. -/
def LivePotential (p : Fl) : Prop := p ≠ Fl.pinf ∧ p ≠ Fl.nan

theorem live_of_accept (p q : Fl) (u : ℝ) (hu : 0 ≤ u) (hq : LivePotential q)
    (h : Fl.lt (Fl.fin u) (if (Fl.minimum (Fl.fin 1) (Fl.exp (Fl.add (Fl.neg p) q))).isNan then Fl.fin 0
      else Fl.minimum (Fl.fin 1) (Fl.exp (Fl.add (Fl.neg p) q)))) : LivePotential p := by
  obtain ⟨hq1, hq2⟩ := hq
  refine ⟨?_, ?_⟩ <;> rintro rfl <;> cases q <;>
    simp_all [Fl.neg, Fl.add, Fl.exp, Fl.minimum, Fl.lt, Fl.isNan] <;> linarith

/-- C15: every state of every RandomWalk + Metropolis run from a state of positive density has a
potential that is neither `+inf` nor NaN. -/
theorem C15_never_zero_density (split3 : Split3 K) (normal : K → Fin d → ℝ)
    (pot : (Fin d → ℝ) → K → Fl) (split : K → K × K) (uniform : K → ℝ) (hu : ∀ k, 0 ≤ uniform k)
    (n : ℤ) (s0 : State (RWPayload d)) (e0 : Extra K ℝ) (h0 : LivePotential s0.payload.potential) :
    ∀ s ∈ runFrom (randomWalk split3 normal pot) (metropolis split uniform) n s0 e0,
      LivePotential s.payload.potential := by
  rw [C12_mcmc _ _ (keepsIter_randomWalk _ _ _) (corrKeepsIter_metropolis _ _)]
  intro s hs
  obtain ⟨i, -, rfl⟩ := List.mem_map.mp hs
  refine bodyIter_inv _ (fun c : State (RWPayload d) × Extra K ℝ => LivePotential c.1.payload.potential) _ h0 ?_ i
  intro s e hse
  obtain ⟨a, ha, h1, h2⟩ := C14_all_or_nothing split uniform (randomWalk split3 normal pot) s
    { e with iter := e.iter + 1 }
    ((randomWalk split3 normal pot).proposal s { e with iter := e.iter + 1 }).1
    ((randomWalk split3 normal pot).proposal s { e with iter := e.iter + 1 }).2
  change LivePotential (metropolis split uniform (randomWalk split3 normal pot) s
    { e with iter := e.iter + 1 }
    ((randomWalk split3 normal pot).proposal s { e with iter := e.iter + 1 }).1
    ((randomWalk split3 normal pot).proposal s { e with iter := e.iter + 1 }).2).1.payload.potential
  by_cases hacc : Fl.lt (Fl.fin (uniform
      (split ((randomWalk split3 normal pot).proposal s { e with iter := e.iter + 1 }).2.key).2)) a
  · rw [h1 hacc]
    have hu' := hu (split ((randomWalk split3 normal pot).proposal s { e with iter := e.iter + 1 }).2.key).2
    exact live_of_accept _ _ _ hu' hse (ha ▸ hacc)
  · rw [h2 hacc]; exact hse

/-- C15: the stored potential is always the scenario's potential of the stored value (for some key). -/
theorem C15_potential_of_value (split3 : Split3 K) (normal : K → Fin d → ℝ)
    (pot : (Fin d → ℝ) → K → Fl) (split : K → K × K) (uniform : K → ℝ)
    (n : ℤ) (s0 : State (RWPayload d)) (e0 : Extra K ℝ)
    (h0 : ∃ k, s0.payload.potential = pot s0.payload.value k) :
    ∀ s ∈ runFrom (randomWalk split3 normal pot) (metropolis split uniform) n s0 e0,
      ∃ k, s.payload.potential = pot s.payload.value k := by
  rw [C12_mcmc _ _ (keepsIter_randomWalk _ _ _) (corrKeepsIter_metropolis _ _)]
  intro s hs
  obtain ⟨i, -, rfl⟩ := List.mem_map.mp hs
  refine bodyIter_inv _ (fun c : State (RWPayload d) × Extra K ℝ => ∃ k, c.1.payload.potential = pot c.1.payload.value k) _ h0 ?_ i
  intro s e hse
  obtain ⟨a, ha, h1, h2⟩ := C14_all_or_nothing split uniform (randomWalk split3 normal pot) s
    { e with iter := e.iter + 1 }
    ((randomWalk split3 normal pot).proposal s { e with iter := e.iter + 1 }).1
    ((randomWalk split3 normal pot).proposal s { e with iter := e.iter + 1 }).2
  have hupd : update (randomWalk split3 normal pot) (metropolis split uniform) s e
    = metropolis split uniform (randomWalk split3 normal pot) s { e with iter := e.iter + 1 }
      ((randomWalk split3 normal pot).proposal s { e with iter := e.iter + 1 }).1
      ((randomWalk split3 normal pot).proposal s { e with iter := e.iter + 1 }).2 := rfl
  rw [hupd]
  by_cases hacc : Fl.lt (Fl.fin (uniform
      (split ((randomWalk split3 normal pot).proposal s { e with iter := e.iter + 1 }).2.key).2)) a
  · rw [h1 hacc]; exact ⟨_, rfl⟩
  · rw [h2 hacc]; exact hse

/-- Non-vacuity of C15: a potential that is `+inf` off the positive half line, started inside. -/
example : LivePotential (Fl.fin 3) ∧
    ∃ pot : (Fin 1 → ℝ) → Unit → Fl, pot (fun _ => 1) () = Fl.fin 1 ∧ pot (fun _ => -1) () = Fl.pinf := by
  refine ⟨⟨by simp, by simp⟩, ?_⟩
  classical
  refine ⟨fun x _ => if 0 < x 0 then Fl.fin (x 0) else Fl.pinf, ?_, ?_⟩
  · simp
  · simp

end Mocat.Props
