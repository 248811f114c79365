import Verif.Model.AbcScenarios
import Verif.Props.Loop
import Mathlib.MeasureTheory.Measure.Lebesgue.Basic
import Mathlib.Tactic.Linarith
import Mathlib.Tactic.Positivity
import Mathlib.Tactic.FinCases
import Mathlib.Data.List.GetD
/-!
# C65, C66, C76: the jump processes of `mocat/src/abc/scenarios`
-/
namespace Mocat.Props
open Mocat Mocat.AbcScenarios Mocat.Loop MeasureTheory

/-! ## `random.choice` -/

/-- Library assumption on `random.choice(key, m, p=p)`: for a probability vector it returns an index of non-zero probability. -/
def ValidChoice {K : Type} {m : ℕ} (choice : K → (Fin m → ℝ) → Fin m) : Prop :=
  ∀ (k : K) (p : Fin m → ℝ), (∀ i, 0 ≤ p i) → ∑ i, p i = 1 → 0 < p (choice k p)

/-- JAX's algorithm (jax/_src/random.py, `choice`): `searchsorted(cumsum(p), total * (1 - u))`. -/
noncomputable def jaxChoice {m : ℕ} (u : ℝ) (p : Fin (m + 1) → ℝ) : Fin (m + 1) :=
  open Classical in
  if h : ∃ j : ℕ, ∃ _ : j < m + 1, (∑ i, p i) * (1 - u) ≤ ∑ i ∈ Finset.univ.filter (fun i : Fin (m + 1) => i.val ≤ j), p i
  then ⟨Nat.find h, (Nat.find_spec h).1⟩ else 0

/-- The assumption holds for JAX's algorithm with uniforms in `[0, 1)`. -/
theorem validChoice_jax {K : Type} {m : ℕ} (uniform : K → ℝ) (hu : ∀ k, 0 ≤ uniform k ∧ uniform k < 1) :
    ValidChoice fun k (p : Fin (m + 1) → ℝ) => jaxChoice (uniform k) p := by
  classical
  intro k p hp hsum
  have h : ∃ j : ℕ, ∃ _ : j < m + 1, (∑ i, p i) * (1 - uniform k)
      ≤ ∑ i ∈ Finset.univ.filter (fun i : Fin (m + 1) => i.val ≤ j), p i := by
    refine ⟨m, Nat.lt_succ_self m, ?_⟩
    have : Finset.univ.filter (fun i : Fin (m + 1) => i.val ≤ m) = Finset.univ :=
      Finset.filter_true_of_mem fun i _ => Nat.lt_succ_iff.mp i.2
    rw [this, hsum]; linarith [(hu k).1]
  have hj : jaxChoice (uniform k) p = ⟨Nat.find h, (Nat.find_spec h).1⟩ := by
    unfold jaxChoice; exact dif_pos h
  show 0 < p (jaxChoice (uniform k) p)
  rw [hj]
  have hspec := (Nat.find_spec h).2
  rcases Nat.eq_zero_or_pos (Nat.find h) with h0 | hpos
  · have he : Finset.univ.filter (fun i : Fin (m + 1) => i.val ≤ Nat.find h) = {⟨Nat.find h, (Nat.find_spec h).1⟩} := by
      ext i
      rw [Finset.mem_filter, Finset.mem_singleton, Fin.ext_iff]
      simp only [Finset.mem_univ, true_and]; omega
    rw [he, Finset.sum_singleton] at hspec
    have h2 : (∑ i, p i) * (1 - uniform k) = 1 - uniform k := by rw [hsum, one_mul]
    linarith [(hu k).2]
  · have hlt : ¬ ∃ _ : Nat.find h - 1 < m + 1, (∑ i, p i) * (1 - uniform k)
        ≤ ∑ i ∈ Finset.univ.filter (fun i : Fin (m + 1) => i.val ≤ Nat.find h - 1), p i :=
      Nat.find_min h (by omega)
    have hlt' : ∑ i ∈ Finset.univ.filter (fun i : Fin (m + 1) => i.val ≤ Nat.find h - 1), p i < (∑ i, p i) * (1 - uniform k) := by
      by_contra hc
      exact hlt ⟨by have := (Nat.find_spec h).1; omega, not_lt.mp hc⟩
    have he : Finset.univ.filter (fun i : Fin (m + 1) => i.val ≤ Nat.find h)
        = insert ⟨Nat.find h, (Nat.find_spec h).1⟩ (Finset.univ.filter (fun i : Fin (m + 1) => i.val ≤ Nat.find h - 1)) := by
      ext i
      rw [Finset.mem_filter, Finset.mem_insert, Finset.mem_filter, Fin.ext_iff]
      simp only [Finset.mem_univ, true_and]; omega
    have hn : (⟨Nat.find h, (Nat.find_spec h).1⟩ : Fin (m + 1))
        ∉ Finset.univ.filter (fun i : Fin (m + 1) => i.val ≤ Nat.find h - 1) := by
      rw [Finset.mem_filter]; simp only [Finset.mem_univ, true_and]; omega
    rw [he, Finset.sum_insert hn] at hspec
    linarith

/-! ## C65: SIR -/

variable {K : Type}

/-- Susceptible and infected counts along the simulation: `sirPath k` is the state after `k` events. -/
noncomputable def sirPath (rng : Rng K 2) (params : Fin 2 → ℝ) (pop : ℝ) (init : ℤ × ℤ) (key : K) (k : ℕ) : ℤ × ℤ :=
  (bodyIter (sirSingleStep rng params pop) k ((init, Fl.fin 0), key)).1.1

/-- One SIR event: an infection of a susceptible, or a removal of an infected. (Specification.) -/
inductive SirEvent : ℤ × ℤ → ℤ × ℤ → Prop
  | infection {s i : ℤ} (hs : 0 < s) : SirEvent (s, i) (s - 1, i + 1)
  | removal {s i : ℤ} (hi : 0 < i) : SirEvent (s, i) (s, i - 1)

/-- A step from a state with infected is an SIR event. -/
theorem sirStep_event (rng : Rng K 2) (hc : ValidChoice rng.choice) (params : Fin 2 → ℝ) (h0 : 0 ≤ params 0)
    (h1 : 0 < params 1) (pop : ℝ) (hpop : 0 < pop) (carry : (ℤ × ℤ) × Fl) (key : K) (hs : 0 ≤ carry.1.1) (hi : 0 < carry.1.2) :
    SirEvent carry.1 (sirSingleStep rng params pop carry key).1.1 := by
  obtain ⟨⟨s, i⟩, t⟩ := carry
  simp only at hs hi
  have hsR : (0 : ℝ) ≤ s := by exact_mod_cast hs
  have hiR : (0 : ℝ) < i := by exact_mod_cast hi
  have ha : 0 ≤ params 0 / pop * s * i := by positivity
  have hb : 0 < params 1 * i := by positivity
  set S : ℝ := ∑ j, sirHazards params pop (s, i) j with hS
  have hSval : S = params 0 / pop * s * i + params 1 * i := by
    rw [hS, Fin.sum_univ_two]; rfl
  have hSpos : 0 < S := by rw [hSval]; linarith
  have hpos := hc (rng.split3 key).2.1 (fun j => sirHazards params pop (s, i) j / S)
    (fun j => by
      apply div_nonneg _ hSpos.le
      fin_cases j
      · exact ha
      · exact hb.le)
    (by rw [← Finset.sum_div, ← hS, div_self hSpos.ne'])
  show SirEvent (s, i) (sirPossibilities (s, i) (rng.choice (rng.split3 key).2.1 fun j => sirHazards params pop (s, i) j / S))
  generalize rng.choice (rng.split3 key).2.1 (fun j => sirHazards params pop (s, i) j / S) = j at hpos
  fin_cases j
  · apply SirEvent.infection
    by_contra hn
    have : s = 0 := by omega
    subst this
    simp [sirHazards] at hpos
  · exact SirEvent.removal hi

theorem sirPath_succ (rng : Rng K 2) (params : Fin 2 → ℝ) (pop : ℝ) (init : ℤ × ℤ) (key : K) (k : ℕ) :
    ∃ carry key', carry.1 = sirPath rng params pop init key k ∧
      sirPath rng params pop init key (k + 1) = (sirSingleStep rng params pop carry key').1.1 := by
  refine ⟨(bodyIter (sirSingleStep rng params pop) k ((init, Fl.fin 0), key)).1,
    (bodyIter (sirSingleStep rng params pop) k ((init, Fl.fin 0), key)).2, rfl, ?_⟩
  simp [sirPath, bodyIter, Function.iterate_succ_apply']

/-- Invariant of the first `k` events. -/
theorem sirPath_inv (rng : Rng K 2) (hc : ValidChoice rng.choice) (params : Fin 2 → ℝ) (h0 : 0 ≤ params 0)
    (h1 : 0 < params 1) (pop : ℝ) (hpop : 0 < pop) (s0 i0 : ℕ) (key : K) (k : ℕ)
    (hlive : ∀ j < k, 0 < (sirPath rng params pop (s0, i0) key j).2) :
    0 ≤ (sirPath rng params pop (s0, i0) key k).1 ∧ 0 ≤ (sirPath rng params pop (s0, i0) key k).2 ∧
      (k : ℤ) + 2 * (sirPath rng params pop (s0, i0) key k).1 + (sirPath rng params pop (s0, i0) key k).2 = 2 * s0 + i0 := by
  induction k with
  | zero => simp [sirPath, bodyIter]
  | succ k ih =>
    obtain ⟨ha, hb, hsum⟩ := ih fun j hj => hlive j (by omega)
    obtain ⟨carry, key', hcarry, hstep⟩ := sirPath_succ rng params pop (s0, i0) key k
    have hl := hlive k (Nat.lt_succ_self k)
    have hev := sirStep_event rng hc params h0 h1 pop hpop carry key' (by rw [hcarry]; exact ha) (by rw [hcarry]; exact hl)
    rw [← hstep, hcarry] at hev
    generalize sirPath rng params pop (s0, i0) key (k + 1) = b at hev
    generalize sirPath rng params pop (s0, i0) key k = a at hev ha hb hsum hl
    cases hev <;> simp only at * <;> push_cast <;> refine ⟨?_, ?_, ?_⟩ <;> omega

/-- C65. The simulated counts are the states after 1, 2, ..., m events, followed by copies of the initial state up to the
length `max_iter`; each event is an infection or a removal and happens while there are infected; counts are never negative; `m` is at most
`2 * S0 + I0`, and at most `max_iter`. If `max_iter` allows, the epidemic ends: no infected are left after `m` events, and `m`
is twice the number of infections plus `I0`. -/
theorem C65_sir (rng : Rng K 2) (hc : ValidChoice rng.choice) (params : Fin 2 → ℝ) (h0 : 0 ≤ params 0)
    (h1 : 0 < params 1) (pop : ℝ) (hpop : 0 < pop) (s0 i0 : ℕ) (key : K) (maxIter : ℤ) :
    ∃ (m : ℕ) (path : ℕ → ℤ × ℤ), path 0 = ((s0 : ℤ), (i0 : ℤ)) ∧
      (sirSimulate rng (s0, i0) params pop key maxIter).2
        = (List.range m).map (fun k => path (k + 1)) ++ List.replicate (maxIter.toNat - m) ((s0 : ℤ), (i0 : ℤ)) ∧
      (∀ k < m, SirEvent (path k) (path (k + 1))) ∧
      (∀ k < m, 0 < (path k).2) ∧
      (∀ k ≤ m, 0 ≤ (path k).1 ∧ 0 ≤ (path k).2) ∧
      m ≤ 2 * s0 + i0 ∧ (m : ℤ) ≤ max maxIter 0 ∧
      (2 * (s0 : ℤ) + i0 ≤ maxIter → (path m).2 = 0 ∧ (m : ℤ) = 2 * (s0 - (path m).1) + i0) := by
  obtain ⟨m, hm, hstack, -, -, hlive, hstop⟩ := C11_raw_stack
    (fun (carry : (ℤ × ℤ) × Fl) (_ : K) => decide (carry.1.2 > 0)) (sirSingleStep rng params pop)
    ((((s0 : ℤ), (i0 : ℤ)), Fl.fin 0), key) maxIter
  have hlive' : ∀ k < m, 0 < (sirPath rng params pop (s0, i0) key k).2 := fun k hk => of_decide_eq_true (hlive k hk)
  have hinv := fun k (hk : k ≤ m) => sirPath_inv rng hc params h0 h1 pop hpop s0 i0 key k fun j hj => hlive' j (by omega)
  have hm2 := hinv m le_rfl
  refine ⟨m, sirPath rng params pop (s0, i0) key, rfl, ?_, ?_, hlive', fun k hk => ⟨(hinv k hk).1, (hinv k hk).2.1⟩, by omega,
    by omega, fun hmax => ?_⟩
  · simp only [sirSimulate]
    rw [hstack, List.map_append, List.map_map, List.map_replicate]
    rfl
  · intro k hk
    obtain ⟨carry, key', hcarry, hstep⟩ := sirPath_succ rng params pop (s0, i0) key k
    rw [hstep, ← hcarry]
    exact sirStep_event rng hc params h0 h1 pop hpop carry key' (by rw [hcarry]; exact (hinv k hk.le).1)
      (by rw [hcarry]; exact hlive' k hk)
  · have hend : (sirPath rng params pop (s0, i0) key m).2 = 0 := by
      rcases lt_or_ge m maxIter.toNat with hlt | hge
      · have := of_decide_eq_false (hstop hlt)
        have h3 : ¬ 0 < (sirPath rng params pop (s0, i0) key m).2 := this
        omega
      · omega
    exact ⟨hend, by omega⟩

/-- C65: susceptibles never increase, and neither does susceptible plus infected. -/
theorem C65_monotone {a b : ℤ × ℤ} (h : SirEvent a b) : b.1 ≤ a.1 ∧ b.1 + b.2 ≤ a.1 + a.2 := by
  cases h <;> simp only <;> omega

/-- The hypotheses of C65 can be met: a generator, and an epidemic that starts with 3 susceptibles and 1 infected. -/
example : ∃ m : ℕ, m ≤ 7 ∧ (sirSimulate (K := Unit) ⟨fun _ => ((), (), ()), fun _ => 1 / 2, fun _ p => jaxChoice (1 / 2) p⟩
    (3, 1) ![1, 1] 4 () 100).2.length = m + (100 - m) := by
  obtain ⟨m, path, -, hst, -, -, -, hm, -, -⟩ := C65_sir (K := Unit)
    ⟨fun _ => ((), (), ()), fun _ => 1 / 2, fun _ p => jaxChoice (1 / 2) p⟩
    (validChoice_jax (fun _ : Unit => 1 / 2) fun _ => by norm_num) ![1, 1] (by simp) (by simp) 4 (by norm_num) 3 1 () 100
  refine ⟨m, by omega, ?_⟩
  have hl := congrArg List.length hst
  simp only [List.length_append, List.length_map, List.length_range, List.length_replicate] at hl
  exact hl

/-! ## C66: exponential times -/

theorem negLog_nonneg_iff (u : ℝ) (hu : 0 ≤ u) : 0 ≤ negLog u ↔ u ≤ 1 - 1e-6 := by
  have hpos : 0 < buffer + u := by unfold buffer; positivity
  rw [negLog, neg_nonneg, Real.log_nonpos_iff hpos.le]
  unfold buffer
  constructor <;> intro h <;> linarith

theorem negLog_pos_iff (u : ℝ) (hu : 0 ≤ u) : 0 < negLog u ↔ u < 1 - 1e-6 := by
  have hpos : 0 < buffer + u := by unfold buffer; positivity
  rw [negLog, neg_pos, Real.log_neg_iff hpos]
  unfold buffer
  constructor <;> intro h <;> linarith

/-- C66, exact range: with a positive total hazard the waiting time is a real number, and it is non-negative exactly when the uniform
draw is at most `1 - 1e-6`. -/
theorem C66_waiting_partial (u h : ℝ) (hu : 0 ≤ u) (hh : 0 < h) :
    ∃ t : ℝ, fdiv (negLog u) h = Fl.fin t ∧ (0 ≤ t ↔ u ≤ 1 - 1e-6) := by
  refine ⟨negLog u / h, if_neg hh.ne', ?_⟩
  rw [← negLog_nonneg_iff u hu, le_div_iff₀ hh, zero_mul]

/-- C66, exact range: a prior sample is non-negative exactly when the draw is at most `1 - 1e-6`. -/
theorem C66_prior_partial {d : ℕ} (rates u : Fin d → ℝ) (hr : ∀ i, 0 < rates i) (hu : ∀ i, 0 ≤ u i) (i : Fin d) :
    0 ≤ priorSample rates u i ↔ u i ≤ 1 - 1e-6 := by
  rw [← negLog_nonneg_iff (u i) (hu i), priorSample, le_div_iff₀ (hr i), zero_mul]

/-- C66 fails: a draw in `[0, 1)` for which the prior sample and the waiting time of an event are negative, and the prior sample of the
transformed scenario is not a number. -/
theorem C66_fails : ∃ u : ℝ, 0 ≤ u ∧ u < 1 ∧ priorSample (d := 1) ![1] ![u] 0 < 0 ∧
    (∃ t < 0, fdiv (negLog u) 1 = Fl.fin t) ∧ transformedPriorSample (d := 1) ![1] ![u] 0 = Fl.nan := by
  have hneg : negLog (1 - 5e-7) < 0 := by
    rw [← not_le, negLog_nonneg_iff _ (by norm_num)]; norm_num
  refine ⟨1 - 5e-7, by norm_num, by norm_num, ?_, ⟨negLog (1 - 5e-7) / 1, by simpa using hneg, if_neg one_ne_zero⟩, ?_⟩
  · simpa [priorSample] using hneg
  · have h : priorSample (d := 1) ![1] ![1 - 5e-7] 0 < 0 := by simpa [priorSample] using hneg
    exact if_pos h

/-- C66, the law of the waiting time: for a uniform draw on `[0, 1)` the probability that it exceeds `t` is
`exp(-h t) - 1e-6`, cut to `[0, 1]`, instead of the exponential law's `exp(-h t)`. -/
theorem C66_law (h : ℝ) (hh : 0 < h) (t : ℝ) :
    volume {u : ℝ | u ∈ Set.Ico (0 : ℝ) 1 ∧ t < negLog u / h} = ENNReal.ofReal (min 1 (Real.exp (-h * t) - 1e-6)) := by
  have : {u : ℝ | u ∈ Set.Ico (0 : ℝ) 1 ∧ t < negLog u / h} = Set.Ico 0 (min 1 (Real.exp (-h * t) - 1e-6)) := by
    ext u
    simp only [Set.mem_ofPred_eq, Set.mem_Ico, lt_min_iff]
    constructor
    · rintro ⟨⟨h0, h1⟩, h2⟩
      have hpos : 0 < buffer + u := by unfold buffer; positivity
      refine ⟨h0, h1, ?_⟩
      rw [lt_div_iff₀ hh, negLog] at h2
      have : Real.log (buffer + u) < -h * t := by linarith
      rw [Real.log_lt_iff_lt_exp hpos] at this
      unfold buffer at this; linarith
    · rintro ⟨h0, h1, h2⟩
      have hpos : 0 < buffer + u := by unfold buffer; positivity
      refine ⟨⟨h0, h1⟩, ?_⟩
      rw [lt_div_iff₀ hh, negLog]
      have : Real.log (buffer + u) < -h * t := by
        rw [Real.log_lt_iff_lt_exp hpos]; unfold buffer; linarith
      linarith
  rw [this, Real.volume_Ico, sub_zero]

/-- Waiting times are bounded: no event takes longer than `log(1e6) / h`. -/
theorem C66_bounded (u h : ℝ) (hu : 0 ≤ u) (hh : 0 < h) : negLog u / h ≤ Real.log 1e6 / h := by
  have hb : Real.log 1e6 = -Real.log buffer := by rw [← Real.log_inv]; congr 1; unfold buffer; norm_num
  rw [hb]
  apply div_le_div_of_nonneg_right _ hh.le
  rw [negLog, neg_le_neg_iff]
  exact Real.log_le_log (by unfold buffer; norm_num) (by linarith)

/-- C66, nothing can happen: when all hazards are zero, the next event of a simulation is at time `inf` for draws below `1 - 1e-6`, and at time `-inf` for draws above it. -/
theorem C66_no_hazard {m : ℕ} (rng : Rng K m) (hazards : (ℤ × ℤ) → Fin m → ℝ) (poss : (ℤ × ℤ) → Fin m → ℤ × ℤ) (x : ℤ × ℤ) (t : ℝ) (key : K) (hz : ∀ i, hazards x i = 0)
    (hu : 0 ≤ rng.uniform (rng.split3 key).1) :
    (rng.uniform (rng.split3 key).1 < 1 - 1e-6 → (jump rng hazards poss (x, .fin t) key).1.2 = .pinf) ∧
      (1 - 1e-6 < rng.uniform (rng.split3 key).1 → (jump rng hazards poss (x, .fin t) key).1.2 = .ninf) := by
  have hs : ∑ i, hazards x i = 0 := Finset.sum_eq_zero fun i _ => hz i
  set u := rng.uniform (rng.split3 key).1 with hudef
  have hb : buffer = 1e-6 := rfl
  constructor
  · intro h
    have h0 : 0 < negLog u := by
      rw [negLog, neg_pos]
      exact Real.log_neg (by rw [hb]; positivity) (by rw [hb]; linarith)
    simp [jump, hs, fdiv, ← hudef, h0, h0.ne', Fl.add]
  · intro h
    have h0 : negLog u < 0 := by
      rw [negLog, neg_lt_zero]
      exact Real.log_pos (by rw [hb]; linarith)
    simp [jump, hs, fdiv, ← hudef, h0.not_gt, h0.ne, Fl.add]

/-- Such a state: no prey and no predators. -/
example (c : Fin 3 → ℝ) (i : Fin 3) : lvHazards c (0, 0) i = 0 := by fin_cases i <;> simp [lvHazards]

/-! ## C76: Lotka-Volterra -/

/-- The simulation of Lotka-Volterra after `k` events. -/
noncomputable def lvCarry (rng : Rng K 3) (params : Fin 3 → ℝ) (init : ℤ × ℤ) (t0 : ℝ) (key : K) (k : ℕ) : ((ℤ × ℤ) × Fl) × K :=
  bodyIter (fun carry key => jump rng (lvHazards params) lvPossibilities carry key) k ((init, Fl.fin t0), key)

/-- Prey and predators after `k` events. -/
noncomputable def lvPath (rng : Rng K 3) (params : Fin 3 → ℝ) (init : ℤ × ℤ) (t0 : ℝ) (key : K) (k : ℕ) : ℤ × ℤ :=
  (lvCarry rng params init t0 key k).1.1

/-- Time of the `k`-th event (`k = 0`: the start). -/
noncomputable def lvTime (rng : Rng K 3) (params : Fin 3 → ℝ) (init : ℤ × ℤ) (t0 : ℝ) (key : K) (k : ℕ) : Fl :=
  (lvCarry rng params init t0 key k).1.2

/-- Library assumption on `jnp.searchsorted(a, t)`: on a sorted array without NaN it is the number of entries below `t`. -/
def ValidSearchsorted (searchsorted : List Fl → Fl → ℕ) : Prop :=
  ∀ (a : List Fl) (t : Fl), a.Pairwise (fun x y => ¬ Fl.lt y x) → Fl.nan ∉ a → 
    open Classical in searchsorted a t = a.countP fun x => decide (Fl.lt x t)

/-- One Lotka-Volterra event: birth of prey, predation, or death of a predator. (Specification.) -/
inductive LvEvent : ℤ × ℤ → ℤ × ℤ → Prop
  | birth {a b : ℤ} (ha : 0 < a) : LvEvent (a, b) (a + 1, b)
  | predation {a b : ℤ} (ha : 0 < a) (hb : 0 < b) : LvEvent (a, b) (a - 1, b + 1)
  | death {a b : ℤ} (hb : 0 < b) : LvEvent (a, b) (a, b - 1)

section lv
variable (rng : Rng K 3) (hc : ValidChoice rng.choice) (hu : ∀ k, 0 ≤ rng.uniform k ∧ rng.uniform k < 1 - 1e-6)
  (params : Fin 3 → ℝ) (hp : ∀ i, 0 ≤ params i)
include hc hu hp

/-- One event from a state with finite time and non-negative counts: later; and either the time is infinite, or finite and the
state has changed by an event. -/
theorem lvStep (a b : ℤ) (ha : 0 ≤ a) (hb : 0 ≤ b) (τ : ℝ) (key : K) :
    (jump rng (lvHazards params) lvPossibilities ((a, b), Fl.fin τ) key).1.2 = Fl.pinf ∨
    ∃ τ', (jump rng (lvHazards params) lvPossibilities ((a, b), Fl.fin τ) key).1.2 = Fl.fin τ' ∧ τ < τ' ∧
      LvEvent (a, b) (jump rng (lvHazards params) lvPossibilities ((a, b), Fl.fin τ) key).1.1 := by
  have haR : (0 : ℝ) ≤ a := by exact_mod_cast ha
  have hbR : (0 : ℝ) ≤ b := by exact_mod_cast hb
  have hn : ∀ i, 0 ≤ lvHazards params (a, b) i := by
    intro i
    have h0 := hp 0; have h1 := hp 1; have h2 := hp 2
    fin_cases i
    · show 0 ≤ params 0 * (a : ℝ); positivity
    · show 0 ≤ params 1 * (a : ℝ) * (b : ℝ); positivity
    · show 0 ≤ params 2 * (b : ℝ); positivity
  have hlog : 0 < negLog (rng.uniform (rng.split3 key).1) := (negLog_pos_iff _ (hu _).1).mpr (hu _).2
  have hS0 : 0 ≤ ∑ i, lvHazards params (a, b) i := Finset.sum_nonneg fun i _ => hn i
  rcases hS0.eq_or_lt with hS | hS
  · left
    simp only [jump, ← hS, fdiv, if_true, hlog.ne', if_false, hlog, Fl.add]
  · right
    refine ⟨τ + negLog (rng.uniform (rng.split3 key).1) / ∑ i, lvHazards params (a, b) i, ?_, ?_, ?_⟩
    · simp only [jump, fdiv, hS.ne', if_false, Fl.add]
    · have := div_pos hlog hS; linarith
    · have hpos := hc (rng.split3 key).2.1 (fun j => lvHazards params (a, b) j / ∑ i, lvHazards params (a, b) i)
        (fun j => div_nonneg (hn j) hS.le) (by rw [← Finset.sum_div, div_self hS.ne'])
      show LvEvent (a, b) (lvPossibilities (a, b) (rng.choice (rng.split3 key).2.1
        fun j => lvHazards params (a, b) j / ∑ i, lvHazards params (a, b) i))
      generalize rng.choice (rng.split3 key).2.1 (fun j => lvHazards params (a, b) j / ∑ i, lvHazards params (a, b) i) = j at hpos
      have hpos' : 0 < lvHazards params (a, b) j := by
        rcases (div_pos_iff.mp hpos) with h | h
        · exact h.1
        · linarith [h.2]
      fin_cases j
      · apply LvEvent.birth
        by_contra hneg
        have : a = 0 := by omega
        subst this; simp [lvHazards] at hpos'
      · apply LvEvent.predation
        · by_contra hneg
          have : a = 0 := by omega
          subst this; simp [lvHazards] at hpos'
        · by_contra hneg
          have : b = 0 := by omega
          subst this; simp [lvHazards] at hpos'
      · apply LvEvent.death
        by_contra hneg
        have : b = 0 := by omega
        subst this; simp [lvHazards] at hpos'

omit hc hu hp in
theorem lvCarry_succ (init : ℤ × ℤ) (t0 : ℝ) (key : K) (k : ℕ) :
    lvCarry rng params init t0 key (k + 1)
      = jump rng (lvHazards params) lvPossibilities (lvCarry rng params init t0 key k).1 (lvCarry rng params init t0 key k).2 := by
  simp [lvCarry, bodyIter, Function.iterate_succ_apply']

/-- As long as earlier times were finite: the time of event `k` is infinite, or finite and the counts are non-negative. -/
theorem lv_inv (a b : ℕ) (t0 : ℝ) (key : K) (k : ℕ)
    (hlive : ∀ j < k, (lvTime rng params (a, b) t0 key j).isFin) :
    lvTime rng params (a, b) t0 key k = Fl.pinf ∨ ∃ τ, lvTime rng params (a, b) t0 key k = Fl.fin τ ∧
      0 ≤ (lvPath rng params (a, b) t0 key k).1 ∧ 0 ≤ (lvPath rng params (a, b) t0 key k).2 := by
  induction k with
  | zero => right; exact ⟨t0, rfl, by simp [lvPath, lvCarry, bodyIter], by simp [lvPath, lvCarry, bodyIter]⟩
  | succ k ih =>
    have hk := hlive k (Nat.lt_succ_self k)
    rcases ih fun j hj => hlive j (by omega) with h | ⟨τ, hτ, h1, h2⟩
    · rw [h] at hk; exact hk.elim
    · have hcar : (lvCarry rng params (a, b) t0 key k).1 = (((lvPath rng params (a, b) t0 key k).1,
          (lvPath rng params (a, b) t0 key k).2), Fl.fin τ) := by
        rw [← hτ]; rfl
      have hst := lvStep rng hc hu params hp _ _ h1 h2 τ (lvCarry rng params (a, b) t0 key k).2
      rw [← hcar, ← lvCarry_succ] at hst
      rcases hst with h | ⟨τ', hτ', -, hev⟩
      · exact Or.inl h
      · right
        refine ⟨τ', hτ', ?_⟩
        generalize (lvPath rng params (a, b) t0 key k) = q at hev h1 h2
        change LvEvent _ (lvPath rng params (a, b) t0 key (k + 1)) at hev
        generalize (lvPath rng params (a, b) t0 key (k + 1)) = r at hev
        obtain ⟨q1, q2⟩ := q
        cases hev <;> simp only at * <;> constructor <;> omega

/-- Times increase strictly, and finite consecutive times are separated by an event. -/
theorem lv_step (a b : ℕ) (t0 : ℝ) (key : K) (k : ℕ)
    (hlive : ∀ j ≤ k, (lvTime rng params (a, b) t0 key j).isFin) :
    Fl.lt (lvTime rng params (a, b) t0 key k) (lvTime rng params (a, b) t0 key (k + 1)) ∧
    ((lvTime rng params (a, b) t0 key (k + 1)).isFin →
      LvEvent (lvPath rng params (a, b) t0 key k) (lvPath rng params (a, b) t0 key (k + 1))) := by
  have hk := hlive k le_rfl
  rcases lv_inv rng hc hu params hp a b t0 key k fun j hj => hlive j hj.le with h | ⟨τ, hτ, h1, h2⟩
  · rw [h] at hk; exact hk.elim
  · have hcar : (lvCarry rng params (a, b) t0 key k).1 = (((lvPath rng params (a, b) t0 key k).1,
          (lvPath rng params (a, b) t0 key k).2), Fl.fin τ) := by
        rw [← hτ]; rfl
    have hst := lvStep rng hc hu params hp _ _ h1 h2 τ (lvCarry rng params (a, b) t0 key k).2
    rw [← hcar, ← lvCarry_succ] at hst
    have e : ∀ k, (lvCarry rng params (a, b) t0 key k).1.2 = lvTime rng params (a, b) t0 key k := fun _ => rfl
    rw [e] at hst
    rcases hst with h | ⟨τ', hτ', hlt, hev⟩
    · rw [hτ, h]; exact ⟨trivial, fun hf => hf.elim⟩
    · rw [hτ, hτ']; exact ⟨hlt, fun _ => hev⟩

omit hc hu hp in
theorem le_maxTime (t0 : ℝ) (ts : List ℝ) : t0 ≤ maxTime t0 ts ∧ ∀ t ∈ ts, t ≤ maxTime t0 ts := by
  unfold maxTime
  induction ts generalizing t0 with
  | nil => simp
  | cons a l ih =>
    obtain ⟨h1, h2⟩ := ih (max t0 a)
    refine ⟨(le_max_left _ _).trans h1, fun t ht => ?_⟩
    rcases List.mem_cons.mp ht with rfl | ht
    · exact (le_max_right _ _).trans h1
    · exact h2 t ht

omit hc hu hp in
theorem countP_range_lt (c m : ℕ) (h : c ≤ m) (q : ℕ → Bool) (h1 : ∀ k < c, q k = true) (h2 : ∀ k, c ≤ k → k < m → q k = false) :
    (List.range m).countP q = c := by
  obtain ⟨r, rfl⟩ := Nat.exists_eq_add_of_le h
  rw [List.range_add, List.countP_append, List.countP_eq_length.mpr, List.countP_eq_zero.mpr]
  · simp
  · intro k hk
    obtain ⟨j, hj, rfl⟩ := List.mem_map.mp hk
    rw [h2 _ (by omega) (by have := List.mem_range.mp hj; omega)]
    exact Bool.false_ne_true
  · intro k hk
    exact h1 k (List.mem_range.mp hk)

omit hc hu hp in
theorem maxTime_mem (t0 : ℝ) (ts : List ℝ) : maxTime t0 ts = t0 ∨ maxTime t0 ts ∈ ts := by
  unfold maxTime
  induction ts generalizing t0 with
  | nil => exact Or.inl rfl
  | cons t ts ih =>
    rw [List.foldl_cons]
    rcases ih (max t0 t) with h | h
    · rw [h]
      rcases max_choice t0 t with h' | h' <;> rw [h']
      · exact Or.inl rfl
      · exact Or.inr List.mem_cons_self
    · exact Or.inr (List.mem_cons_of_mem _ h)

open Classical in
/-- The observations of a simulation, read off the path of the simulated process. -/
theorem lv_observations (searchsorted : List Fl → Fl → ℕ) (hss : ValidSearchsorted searchsorted)
    (a b : ℕ) (ts : List ℝ) (hts : ∀ t ∈ ts, 0 < t) (key : K) (maxIter : ℤ)
    (hreach : ∃ k : ℕ, (k : ℤ) < maxIter ∧ ¬ Fl.lt (lvTime rng params (a, b) 0 key k) (Fl.fin (maxTime 0 ts))) :
    ∃ m : ℕ, (∀ k < m, Fl.lt (lvTime rng params (a, b) 0 key k) (lvTime rng params (a, b) 0 key (k + 1)) ∧
        ((lvTime rng params (a, b) 0 key (k + 1)).isFin → LvEvent (lvPath rng params (a, b) 0 key k) (lvPath rng params (a, b) 0 key (k + 1)))) ∧
      List.Forall₂ (fun t r => ∃ c < m, Fl.lt (lvTime rng params (a, b) 0 key c) (Fl.fin t) ∧ ¬ Fl.lt (lvTime rng params (a, b) 0 key (c + 1)) (Fl.fin t) ∧
          r = lvPath rng params (a, b) 0 key c ∧ 0 ≤ r.1 ∧ 0 ≤ r.2)
        ts (lvSimulate rng searchsorted ((a : ℤ), (b : ℤ)) 0 ts params key maxIter) := by
  obtain ⟨m, hm, hstack, -, -, hlive, hstop⟩ := C11_raw_stack
    (fun (carry : (ℤ × ℤ) × Fl) (_ : K) => decide (Fl.lt carry.2 (Fl.fin (maxTime 0 ts))))
    (fun carry key => jump rng (lvHazards params) lvPossibilities carry key) ((((a : ℤ), (b : ℤ)), Fl.fin 0), key) maxIter
  have hlive' : ∀ k < m, Fl.lt (lvTime rng params (a, b) 0 key k) (Fl.fin (maxTime 0 ts)) :=
    fun k hk => of_decide_eq_true (hlive k hk)
  obtain ⟨k0, hk0, hk0'⟩ := hreach
  have hmlt : m < maxIter.toNat := by
    have : m ≤ k0 := by
      by_contra hcon
      exact hk0' (hlive' k0 (by omega))
    omega
  have hend : ¬ Fl.lt (lvTime rng params (a, b) 0 key m) (Fl.fin (maxTime 0 ts)) := of_decide_eq_false (hstop hmlt)
  have hfin : ∀ k < m, (lvTime rng params (a, b) 0 key k).isFin := by
    intro k
    induction k using Nat.strong_induction_on with
    | _ k ih =>
      intro hk
      rcases lv_inv rng hc hu params hp a b 0 key k fun j hj => ih j hj (by omega) with h | ⟨τ, h, -, -⟩
      · have := hlive' k hk
        rw [h] at this; exact this.elim
      · rw [h]; trivial
  have hsteps := fun k (hk : k < m) => lv_step rng hc hu params hp a b 0 key k fun j hj => hfin j (by omega)
  -- times are strictly increasing
  have hT0 : lvTime rng params (a, b) 0 key 0 = Fl.fin 0 := rfl
  have htrans : ∀ x y z : Fl, Fl.lt x y → Fl.lt y z → Fl.lt x z := by
    intro x y z
    cases x <;> cases y <;> cases z <;> simp only [Fl.lt] <;> intro h1 h2 <;>
      first | trivial | exact h1.elim | exact h2.elim | exact lt_trans h1 h2
  have hmono : ∀ i j, i < j → j ≤ m → Fl.lt (lvTime rng params (a, b) 0 key i) (lvTime rng params (a, b) 0 key j) := by
    intro i j hij
    induction j, hij using Nat.le_induction with
    | base => intro h; exact (hsteps i (by omega)).1
    | succ j hj ih =>
      intro h
      exact htrans _ _ _ (ih (by omega)) (hsteps j (by omega)).1
  have hasymm : ∀ x y : Fl, Fl.lt x y → ¬ Fl.lt y x := by
    intro x y
    cases x <;> cases y <;> simp only [Fl.lt] <;> intro h1 h2 <;>
      first | exact h1.elim | exact h2.elim | exact lt_asymm h1 h2
  have hposT : ∀ j, 0 < j → j ≤ m → Fl.lt (Fl.fin 0) (lvTime rng params (a, b) 0 key j) := fun j h0 hj => hT0 ▸ hmono 0 j h0 hj
  refine ⟨m, hsteps, ?_⟩
  -- the array given to searchsorted
  obtain ⟨N, hN⟩ : ∃ N, maxIter.toNat - m = N + 1 := ⟨maxIter.toNat - m - 1, by omega⟩
  have hst1 : ((whileLoopStackedRaw (fun (carry : (ℤ × ℤ) × Fl) (_ : K) => decide (Fl.lt carry.2 (Fl.fin (maxTime 0 ts))))
      (fun carry key => jump rng (lvHazards params) lvPossibilities carry key) ((((a : ℤ), (b : ℤ)), Fl.fin 0), key) maxIter).1.map
        Prod.snd).map zeroToInf
      = (List.range m).map (fun k => lvTime rng params (a, b) 0 key (k + 1)) ++ List.replicate (N + 1) Fl.pinf := by
    rw [hstack, hN, List.map_append, List.map_append, List.map_map, List.map_map, List.map_replicate, List.map_replicate]
    congr 1
    · apply List.map_congr_left
      intro k hk
      have := hposT (k + 1) (by omega) (by have := List.mem_range.mp hk; omega)
      show zeroToInf (lvTime rng params (a, b) 0 key (k + 1)) = _
      unfold zeroToInf
      rw [if_neg]
      intro h; rw [h] at this; exact lt_irrefl (0 : ℝ) this
    · simp only [zeroToInf, if_true]
  have hst2 : (whileLoopStackedRaw (fun (carry : (ℤ × ℤ) × Fl) (_ : K) => decide (Fl.lt carry.2 (Fl.fin (maxTime 0 ts))))
      (fun carry key => jump rng (lvHazards params) lvPossibilities carry key) ((((a : ℤ), (b : ℤ)), Fl.fin 0), key) maxIter).1.map
        Prod.fst
      = (List.range m).map (fun k => lvPath rng params (a, b) 0 key (k + 1)) ++ List.replicate (N + 1) ((a : ℤ), (b : ℤ)) := by
    rw [hstack, hN, List.map_append, List.map_map, List.map_replicate]
    rfl
  have hnotpinf : ∀ x, ¬ Fl.lt Fl.pinf x := by intro x; cases x <;> exact fun h => h
  have hsorted : ((List.range m).map (fun k => lvTime rng params (a, b) 0 key (k + 1)) ++ List.replicate (N + 1) Fl.pinf).Pairwise
      (fun x y => ¬ Fl.lt y x) := by
    rw [List.pairwise_append]
    refine ⟨?_, ?_, ?_⟩
    · rw [List.pairwise_map, List.pairwise_iff_getElem]
      intro i j hi hj hij
      simp only [List.getElem_range]
      rw [List.length_range] at hj
      exact hasymm _ _ (hmono _ _ (by omega) (by omega))
    · exact List.pairwise_replicate.mpr (Or.inr (hnotpinf _))
    · intro x _ y hy
      rw [List.eq_of_mem_replicate hy]; exact hnotpinf x
  have hnan : Fl.nan ∉ (List.range m).map (fun k => lvTime rng params (a, b) 0 key (k + 1)) ++ List.replicate (N + 1) Fl.pinf := by
    intro h
    rcases List.mem_append.mp h with h | h
    · obtain ⟨k, hk, hk2⟩ := List.mem_map.mp h
      have := hposT (k + 1) (by omega) (by have := List.mem_range.mp hk; omega)
      rw [hk2] at this; exact this
    · cases List.eq_of_mem_replicate h
  have hlook : lvSimulate rng searchsorted ((a : ℤ), (b : ℤ)) 0 ts params key maxIter
      = ts.map fun t => wrapGet ((List.range m).map (fun k => lvPath rng params (a, b) 0 key (k + 1))
          ++ List.replicate (N + 1) ((a : ℤ), (b : ℤ)))
          (((((List.range m).map (fun k => lvTime rng params (a, b) 0 key (k + 1)) ++ List.replicate (N + 1) Fl.pinf).countP
            fun x => decide (Fl.lt x (Fl.fin t)) : ℕ) : ℤ) - 1) (0, 0) := by
    unfold lvSimulate
    simp only
    rw [hst1, hst2]
    apply List.map_congr_left
    intro t _
    rw [hss _ _ hsorted hnan]
  rw [hlook, List.forall₂_map_right_iff, List.forall₂_same]
  intro t ht
  have ht0 := hts t ht
  have htmax := (le_maxTime 0 ts).2 t ht
  have hendt : ¬ Fl.lt (lvTime rng params (a, b) 0 key m) (Fl.fin t) := by
    intro h
    apply hend
    revert h
    generalize lvTime rng params (a, b) 0 key m = y
    cases y <;> simp only [Fl.lt]
    · exact id
    · exact id
    · intro h; linarith
    · exact id
  have hm0 : 0 < m := by
    rcases Nat.eq_zero_or_pos m with rfl | h
    · exact absurd ht0 hendt
    · exact h
  have hex : ∃ k, ¬ Fl.lt (lvTime rng params (a, b) 0 key (k + 1)) (Fl.fin t) := ⟨m - 1, by rwa [Nat.sub_add_cancel hm0]⟩
  have hcm : Nat.find hex < m := lt_of_le_of_lt (Nat.find_min' hex (by rwa [Nat.sub_add_cancel hm0] : 
    ¬ Fl.lt (lvTime rng params (a, b) 0 key (m - 1 + 1)) (Fl.fin t))) (by omega)
  have hbelow : ∀ k < Nat.find hex, Fl.lt (lvTime rng params (a, b) 0 key (k + 1)) (Fl.fin t) :=
    fun k hk => not_not.mp (Nat.find_min hex hk)
  have habove := Nat.find_spec hex
  generalize Nat.find hex = c at hcm hbelow habove
  have hcount : ((List.range m).map (fun k => lvTime rng params (a, b) 0 key (k + 1)) ++ List.replicate (N + 1) Fl.pinf).countP
      (fun x => decide (Fl.lt x (Fl.fin t))) = c := by
    rw [List.countP_append, List.countP_map, (List.countP_eq_zero (l := List.replicate (N + 1) Fl.pinf)).mpr, Nat.add_zero]
    · apply countP_range_lt c m hcm.le
      · intro k hk; exact decide_eq_true (hbelow k hk)
      · intro k hk hk2
        apply decide_eq_false
        rcases hk.eq_or_lt with rfl | hlt
        · exact habove
        · intro h
          exact habove (htrans _ _ _ (hmono (c + 1) (k + 1) (by omega) (by omega)) h)
    · intro x hx
      rw [List.eq_of_mem_replicate hx, decide_eq_true_eq]; exact hnotpinf _
  have hval : wrapGet ((List.range m).map (fun k => lvPath rng params (a, b) 0 key (k + 1))
          ++ List.replicate (N + 1) ((a : ℤ), (b : ℤ))) ((c : ℤ) - 1) (0, 0) = lvPath rng params (a, b) 0 key c := by
    unfold wrapGet
    simp only [List.length_append, List.length_map, List.length_range, List.length_replicate]
    rcases Nat.eq_zero_or_pos c with rfl | hc0
    · have e : min ((if ((0 : ℕ) : ℤ) - 1 < 0 then ((0 : ℕ) : ℤ) - 1 + ((m + (N + 1) : ℕ) : ℤ) else ((0 : ℕ) : ℤ) - 1).toNat)
          (m + (N + 1) - 1) = m + N := by
        rw [if_pos (by norm_num)]; omega
      rw [e, List.getD_append_right _ _ _ _ (by simp)]
      simp only [List.length_map, List.length_range, Nat.add_sub_cancel_left]
      rw [List.getD_replicate _ (by omega)]
      rfl
    · have e : min ((if (c : ℤ) - 1 < 0 then (c : ℤ) - 1 + ((m + (N + 1) : ℕ) : ℤ) else (c : ℤ) - 1).toNat)
          (m + (N + 1) - 1) = c - 1 := by
        rw [if_neg (by omega)]; omega
      rw [e, List.getD_append _ _ _ _ (by simp; omega), List.getD_eq_getElem _ _ (by simp; omega)]
      simp only [List.getElem_map, List.getElem_range]
      rw [Nat.sub_add_cancel hc0]
  rw [hcount, hval]
  have hcfin : ∃ τ, lvTime rng params (a, b) 0 key c = Fl.fin τ ∧
      0 ≤ (lvPath rng params (a, b) 0 key c).1 ∧ 0 ≤ (lvPath rng params (a, b) 0 key c).2 := by
    rcases lv_inv rng hc hu params hp a b 0 key c fun j hj => hfin j (by omega) with h | h
    · have := hfin c hcm; rw [h] at this; exact this.elim
    · exact h
  obtain ⟨τ, -, h1, h2⟩ := hcfin
  refine ⟨c, hcm, ?_, habove, rfl, h1, h2⟩
  rcases Nat.eq_zero_or_pos c with rfl | hc0
  · rw [hT0]; exact ht0
  · have := hbelow (c - 1) (by omega)
    rwa [Nat.sub_add_cancel hc0] at this

open Classical in
/-- C76. Let the simulation start at time 0 from non-negative counts with non-negative rates, let all uniforms be below `1 - 1e-6`, and let it reach
the last observation time within fewer than `max_iter` events. Then the count reported for observation time `t > 0` is the state of the
process at time `t`: the state after event `c`, where event `c` is the last one before `t` (`c = 0`: none) and the next event comes at or after `t`.
Reported counts are non-negative, and the process moves by births, predations and deaths only. -/
theorem C76_observations_partial (searchsorted : List Fl → Fl → ℕ) (hss : ValidSearchsorted searchsorted)
    (a b : ℕ) (ts : List ℝ) (hts : ∀ t ∈ ts, 0 < t) (key : K) (maxIter : ℤ)
    (hreach : ∃ k : ℕ, (k : ℤ) < maxIter ∧ ¬ Fl.lt (lvTime rng params (a, b) 0 key k) (Fl.fin (maxTime 0 ts))) :
    ∃ path : ℕ → ℤ × ℤ, ∃ T : ℕ → Fl, ∃ m : ℕ, path 0 = ((a : ℤ), (b : ℤ)) ∧ T 0 = Fl.fin 0 ∧
      (∀ k < m, Fl.lt (T k) (T (k + 1)) ∧ ((T (k + 1)).isFin → LvEvent (path k) (path (k + 1)))) ∧
      List.Forall₂ (fun t r => ∃ c < m, Fl.lt (T c) (Fl.fin t) ∧ ¬ Fl.lt (T (c + 1)) (Fl.fin t) ∧ r = path c ∧ 0 ≤ r.1 ∧ 0 ≤ r.2)
        ts (lvSimulate rng searchsorted ((a : ℤ), (b : ℤ)) 0 ts params key maxIter) := by
  obtain ⟨m, h1, h2⟩ := lv_observations rng hc hu params hp searchsorted hss a b ts hts key maxIter hreach
  exact ⟨lvPath rng params (a, b) 0 key, lvTime rng params (a, b) 0 key, m, rfl, rfl, h1, h2⟩

end lv

open Classical in
/-- C76 for the data of `LotkaVolterra.likelihood_sample`: under the same conditions, the number reported for time `t` is the number of prey in force at `t` in the process with rates `params` (the process whose law is C119's:
`event` repeated from the start). -/
theorem C76_prey_partial (rng : Rng K 3) (hc : ValidChoice rng.choice) (hu : ∀ k, 0 ≤ rng.uniform k ∧ rng.uniform k < 1 - 1e-6)
    (params : Fin 3 → ℝ) (hp : ∀ i, 0 ≤ params i) (searchsorted : List Fl → Fl → ℕ) (hss : ValidSearchsorted searchsorted)
    (a b : ℕ) (ts : List ℝ) (hts : ∀ t ∈ ts, 0 < t) (key : K) (maxIter : ℤ) :
    let event := fun s : ((ℤ × ℤ) × Fl) × K => jump rng (lvHazards params) lvPossibilities s.1 s.2
    let start : ((ℤ × ℤ) × Fl) × K := (((a, b), .fin 0), key)
    (∃ k : ℕ, (k : ℤ) < maxIter ∧ ∀ t ∈ ts, ¬ Fl.lt (event^[k] start).1.2 (Fl.fin t)) →
    List.Forall₂ (fun t r => ∃ c, Fl.lt (event^[c] start).1.2 (Fl.fin t) ∧ ¬ Fl.lt (event^[c + 1] start).1.2 (Fl.fin t) ∧ r = (event^[c] start).1.1.1 ∧ 0 ≤ r)
      ts (lvLikelihoodSample rng searchsorted (a, b) 0 ts params key maxIter) := by
  intro event start
  rintro ⟨k, hk, hkt⟩
  by_cases hne : ts = []
  · subst hne
    exact List.Forall₂.nil
  have hreach : ∃ k : ℕ, (k : ℤ) < maxIter ∧ ¬ Fl.lt (lvTime rng params (a, b) 0 key k) (Fl.fin (maxTime 0 ts)) := by
    refine ⟨k, hk, ?_⟩
    rcases maxTime_mem 0 ts with h | h
    · obtain ⟨t, ht⟩ := List.exists_mem_of_ne_nil ts hne
      have h1 := (le_maxTime 0 ts).2 t ht
      rw [h] at h1
      exact absurd (hts t ht) (not_lt.2 h1)
    · exact hkt _ h
  obtain ⟨m, -, h⟩ := lv_observations rng hc hu params hp searchsorted hss a b ts hts key maxIter hreach
  unfold lvLikelihoodSample
  rw [List.forall₂_map_right_iff]
  exact h.imp fun t r ⟨c, _, h1, h2, h3, h4, _⟩ => ⟨c, h1, h2, congrArg Prod.fst h3, h4⟩

open Classical in
/-- C76 for `TransformedLotkaVolterra.likelihood_sample`: the same for the process with rates `exp x`. -/
theorem C76_prey_transformed_partial (rng : Rng K 3) (hc : ValidChoice rng.choice) (hu : ∀ k, 0 ≤ rng.uniform k ∧ rng.uniform k < 1 - 1e-6)
    (x : Fin 3 → ℝ) (searchsorted : List Fl → Fl → ℕ) (hss : ValidSearchsorted searchsorted)
    (a b : ℕ) (ts : List ℝ) (hts : ∀ t ∈ ts, 0 < t) (key : K) (maxIter : ℤ) :
    let event := fun s : ((ℤ × ℤ) × Fl) × K => jump rng (lvHazards fun i => Real.exp (x i)) lvPossibilities s.1 s.2
    let start : ((ℤ × ℤ) × Fl) × K := (((a, b), .fin 0), key)
    (∃ k : ℕ, (k : ℤ) < maxIter ∧ ∀ t ∈ ts, ¬ Fl.lt (event^[k] start).1.2 (Fl.fin t)) →
    List.Forall₂ (fun t r => ∃ c, Fl.lt (event^[c] start).1.2 (Fl.fin t) ∧ ¬ Fl.lt (event^[c + 1] start).1.2 (Fl.fin t) ∧ r = (event^[c] start).1.1.1 ∧ 0 ≤ r)
      ts (transformedLvLikelihoodSample rng searchsorted (a, b) 0 ts x key maxIter) :=
  C76_prey_partial rng hc hu (constrainExp x) (fun _ => Real.exp_nonneg _) searchsorted hss a b ts hts key maxIter

/-- A generator for the examples: all uniforms are `1 / 2`. -/
noncomputable def halfRng : Rng Unit 3 := ⟨fun _ => ((), (), ()), fun _ => 1 / 2, fun _ p => jaxChoice (1 / 2) p⟩

/-- First event of the example: it comes at or after time 0.1. -/
theorem half_first : ∃ τ : ℝ, 0.1 ≤ τ ∧ lvTime halfRng ![1, 1, 1] (1, 1) 0 () 1 = Fl.fin τ := by
  have hS : ∑ i, lvHazards ![1, 1, 1] (1, 1) i = 3 := by
    simp [lvHazards, Fin.sum_univ_three]; norm_num
  have h : (0.3 : ℝ) ≤ negLog (1 / 2) := by
    have := Real.log_le_sub_one_of_pos (show (0 : ℝ) < buffer + 1 / 2 by unfold buffer; norm_num)
    unfold negLog
    have hb : buffer = 1e-6 := rfl
    rw [hb] at this ⊢
    norm_num at this ⊢; linarith
  refine ⟨negLog (1 / 2) / 3, ?_, ?_⟩
  · rw [le_div_iff₀ (by norm_num)]; norm_num at h ⊢; linarith
  · show Fl.add (Fl.fin 0) (fdiv (negLog (1 / 2)) (∑ i, lvHazards ![1, 1, 1] (1, 1) i)) = _
    rw [hS, fdiv, if_neg (by norm_num)]
    simp [Fl.add]

/-- The hypotheses of C76 can be met. -/
example : ValidChoice halfRng.choice ∧ (∀ k, 0 ≤ halfRng.uniform k ∧ halfRng.uniform k < 1 - 1e-6) ∧
    (∃ searchsorted, ValidSearchsorted searchsorted) ∧
    (∃ k : ℕ, (k : ℤ) < 2 ∧ ¬ Fl.lt (lvTime halfRng ![1, 1, 1] (1, 1) 0 () k) (Fl.fin (maxTime 0 [0.1]))) := by
  classical
  refine ⟨validChoice_jax (fun _ : Unit => 1 / 2) fun _ => by norm_num, fun _ => ⟨?_, ?_⟩,
    ⟨fun a t => a.countP fun x => decide (Fl.lt x t), fun a t _ _ => ?_⟩, 1, by norm_num, ?_⟩
  · show (0 : ℝ) ≤ 1 / 2; norm_num
  · show (1 / 2 : ℝ) < 1 - 1e-6; norm_num
  · apply List.countP_congr; intro x _; simp
  · obtain ⟨τ, h, e⟩ := half_first
    rw [e]
    simp only [maxTime, List.foldl]
    rw [max_eq_right (by norm_num)]
    exact not_lt.mpr h

open Classical in
/-- C76 fails when the simulation uses up `max_iter`: here an observation before the first event is reported as the state after it. -/
theorem C76_truncated_fails (searchsorted : List Fl → Fl → ℕ) (hss : ValidSearchsorted searchsorted) :
    ∃ r, lvSimulate halfRng searchsorted (1, 1) 0 [0.1] ![1, 1, 1] () 1 = [r] ∧ r ≠ (1, 1) ∧
      ¬ Fl.lt (lvTime halfRng ![1, 1, 1] (1, 1) 0 () 1) (Fl.fin 0.1) := by
  obtain ⟨τ, hτ, e⟩ := half_first
  have hstack : (whileLoopStackedRaw (fun (carry : (ℤ × ℤ) × Fl) (_ : Unit) => decide (Fl.lt carry.2 (Fl.fin (maxTime 0 [0.1]))))
      (fun carry key => jump halfRng (lvHazards ![1, 1, 1]) lvPossibilities carry key) ((((1 : ℤ), (1 : ℤ)), Fl.fin 0), ()) 1).1
      = [(lvPath halfRng ![1, 1, 1] (1, 1) 0 () 1, lvTime halfRng ![1, 1, 1] (1, 1) 0 () 1)] := by
    obtain ⟨m, hm, hst, -, -, -, hstop⟩ := C11_raw_stack
      (fun (carry : (ℤ × ℤ) × Fl) (_ : Unit) => decide (Fl.lt carry.2 (Fl.fin (maxTime 0 [0.1]))))
      (fun carry key => jump halfRng (lvHazards ![1, 1, 1]) lvPossibilities carry key) ((((1 : ℤ), (1 : ℤ)), Fl.fin 0), ()) 1
    have hm1 : m = 1 := by
      have h1 : m ≤ 1 := hm
      by_contra hne
      have h0 : m = 0 := by omega
      subst h0
      have := of_decide_eq_false (hstop (by norm_num))
      apply this
      show (0 : ℝ) < maxTime 0 [0.1]
      simp only [maxTime, List.foldl]
      rw [max_eq_right (by norm_num)]; norm_num
    subst hm1
    rw [hst]; rfl
  have hne0 : lvTime halfRng ![1, 1, 1] (1, 1) 0 () 1 ≠ Fl.fin 0 := by
    rw [e]; intro h
    injection h with h
    rw [h] at hτ; norm_num at hτ
  refine ⟨lvPath halfRng ![1, 1, 1] (1, 1) 0 () 1, ?_, ?_, by rw [e]; exact not_lt.mpr hτ⟩
  · unfold lvSimulate
    simp only
    rw [hstack]
    simp only [List.map_cons, List.map_nil, zeroToInf, if_neg hne0]
    rw [hss _ _ (List.pairwise_singleton _ _) (by rw [e]; simp)]
    rw [e]
    have : ¬ Fl.lt (Fl.fin τ) (Fl.fin 0.1) := not_lt.mpr hτ
    simp [wrapGet, this]
  · have hall : ∀ j, lvPossibilities (1, 1) j ≠ (1, 1) := by decide
    exact hall _

end Mocat.Props
