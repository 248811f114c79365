import Verif.Props.AbcScenarios
import Verif.Lemmas.Tape
import Verif.Lemmas.Categorical
import Verif.Lemmas.ExpDraw
/-!
# C119: SIR and Lotka-Volterra simulations have the law of the Markov jump process
-/
namespace Mocat.Props
open Mocat Mocat.AbcScenarios Mocat.Loop Mocat.Ideal Mocat.Meas MeasureTheory ProbabilityTheory

/-! ## Specification -/

/-- `choice p u` selects an index by the uniform `u` as `random.choice(key, m, p=p)` does: index `j` has probability `p j`. -/
structure IsChoice {m : ℕ} (choice : (Fin m → ℝ) → ℝ → Fin m) : Prop where
  measurable : ∀ p, Measurable (choice p)
  prob : ∀ p : Fin m → ℝ, (∀ j, 0 ≤ p j) → ∑ j, p j = 1 → ∀ j, unif {u | choice p u = j} = ENNReal.ofReal (p j)

/-- The generator of a simulation, with an ideal tape. -/
def tapeRng {m : ℕ} (choice : (Fin m → ℝ) → ℝ → Fin m) (ω : Tape) : Rng Keys.Key m where
  split3 k := (0 :: k, 1 :: k, 2 :: k)
  uniform k := ω (k, 0)
  choice k p := choice p (ω (k, 0))

/-- The rates of the SIR epidemic in a population of `N`: infection, removal. -/
noncomputable def sirRate (β γ N : ℝ) (x : ℤ × ℤ) (y : ℤ × ℤ) : ℝ :=
  if y = (x.1 - 1, x.2 + 1) then β * x.1 * x.2 / N else if y = (x.1, x.2 - 1) then γ * x.2 else 0

/-- The rates of the Lotka-Volterra process: birth of prey, predation, death of a predator. -/
def lvRate (c : Fin 3 → ℝ) (x : ℤ × ℤ) (y : ℤ × ℤ) : ℝ :=
  if y = (x.1 + 1, x.2) then c 0 * x.1 else if y = (x.1 - 1, x.2 + 1) then c 1 * x.1 * x.2 else if y = (x.1, x.2 - 1) then c 2 * x.2 else 0

/-- The probability, under the Markov jump process with these rates (`total x` being the rate at which anything happens in `x`), that the first `n` jumps go from `x 0` to `x 1`, ..., `x n`, the `i`-th waiting time being in `B i`. -/
noncomputable def jumpProb (rate : ℤ × ℤ → ℤ × ℤ → ℝ) (total : ℤ × ℤ → ℝ) (x : ℕ → ℤ × ℤ) (B : ℕ → Set ℝ) (n : ℕ) : ℝ :=
  ∏ i ∈ Finset.range n, rate (x i) (x (i + 1)) / total (x i) * (expMeasure (total (x i)) (B i)).toReal

/-- The time of `t'` after `t` is in `B`. -/
def WaitIn (t t' : Fl) (B : Set ℝ) : Prop := ∃ w ∈ B, t' = Fl.add t (.fin w)

/-! ## One event -/

variable {m : ℕ} {choice : (Fin m → ℝ) → ℝ → Fin m}

/-- The key of the `i`-th event. -/
def eventKey (key : Keys.Key) (i : ℕ) : Keys.Key := List.replicate i 2 ++ key

theorem eventKey_succ (key : Keys.Key) (i : ℕ) : 2 :: eventKey key i = eventKey key (i + 1) := by
  simp [eventKey, List.replicate_succ]

/-- What the tape must say for event `i` to be `j` with a waiting time in `B`, the hazards being `h`. -/
def eventSet (choice : (Fin m → ℝ) → ℝ → Fin m) (h : Fin m → ℝ) (B : Set ℝ) (j : Fin m) (k : Keys.Key) : Set Tape :=
  {ω | ω (1 :: k, 0) ∈ {u | choice (fun i => h i / ∑ l, h l) u = j}} ∩ {ω | ω (0 :: k, 0) ∈ {u | negLog u / (∑ l, h l) ∈ B}}

theorem measurable_negLog_div (H : ℝ) : Measurable fun u => negLog u / H := by unfold negLog; fun_prop

theorem measurableSet_choice (hc : IsChoice choice) (p : Fin m → ℝ) (j : Fin m) : MeasurableSet {u | choice p u = j} :=
  hc.measurable p (measurableSet_singleton j)

theorem measurableSet_site (s : Site) {A : Set ℝ} (hA : MeasurableSet A) : MeasurableSet {ω : Tape | ω s ∈ A} :=
  (measurable_pi_apply (X := fun _ : Site => ℝ) s) hA

theorem measurableSet_wait (H : ℝ) {B : Set ℝ} (hB : MeasurableSet B) : MeasurableSet {u | negLog u / H ∈ B} := measurable_negLog_div H hB

theorem measurableSet_eventSet (hc : IsChoice choice) (h : Fin m → ℝ) {B : Set ℝ} (hB : MeasurableSet B) (j : Fin m) (k : Keys.Key) : MeasurableSet (eventSet choice h B j k) :=
  (measurableSet_site _ (measurableSet_choice hc _ j)).inter (measurableSet_site _ (measurableSet_wait _ hB))

theorem eventSet_dependsOn (h : Fin m → ℝ) (B : Set ℝ) (j : Fin m) (k : Keys.Key) : DependsOn (· ∈ eventSet choice h B j k) {s : Site | s.1 = 1 :: k ∨ s.1 = 0 :: k} := by
  intro ω ω' hω
  have h1 := hω (1 :: k, 0) (.inl rfl)
  have h0 := hω (0 :: k, 0) (.inr rfl)
  simp only [eventSet, Set.mem_inter_iff, Set.mem_ofPred_eq, h1, h0]

theorem ideal_eventSet (hc : IsChoice choice) {h : Fin m → ℝ} (hn : ∀ j, 0 ≤ h j) (hp : 0 < ∑ l, h l) {B : Set ℝ} (hB : MeasurableSet B) (j : Fin m) (k : Keys.Key) :
    ideal (eventSet choice h B j k) = ENNReal.ofReal (h j / ∑ l, h l) * unif {u | negLog u / (∑ l, h l) ∈ B} := by
  unfold eventSet
  rw [inter (S := {s | s.1 = 1 :: k}) (T := {s | s.1 = 0 :: k}), site _ (measurableSet_choice hc _ j), site _ (measurableSet_wait _ hB), hc.prob _ (fun j => div_nonneg (hn j) hp.le)]
  · rw [← Finset.sum_div, div_self hp.ne']
  · rw [Set.disjoint_left]
    rintro s h1 h0
    rw [Set.mem_ofPred_eq] at h1 h0
    rw [h1] at h0
    simp at h0
  · exact measurableSet_site _ (measurableSet_choice hc _ j)
  · exact measurableSet_site _ (measurableSet_wait _ hB)
  · intro ω ω' hω
    simp only [Set.mem_ofPred_eq, hω (1 :: k, 0) rfl]
  · intro ω ω' hω
    simp only [Set.mem_ofPred_eq, hω (0 :: k, 0) rfl]

/-! ## Many events -/

variable {haz : (ℤ × ℤ) → Fin m → ℝ} {poss : (ℤ × ℤ) → Fin m → ℤ × ℤ}

/-- The state, time and key after `i` events. -/
noncomputable def jumpAfter (choice : (Fin m → ℝ) → ℝ → Fin m) (haz : (ℤ × ℤ) → Fin m → ℝ) (poss : (ℤ × ℤ) → Fin m → ℤ × ℤ) (x0 : ℤ × ℤ) (t0 : ℝ) (key : Keys.Key) (ω : Tape) (i : ℕ) :
    ((ℤ × ℤ) × Fl) × Keys.Key := bodyIter (jump (tapeRng choice ω) haz poss) i ((x0, Fl.fin t0), key)

theorem jumpAfter_succ (x0 : ℤ × ℤ) (t0 : ℝ) (key : Keys.Key) (ω : Tape) (i : ℕ) : jumpAfter choice haz poss x0 t0 key ω (i + 1) =
    jump (tapeRng choice ω) haz poss (jumpAfter choice haz poss x0 t0 key ω i).1 (jumpAfter choice haz poss x0 t0 key ω i).2 := by
  simp [jumpAfter, bodyIter, Function.iterate_succ_apply']

theorem jumpAfter_key (x0 : ℤ × ℤ) (t0 : ℝ) (key : Keys.Key) (ω : Tape) (i : ℕ) : (jumpAfter choice haz poss x0 t0 key ω i).2 = eventKey key i := by
  induction i with
  | zero => rfl
  | succ i ih =>
    rw [jumpAfter_succ, ← eventKey_succ, ← ih]
    rfl

/-- A path is followed exactly when the tape says so, event by event. -/
theorem follows_iff {x : ℕ → ℤ × ℤ} {j : ℕ → Fin m} {B : ℕ → Set ℝ} {t0 : ℝ} {key : Keys.Key} (n : ℕ) (hj : ∀ i < n, x (i + 1) = poss (x i) (j i))
    (hinj : ∀ i < n, Function.Injective (poss (x i))) (hp : ∀ i < n, 0 < ∑ l, haz (x i) l) (ω : Tape) :
    ((∀ i < n, (jumpAfter choice haz poss (x 0) t0 key ω (i + 1)).1.1 = x (i + 1) ∧
        WaitIn (jumpAfter choice haz poss (x 0) t0 key ω i).1.2 (jumpAfter choice haz poss (x 0) t0 key ω (i + 1)).1.2 (B i)) ↔
      ω ∈ ⋂ i ∈ Finset.range n, eventSet choice (haz (x i)) (B i) (j i) (eventKey key i)) ∧
    ((∀ i < n, (jumpAfter choice haz poss (x 0) t0 key ω (i + 1)).1.1 = x (i + 1)) → ∃ t, (jumpAfter choice haz poss (x 0) t0 key ω n).1 = (x n, Fl.fin t)) := by
  induction n with
  | zero => exact ⟨by simp, fun _ => ⟨t0, rfl⟩⟩
  | succ n ih =>
    obtain ⟨ih1, ih2⟩ := ih (fun i h => hj i (by omega)) (fun i h => hinj i (by omega)) (fun i h => hp i (by omega))
    have hstep : ∀ {t}, (jumpAfter choice haz poss (x 0) t0 key ω n).1 = (x n, Fl.fin t) →
        (jumpAfter choice haz poss (x 0) t0 key ω (n + 1)).1 =
          (poss (x n) (choice (fun i => haz (x n) i / ∑ l, haz (x n) l) (ω (1 :: eventKey key n, 0))), Fl.fin (t + negLog (ω (0 :: eventKey key n, 0)) / ∑ l, haz (x n) l)) := by
      intro t ht
      rw [jumpAfter_succ, jumpAfter_key, ht]
      simp only [jump, tapeRng, fdiv, if_neg (hp n (by omega)).ne']
      rfl
    refine ⟨?_, ?_⟩
    · rw [Finset.range_add_one, Finset.set_biInter_insert, Set.mem_inter_iff, ← ih1]
      constructor
      · intro h
        have hlow : ∀ i < n, _ := fun i hi => h i (by omega)
        refine ⟨?_, hlow⟩
        obtain ⟨t, ht⟩ := ih2 fun i hi => (hlow i hi).1
        obtain ⟨h1, w, hw, h2⟩ := h n (by omega)
        rw [hstep ht] at h1 h2
        rw [ht] at h2
        simp only [Fl.add, Fl.fin.injEq, add_right_inj] at h2
        refine ⟨hinj n (by omega) (h1.trans (hj n (by omega))), ?_⟩
        change negLog _ / _ ∈ B n
        rwa [h2]
      · rintro ⟨⟨h1, h2⟩, hlow⟩ i hi
        rcases Nat.lt_succ_iff_lt_or_eq.1 hi with h | rfl
        · exact hlow i h
        · obtain ⟨t, ht⟩ := ih2 fun i hi => (hlow i hi).1
          rw [hstep ht, ht, hj i (by omega)]
          refine ⟨?_, _, h2, rfl⟩
          rw [Set.mem_ofPred_eq, Set.mem_ofPred_eq] at h1
          rw [h1]
    · intro h
      obtain ⟨t, ht⟩ := ih2 fun i hi => h i (by omega)
      refine ⟨t + negLog (ω (0 :: eventKey key n, 0)) / ∑ l, haz (x n) l, ?_⟩
      have := h n (by omega)
      rw [hstep ht] at this ⊢
      exact Prod.ext this rfl

theorem prod_close {a b c : ℕ → ℝ} {ε : ℝ} (n : ℕ) (ha : ∀ i < n, 0 ≤ a i ∧ a i ≤ 1) (hb : ∀ i < n, 0 ≤ b i ∧ b i ≤ 1) (hc : ∀ i < n, 0 ≤ c i ∧ c i ≤ 1) (hbc : ∀ i < n, |b i - c i| ≤ ε) :
    |∏ i ∈ Finset.range n, (a i * b i) - ∏ i ∈ Finset.range n, (a i * c i)| ≤ n * ε := by
  induction n with
  | zero => simp
  | succ n ih =>
    have ih := ih (fun i h => ha i (by omega)) (fun i h => hb i (by omega)) (fun i h => hc i (by omega)) (fun i h => hbc i (by omega))
    rw [Finset.prod_range_succ, Finset.prod_range_succ]
    set P := ∏ i ∈ Finset.range n, (a i * b i) with hP
    set Q := ∏ i ∈ Finset.range n, (a i * c i) with hQ
    have hQ0 : 0 ≤ Q := Finset.prod_nonneg fun i hi => mul_nonneg (ha i (by have := Finset.mem_range.1 hi; omega)).1 (hc i (by have := Finset.mem_range.1 hi; omega)).1
    have hQ1 : Q ≤ 1 := Finset.prod_le_one (fun i hi => mul_nonneg (ha i (by have := Finset.mem_range.1 hi; omega)).1 (hc i (by have := Finset.mem_range.1 hi; omega)).1)
      (fun i hi => mul_le_one₀ (ha i (by have := Finset.mem_range.1 hi; omega)).2 (hc i (by have := Finset.mem_range.1 hi; omega)).1 (hc i (by have := Finset.mem_range.1 hi; omega)).2)
    obtain ⟨a0, a1⟩ := ha n (by omega)
    obtain ⟨b0, b1⟩ := hb n (by omega)
    have hε := hbc n (by omega)
    have e : P * (a n * b n) - Q * (a n * c n) = (P - Q) * (a n * b n) + Q * a n * (b n - c n) := by ring
    rw [e]
    refine (abs_add_le _ _).trans ?_
    rw [abs_mul (P - Q), abs_mul (Q * a n), abs_of_nonneg (mul_nonneg a0 b0), abs_of_nonneg (mul_nonneg hQ0 a0)]
    have h1 : |P - Q| * (a n * b n) ≤ |P - Q| := mul_le_of_le_one_right (abs_nonneg _) (mul_le_one₀ a1 b0 b1)
    have h2 : Q * a n * |b n - c n| ≤ |b n - c n| := mul_le_of_le_one_left (abs_nonneg _) (mul_le_one₀ hQ1 a0 a1)
    push_cast
    linarith

/-- The law of the first `n` events: exactly, and against the Markov jump process. -/
theorem jump_law (hc : IsChoice choice) {x : ℕ → ℤ × ℤ} {j : ℕ → Fin m} {B : ℕ → Set ℝ} (hB : ∀ i, MeasurableSet (B i)) (t0 : ℝ) (key : Keys.Key) (n : ℕ)
    (hj : ∀ i < n, x (i + 1) = poss (x i) (j i)) (hinj : ∀ i < n, Function.Injective (poss (x i))) (hn : ∀ i < n, ∀ l, 0 ≤ haz (x i) l) (hp : ∀ i < n, 0 < ∑ l, haz (x i) l) :
    |(ideal {ω | ∀ i < n, (jumpAfter choice haz poss (x 0) t0 key ω (i + 1)).1.1 = x (i + 1) ∧
        WaitIn (jumpAfter choice haz poss (x 0) t0 key ω i).1.2 (jumpAfter choice haz poss (x 0) t0 key ω (i + 1)).1.2 (B i)}).toReal -
      ∏ i ∈ Finset.range n, haz (x i) (j i) / (∑ l, haz (x i) l) * (expMeasure (∑ l, haz (x i) l) (B i)).toReal| ≤ n * 1e-6 := by
  have hset : {ω | ∀ i < n, (jumpAfter choice haz poss (x 0) t0 key ω (i + 1)).1.1 = x (i + 1) ∧
        WaitIn (jumpAfter choice haz poss (x 0) t0 key ω i).1.2 (jumpAfter choice haz poss (x 0) t0 key ω (i + 1)).1.2 (B i)} =
      ⋂ i ∈ Finset.range n, eventSet choice (haz (x i)) (B i) (j i) (eventKey key i) := by
    ext ω
    exact (follows_iff n hj hinj hp ω).1
  rw [hset, biInter _ (S := fun i => {s : Site | s.1 = 1 :: eventKey key i ∨ s.1 = 0 :: eventKey key i})]
  · rw [Finset.prod_congr rfl fun i hi => ideal_eventSet hc (hn i (Finset.mem_range.1 hi)) (hp i (Finset.mem_range.1 hi)) (hB i) (j i) (eventKey key i), ENNReal.toReal_prod]
    simp only [ENNReal.toReal_mul]
    rw [Finset.prod_congr rfl fun i hi => by rw [ENNReal.toReal_ofReal (div_nonneg (hn i (Finset.mem_range.1 hi) _) (hp i (Finset.mem_range.1 hi)).le)]]
    refine prod_close n (fun i hi => ⟨div_nonneg (hn i hi _) (hp i hi).le, ?_⟩) (fun i hi => ⟨ENNReal.toReal_nonneg, ?_⟩) (fun i hi => ⟨ENNReal.toReal_nonneg, ?_⟩) (fun i hi => ?_)
    · rw [div_le_one (hp i hi)]
      exact Finset.single_le_sum (fun l _ => hn i hi l) (Finset.mem_univ _)
    · exact measureReal_le_one
    · have := isProbabilityMeasure_expMeasure (hp i hi)
      exact measureReal_le_one
    · exact shifted_exp (ε := 1e-6) (hp i hi) (by norm_num) (by norm_num) (hB i)
  · intro a _ b _ hab
    rw [Set.disjoint_left]
    intro s h1 h2
    have hl : ∀ i, (s.1 = 1 :: eventKey key i ∨ s.1 = 0 :: eventKey key i) → s.1.length = i + key.length + 1 := by
      rintro i (h | h) <;> rw [h] <;> simp [eventKey]
    have := hl a h1
    have := hl b h2
    omega
  · exact fun i _ => measurableSet_eventSet hc _ (hB i) _ _
  · exact fun i _ => eventSet_dependsOn _ _ _ _

/-! ## C119 -/

/-- C119, SIR: in a simulation with at least `n` iterations allowed, take any path of infections and removals `x 0` (the start), ..., `x n` with infected left before each, and any sets `B i`. The probability that the first `n` rows are this path, with the `i`-th
waiting time in `B i`, is that of the epidemic (infection at rate `β S I / N`, removal at rate `γ I`), up to `1e-6` per event. -/
theorem C119_sir {choice : (Fin 2 → ℝ) → ℝ → Fin 2} (hc : IsChoice choice) (p : Fin 2 → ℝ) (hβ : 0 ≤ p 0) (hγ : 0 < p 1) (x : ℕ → ℤ × ℤ) (B : ℕ → Set ℝ) (hB : ∀ i, MeasurableSet (B i))
    (key : Keys.Key) (maxIter : ℤ) (n : ℕ) (hn : (n : ℤ) ≤ maxIter) (hx : ∀ i < n, x (i + 1) = ((x i).1 - 1, (x i).2 + 1) ∨ x (i + 1) = ((x i).1, (x i).2 - 1)) (halive : ∀ i < n, 0 ≤ (x i).1 ∧ 0 < (x i).2) :
    |(ideal {ω | let r := sirTimesAndSi (tapeRng choice ω) (x 0) p key maxIter
        ∀ i < n, r.2.getD i 0 = x (i + 1) ∧ WaitIn ((Fl.fin 0 :: r.1).getD i .nan) ((Fl.fin 0 :: r.1).getD (i + 1) .nan) (B i)}).toReal -
      jumpProb (sirRate (p 0) (p 1) ((x 0).1 + (x 0).2)) (fun y => p 0 * y.1 * y.2 / ((x 0).1 + (x 0).2) + p 1 * y.2) x B n| ≤ n * 1e-6 := by
  classical
  rcases Nat.eq_zero_or_pos n with rfl | hn0
  · simp [jumpProb]
  set N : ℝ := (((x 0).1 + (x 0).2 : ℤ) : ℝ) with hN
  have hNpos : 0 < N := by
    obtain ⟨a, b⟩ := halive 0 hn0
    rw [hN]
    exact_mod_cast (by omega : 0 < (x 0).1 + (x 0).2)
  have htot : ∀ y : ℤ × ℤ, ∑ l, sirHazards p N y l = p 0 * y.1 * y.2 / N + p 1 * y.2 := by
    intro y
    rw [Fin.sum_univ_two]
    simp only [sirHazards, Matrix.cons_val_zero, Matrix.cons_val_one]
    ring
  have hpos : ∀ i < n, 0 < ∑ l, sirHazards p N (x i) l := by
    intro i hi
    obtain ⟨a, b⟩ := halive i hi
    have a' : (0 : ℝ) ≤ (x i).1 := by exact_mod_cast a
    have b' : (0 : ℝ) < (x i).2 := by exact_mod_cast b
    rw [htot]
    positivity
  have hnn : ∀ i < n, ∀ l, 0 ≤ sirHazards p N (x i) l := by
    intro i hi l
    obtain ⟨a, b⟩ := halive i hi
    have a' : (0 : ℝ) ≤ (x i).1 := by exact_mod_cast a
    have b' : (0 : ℝ) < (x i).2 := by exact_mod_cast b
    fin_cases l <;> simp [sirHazards] <;> positivity
  let j : ℕ → Fin 2 := fun i => if x (i + 1) = ((x i).1 - 1, (x i).2 + 1) then 0 else 1
  have hj : ∀ i < n, x (i + 1) = sirPossibilities (x i) (j i) := by
    intro i hi
    by_cases h : x (i + 1) = ((x i).1 - 1, (x i).2 + 1)
    · simp only [j, if_pos h]; exact h
    · simp only [j, if_neg h]; exact (hx i hi).resolve_left h
  have hinj : ∀ y, Function.Injective (sirPossibilities y) := by
    intro y a b h
    fin_cases a <;> fin_cases b <;> simp [sirPossibilities] at h ⊢ <;> omega
  have hlaw := jump_law (haz := sirHazards p N) (poss := sirPossibilities) hc hB 0 key n hj (fun i _ => hinj _) hnn hpos
  have hprod : ∏ i ∈ Finset.range n, sirHazards p N (x i) (j i) / (∑ l, sirHazards p N (x i) l) * (expMeasure (∑ l, sirHazards p N (x i) l) (B i)).toReal =
      jumpProb (sirRate (p 0) (p 1) ((x 0).1 + (x 0).2)) (fun y => p 0 * y.1 * y.2 / ((x 0).1 + (x 0).2) + p 1 * y.2) x B n := by
    have hN' : ((x 0).1 : ℝ) + (x 0).2 = N := by rw [hN]; push_cast; rfl
    unfold jumpProb
    refine Finset.prod_congr rfl fun i hi => ?_
    rw [htot, hN']
    congr 2
    by_cases h : x (i + 1) = ((x i).1 - 1, (x i).2 + 1)
    · simp only [j, if_pos h, sirRate, sirHazards, Matrix.cons_val_zero]; ring
    · simp only [j, if_neg h, sirRate, sirHazards, if_pos ((hx i (Finset.mem_range.1 hi)).resolve_left h)]; rfl
  rw [← hprod]
  convert hlaw using 5
  refine Set.ext fun ω => ?_
  rw [Set.mem_ofPred_eq, Set.mem_ofPred_eq]
  obtain ⟨m, hm, hstack, -, -, hlive, hstop⟩ := C11_raw_stack (fun (carry : (ℤ × ℤ) × Fl) (_ : Keys.Key) => decide (carry.1.2 > 0)) (sirSingleStep (tapeRng choice ω) p N) ((x 0, Fl.fin 0), key) maxIter
  have hrow : ∀ i < m, (sirTimesAndSi (tapeRng choice ω) (x 0) p key maxIter).2.getD i 0 = (jumpAfter choice (sirHazards p N) sirPossibilities (x 0) 0 key ω (i + 1)).1.1 := by
    intro i hi
    simp only [sirTimesAndSi, sirSimulate]
    rw [← hN, hstack, List.map_append, List.getD_append _ _ _ _ (by simpa using hi), List.map_map, List.getD_eq_getElem _ _ (by simpa using hi)]
    simp only [List.getElem_map, List.getElem_range, Function.comp]
    rfl
  have htime : ∀ i ≤ m, (Fl.fin 0 :: (sirTimesAndSi (tapeRng choice ω) (x 0) p key maxIter).1).getD i .nan = (jumpAfter choice (sirHazards p N) sirPossibilities (x 0) 0 key ω i).1.2 := by
    intro i hi
    cases i with
    | zero => rfl
    | succ i =>
      rw [List.getD_cons_succ]
      simp only [sirTimesAndSi, sirSimulate]
      rw [← hN, hstack, List.map_append, List.getD_append _ _ _ _ (by simpa using hi), List.map_map, List.getD_eq_getElem _ _ (by simpa using hi)]
      simp only [List.getElem_map, List.getElem_range, Function.comp]
      rfl
  have hmn : ∀ {f : ℕ → ℤ × ℤ}, (∀ i < n, f i = x (i + 1)) → (∀ i < m, f i = (jumpAfter choice (sirHazards p N) sirPossibilities (x 0) 0 key ω (i + 1)).1.1) → n ≤ m := by
    intro f h1 h2
    by_contra hlt
    have hstop' := of_decide_eq_false (hstop (by omega))
    have : (jumpAfter choice (sirHazards p N) sirPossibilities (x 0) 0 key ω m).1.1 = x m := by
      cases m with
      | zero => rfl
      | succ m => rw [← h2 m (by omega), h1 m (by omega)]
    apply hstop'
    change (jumpAfter choice (sirHazards p N) sirPossibilities (x 0) 0 key ω m).1.1.2 > 0
    rw [this]
    exact (halive m (by omega)).2
  constructor
  · intro h
    have hle := hmn (fun i hi => (h i hi).1) hrow
    intro i hi
    obtain ⟨a, b⟩ := h i hi
    rw [hrow i (by omega)] at a
    rw [htime i (by omega), htime (i + 1) (by omega)] at b
    exact ⟨a, b⟩
  · intro h
    have hle := hmn (fun i hi => (h i hi).1) (fun i _ => rfl)
    intro r i hi
    rw [hrow i (by omega), htime i (by omega), htime (i + 1) (by omega)]
    exact h i hi

/-- C119, SIR with transformed parameters: the rates are `exp x₀` and `exp x₁`. -/
theorem C119_sir_transformed {choice : (Fin 2 → ℝ) → ℝ → Fin 2} (hc : IsChoice choice) (par : Fin 2 → ℝ) (x : ℕ → ℤ × ℤ) (B : ℕ → Set ℝ) (hB : ∀ i, MeasurableSet (B i))
    (key : Keys.Key) (maxIter : ℤ) (n : ℕ) (hn : (n : ℤ) ≤ maxIter) (hx : ∀ i < n, x (i + 1) = ((x i).1 - 1, (x i).2 + 1) ∨ x (i + 1) = ((x i).1, (x i).2 - 1)) (halive : ∀ i < n, 0 ≤ (x i).1 ∧ 0 < (x i).2) :
    |(ideal {ω | let r := transformedSirTimesAndSi (tapeRng choice ω) (x 0) par key maxIter
        ∀ i < n, r.2.getD i 0 = x (i + 1) ∧ WaitIn ((Fl.fin 0 :: r.1).getD i .nan) ((Fl.fin 0 :: r.1).getD (i + 1) .nan) (B i)}).toReal -
      jumpProb (sirRate (Real.exp (par 0)) (Real.exp (par 1)) ((x 0).1 + (x 0).2)) (fun y => Real.exp (par 0) * y.1 * y.2 / ((x 0).1 + (x 0).2) + Real.exp (par 1) * y.2) x B n| ≤ n * 1e-6 :=
  C119_sir hc (constrainExp par) (Real.exp_nonneg _) (Real.exp_pos _) x B hB key maxIter n hn hx halive

/-- C119, Lotka-Volterra: the same for the events of the Lotka-Volterra process, repeated from the state `x 0` at time `t0` with the keys of the simulation (the simulation stops repeating them at the last observation time, C76). -/
theorem C119_lotka_volterra {choice : (Fin 3 → ℝ) → ℝ → Fin 3} (hc : IsChoice choice) (c : Fin 3 → ℝ) (hcn : ∀ l, 0 ≤ c l) (x : ℕ → ℤ × ℤ) (B : ℕ → Set ℝ) (hB : ∀ i, MeasurableSet (B i)) (t0 : ℝ) (key : Keys.Key) (n : ℕ)
    (hx : ∀ i < n, x (i + 1) = ((x i).1 + 1, (x i).2) ∨ x (i + 1) = ((x i).1 - 1, (x i).2 + 1) ∨ x (i + 1) = ((x i).1, (x i).2 - 1)) (hnn : ∀ i < n, 0 ≤ (x i).1 ∧ 0 ≤ (x i).2)
    (hpos : ∀ i < n, 0 < c 0 * (x i).1 + c 1 * (x i).1 * (x i).2 + c 2 * (x i).2) :
    |(ideal {ω | let event := fun s : ((ℤ × ℤ) × Fl) × Keys.Key => jump (tapeRng choice ω) (lvHazards c) lvPossibilities s.1 s.2
        ∀ i < n, (event^[i + 1] ((x 0, .fin t0), key)).1.1 = x (i + 1) ∧ WaitIn (event^[i] ((x 0, .fin t0), key)).1.2 (event^[i + 1] ((x 0, .fin t0), key)).1.2 (B i)}).toReal -
      jumpProb (lvRate c) (fun y => c 0 * y.1 + c 1 * y.1 * y.2 + c 2 * y.2) x B n| ≤ n * 1e-6 := by
  classical
  have htot : ∀ y : ℤ × ℤ, ∑ l, lvHazards c y l = c 0 * y.1 + c 1 * y.1 * y.2 + c 2 * y.2 := by
    intro y
    rw [Fin.sum_univ_three]
    rfl
  have hnn' : ∀ i < n, ∀ l, 0 ≤ lvHazards c (x i) l := by
    intro i hi l
    obtain ⟨a, b⟩ := hnn i hi
    have a' : (0 : ℝ) ≤ (x i).1 := by exact_mod_cast a
    have b' : (0 : ℝ) ≤ (x i).2 := by exact_mod_cast b
    have h0 := hcn 0
    have h1 := hcn 1
    have h2 := hcn 2
    fin_cases l <;> (simp [lvHazards]; positivity)
  let j : ℕ → Fin 3 := fun i => if x (i + 1) = ((x i).1 + 1, (x i).2) then 0 else if x (i + 1) = ((x i).1 - 1, (x i).2 + 1) then 1 else 2
  have hj : ∀ i < n, x (i + 1) = lvPossibilities (x i) (j i) := by
    intro i hi
    by_cases h : x (i + 1) = ((x i).1 + 1, (x i).2)
    · simp only [j, if_pos h]; exact h
    · by_cases h' : x (i + 1) = ((x i).1 - 1, (x i).2 + 1)
      · simp only [j, if_neg h, if_pos h']; exact h'
      · simp only [j, if_neg h, if_neg h']; exact ((hx i hi).resolve_left h).resolve_left h'
  have hinj : ∀ y, Function.Injective (lvPossibilities y) := by
    intro y a b h
    fin_cases a <;> fin_cases b <;> simp [lvPossibilities] at h ⊢ <;> omega
  have hlaw := jump_law (haz := lvHazards c) (poss := lvPossibilities) hc hB t0 key n hj (fun i _ => hinj _) hnn' (fun i hi => by rw [htot]; exact hpos i hi)
  have hprod : ∏ i ∈ Finset.range n, lvHazards c (x i) (j i) / (∑ l, lvHazards c (x i) l) * (expMeasure (∑ l, lvHazards c (x i) l) (B i)).toReal =
      jumpProb (lvRate c) (fun y => c 0 * y.1 + c 1 * y.1 * y.2 + c 2 * y.2) x B n := by
    unfold jumpProb
    refine Finset.prod_congr rfl fun i hi => ?_
    rw [htot]
    congr 2
    by_cases h : x (i + 1) = ((x i).1 + 1, (x i).2)
    · simp only [j, if_pos h, lvRate]; rfl
    · by_cases h' : x (i + 1) = ((x i).1 - 1, (x i).2 + 1)
      · simp only [j, if_neg h, if_pos h', lvRate]; rfl
      · simp only [j, if_neg h, if_neg h', lvRate, if_pos (((hx i (Finset.mem_range.1 hi)).resolve_left h).resolve_left h')]; rfl
  rw [← hprod]
  exact hlaw

/-! ## Non-vacuity -/

theorem isChoice_firstAbove {m : ℕ} [NeZero m] : IsChoice fun (p : Fin m → ℝ) u => firstAbove p u where
  measurable p := measurable_firstAbove p
  prob p hp hs j := by
    have : {u | firstAbove p u = j} ∩ Set.Ico 0 1 = Set.Ico (cum p j) (cum p (j + 1)) := by
      ext u
      constructor
      · rintro ⟨h, h0, h1⟩
        exact (firstAbove_eq_iff hp h0 (by rwa [hs]) j).1 h
      · intro h
        have h0 : 0 ≤ u := by
          have := cum_mono hp (Nat.zero_le j)
          rw [cum_zero] at this
          exact this.trans h.1
        have h1 : u < 1 := by
          have := cum_mono hp (Nat.succ_le_of_lt j.2)
          rw [cum_all, hs] at this
          exact h.2.trans_le this
        exact ⟨(firstAbove_eq_iff hp h0 (by rwa [hs]) j).2 h, h0, h1⟩
    have hm : MeasurableSet {u | firstAbove p u = j} := measurable_firstAbove p (measurableSet_singleton j)
    unfold unif
    rw [Measure.restrict_apply hm, this, Real.volume_Ico, cum_succ]
    congr 1
    ring

/-- The hypotheses of `C119_sir` are met: an infection, then two removals, from one susceptible and one infected. -/
example : ∃ (choice : (Fin 2 → ℝ) → ℝ → Fin 2) (x : ℕ → ℤ × ℤ), IsChoice choice ∧ x 0 = (1, 1) ∧
    (∀ i < 3, x (i + 1) = ((x i).1 - 1, (x i).2 + 1) ∨ x (i + 1) = ((x i).1, (x i).2 - 1)) ∧ ∀ i < 3, 0 ≤ (x i).1 ∧ 0 < (x i).2 := by
  refine ⟨_, fun i => if i = 0 then (1, 1) else (0, 3 - i), isChoice_firstAbove, rfl, ?_, ?_⟩ <;> intro i hi <;> interval_cases i <;> simp

/-- The hypotheses of `C119_lotka_volterra` are met: a birth, then a predation, from one prey and one predator. -/
example : ∃ (choice : (Fin 3 → ℝ) → ℝ → Fin 3) (x : ℕ → ℤ × ℤ), IsChoice choice ∧
    (∀ i < 2, x (i + 1) = ((x i).1 + 1, (x i).2) ∨ x (i + 1) = ((x i).1 - 1, (x i).2 + 1) ∨ x (i + 1) = ((x i).1, (x i).2 - 1)) ∧ (∀ i < 2, 0 ≤ (x i).1 ∧ 0 ≤ (x i).2) ∧
    ∀ i < 2, 0 < (1 : ℝ) * (x i).1 + 1 * (x i).1 * (x i).2 + 1 * (x i).2 := by
  refine ⟨_, fun i => if i = 0 then (1, 1) else if i = 1 then (2, 1) else (1, 2), isChoice_firstAbove, ?_, ?_, ?_⟩ <;> intro i hi <;> interval_cases i <;> simp <;> norm_num

end Mocat.Props
