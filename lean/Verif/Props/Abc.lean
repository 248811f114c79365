import Verif.Model.Abc
import Verif.Props.RobbinsMonro
import Mathlib.Data.Fintype.Card
import Mathlib.Algebra.Order.Floor.Ring
import Mathlib.Algebra.Order.Floor.Semiring
import Mathlib.Tactic.Positivity
/-!
# C60-C62, C64: importance ABC, ABC-MCMC, diagonal stepsizes
-/
namespace Mocat.Props
open Mocat Mocat.Mcmc Mocat.Abc

variable {K D X : Type*} {d : ℕ}

/-! ## C60 -/

theorem importance_iter (split4 : Split4 K) (sc : Abc.Scenario K X D) (prop : K → X) (lw : Fl → Row X D → Fl)
    (init : Row X D × Extra K Fl) (k : ℕ) :
    (bodyIter (importanceUpdate split4 sc prop lw) k init).2.iter = init.2.iter ∧
    (bodyIter (importanceUpdate split4 sc prop lw) k init).2.params = init.2.params := by
  induction k with
  | zero => exact ⟨rfl, rfl⟩
  | succ k ih => rw [bodyIter_succ]; exact ih

/-- A run of importance ABC is the starting row followed by the rows after `1, ..., n - 1` updates. -/
theorem importance_run_eq (split : K → K × K) (split4 : Split4 K) (sc : Abc.Scenario K X D) (prop : K → X)
    (lw : Fl → Row X D → Fl) (n : ℤ) (v0 : Option X) (key : K) (thr : Fl) :
    importanceRun split split4 sc prop lw n v0 key thr
      = (List.range ((n - 1).toNat + 1)).map fun i =>
          (bodyIter (importanceUpdate split4 sc prop lw) i (importanceStartup split sc lw v0 key thr)).1 := by
  obtain ⟨m, h1, h2, h3, h4⟩ := C12_run (importanceUpdate split4 sc prop lw) (fun _ e => terminated (n - 1) e) (n - 1)
    (importanceStartup split sc lw v0 key thr)
  have hm : m = (n - 1).toNat := by
    by_contra hne
    have hlt : m < (n - 1).toNat := lt_of_le_of_ne h1 hne
    have := h4 hlt
    have e0 := (importance_iter split4 sc prop lw (importanceStartup split sc lw v0 key thr) m).1
    simp only [terminated, e0, decide_eq_true_eq] at this
    have : n - 1 ≤ 0 := this
    omega
  rw [importanceRun, h2, hm]

/-- C60: a run of size `n` makes exactly `n` simulations. -/
theorem C60_run_length (split : K → K × K) (split4 : Split4 K) (sc : Abc.Scenario K X D) (prop : K → X)
    (lw : Fl → Row X D → Fl) (n : ℤ) (hn : 1 ≤ n) (v0 : Option X) (key : K) (thr : Fl) :
    ((importanceRun split split4 sc prop lw n v0 key thr).length : ℤ) = n := by
  rw [importance_run_eq]; simp; omega

/-- What a row of an ABC run records: the data was simulated at the recorded value, the distance is that of the data, the prior potential
that of the value. (Specification.) -/
structure GenuineRow (sc : Abc.Scenario K X D) (r : Row X D) : Prop where
  data : ∃ k, r.data = sc.likelihoodSample r.value k
  distance : r.distance = sc.distance r.data
  prior : ∃ k, r.prior = sc.priorPotential r.value k

theorem importance_rows (split : K → K × K) (split4 : Split4 K) (sc : Abc.Scenario K X D) (prop : K → X)
    (lw : Fl → Row X D → Fl) (hlw : ∀ t r x, lw t { r with logWeight := x } = lw t r) (n : ℤ) (v0 : Option X) (key : K) (thr : Fl) :
    ∀ r ∈ importanceRun split split4 sc prop lw n v0 key thr, r.logWeight = lw thr r ∧ GenuineRow sc r := by
  rw [importance_run_eq]
  intro r hr
  obtain ⟨i, -, rfl⟩ := List.mem_map.mp hr
  cases i with
  | zero =>
    simp only [bodyIter, Function.iterate_zero, id_eq, importanceStartup]
    refine ⟨?_, ⟨_, rfl⟩, rfl, ⟨_, rfl⟩⟩
    exact (hlw thr _ _).symm
  | succ i =>
    have hp := (importance_iter split4 sc prop lw (importanceStartup split sc lw v0 key thr) i).2
    rw [bodyIter_succ]
    generalize bodyIter (importanceUpdate split4 sc prop lw) i (importanceStartup split sc lw v0 key thr) = c at hp
    simp only [importanceUpdate, hp]
    refine ⟨?_, ⟨_, rfl⟩, rfl, ⟨_, rfl⟩⟩
    exact (hlw thr _ _).symm

/-- C60, `VanillaABC`: in every row of every run, the log weight is 0 if the distance is below the threshold and `-inf` otherwise (in particular where the
distance is NaN), the distance being that of data simulated at the row's value. -/
theorem C60_vanilla (split : K → K × K) (split4 : Split4 K) (sc : Abc.Scenario K X D) (n : ℤ) (v0 : Option X) (key : K) (thr : Fl) :
    ∀ r ∈ importanceRun split split4 sc sc.priorSample vanillaLogWeight n v0 key thr,
      GenuineRow sc r ∧ (Fl.lt r.distance thr → r.logWeight = Fl.fin 0) ∧ (¬ Fl.lt r.distance thr → r.logWeight = Fl.ninf) := by
  intro r hr
  obtain ⟨h1, h2⟩ := importance_rows split split4 sc _ vanillaLogWeight (fun _ _ _ => rfl) n v0 key thr r hr
  refine ⟨h2, fun h => ?_, fun h => ?_⟩ <;> rw [h1] <;> unfold vanillaLogWeight
  · exact if_pos h
  · exact if_neg h

/-- C60, `ImportanceABC`: on the same set the log weight is importance potential minus prior potential; `-inf` elsewhere. -/
theorem C60_importance (split : K → K × K) (split4 : Split4 K) (sc : Abc.Scenario K X D) (prop : K → X) (imp : X → Fl) (n : ℤ)
    (v0 : Option X) (key : K) (thr : Fl) :
    ∀ r ∈ importanceRun split split4 sc prop (importanceLogWeight imp) n v0 key thr,
      GenuineRow sc r ∧ (Fl.lt r.distance thr → r.logWeight = Fl.sub (imp r.value) r.prior) ∧
      (¬ Fl.lt r.distance thr → r.logWeight = Fl.ninf) := by
  intro r hr
  obtain ⟨h1, h2⟩ := importance_rows split split4 sc _ (importanceLogWeight imp) (fun _ _ _ => rfl) n v0 key thr r hr
  refine ⟨h2, fun h => ?_, fun h => ?_⟩ <;> rw [h1] <;> unfold importanceLogWeight
  · rw [if_pos h]
    unfold Fl.sub
    cases r.prior <;> cases imp r.value <;> simp [Fl.neg, Fl.add, add_comm]
  · exact if_neg h

/-- C60: with finite potentials the weight is prior density over proposal density on the ball. -/
theorem C60_importance_ratio (split : K → K × K) (split4 : Split4 K) (sc : Abc.Scenario K X D) (prop : K → X) (imp pri : X → ℝ)
    (hpri : ∀ x k, sc.priorPotential x k = Fl.fin (pri x)) (n : ℤ) (v0 : Option X) (key : K) (thr : Fl) :
    ∀ r ∈ importanceRun split split4 sc prop (importanceLogWeight fun x => Fl.fin (imp x)) n v0 key thr,
      Fl.lt r.distance thr → Fl.exp r.logWeight = Fl.fin (Real.exp (-pri r.value) / Real.exp (-imp r.value)) := by
  intro r hr h
  obtain ⟨⟨_, _, k, hk⟩, h2, _⟩ := C60_importance split split4 sc prop (fun x => Fl.fin (imp x)) n v0 key thr r hr
  rw [h2 h, hk, hpri, ← Real.exp_sub]
  simp only [Fl.sub, Fl.neg, Fl.add, Fl.exp]
  congr 2; ring

/-- Non-vacuity of C60: keys are numbers, the value of key `k` is `k`, the data is the value, the distance is `|x - 3|`. With threshold 2
the row with value 4 has weight and the one with value 1 has not. -/
example : ∃ sc : Abc.Scenario ℕ ℝ ℝ,
    (∃ r ∈ importanceRun (fun k => (k, k)) (fun k => (k + 1, k, k, k)) sc sc.priorSample vanillaLogWeight 5 none 1 (Fl.fin 2),
      r.value = 4 ∧ r.logWeight = Fl.fin 0) ∧
    (∃ r ∈ importanceRun (fun k => (k, k)) (fun k => (k + 1, k, k, k)) sc sc.priorSample vanillaLogWeight 5 none 1 (Fl.fin 2),
      r.value = 1 ∧ r.logWeight = Fl.ninf) := by
  obtain ⟨sc, hsc⟩ : ∃ sc : Abc.Scenario ℕ ℝ ℝ, sc = ⟨fun k => k, fun _ _ => Fl.fin 0, fun x _ => x, fun x => Fl.fin |x - 3|⟩ := ⟨_, rfl⟩
  have mem : ∀ i < 5, (bodyIter (importanceUpdate (fun k : ℕ => (k + 1, k, k, k)) sc sc.priorSample vanillaLogWeight) i
      (importanceStartup (fun k => (k, k)) sc vanillaLogWeight none 1 (Fl.fin 2))).1
      ∈ importanceRun (fun k => (k, k)) (fun k => (k + 1, k, k, k)) sc sc.priorSample vanillaLogWeight 5 none 1 (Fl.fin 2) := by
    intro i hi
    rw [importance_run_eq]
    exact List.mem_map.mpr ⟨i, List.mem_range.mpr (by omega), rfl⟩
  refine ⟨sc, ⟨_, mem 4 (by norm_num), ?_, ?_⟩, ⟨_, mem 0 (by norm_num), ?_, ?_⟩⟩
  · subst hsc; change (((1 + 1 + 1 + 1 : ℕ) : ℝ)) = 4; norm_num
  · refine (C60_vanilla _ _ sc _ _ _ _ _ (mem 4 (by norm_num))).2.1 ?_
    subst hsc; change |((1 + 1 + 1 + 1 : ℕ) : ℝ) - 3| < 2; norm_num
  · subst hsc; change (((1 : ℕ) : ℝ)) = 1; norm_num
  · refine (C60_vanilla _ _ sc _ _ _ _ _ (mem 0 (by norm_num))).2.2 ?_
    subst hsc; change ¬ |((1 : ℕ) : ℝ) - 3| < 2; norm_num

/-! ## C61 -/

section quantile
variable {n : ℕ}

theorem sorted_mono (v : Fin n → ℝ) : Monotone (sorted v) := Tuple.monotone_sort v

theorem card_sorted (v : Fin n → ℝ) (t : ℝ) :
    (Finset.univ.filter fun i => v i < t).card = (Finset.univ.filter fun j => sorted v j < t).card := by
  symm
  apply Finset.card_bij (fun j _ => Tuple.sort v j)
  · intro j hj
    exact Finset.mem_filter.mpr ⟨Finset.mem_univ _, (Finset.mem_filter.mp hj).2⟩
  · intro a _ b _ h; exact (Tuple.sort v).injective h
  · intro i hi
    refine ⟨(Tuple.sort v).symm i, Finset.mem_filter.mpr ⟨Finset.mem_univ _, ?_⟩, by simp⟩
    have := (Finset.mem_filter.mp hi).2
    simpa [sorted] using this

theorem sorted_injective {v : Fin n → ℝ} (h : Function.Injective v) : Function.Injective (sorted v) :=
  h.comp (Tuple.sort v).injective

variable [NeZero n]

theorem clampIdx_val {k : ℕ} (h : k < n) : (clampIdx n k : ℕ) = k := by simp [clampIdx]; omega

/-- Position and neighbours of a quantile. -/
theorem quantile_pos {q : ℝ} (h0 : 0 ≤ q) (h1 : q ≤ 1) :
    0 ≤ q * ((n : ℝ) - 1) ∧ ⌊q * ((n : ℝ) - 1)⌋₊ < n ∧ ⌈q * ((n : ℝ) - 1)⌉₊ < n := by
  have hn : (1 : ℝ) ≤ n := by exact_mod_cast NeZero.one_le
  have hp : 0 ≤ q * ((n : ℝ) - 1) := mul_nonneg h0 (by linarith)
  have hle : q * ((n : ℝ) - 1) ≤ ((n - 1 : ℕ) : ℝ) := by
    rw [Nat.cast_sub NeZero.one_le, Nat.cast_one]; nlinarith
  have hc : ⌈q * ((n : ℝ) - 1)⌉₊ ≤ n - 1 := Nat.ceil_le.mpr hle
  have hf := Nat.floor_le_ceil (q * ((n : ℝ) - 1))
  have := NeZero.pos n
  exact ⟨hp, by omega, by omega⟩

theorem quantile_bounds (v : Fin n → ℝ) {q : ℝ} (h0 : 0 ≤ q) (h1 : q ≤ 1) :
    sorted v (clampIdx n ⌊q * ((n : ℝ) - 1)⌋₊) ≤ quantile v q ∧ quantile v q ≤ sorted v (clampIdx n ⌈q * ((n : ℝ) - 1)⌉₊) := by
  obtain ⟨hp, hf, hc⟩ := quantile_pos (n := n) h0 h1
  have hle : sorted v (clampIdx n ⌊q * ((n : ℝ) - 1)⌋₊) ≤ sorted v (clampIdx n ⌈q * ((n : ℝ) - 1)⌉₊) := by
    apply sorted_mono
    rw [Fin.le_def, clampIdx_val hf, clampIdx_val hc]
    exact Nat.floor_le_ceil _
  have hw0 : 0 ≤ q * ((n : ℝ) - 1) - ⌊q * ((n : ℝ) - 1)⌋₊ := by linarith [Nat.floor_le hp]
  have hw1 : q * ((n : ℝ) - 1) - ⌊q * ((n : ℝ) - 1)⌋₊ ≤ 1 := by linarith [Nat.lt_floor_add_one (q * ((n : ℝ) - 1))]
  unfold quantile
  simp only
  constructor <;> nlinarith

omit [NeZero n] in
theorem card_fin_lt (k : ℕ) (hk : k ≤ n) : (Finset.univ.filter fun j : Fin n => (j : ℕ) < k).card = k := by
  rw [Fin.card_filter_val_lt]; omega

end quantile

/-- The number of simulations with weight. (Specification.) -/
noncomputable def acceptedCount {n : ℕ} (w : Fin n → Fl) : ℕ := open Classical in (Finset.univ.filter fun i => w i ≠ Fl.ninf).card

theorem accepted_eq {n : ℕ} [NeZero n] (q : ℝ) (dist : Fin n → ℝ) :
    acceptedCount (cleanChainAr q dist).2 = (Finset.univ.filter fun i => dist i < quantile dist q).card := by
  classical
  unfold acceptedCount cleanChainAr
  apply congrArg
  apply Finset.filter_congr
  intro i _
  simp only
  split_ifs with h <;> simp [h]

/-- C61: with `acceptance_rate = q` and `n` simulations at most `⌈q (n - 1)⌉` have weight, for every distance vector. -/
theorem C61_at_most {n : ℕ} [NeZero n] (q : ℝ) (h0 : 0 ≤ q) (h1 : q ≤ 1) (dist : Fin n → ℝ) :
    acceptedCount (cleanChainAr q dist).2 ≤ ⌈q * ((n : ℝ) - 1)⌉₊ := by
  obtain ⟨hp, hf, hc⟩ := quantile_pos (n := n) h0 h1
  rw [accepted_eq, card_sorted]
  calc _ ≤ (Finset.univ.filter fun j : Fin n => (j : ℕ) < ⌈q * ((n : ℝ) - 1)⌉₊).card := by
        apply Finset.card_le_card
        intro j hj
        simp only [Finset.mem_filter, Finset.mem_univ, true_and] at hj ⊢
        by_contra hge
        have h2 := (quantile_bounds dist h0 h1).2
        have h3 : sorted dist (clampIdx n ⌈q * ((n : ℝ) - 1)⌉₊) ≤ sorted dist j := by
          apply sorted_mono; rw [Fin.le_def, clampIdx_val hc]; omega
        linarith
    _ = _ := card_fin_lt _ hc.le

/-- C61: exactly `⌈q (n - 1)⌉` have weight if the distances are distinct. -/
theorem C61_exact {n : ℕ} [NeZero n] (q : ℝ) (h0 : 0 ≤ q) (h1 : q ≤ 1) (dist : Fin n → ℝ) (hd : Function.Injective dist) :
    acceptedCount (cleanChainAr q dist).2 = ⌈q * ((n : ℝ) - 1)⌉₊ := by
  apply le_antisymm (C61_at_most q h0 h1 dist)
  obtain ⟨hp, hf, hc⟩ := quantile_pos (n := n) h0 h1
  rw [accepted_eq, card_sorted, ← card_fin_lt (n := n) _ hc.le]
  apply Finset.card_le_card
  intro j hj
  simp only [Finset.mem_filter, Finset.mem_univ, true_and] at hj ⊢
  have hstrict : StrictMono (sorted dist) := (sorted_mono dist).strictMono_of_injective (sorted_injective hd)
  have hjp : (j : ℝ) < q * ((n : ℝ) - 1) := Nat.lt_ceil.mp hj
  rcases Nat.lt_or_ge j ⌊q * ((n : ℝ) - 1)⌋₊ with h | h
  · have : sorted dist j < sorted dist (clampIdx n ⌊q * ((n : ℝ) - 1)⌋₊) := by
      apply hstrict; rw [Fin.lt_def, clampIdx_val hf]; exact h
    linarith [(quantile_bounds dist h0 h1).1]
  · have hjf : (j : ℕ) = ⌊q * ((n : ℝ) - 1)⌋₊ := by
      have := Nat.le_floor hjp.le; omega
    have hej : j = clampIdx n ⌊q * ((n : ℝ) - 1)⌋₊ := Fin.ext (by rw [clampIdx_val hf, hjf])
    have hlt : sorted dist (clampIdx n ⌊q * ((n : ℝ) - 1)⌋₊) < sorted dist (clampIdx n ⌈q * ((n : ℝ) - 1)⌉₊) := by
      apply hstrict; rw [Fin.lt_def, clampIdx_val hf, clampIdx_val hc]; omega
    have hw : 0 < q * ((n : ℝ) - 1) - ⌊q * ((n : ℝ) - 1)⌋₊ := by rw [← hjf]; linarith
    rw [hej]
    unfold quantile
    simp only
    nlinarith

/-- C61: the accepted simulations are the closest ones: every accepted one is closer than every rejected one, and the threshold recorded on the sampler
separates them. -/
theorem C61_closest {n : ℕ} [NeZero n] (q : ℝ) (dist : Fin n → ℝ) (i j : Fin n) (hi : (cleanChainAr q dist).2 i ≠ Fl.ninf)
    (hj : (cleanChainAr q dist).2 j = Fl.ninf) :
    (cleanChainAr q dist).2 i = Fl.fin 0 ∧ dist i < (cleanChainAr q dist).1 ∧ (cleanChainAr q dist).1 ≤ dist j := by
  classical
  unfold cleanChainAr at hi hj ⊢
  simp only at hi hj ⊢
  by_cases a : dist i < quantile dist q
  · by_cases b : dist j < quantile dist q
    · rw [if_pos b] at hj; cases hj
    · exact ⟨if_pos a, a, not_lt.mp b⟩
  · rw [if_neg a] at hi; exact absurd rfl hi

/-- Non-vacuity of C61: five distinct distances, rate 1/2: two simulations have weight. -/
example : acceptedCount (cleanChainAr (1 / 2) fun i : Fin 5 => (i : ℝ)).2 = 2 := by
  rw [C61_exact (1 / 2) (by norm_num) (by norm_num) _ (fun a b h => Fin.ext (by exact_mod_cast h))]
  norm_num

/-- With ties fewer are accepted: all distances equal, none has weight whatever the rate. -/
theorem C61_ties {n : ℕ} [NeZero n] (q : ℝ) (c : ℝ) : acceptedCount (cleanChainAr q fun _ : Fin n => c).2 = 0 := by
  rw [accepted_eq, Finset.card_eq_zero, Finset.filter_eq_empty_iff]
  intro i _
  unfold quantile sorted
  simp only [Function.comp]
  linarith

/-! ## C62 -/

section
variable (split : K → K × K) (split4 : Split4 K) (normal : K → Fin d → ℝ) (sc : Abc.Scenario K (Fin d → ℝ) D)

theorem keepsIter_randomWalkABC : KeepsIter (randomWalkABC split split4 normal sc) := ⟨fun _ _ => rfl, fun _ _ => rfl⟩
theorem keepsParams_randomWalkABC : KeepsParams (randomWalkABC split split4 normal sc) := ⟨fun _ _ => rfl, fun _ _ => rfl⟩

/-- A state inside the ball: the distance is below the threshold and the prior potential is neither `+inf` nor NaN. (Specification.) -/
def InBall (thr : Fl) (s : State (Payload d D)) : Prop := Fl.lt s.payload.distance thr ∧ LivePotential s.payload.prior

theorem abc_accept_in_ball (thr p q dist : Fl) (u : ℝ) (hu : 0 ≤ u)
    (h : Fl.lt (Fl.fin u) (if (Fl.minimum (Fl.fin 1) (Fl.mul (Fl.exp (Fl.add (Fl.neg p) q)) (indicator (Fl.lt dist thr)))).isNan then Fl.fin 0
      else Fl.minimum (Fl.fin 1) (Fl.mul (Fl.exp (Fl.add (Fl.neg p) q)) (indicator (Fl.lt dist thr))))) :
    Fl.lt dist thr ∧ (LivePotential q → LivePotential p) := by
  have hd : Fl.lt dist thr := by
    by_contra hd
    have : indicator (Fl.lt dist thr) = Fl.fin 0 := by simp [indicator, hd]
    rw [this] at h
    revert h
    generalize Fl.exp (Fl.add (Fl.neg p) q) = x
    intro h
    cases x <;> simp [Fl.mul, Fl.minimum, Fl.isNan, Fl.lt] at h <;> linarith
  refine ⟨hd, fun hq => live_of_accept p q u hu hq ?_⟩
  have : indicator (Fl.lt dist thr) = Fl.fin 1 := by simp [indicator, hd]
  rw [this] at h
  have e : Fl.mul (Fl.exp (Fl.add (Fl.neg p) q)) (Fl.fin 1) = Fl.exp (Fl.add (Fl.neg p) q) := by
    generalize Fl.exp (Fl.add (Fl.neg p) q) = x
    cases x <;> simp [Fl.mul]
  rwa [e] at h

variable (uniform : K → ℝ)

/-- One update of `RandomWalkABC` with `Metropolis`: either everything but `alpha` is kept, or the proposal is taken. -/
theorem abc_update_cases (s : State (Payload d D)) (e : Extra K (Params d)) :
    let e1 : Extra K (Params d) := { e with iter := e.iter + 1, key := (split e.key).1 }
    let prop := (randomWalkABC split split4 normal sc).proposal s e1
    let r := update (randomWalkABC split split4 normal sc) (metropolis split uniform) s e
    r.2.params = e.params ∧
    (r.1.payload = s.payload ∨
      (r.1.payload = prop.1.payload ∧
        ∃ u, u = uniform (split prop.2.key).2 ∧
        Fl.lt (Fl.fin u) (if ((randomWalkABC split split4 normal sc).acceptance s e1 prop.1 prop.2).isNan then Fl.fin 0
          else (randomWalkABC split split4 normal sc).acceptance s e1 prop.1 prop.2))) := by
  intro e1 prop r
  have hr : r = metropolis split uniform (randomWalkABC split split4 normal sc) s e1 prop.1 prop.2 := rfl
  obtain ⟨a, ha, h1, h2⟩ := C14_all_or_nothing split uniform (randomWalkABC split split4 normal sc) s e1 prop.1 prop.2
  by_cases hacc : Fl.lt (Fl.fin (uniform (split prop.2.key).2)) a
  · rw [hr, h1 hacc]; exact ⟨rfl, Or.inr ⟨rfl, _, rfl, ha ▸ hacc⟩⟩
  · rw [hr, h2 hacc]; exact ⟨rfl, Or.inl rfl⟩

/-- C62: whatever the current state, the next state either is the current one (with a new `alpha`) or has a distance below the threshold. -/
theorem C62_step (hu : ∀ k, 0 ≤ uniform k) (s : State (Payload d D)) (e : Extra K (Params d)) :
    let r := update (randomWalkABC split split4 normal sc) (metropolis split uniform) s e
    r.1.payload = s.payload ∨ Fl.lt r.1.payload.distance e.params.threshold := by
  intro r
  rcases (abc_update_cases split split4 normal sc uniform s e).2 with h | ⟨h, u, hu', hlt⟩
  · exact Or.inl h
  · right
    have := (abc_accept_in_ball e.params.threshold _ _ _ u (hu' ▸ hu _) hlt).1
    rw [show r.1.payload = _ from h]; exact this

/-- C62: a run of `RandomWalkABC` with a fixed threshold, started inside the ball with finite (or `-inf`) prior potential, never leaves the ball and never reaches a
value of zero prior density. -/
theorem C62_stays_in_ball (hu : ∀ k, 0 ≤ uniform k) (n : ℤ) (s0 : State (Payload d D)) (e0 : Extra K (Params d))
    (h0 : InBall e0.params.threshold s0) :
    ∀ s ∈ runFrom (randomWalkABC split split4 normal sc) (metropolis split uniform) n s0 e0, InBall e0.params.threshold s := by
  rw [C12_mcmc _ _ (keepsIter_randomWalkABC _ _ _ _) (corrKeepsIter_metropolis _ _)]
  intro s hs
  obtain ⟨i, -, rfl⟩ := List.mem_map.mp hs
  have := bodyIter_inv (update (randomWalkABC split split4 normal sc) (metropolis split uniform))
    (fun c => c.2.params = e0.params ∧ InBall e0.params.threshold c.1) (s0, e0) ⟨rfl, h0⟩ ?_ i
  · exact this.2
  rintro s e ⟨hp, hd, hl⟩
  obtain ⟨h1, h2⟩ := abc_update_cases split split4 normal sc uniform s e
  refine ⟨h1.trans hp, ?_⟩
  rcases h2 with h | ⟨h, u, hu', hlt⟩
  · unfold InBall; rw [h]; exact ⟨hd, hl⟩
  · have := abc_accept_in_ball e.params.threshold _ _ _ u (hu' ▸ hu _) hlt
    unfold InBall; rw [h, ← hp]; exact ⟨this.1, this.2 hl⟩

/-- C62: started anywhere, once a state of the chain differs from the starting state in value or data it is inside the ball, and so are all later ones. -/
theorem C62_outside_start (hu : ∀ k, 0 ≤ uniform k) (n : ℤ) (s0 : State (Payload d D)) (e0 : Extra K (Params d)) :
    ∀ s ∈ runFrom (randomWalkABC split split4 normal sc) (metropolis split uniform) n s0 e0,
      s.payload = s0.payload ∨ Fl.lt s.payload.distance e0.params.threshold := by
  rw [C12_mcmc _ _ (keepsIter_randomWalkABC _ _ _ _) (corrKeepsIter_metropolis _ _)]
  intro s hs
  obtain ⟨i, -, rfl⟩ := List.mem_map.mp hs
  have := bodyIter_inv (update (randomWalkABC split split4 normal sc) (metropolis split uniform))
    (fun c => c.2.params = e0.params ∧ (c.1.payload = s0.payload ∨ Fl.lt c.1.payload.distance e0.params.threshold)) (s0, e0)
    ⟨rfl, Or.inl rfl⟩ ?_ i
  · exact this.2
  rintro s e ⟨hp, h⟩
  refine ⟨((abc_update_cases split split4 normal sc uniform s e).1).trans hp, ?_⟩
  rcases C62_step split split4 normal sc uniform hu s e with h' | h'
  · rcases h with h | h
    · exact Or.inl (h'.trans h)
    · right; rw [h']; exact h
  · right; rw [hp] at h'; exact h'

/-- The recorded data was simulated at the recorded value, the distance and the prior potential belong to them. (Specification.) -/
def GenuineState (s : State (Payload d D)) : Prop :=
  (∃ k, s.payload.data = sc.likelihoodSample s.payload.value k) ∧ s.payload.distance = sc.distance s.payload.data ∧
    ∃ k, s.payload.prior = sc.priorPotential s.payload.value k

/-- C62: in every state of a run the data was simulated at the recorded value, and the distance and prior potential belong to them. -/
theorem C62_genuine (n : ℤ) (s0 : State (Payload d D)) (e0 : Extra K (Params d)) (h0 : GenuineState sc s0) :
    ∀ s ∈ runFrom (randomWalkABC split split4 normal sc) (metropolis split uniform) n s0 e0, GenuineState sc s := by
  rw [C12_mcmc _ _ (keepsIter_randomWalkABC _ _ _ _) (corrKeepsIter_metropolis _ _)]
  intro s hs
  obtain ⟨i, -, rfl⟩ := List.mem_map.mp hs
  refine bodyIter_inv (update (randomWalkABC split split4 normal sc) (metropolis split uniform))
    (fun c => GenuineState sc c.1) (s0, e0) h0 ?_ i
  rintro s e hse
  rcases (abc_update_cases split split4 normal sc uniform s e).2 with h | ⟨h, -⟩
  · unfold GenuineState; rw [h]; exact hse
  · unfold GenuineState; rw [h]; exact ⟨⟨_, rfl⟩, rfl, ⟨_, rfl⟩⟩

/-- C62: the recorded acceptance probability is a number in `[0, 1]`. -/
theorem C62_alpha_range (s : State (Payload d D)) (e : Extra K (Params d)) :
    ∃ a, 0 ≤ a ∧ a ≤ 1 ∧ (update (randomWalkABC split split4 normal sc) (metropolis split uniform) s e).1.alpha = Fl.fin a := by
  have key : ∀ x y : Fl, ∀ p : Prop, ∃ a, 0 ≤ a ∧ a ≤ 1 ∧
      (if (Fl.minimum (Fl.fin 1) (Fl.mul (Fl.exp x) (indicator p))).isNan then Fl.fin 0
        else Fl.minimum (Fl.fin 1) (Fl.mul (Fl.exp x) (indicator p))) = Fl.fin a := by
    intro x _ p
    by_cases hp : p
    · have e : Fl.mul (Fl.exp x) (indicator p) = Fl.exp x := by
        simp only [indicator, hp, if_true]
        generalize Fl.exp x = y
        cases y <;> simp [Fl.mul]
      rw [e]
      by_cases hn : (Fl.minimum (Fl.fin 1) (Fl.exp x)).isNan = true
      · exact ⟨0, le_refl _, zero_le_one, by simp [hn]⟩
      · obtain ⟨a, h0, h1, h2⟩ := Fl.minimum_one_exp x (by simpa using hn)
        exact ⟨a, h0, h1, by simp [Fl.isNan, h2]⟩
    · refine ⟨0, le_refl _, zero_le_one, ?_⟩
      simp only [indicator, hp, if_false]
      generalize Fl.exp x = y
      cases y <;> simp [Fl.mul, Fl.minimum, Fl.isNan, Fl.lt]
  have := key (Fl.add (Fl.neg ((randomWalkABC split split4 normal sc).proposal s
      { e with iter := e.iter + 1, key := (split e.key).1 }).1.payload.prior) s.payload.prior) Fl.nan
    (Fl.lt ((randomWalkABC split split4 normal sc).proposal s
      { e with iter := e.iter + 1, key := (split e.key).1 }).1.payload.distance e.params.threshold)
  exact this

/-- Non-vacuity of C62: a state inside a ball of radius 2, and a scenario in which it is genuine. -/
example : InBall (Fl.fin 2) (⟨⟨fun _ : Fin 1 => 1, Fl.fin 0, (1 : ℝ), Fl.fin 1, fun _ => 1⟩, Fl.fin 1, 0⟩) ∧
    GenuineState (⟨fun _ => fun _ => 0, fun _ _ => Fl.fin 0, fun x _ => x 0, fun y => Fl.fin |y|⟩ : Abc.Scenario ℕ (Fin 1 → ℝ) ℝ)
      ⟨⟨fun _ : Fin 1 => 1, Fl.fin 0, (1 : ℝ), Fl.fin 1, fun _ => 1⟩, Fl.fin 1, 0⟩ :=
  ⟨⟨by norm_num [Fl.lt], by simp, by simp⟩, ⟨0, rfl⟩, by simp, ⟨0, rfl⟩⟩

/-! ## C64 -/

theorem corrKeepsIter_diag (rm : RM (Params d)) (sup : Correction K (Payload d D) (Params d)) (h : CorrKeepsIter sup) :
    CorrKeepsIter (diagCorrect rm sup) := by
  intro smp rs re ps pe
  have := h smp rs re ps pe
  simp only [diagCorrect]
  split <;> (split <;> exact this)

/-- Robbins-Monro steps are non-negative for a non-negative scale. -/
theorem rm_step_nonneg (rm : RM (Params d)) (h : 0 ≤ rm.scale) (i : ℕ) : 0 ≤ rm.stepsizeAt i :=
  mul_nonneg h (Real.rpow_nonneg (Nat.cast_nonneg i) _)

/-- All components of the stepsize and of the variance estimate are positive, and the stepsize recorded in the state is the one in use. -/
def PositiveSteps (c : State (Payload d D) × Extra K (Params d)) : Prop :=
  (∀ i, 0 < c.2.params.stepsize i) ∧ (∀ i, 0 < c.2.params.diagPostCov i) ∧ c.1.payload.stepsize = c.2.params.stepsize

theorem diag_step_positive (rm : RM (Params d)) (hs : 0 ≤ rm.scale) (hset : ∀ p x, (rm.set p x).stepsize = p.stepsize ∧ (rm.set p x).diagPostCov = p.diagPostCov)
    (s : State (Payload d D)) (e : Extra K (Params d)) (h : PositiveSteps (s, e)) :
    PositiveSteps (update (randomWalkABC split split4 normal sc) (diagCorrect rm (metropolis split uniform)) s e) := by
  obtain ⟨h1, h2, h3⟩ := h
  -- state and extra after the Metropolis step
  obtain ⟨c, hc⟩ : ∃ c, c = update (randomWalkABC split split4 normal sc) (metropolis split uniform) s e := ⟨_, rfl⟩
  have hp : c.2.params = e.params := by rw [hc]; exact (abc_update_cases split split4 normal sc uniform s e).1
  have hst : c.1.payload.stepsize = e.params.stepsize := by
    rw [hc]
    rcases (abc_update_cases split split4 normal sc uniform s e).2 with h | ⟨h, -⟩ <;> rw [h]
    · exact h3
    · exact h3
  have hupd : update (randomWalkABC split split4 normal sc) (diagCorrect rm (metropolis split uniform)) s e
      = (let active : Bool := match rm.adaptCutOff with
          | none => true
          | some k => decide (c.2.iter ≤ k)
         let a := if active then diagAdapt rm c.1 c.2 else c
         ({ a.1 with tuned := rm.get a.2.params }, a.2)) := by rw [hc]; rfl
  rw [hupd]
  have key : PositiveSteps (diagAdapt rm c.1 c.2) := by
    have hrm0 : 0 ≤ min (rm.stepsizeAt c.2.iter) (1 - 1 / 1000) := le_min (rm_step_nonneg rm hs _) (by norm_num)
    have hrm1 : min (rm.stepsizeAt c.2.iter) (1 - 1 / 1000) ≤ 1 - 1 / 1000 := min_le_right _ _
    have hcov : ∀ i, 0 < (diagAdapt rm c.1 c.2).2.params.diagPostCov i := by
      intro i
      have hcp : ((rm.adapt c.1 c.2).2.params.diagPostCov i) = e.params.diagPostCov i := by
        simp only [RM.adapt, (hset _ _).2, hp]
      simp only [diagAdapt, hcp]
      have := h2 i
      simp only at this
      have h1' : 0 < 1 - min (rm.stepsizeAt c.2.iter) (1 - 1 / 1000) := by linarith
      positivity
    refine ⟨fun i => ?_, hcov, rfl⟩
    have hd : (0 : ℝ) < d := by exact_mod_cast (Fin.pos i)
    have := hcov i
    change 0 < (diagAdapt rm c.1 c.2).2.params.diagPostCov i / d * (238 / 100) ^ 2
    positivity
  have key' : PositiveSteps c := ⟨by rw [hp]; exact h1, by rw [hp]; exact h2, by rw [hst, hp]⟩
  dsimp only
  split
  · rw [if_pos rfl]; exact key
  · split
    · exact key
    · exact key'

/-- C64: started with positive stepsizes, every component of the stepsize stays positive for ever (non-negative Robbins-Monro scale; any cut-off and exponent),
and the stepsize recorded in the state is the one used. -/
theorem C64_positive (rm : RM (Params d)) (hs : 0 ≤ rm.scale)
    (hset : ∀ p x, (rm.set p x).stepsize = p.stepsize ∧ (rm.set p x).diagPostCov = p.diagPostCov)
    (s0 : State (Payload d D)) (e0 : Extra K (Params d)) (h0 : PositiveSteps (s0, e0)) (k : ℕ) :
    PositiveSteps (bodyIter (update (randomWalkABC split split4 normal sc) (diagCorrect rm (metropolis split uniform))) k (s0, e0)) :=
  bodyIter_inv _ PositiveSteps _ h0 (fun s e h => diag_step_positive split split4 normal sc uniform rm hs hset s e h) k

/-- C64: the start-up gives positive stepsizes if the user's stepsizes are positive or left to the default; it records them and the matching variances
`stepsize * d / 2.38²`. -/
theorem C64_startup (thr : Option ℝ) (step : Option (Fin d → ℝ)) (s : State (Payload d D)) (e : Extra K (Params d))
    (h : ∀ v, step = some v → e.params.stepsize = v ∧ ∀ i, 0 < v i) : PositiveSteps (diagStartup thr step s e) := by
  have hst : ∀ i, 0 < (diagStartup thr step s e).2.params.stepsize i := by
    intro i
    simp only [diagStartup]
    cases step with
    | none => simp
    | some v => obtain ⟨h1, h2⟩ := h v rfl; simp only [reduceCtorEq, if_false, h1]; exact h2 i
  refine ⟨hst, fun i => ?_, rfl⟩
  have hd : (0 : ℝ) < d := by exact_mod_cast (Fin.pos i)
  have := hst i
  change 0 < (diagStartup thr step s e).2.params.stepsize i * d / (238 / 100) ^ 2
  positivity

/-- C64 for every run of `RandomWalkABC` with `RMMetropolisDiagStepsize` from its own start-up: every recorded stepsize is positive in every component. -/
theorem C64_run (cutOff : Option ℕ) (scale expo : ℝ) (hs : 0 ≤ scale) (logUpdate : Bool) (n : ℤ)
    (thr : Option ℝ) (step : Option (Fin d → ℝ)) (s : State (Payload d D)) (e : Extra K (Params d))
    (h : ∀ v, step = some v → e.params.stepsize = v ∧ ∀ i, 0 < v i) :
    ∀ r ∈ runFrom (randomWalkABC split split4 normal sc) (diagCorrect (thresholdRM cutOff scale expo logUpdate) (metropolis split uniform)) n
      (diagStartup thr step s e).1 (diagStartup thr step s e).2, ∀ i, 0 < r.payload.stepsize i := by
  rw [C12_mcmc _ _ (keepsIter_randomWalkABC _ _ _ _) (corrKeepsIter_diag _ _ (corrKeepsIter_metropolis _ _))]
  intro r hr i
  obtain ⟨k, -, rfl⟩ := List.mem_map.mp hr
  obtain ⟨h1, -, h3⟩ := C64_positive split split4 normal sc uniform (thresholdRM cutOff scale expo logUpdate) hs (fun _ _ => ⟨rfl, rfl⟩)
    (diagStartup thr step s e).1 (diagStartup thr step s e).2 (C64_startup thr step s e h) k
  rw [h3]; exact h1 i

/-- C64: what the adaptation computes: while it is on, the new variance is `(1 - r) * old + r * (value - mean)²` with `r = min(scale * iter^-exp, 0.999)`, the mean
moves by `r` towards the value, and the stepsize is `2.38² / d` times the variance. -/
theorem C64_rule (rm : RM (Params d)) (hset : ∀ p x, (rm.set p x).diagPostCov = p.diagPostCov ∧ (rm.set p x).postMean = p.postMean)
    (s : State (Payload d D)) (e : Extra K (Params d)) (i : Fin d) (r : ℝ)
    (hr : r = min (rm.scale * (e.iter : ℝ) ^ (-rm.negExponent)) (1 - 1 / 1000)) :
    (diagAdapt rm s e).2.params.diagPostCov i
        = (1 - r) * e.params.diagPostCov i + r * (s.payload.value i - e.params.postMean i) ^ 2 ∧
    (diagAdapt rm s e).2.params.postMean i = e.params.postMean i + r * (s.payload.value i - e.params.postMean i) ∧
    (diagAdapt rm s e).2.params.stepsize i = (238 / 100) ^ 2 / d * (diagAdapt rm s e).2.params.diagPostCov i ∧
    (diagAdapt rm s e).1.payload.value = s.payload.value := by
  subst hr
  refine ⟨?_, ?_, ?_, rfl⟩
  · simp only [diagAdapt, RM.adapt, RM.stepsizeAt, (hset _ _).1, (hset _ _).2]
  · simp only [diagAdapt, RM.adapt, RM.stepsizeAt, (hset _ _).2]; ring
  · change (diagAdapt rm s e).2.params.diagPostCov i / d * (238 / 100) ^ 2 = _
    ring

/-- Non-vacuity of C64: the default start-up with its default scale satisfies the hypotheses. -/
example (s : State (Payload 2 ℝ)) (e : Extra ℕ (Params 2)) : PositiveSteps (diagStartup none none s e) ∧ (0 : ℝ) ≤ 1 ∧
    (diagStartup none none s e).2.params.stepsize = fun _ => 1 := ⟨C64_startup _ _ _ _ (by simp), by norm_num, by simp [diagStartup]⟩

end
end Mocat.Props
