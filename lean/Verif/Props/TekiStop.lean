import Verif.Props.Teki
/-!
# C107: when ensemble Kalman inversion stops
-/
namespace Mocat.Props
open Mocat Mocat.Teki

variable {K : Type*} {n dx dy : ℕ}

/-- Unbiased variance of a sample. -/
noncomputable def sampleVar (x : Fin n → ℝ) : ℝ := (∑ i, (x i - (∑ k, x k) / n) ^ 2) / ((n : ℝ) - 1)

theorem sampleVar_nonneg (hn : 2 ≤ n) (x : Fin n → ℝ) : 0 ≤ sampleVar x := by
  have : (2 : ℝ) ≤ n := by exact_mod_cast hn
  exact div_nonneg (Finset.sum_nonneg fun _ _ => sq_nonneg _) (by linarith)

theorem std_lt_iff (hn : 2 ≤ n) (c : ℝ) (hc : 0 ≤ c) (v w : Fin n → Fin dx → ℝ) (j : Fin dx) :
    std v j < c * std w j ↔ sampleVar (fun i => v i j) < c ^ 2 * sampleVar fun i => w i j := by
  have h1 : ∀ v : Fin n → Fin dx → ℝ, std v j = Real.sqrt (sampleVar fun i => v i j) := fun v => by
    simp only [std, sampleVar, Teki.mean]
  have h2 : c * std w j = Real.sqrt (c ^ 2 * sampleVar fun i => w i j) := by
    rw [h1, Real.sqrt_mul (sq_nonneg c), Real.sqrt_sq hc]
  rw [h2, h1, Real.sqrt_lt_sqrt_iff (sampleVar_nonneg hn _)]

/-- C107, what holds (partial: for scenarios without a `constrain` of their own): the run stops at the first ensemble that has reached the maximum temperature or number of updates, or contains a NaN, or whose sample variance
in every coordinate is below `term_std ^ 2` times that of the initial ensemble; all ensembles before it are none of these. For scenarios with `constrain` see `C107_fails_constrained`. -/
theorem C107_stop_partial (env : Env K n dx dy) (c : Teki.Config) (anyNan : (Fin n → Fin dx → ℝ) → Bool) (hn : 2 ≤ n) (hc : 0 ≤ c.termStd)
    (s : Teki.State n dx dy) (e : Teki.Extra K dy) (he : e.iter = 0) :
    let run := Teki.runFrom env c id anyNan (s, e)
    let stop := fun (k : ℕ) (t : Teki.State n dx dy) => c.maxTemperature ≤ t.temperature ∨ c.maxIter ≤ k ∨ anyNan t.value = true ∨
      ∀ j, sampleVar (fun i => t.value i j) < c.termStd ^ 2 * sampleVar fun i => s.value i j
    run.head? = some s ∧ (∀ k t, run[k]? = some t → k + 1 < run.length → ¬ stop k t) ∧ (∀ t, run.getLast? = some t → stop (run.length - 1) t) := by
  intro run stop
  obtain ⟨m, h1, h2, h3, h4⟩ := C12_run (Teki.update env (Teki.nextTemperature c)) (Teki.terminated c id (std s.value) anyNan) c.maxIter (s, e)
  have hstop : ∀ k, Teki.terminated c id (std s.value) anyNan (bodyIter (Teki.update env (Teki.nextTemperature c)) k (s, e)).1
      (bodyIter (Teki.update env (Teki.nextTemperature c)) k (s, e)).2 = true ↔ stop k (bodyIter (Teki.update env (Teki.nextTemperature c)) k (s, e)).1 := by
    intro k
    simp only [Teki.terminated, Bool.or_eq_true, decide_eq_true_eq, teki_iter env _ s e he, id_eq, std_lt_iff hn c.termStd hc, stop]
    tauto
  have hrun : run = (List.range (m + 1)).map fun k => (bodyIter (Teki.update env (Teki.nextTemperature c)) k (s, e)).1 := h2
  refine ⟨?_, ?_, ?_⟩
  · rw [hrun, List.range_succ_eq_map]; rfl
  · intro k t ht hk
    rw [hrun, List.length_map, List.length_range] at hk
    rw [hrun, List.getElem?_map, List.getElem?_range (by omega)] at ht
    obtain rfl := Option.some.inj ht
    rw [← hstop]
    have := h3 k (by omega)
    simp [this]
  · intro t ht
    rw [hrun, List.range_succ, List.map_append, List.getLast?_append] at ht
    obtain rfl := Option.some.inj ht
    have hl : run.length - 1 = m := by rw [hrun]; simp
    rw [hl]
    rcases lt_or_ge (m : ℤ) c.maxIter with h | h
    · exact (hstop m).1 (h4 (by omega))
    · exact Or.inr (Or.inl h)

theorem std_smul (a : ℝ) (v : Fin n → Fin dx → ℝ) (j : Fin dx) : std (fun i => a • v i) j = |a| * std v j := by
  have hmean : Teki.mean (fun i => a • v i) j = a * Teki.mean v j := by
    simp only [Teki.mean, Pi.smul_apply, smul_eq_mul, ← Finset.mul_sum]
    ring
  have : ∑ i, ((a • v i) j - Teki.mean (fun i => a • v i) j) ^ 2 = a ^ 2 * ∑ i, (v i j - Teki.mean v j) ^ 2 := by
    rw [Finset.mul_sum]
    exact Finset.sum_congr rfl fun i _ => by rw [hmean, Pi.smul_apply, smul_eq_mul]; ring
  simp only [std]
  rw [this, mul_div_assoc, Real.sqrt_mul (sq_nonneg a), Real.sqrt_sq_eq_abs]

/-- C107 fails with `constrain`: the spread of the constrained ensemble is compared with that of the unconstrained initial one. For a scenario whose constrained parameters are `a` times the unconstrained ones, `|a| < term_std`, every
run stops before its first update, although nothing has contracted: the one ensemble it contains is the initial one, whose variances, constrained or not, are at least `term_std ^ 2 < 1` times themselves. -/
theorem C107_fails_constrained (env : Env K n dx dy) (c : Teki.Config) (anyNan : (Fin n → Fin dx → ℝ) → Bool) (hn : 2 ≤ n) (a : ℝ)
    (ha : |a| < c.termStd) (hc1 : c.termStd < 1) (s : Teki.State n dx dy) (e : Teki.Extra K dy) (hs : ∀ j, 0 < sampleVar fun i => s.value i j) :
    Teki.runFrom env c (fun x => a • x) anyNan (s, e) = [s] ∧
      ∀ j, c.termStd ^ 2 * sampleVar (fun i => (a • s.value i) j) ≤ sampleVar fun i => (a • s.value i) j := by
  have hpos : ∀ j, 0 < std s.value j := fun j => by
    have : std s.value j = Real.sqrt (sampleVar fun i => s.value i j) := by simp only [std, sampleVar, Teki.mean]
    rw [this]; exact Real.sqrt_pos.2 (hs j)
  have hc0 : 0 ≤ c.termStd := (abs_nonneg a).trans ha.le
  obtain ⟨m, h1, h2, h3, h4⟩ := C12_run (Teki.update env (Teki.nextTemperature c)) (Teki.terminated c (fun x => a • x) (std s.value) anyNan) c.maxIter (s, e)
  have h0 : Teki.terminated c (fun x => a • x) (std s.value) anyNan s e = true := by
    simp only [Teki.terminated, Bool.or_eq_true, decide_eq_true_eq, std_smul]
    exact Or.inl (Or.inr fun j => mul_lt_mul_of_pos_right ha (hpos j))
  have hm : m = 0 := by
    by_contra hm
    have := h3 0 (by omega)
    rw [show bodyIter (Teki.update env (Teki.nextTemperature c)) 0 (s, e) = (s, e) from rfl, h0] at this
    cases this
  refine ⟨?_, fun j => mul_le_of_le_one_left (sampleVar_nonneg hn _) (by nlinarith)⟩
  unfold Teki.runFrom
  rw [h2, hm]
  rfl

/-- Non-vacuity: two members 0 and 1, `term_std = 0.1`, constrained parameters a hundredth of the unconstrained ones. -/
example (env : Env K 2 1 1) (sim : Fin 2 → Fin 1 → ℝ) (e : Teki.Extra K 1) :
    let s : Teki.State 2 1 1 := ⟨fun i _ => (i : ℕ), sim, 0⟩
    Teki.runFrom env (Teki.Config.init none 1 10000 0.1) (fun x => (0.01 : ℝ) • x) (fun _ => false) (s, e) = [s] := by
  refine (C107_fails_constrained env _ _ le_rfl 0.01 (by norm_num [Teki.Config.init, abs_of_pos]) (by norm_num [Teki.Config.init]) _ e fun j => ?_).1
  norm_num [sampleVar, Fin.sum_univ_two]

end Mocat.Props
