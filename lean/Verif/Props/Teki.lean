import Verif.Model.Teki
import Verif.Props.Mcmc
import Verif.Props.Utils
import Verif.Props.Smc
import Mathlib.LinearAlgebra.AffineSpace.AffineSubspace.Basic
/-!
# C43, C44: tempered ensemble Kalman inversion
-/
namespace Mocat.Props
open Mocat Mocat.Teki Matrix

variable {K : Type*} {n dx dy : ℕ}

/-! ## C43 -/

/-- Combinations of centred ensemble members lie in the direction of the affine span. -/
theorem centred_mem_direction (hn : 0 < n) (vals : Fin n → Fin dx → ℝ) (i : Fin n) (w : Fin n → ℝ) :
    vals i + (centred vals)ᵀ *ᵥ w ∈ affineSpan ℝ (Set.range vals) := by
  have hn' : (n : ℝ) ≠ 0 := by exact_mod_cast hn.ne'
  set r := Real.sqrt ((n : ℝ) - 1)
  set wbar := (∑ k, w k) / n
  have key : (centred vals)ᵀ *ᵥ w = ∑ k, ((w k - wbar) / r) • (vals k - vals i) := by
    funext j
    simp only [mulVec, dotProduct, transpose_apply, centred, Finset.sum_apply, Pi.smul_apply, Pi.sub_apply, smul_eq_mul]
    have h1 : ∑ k, (w k - wbar) = 0 := by
      rw [Finset.sum_sub_distrib, Finset.sum_const, Finset.card_univ, Fintype.card_fin, nsmul_eq_mul]
      simp only [wbar]; field_simp; ring
    have h2 : ∑ k, (vals k j - mean vals j) = 0 := by
      rw [Finset.sum_sub_distrib, Finset.sum_const, Finset.card_univ, Fintype.card_fin, nsmul_eq_mul]
      simp only [mean]; field_simp; ring
    have e1 : ∑ k, (w k - wbar) / r * (vals k j - vals i j)
        = (∑ k, (w k - wbar) * (vals k j - mean vals j)) / r + (∑ k, (w k - wbar)) * ((mean vals j - vals i j) / r) := by
      rw [Finset.sum_div, Finset.sum_mul, ← Finset.sum_add_distrib]
      exact Finset.sum_congr rfl fun k _ => by ring
    have e2 : ∑ k, (w k - wbar) * (vals k j - mean vals j)
        = ∑ k, w k * (vals k j - mean vals j) - wbar * ∑ k, (vals k j - mean vals j) := by
      rw [Finset.mul_sum, ← Finset.sum_sub_distrib]
      exact Finset.sum_congr rfl fun k _ => by ring
    rw [e1, e2, h1, h2, mul_zero, sub_zero, zero_mul, add_zero, Finset.sum_div]
    exact Finset.sum_congr rfl fun k _ => by ring
  rw [key, add_comm]
  refine AffineSubspace.vadd_mem_of_mem_direction ?_ (mem_affineSpan ℝ (Set.mem_range_self i))
  refine Submodule.sum_mem _ fun k _ => Submodule.smul_mem _ _ ?_
  exact AffineSubspace.vsub_mem_direction (mem_affineSpan ℝ (Set.mem_range_self k)) (mem_affineSpan ℝ (Set.mem_range_self i))

theorem update_value_mem (env : Env K n dx dy) (next : Teki.State n dx dy → Teki.Extra K dy → ℝ) (s : Teki.State n dx dy) (e : Teki.Extra K dy) (i : Fin n) :
    (Teki.update env next s e).1.value i ∈ affineSpan ℝ (Set.range s.value) := by
  have hn : 0 < n := i.pos
  have : ∃ w : Fin n → ℝ, (Teki.update env next s e).1.value i = s.value i + (centred s.value)ᵀ *ᵥ w := by
    unfold Teki.update memberUpdate kalmanGain calculateCovariances
    dsimp only
    simp only [← mulVec_mulVec]
    exact ⟨_, rfl⟩
  obtain ⟨w, hw⟩ := this
  rw [hw]
  exact centred_mem_direction hn s.value i w

/-- C43: after any number of updates, with any way of choosing temperatures, simulator, noise, data and matrix routines, every particle lies in the
affine span of the initial ensemble. -/
theorem C43_affine_span (env : Env K n dx dy) (next : Teki.State n dx dy → Teki.Extra K dy → ℝ) (s : Teki.State n dx dy) (e : Teki.Extra K dy)
    (k : ℕ) (i : Fin n) :
    (bodyIter (Teki.update env next) k (s, e)).1.value i ∈ affineSpan ℝ (Set.range s.value) := by
  have : affineSpan ℝ (Set.range (bodyIter (Teki.update env next) k (s, e)).1.value) ≤ affineSpan ℝ (Set.range s.value) := by
    induction k with
    | zero => exact le_refl _
    | succ k ih =>
      refine le_trans ?_ ih
      rw [affineSpan_le]
      rintro _ ⟨j, rfl⟩
      rw [Mcmc.bodyIter_succ]
      exact update_value_mem env next _ _ j
  exact this (mem_affineSpan ℝ (Set.mem_range_self i))

/-- C43 for the chains returned by `run`. -/
theorem C43_chain (env : Env K n dx dy) (c : Teki.Config) (constrain : (Fin dx → ℝ) → Fin dx → ℝ)
    (anyNan : (Fin n → Fin dx → ℝ) → Bool) (s : Teki.State n dx dy) (e : Teki.Extra K dy) :
    ∀ t ∈ Teki.runFrom env c constrain anyNan (s, e), ∀ i, t.value i ∈ affineSpan ℝ (Set.range s.value) := by
  intro t ht i
  obtain ⟨m, -, h2, -, -⟩ := C12_run (Teki.update env (Teki.nextTemperature c)) (Teki.terminated c constrain (std s.value) anyNan) c.maxIter (s, e)
  unfold Teki.runFrom at ht
  rw [h2] at ht
  obtain ⟨k, -, rfl⟩ := List.mem_map.1 ht
  exact C43_affine_span env _ s e k i

/-- C43 is not trivial: two particles in the plane span only a line. -/
example : (![0, 1] : Fin 2 → ℝ) ∉ affineSpan ℝ (Set.range (![![0, 0], ![1, 0]] : Fin 2 → Fin 2 → ℝ)) := by
  have hle : affineSpan ℝ (Set.range (![![0, 0], ![1, 0]] : Fin 2 → Fin 2 → ℝ))
      ≤ (LinearMap.ker (LinearMap.proj 1 : (Fin 2 → ℝ) →ₗ[ℝ] ℝ)).toAffineSubspace := by
    rw [affineSpan_le]
    rintro _ ⟨j, rfl⟩
    fin_cases j <;> simp
  intro h
  have := hle h
  simp at this

/-! ## C44 -/

theorem teki_iter (env : Env K n dx dy) (next : Teki.State n dx dy → Teki.Extra K dy → ℝ) (s : Teki.State n dx dy) (e : Teki.Extra K dy)
    (he : e.iter = 0) (k : ℕ) : (bodyIter (Teki.update env next) k (s, e)).2.iter = k := by
  induction k with
  | zero => exact he
  | succ k ih => rw [Mcmc.bodyIter_succ]; change _ + 1 = _; rw [ih]

theorem teki_update_temperature (env : Env K n dx dy) (next : Teki.State n dx dy → Teki.Extra K dy → ℝ) (s : Teki.State n dx dy)
    (e : Teki.Extra K dy) : (Teki.update env next s e).1.temperature = next s (Teki.update env next s e).2 := rfl

/-- The temperatures visited when `next_temperature` depends on the iteration only: `g 0 = 0`, then `g k` at iteration `k`; the run ends at the first `L` with `g L ≥ max`. -/
theorem teki_chain (env : Env K n dx dy) (c : Teki.Config) (g : ℕ → ℝ) (L : ℕ)
    (hg : ∀ k, ∀ (s : Teki.State n dx dy) (e : Teki.Extra K dy), e.iter = k + 1 → Teki.nextTemperature c s e = g (k + 1)) (hg0 : g 0 = 0)
    (hlt : ∀ k < L, g k < c.maxTemperature) (hL : c.maxTemperature ≤ g L) (hmax : (L : ℤ) ≤ c.maxIter)
    (constrain : (Fin dx → ℝ) → Fin dx → ℝ) (anyNan : (Fin n → Fin dx → ℝ) → Bool) (hnan : ∀ v, anyNan v = false)
    (hdx : 0 < dx) (hterm : c.termStd = 0)
    (s : Teki.State n dx dy) (e : Teki.Extra K dy) (hs : s.temperature = 0) (he : e.iter = 0) :
    (Teki.runFrom env c constrain anyNan (s, e)).map Teki.State.temperature = (List.range (L + 1)).map g := by
  have htemp : ∀ k, (bodyIter (Teki.update env (Teki.nextTemperature c)) k (s, e)).1.temperature = g k := by
    intro k
    cases k with
    | zero => rw [hg0]; exact hs
    | succ k =>
      rw [Mcmc.bodyIter_succ]
      rw [teki_update_temperature]
      refine hg k _ _ ?_
      change _ + 1 = _
      rw [teki_iter env _ s e he]
  have hstd' : ∀ (v : Fin n → Fin dx → ℝ) (p : Fin dx → ℝ), ¬ ∀ j, std v j < c.termStd * p j := by
    intro v p h
    have := h ⟨0, hdx⟩
    rw [hterm, zero_mul] at this
    exact absurd this (not_lt.2 (Real.sqrt_nonneg _))
  have hterm' : ∀ k, Teki.terminated c constrain (std s.value) anyNan
      (bodyIter (Teki.update env (Teki.nextTemperature c)) k (s, e)).1 (bodyIter (Teki.update env (Teki.nextTemperature c)) k (s, e)).2 = true ↔
      c.maxTemperature ≤ g k ∨ c.maxIter ≤ k := by
    intro k
    unfold Teki.terminated
    rw [hnan, Bool.or_false, decide_eq_false (hstd' _ _), Bool.or_false, Bool.or_eq_true, decide_eq_true_eq, decide_eq_true_eq, htemp,
      teki_iter env _ s e he]
  obtain ⟨m, h1, h2, h3, h4⟩ := C12_run (Teki.update env (Teki.nextTemperature c)) (Teki.terminated c constrain (std s.value) anyNan) c.maxIter (s, e)
  have hm : m = L := by
    rcases lt_trichotomy m L with hlt' | heq | hgt
    · rcases (hterm' m).1 (h4 (by omega)) with h | h
      · have := hlt m hlt'; linarith
      · omega
    · exact heq
    · have hf := h3 L hgt
      rw [(hterm' L).2 (Or.inl hL)] at hf; cases hf
  unfold Teki.runFrom
  rw [h2, hm, List.map_map]
  exact List.map_congr_left fun k _ => htemp k

/-- The default temperature after `k` updates. -/
noncomputable def defaultTemp (k : ℕ) : ℝ := round4 ((2 : ℝ) ^ ((k : ℝ) / 50) - 1)

theorem defaultTemp_lt (k : ℕ) : defaultTemp k < defaultTemp (k + 1) := by
  unfold defaultTemp round4
  have hstep : ((2 : ℝ) ^ ((k : ℝ) / 50) - 1) * 10 ^ 4 + 1 ≤ ((2 : ℝ) ^ (((k + 1 : ℕ) : ℝ) / 50) - 1) * 10 ^ 4 := by
    have hpow : (2 : ℝ) ^ (((k + 1 : ℕ) : ℝ) / 50) = (2 : ℝ) ^ ((k : ℝ) / 50) * (2 : ℝ) ^ ((1 : ℝ) / 50) := by
      rw [← Real.rpow_add two_pos]; congr 1; push_cast; ring
    have h1 : (1 : ℝ) ≤ (2 : ℝ) ^ ((k : ℝ) / 50) := Real.one_le_rpow (by norm_num) (by positivity)
    have h2 : (1.0001 : ℝ) ≤ (2 : ℝ) ^ ((1 : ℝ) / 50) := by
      have : ((1.0001 : ℝ) ^ (50 : ℕ)) ^ ((1 : ℝ) / 50) ≤ (2 : ℝ) ^ ((1 : ℝ) / 50) :=
        Real.rpow_le_rpow (by norm_num) (by norm_num) (by norm_num)
      rw [← Real.rpow_natCast, ← Real.rpow_mul (by norm_num)] at this
      norm_num at this ⊢
      exact this
    rw [hpow]
    nlinarith
  have hround : round (((2 : ℝ) ^ ((k : ℝ) / 50) - 1) * 10 ^ 4) + 1 ≤ round (((2 : ℝ) ^ (((k + 1 : ℕ) : ℝ) / 50) - 1) * 10 ^ 4) := by
    rw [← round_add_one]
    simp only [round_eq]
    exact Int.floor_le_floor (by linarith)
  have : ((round (((2 : ℝ) ^ ((k : ℝ) / 50) - 1) * 10 ^ 4) : ℤ) : ℝ) + 1 ≤ (round (((2 : ℝ) ^ (((k + 1 : ℕ) : ℝ) / 50) - 1) * 10 ^ 4) : ℤ) := by
    exact_mod_cast hround
  rw [div_lt_div_iff_of_pos_right (by norm_num)]
  linarith

theorem defaultTemp_zero : defaultTemp 0 = 0 := by simp [defaultTemp, round4]

theorem defaultTemp_fifty : defaultTemp 50 = 1 := by
  unfold defaultTemp round4
  have : ((50 : ℕ) : ℝ) / 50 = 1 := by norm_num
  rw [this, Real.rpow_one]
  have h : ((2 : ℝ) - 1) * 10 ^ 4 = ((10000 : ℕ) : ℝ) := by norm_num
  rw [h, round_natCast]
  norm_num

/-- C44: with default settings the run makes exactly 50 updates; its temperatures are 0, ..., 1, strictly increasing. -/
theorem C44_default (env : Env K n dx dy) (constrain : (Fin dx → ℝ) → Fin dx → ℝ) (anyNan : (Fin n → Fin dx → ℝ) → Bool)
    (hnan : ∀ v, anyNan v = false) (hdx : 0 < dx) (s : Teki.State n dx dy) (e : Teki.Extra K dy) (hs : s.temperature = 0) (he : e.iter = 0) :
    let temps := (Teki.runFrom env (Teki.Config.init none 1 10000 0) constrain anyNan (s, e)).map Teki.State.temperature
    temps = (List.range 51).map defaultTemp ∧ temps.length = 51 ∧ temps.Pairwise (· < ·) ∧ temps.head? = some 0 ∧ temps.getLast? = some 1 := by
  have hmono : StrictMono defaultTemp := strictMono_nat_of_lt_succ defaultTemp_lt
  have h : (Teki.runFrom env (Teki.Config.init none 1 10000 0) constrain anyNan (s, e)).map Teki.State.temperature
      = (List.range (50 + 1)).map defaultTemp := by
    refine teki_chain env _ defaultTemp 50 ?_ defaultTemp_zero ?_ ?_ ?_ constrain anyNan hnan hdx rfl s e hs he
    · intro k s e hk
      simp only [Teki.nextTemperature, Teki.Config.init, hk, defaultTemp]
      rw [← Real.rpow_natCast, ← Real.rpow_mul (by norm_num)]
      congr 3
      push_cast; ring
    · intro k hk
      change defaultTemp k < 1
      rw [← defaultTemp_fifty]; exact hmono hk
    · exact defaultTemp_fifty.ge
    · simp [Teki.Config.init]
  intro temps
  have ht : temps = (List.range 51).map defaultTemp := h
  refine ⟨ht, by rw [ht]; simp, ?_, ?_, ?_⟩
  · rw [ht, List.pairwise_map]
    exact List.pairwise_lt_range.imp fun {a b} hab => hmono hab
  · rw [ht, List.range_succ_eq_map]; simp [defaultTemp_zero]
  · rw [ht, List.range_succ]; simp [defaultTemp_fifty]

/-- C44: with a strictly increasing schedule that starts at 0 the temperatures are the schedule. -/
theorem C44_schedule (env : Env K n dx dy) (l : List ℝ) (hinc : l.Pairwise (· < ·)) (h0 : l.head? = some 0) (T : ℝ) (it : ℤ)
    (constrain : (Fin dx → ℝ) → Fin dx → ℝ) (anyNan : (Fin n → Fin dx → ℝ) → Bool)
    (hnan : ∀ v, anyNan v = false) (hdx : 0 < dx) (s : Teki.State n dx dy) (e : Teki.Extra K dy) (hs : s.temperature = 0) (he : e.iter = 0) :
    (Teki.runFrom env (Teki.Config.init (some l) T it 0) constrain anyNan (s, e)).map Teki.State.temperature = l := by
  have hpos : 0 < l.length := by cases l <;> simp at h0 ⊢
  have hat : ∀ k (h : k < l.length), Smc.scheduleAt l k = l[k] := by
    intro k h
    unfold Smc.scheduleAt
    rw [min_eq_left (by omega), List.getD_eq_getElem _ _ h]
  have hlast : l.getLastD 0 = l[l.length - 1] := by
    rw [List.getLastD_eq_getLast?, List.getLast?_eq_getElem?, List.getElem?_eq_getElem (by omega)]; rfl
  rw [teki_chain env _ (Smc.scheduleAt l) (l.length - 1) ?_ ?_ ?_ ?_ ?_ constrain anyNan hnan hdx rfl s e hs he]
  · apply List.ext_getElem
    · simp; omega
    · intro i h1 h2
      simp only [List.getElem_map, List.getElem_range]
      exact hat i h2
  · intro k s e hk
    simp only [Teki.nextTemperature, Teki.Config.init, hk]
  · rw [hat 0 hpos]
    rw [List.head?_eq_getElem?, List.getElem?_eq_getElem hpos] at h0
    exact Option.some.inj h0
  · intro k hk
    change _ < l.getLastD 0
    rw [hlast, hat k (by omega)]
    exact List.pairwise_iff_getElem.1 hinc k (l.length - 1) (by omega) (by omega) hk
  · change l.getLastD 0 ≤ _
    rw [hlast, hat _ (by omega)]
  · simp only [Teki.Config.init]; omega

/-- C44: a schedule (of at least two entries) that does not start at 0 loses its first entry: the temperatures are 0 followed by the rest. -/
theorem C44_first_entry_skipped (env : Env K n dx dy) (a b : ℝ) (l : List ℝ) (hinc : (a :: b :: l).Pairwise (· < ·)) (ha : 0 < a) (T : ℝ) (it : ℤ)
    (constrain : (Fin dx → ℝ) → Fin dx → ℝ) (anyNan : (Fin n → Fin dx → ℝ) → Bool)
    (hnan : ∀ v, anyNan v = false) (hdx : 0 < dx) (s : Teki.State n dx dy) (e : Teki.Extra K dy) (hs : s.temperature = 0) (he : e.iter = 0) :
    (Teki.runFrom env (Teki.Config.init (some (a :: b :: l)) T it 0) constrain anyNan (s, e)).map Teki.State.temperature = 0 :: b :: l := by
  have hat : ∀ k (h : k + 1 < (a :: b :: l).length), Smc.scheduleAt (a :: b :: l) (k + 1) = (b :: l)[k]'(by simpa using h) := by
    intro k h
    unfold Smc.scheduleAt
    rw [min_eq_left (by omega), List.getD_eq_getElem _ _ h, List.getElem_cons_succ]
  have hlast : (a :: b :: l).getLastD 0 = (b :: l)[l.length] := by
    rw [List.getLastD_eq_getLast?, List.getLast?_eq_getElem?, List.getElem?_eq_getElem (by simp)]
    simp
  have hbpos : ∀ t ∈ b :: l, 0 < t := fun t ht => ha.trans ((List.pairwise_cons.1 hinc).1 t ht)
  rw [teki_chain env _ (fun k => if k = 0 then 0 else Smc.scheduleAt (a :: b :: l) k) (l.length + 1) ?_ ?_ ?_ ?_ ?_ constrain anyNan hnan hdx rfl s e hs he]
  · apply List.ext_getElem
    · simp
    · intro i h1 h2
      simp only [List.getElem_map, List.getElem_range]
      cases i with
      | zero => simp
      | succ i => simp only [Nat.add_eq_zero_iff, one_ne_zero, and_false, if_false, List.getElem_cons_succ]; exact hat i (by simpa using h2)
  · intro k s e hk
    simp [Teki.nextTemperature, Teki.Config.init, hk]
  · simp
  · intro k hk
    change _ < (a :: b :: l).getLastD 0
    rw [hlast]
    cases k with
    | zero => simp only [if_true]; exact hbpos _ (List.getElem_mem _)
    | succ k =>
      simp only [Nat.add_eq_zero_iff, one_ne_zero, and_false, if_false]
      rw [hat k (by simp; omega)]
      exact List.pairwise_iff_getElem.1 (List.pairwise_cons.1 hinc).2 k l.length (by simp; omega) (by simp) (by omega)
  · change (a :: b :: l).getLastD 0 ≤ _
    simp only [Nat.add_eq_zero_iff, one_ne_zero, and_false, if_false]
    rw [hlast, hat _ (by simp)]
  · simp [Teki.Config.init]

/-- C44: an adaptive temperature is at least the current one and at most the maximum. -/
theorem C44_adaptive (essThreshold tol : ℝ) (maxBisect : ℕ) (Tmax : ℝ) (data : Fin dy → ℝ) (s : Teki.State n dx dy) (e : Teki.Extra K dy)
    (hT : s.temperature ≤ Tmax) :
    Teki.nextTemperatureAdaptive essThreshold tol maxBisect Tmax data s e ∈ Set.Icc s.temperature Tmax := by
  unfold Teki.nextTemperatureAdaptive
  dsimp only
  set f := fun x => Smc.logEss (fun i => -(x - s.temperature) * (0.5 * ((s.sim i - data) ᵥ* e.prec ⬝ᵥ (s.sim i - data)))) - Real.log (n * essThreshold)
  have key : (Utils.bisect f s.temperature Tmax maxBisect tol).lo ∈ Set.Icc s.temperature Tmax ∧
      (Utils.bisect f s.temperature Tmax maxBisect tol).hi ∈ Set.Icc s.temperature Tmax := by
    rcases le_or_gt (f s.temperature * f Tmax) 0 with hs | hs
    · have := (C28_iterates f s.temperature Tmax hs _ tol _ (C28_result f s.temperature Tmax hs maxBisect tol).1).2.2.2.1
      rw [Set.uIcc_of_le hT] at this
      exact ⟨this Set.left_mem_uIcc, this Set.right_mem_uIcc⟩
    · rw [C28_same_sign f s.temperature Tmax hs]
      exact ⟨⟨le_refl _, hT⟩, ⟨hT, le_refl _⟩⟩
  split_ifs
  · exact key.1
  · exact key.2

end Mocat.Props
