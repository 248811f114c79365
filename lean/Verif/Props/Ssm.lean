import Verif.Model.Ssm
import Mathlib.Algebra.BigOperators.Fin
import Mathlib.Analysis.Calculus.Gradient.Basic
import Mathlib.Analysis.Calculus.FDeriv.Add
import Mathlib.Analysis.InnerProductSpace.PiL2
import Mathlib.Analysis.InnerProductSpace.Calculus
import Mathlib.Data.List.GetD
/-!
# C46-C48: the smoothing potential, its gradient, and simulation of a state-space model

A trajectory of `k + 1` time points is given as functions on `Fin (k + 1)`; the code receives the arrays (`List.ofFn`).
-/
namespace Mocat.Props
open Mocat Mocat.Ssm

variable {X Y K : Type} {k : ℕ}

/-! ## C46 -/

/-- Specification: minus the log of the joint density of a trajectory and observations. -/
def jointPotential (m : Model X Y K) (x : Fin (k + 1) → X) (y : Fin (k + 1) → Y) (t : Fin (k + 1) → ℝ) : ℝ :=
  m.initialPotential (x 0) (t 0)
    + ∑ i : Fin k, m.transitionPotential (x i.castSucc) (t i.castSucc) (x i.succ) (t i.succ)
    + ∑ i, m.likelihoodPotential (x i) (y i) (t i)

theorem dropLast_ofFn {α : Type*} (f : Fin (k + 1) → α) : (List.ofFn f).dropLast = List.ofFn fun i : Fin k => f i.castSucc := by
  rw [List.ofFn_succ', List.concat_eq_append, List.dropLast_concat]

theorem tail_ofFn {α : Type*} (f : Fin (k + 1) → α) : (List.ofFn f).tail = List.ofFn fun i : Fin k => f i.succ := by
  rw [List.ofFn_succ, List.tail_cons]

theorem zipWith_ofFn {α β γ : Type*} {n : ℕ} (h : α → β → γ) (f : Fin n → α) (g : Fin n → β) :
    List.zipWith h (List.ofFn f) (List.ofFn g) = List.ofFn fun i => h (f i) (g i) := by
  apply List.ext_getElem <;> simp

theorem zip_ofFn {α β : Type*} {n : ℕ} (f : Fin n → α) (g : Fin n → β) :
    (List.ofFn f).zip (List.ofFn g) = List.ofFn fun i => (f i, g i) := zipWith_ofFn Prod.mk f g

theorem ofFn_zero {α : Type*} (f : Fin (k + 1) → α) : (List.ofFn f)[0]? = some (f 0) := by
  rw [List.getElem?_eq_getElem (by simp)]
  simp

/-- C46: for every number of time points other than two, `smoothing_potential` is the sum of its parts. -/
theorem C46_sum_partial (m : Model X Y K) (x : Fin (k + 1) → X) (y : Fin (k + 1) → Y) (t : Fin (k + 1) → ℝ) (hk : k + 1 ≠ 2) :
    smoothingPotential m (List.ofFn x) (List.ofFn y) (List.ofFn t) = some (jointPotential m x y t) := by
  unfold smoothingPotential
  rw [List.length_ofFn]
  by_cases h1 : k + 1 = 1
  · obtain rfl : k = 0 := by omega
    rw [if_pos rfl, ofFn_zero, ofFn_zero, ofFn_zero]
    simp [jointPotential]
  · rw [if_neg h1, if_neg hk]
    unfold smoothingPotentialBody
    rw [ofFn_zero, ofFn_zero, dropLast_ofFn, dropLast_ofFn, tail_ofFn, tail_ofFn, zip_ofFn, zip_ofFn, zip_ofFn, zipWith_ofFn, zipWith_ofFn,
      List.sum_ofFn, List.sum_ofFn]
    rfl

/-- C46 fails for two time points: whatever the model and trajectory, the call raises an error. -/
theorem C46_two_points (m : Model X Y K) (x : Fin 2 → X) (y : Fin 2 → Y) (t : Fin 2 → ℝ) :
    smoothingPotential m (List.ofFn x) (List.ofFn y) (List.ofFn t) = none := by
  simp [smoothingPotential]

/-! ## C47 -/

section Gradient
variable {E : Type} [NormedAddCommGroup E] [InnerProductSpace ℝ E] [CompleteSpace E]

/-- Specification: the gradient functions held by the model object are gradients of its potentials. -/
structure IsGrads (m : Model E Y K) (g : Grads E Y) : Prop where
  initial : ∀ x t, HasGradientAt (fun z => m.initialPotential z t) (g.initial x t) x
  prev : ∀ x t x' t', HasGradientAt (fun z => m.transitionPotential z t x' t') (g.transition x t x' t').1 x
  next : ∀ x t x' t', HasGradientAt (fun z => m.transitionPotential x t z t') (g.transition x t x' t').2 x'
  likelihood : ∀ x y t, HasGradientAt (fun z => m.likelihoodPotential z y t) (g.likelihood x y t) x

open InnerProductSpace

theorem HasGradientAt.add' {f h : E → ℝ} {a b x : E} (hf : HasGradientAt f a x) (hh : HasGradientAt h b x) :
    HasGradientAt (fun z => f z + h z) (a + b) x := by
  rw [hasGradientAt_iff_hasFDerivAt] at *
  rw [map_add]
  exact hf.add hh

theorem HasGradientAt.sum' {ι : Type*} (s : Finset ι) {f : ι → E → ℝ} {a : ι → E} {x : E} (hf : ∀ i ∈ s, HasGradientAt (f i) (a i) x) :
    HasGradientAt (fun z => ∑ i ∈ s, f i z) (∑ i ∈ s, a i) x := by
  rw [hasGradientAt_iff_hasFDerivAt, map_sum]
  exact HasFDerivAt.fun_sum fun i hi => (hasGradientAt_iff_hasFDerivAt).1 (hf i hi)

theorem HasGradientAt.const' (c : ℝ) (x : E) : HasGradientAt (fun _ : E => c) 0 x := by
  rw [hasGradientAt_iff_hasFDerivAt, map_zero]
  exact hasFDerivAt_const c x

/-- The partial gradient of the joint potential with respect to the `i`-th state. -/
theorem jointPotential_hasGradientAt (m : Model E Y K) (g : Grads E Y) (hg : IsGrads m g)
    (x : Fin (k + 1) → E) (y : Fin (k + 1) → Y) (t : Fin (k + 1) → ℝ) (i : Fin (k + 1)) :
    HasGradientAt (fun z => jointPotential m (Function.update x i z) y t)
      ((if i = 0 then g.initial (x 0) (t 0) else 0)
        + (∑ j : Fin k, ((if j.castSucc = i then (g.transition (x j.castSucc) (t j.castSucc) (x j.succ) (t j.succ)).1 else 0)
            + (if j.succ = i then (g.transition (x j.castSucc) (t j.castSucc) (x j.succ) (t j.succ)).2 else 0)))
        + g.likelihood (x i) (y i) (t i)) (x i) := by
  unfold jointPotential
  refine HasGradientAt.add' (HasGradientAt.add' ?_ ?_) ?_
  · by_cases h : i = 0
    · subst h
      simp only [Function.update_self, if_true]
      exact hg.initial _ _
    · simp only [Function.update_of_ne (Ne.symm h), if_neg h]
      exact HasGradientAt.const' _ _
  · refine HasGradientAt.sum' _ fun j _ => ?_
    by_cases h1 : j.castSucc = i
    · subst h1
      have h2 : j.succ ≠ j.castSucc := (Fin.castSucc_lt_succ).ne'
      simp only [Function.update_self, Function.update_of_ne h2, if_true, if_neg h2, add_zero]
      exact hg.prev _ _ _ _
    · by_cases h2 : j.succ = i
      · subst h2
        simp only [Function.update_self, Function.update_of_ne h1, if_true, if_neg h1, zero_add]
        exact hg.next _ _ _ _
      · simp only [Function.update_of_ne h1, Function.update_of_ne h2, if_neg h1, if_neg h2, add_zero]
        exact HasGradientAt.const' _ _
  · have : g.likelihood (x i) (y i) (t i) = ∑ j, if j = i then g.likelihood (x i) (y i) (t i) else 0 := by simp
    rw [this]
    refine HasGradientAt.sum' _ fun j _ => ?_
    by_cases h : j = i
    · subst h
      simp only [Function.update_self, if_true]
      exact hg.likelihood _ _ _
    · simp only [Function.update_of_ne h, if_neg h]
      exact HasGradientAt.const' _ _

theorem getLast?_ofFn {α : Type*} (f : Fin (k + 1) → α) : (List.ofFn f).getLast? = some (f (Fin.last k)) := by
  rw [List.ofFn_succ', List.concat_eq_append, List.getLast?_concat]

omit [InnerProductSpace ℝ E] [CompleteSpace E] in
/-- The rows computed for three or more time points. -/
theorem gradSmoothing_three (g : Grads E Y) (x : Fin (k + 3) → E) (y : Fin (k + 3) → Y) (t : Fin (k + 3) → ℝ) :
    gradSmoothing g (List.ofFn x) (List.ofFn y) (List.ofFn t) = some (List.ofFn fun i : Fin (k + 3) =>
      Fin.cases (motive := fun _ => E) (g.initial (x 0) (t 0) + (g.transition (x 0) (t 0) (x 1) (t 1)).1 + g.likelihood (x 0) (y 0) (t 0))
        (fun j : Fin (k + 2) => Fin.lastCases (motive := fun _ => E)
          ((g.transition (x (Fin.last (k + 1)).castSucc) (t (Fin.last (k + 1)).castSucc) (x (Fin.last (k + 2))) (t (Fin.last (k + 2)))).2
            + g.likelihood (x (Fin.last (k + 2))) (y (Fin.last (k + 2))) (t (Fin.last (k + 2))))
          (fun l : Fin (k + 1) => (g.transition (x l.succ.castSucc) (t l.succ.castSucc) (x l.succ.succ) (t l.succ.succ)).1
            + (g.transition (x l.castSucc.castSucc) (t l.castSucc.castSucc) (x l.castSucc.succ) (t l.castSucc.succ)).2
            + g.likelihood (x l.castSucc.succ) (y l.castSucc.succ) (t l.castSucc.succ)) j) i) := by
  unfold gradSmoothing
  rw [List.length_ofFn, if_neg (by omega), if_neg (by omega)]
  unfold gradSmoothingBody
  simp only [ofFn_zero, dropLast_ofFn, tail_ofFn, zip_ofFn, zipWith_ofFn, List.map_ofFn, Function.comp_def, getLast?_ofFn, Option.bind_eq_bind, Option.bind_some]
  congr 1
  rw [List.ofFn_succ (n := k + 2)]
  conv_rhs => rw [List.ofFn_succ' (n := k + 1)]
  simp only [Fin.cases_zero, Fin.cases_succ, Fin.lastCases_last, Fin.lastCases_castSucc, List.concat_eq_append]
  rfl

/-- C47: for every number of time points `grad_smoothing_potential` returns one row per time point, and row `i` is the gradient of the joint potential with
respect to the `i`-th state, the other states being fixed. -/
theorem C47_gradient (m : Model E Y K) (g : Grads E Y) (hg : IsGrads m g)
    (x : Fin (k + 1) → E) (y : Fin (k + 1) → Y) (t : Fin (k + 1) → ℝ) :
    ∃ rows : Fin (k + 1) → E, gradSmoothing g (List.ofFn x) (List.ofFn y) (List.ofFn t) = some (List.ofFn rows) ∧
      ∀ i, HasGradientAt (fun z => jointPotential m (Function.update x i z) y t) (rows i) (x i) := by
  have key := jointPotential_hasGradientAt m g hg x y t
  match k, x, y, t, key with
  | 0, x, y, t, key =>
    refine ⟨fun _ => g.initial (x 0) (t 0) + g.likelihood (x 0) (y 0) (t 0), ?_, ?_⟩
    · unfold gradSmoothing
      rw [List.length_ofFn, if_pos rfl, ofFn_zero, ofFn_zero, ofFn_zero]
      rfl
    · intro i
      obtain rfl : i = 0 := Fin.fin_one_eq_zero i
      simpa using key 0
  | 1, x, y, t, key =>
    refine ⟨![g.initial (x 0) (t 0) + (g.transition (x 0) (t 0) (x 1) (t 1)).1 + g.likelihood (x 0) (y 0) (t 0),
        (g.transition (x 0) (t 0) (x 1) (t 1)).2 + g.likelihood (x 1) (y 1) (t 1)], ?_, ?_⟩
    · unfold gradSmoothing
      simp [List.ofFn_succ]
    · intro i
      have h := key i
      fin_cases i
      · simpa using h
      · simpa using h
  | k + 2, x, y, t, key =>
    refine ⟨_, gradSmoothing_three g x y t, ?_⟩
    intro i
    refine Fin.cases ?_ (fun j => Fin.lastCases ?_ (fun l => ?_) j) i
    · have h := key 0
      have e1 : ∀ j : Fin (k + 2), (j.castSucc = 0) = (j = 0) := fun j => propext Fin.castSucc_eq_zero_iff
      have e2 : ∀ j : Fin (k + 2), (j.succ = 0) = False := fun j => eq_false (Fin.succ_ne_zero j)
      simp only [e1, e2, if_false, add_zero, Finset.sum_ite_eq', Finset.mem_univ, if_true] at h
      exact h
    · have h := key (Fin.last (k + 1)).succ
      have e1 : ∀ j : Fin (k + 2), (j.castSucc = (Fin.last (k + 1)).succ) = False := fun j =>
        eq_false (by rw [Fin.succ_last]; exact (Fin.castSucc_lt_last j).ne)
      have e2 : ∀ j : Fin (k + 2), (j.succ = (Fin.last (k + 1)).succ) = (j = Fin.last (k + 1)) := fun j => propext Fin.succ_inj
      simp only [e1, e2, if_false, zero_add, Finset.sum_ite_eq', Finset.mem_univ, if_true, Fin.succ_ne_zero] at h
      rw [Fin.cases_succ, Fin.lastCases_last]
      simpa using h
    · have h := key l.castSucc.succ
      have e1 : ∀ j : Fin (k + 2), (j.castSucc = l.castSucc.succ) = (j = l.succ) := fun j => by
        rw [Fin.succ_castSucc]; exact propext Fin.castSucc_inj
      have e2 : ∀ j : Fin (k + 2), (j.succ = l.castSucc.succ) = (j = l.castSucc) := fun j => propext Fin.succ_inj
      simp only [e1, e2, Finset.sum_add_distrib, zero_add, Finset.sum_ite_eq', Finset.mem_univ, if_true, if_false, Fin.succ_ne_zero] at h
      simpa using h

end Gradient

/-! ## Non-vacuity for C47 -/

/-- A model on the line with quadratic potentials, and its gradients. -/
noncomputable def quadraticModel : Model (EuclideanSpace ℝ (Fin 1)) (EuclideanSpace ℝ (Fin 1)) ℕ where
  initialPotential x _ := ‖x‖ ^ 2
  initialSample _ _ := 0
  transitionPotential x _ x' _ := ‖x' - x‖ ^ 2
  transitionSample x _ _ _ := x
  likelihoodPotential x y _ := ‖x - y‖ ^ 2
  likelihoodSample x _ _ := x

theorem hasGradientAt_norm_sub_sq (a x : EuclideanSpace ℝ (Fin 1)) : HasGradientAt (fun z => ‖z - a‖ ^ 2) ((2 : ℝ) • (x - a)) x := by
  rw [hasGradientAt_iff_hasFDerivAt]
  have h := (hasStrictFDerivAt_norm_sq (x - a)).hasFDerivAt.comp x ((hasFDerivAt_id x).sub_const a)
  refine h.congr_fderiv ?_
  ext v
  simp

example : IsGrads quadraticModel
    { initial := fun x _ => (2 : ℝ) • x
      transition := fun x _ x' _ => ((2 : ℝ) • (x - x'), (2 : ℝ) • (x' - x))
      likelihood := fun x y _ => (2 : ℝ) • (x - y) } where
  initial x t := by simpa [quadraticModel] using hasGradientAt_norm_sub_sq 0 x
  prev x t x' t' := by
    have := hasGradientAt_norm_sub_sq x' x
    simp only [quadraticModel]
    simpa only [norm_sub_rev x'] using this
  next x t x' t' := hasGradientAt_norm_sub_sq x x'
  likelihood x y t := hasGradientAt_norm_sub_sq y x

/-! ## C48 -/

/-- `scan` whose output is the carry: the outputs are the successive carries. -/
theorem scan_carry {α β : Type*} (f : α → β → α) (a : α) (l : List β) (c : ℕ → α) (h0 : c 0 = a)
    (hs : ∀ i (h : i < l.length), c (i + 1) = f (c i) l[i]) :
    (scan (fun x i => (f x i, f x i)) a l).2 = (List.range l.length).map fun i => c (i + 1) := by
  induction l generalizing a c with
  | nil => rfl
  | cons b l ih =>
    rw [scan]
    have h1 : f a b = c 1 := by rw [hs 0 (by simp), h0]; rfl
    have := ih (f a b) (fun i => c (i + 1)) (by rw [h1]) fun i h => by
      have := hs (i + 1) (by simpa using h)
      simpa using this
    simp only [this, List.length_cons, List.range_succ_eq_map, List.map_cons, List.map_map, zero_add]
    rw [h1]
    rfl

/-- C48: with `keys` the `2 (k + 1)` keys split off, `simulate` on `k + 1` times returns `k + 1` states and observations: the first state from `initial_sample`, each later one from
`transition_sample` of the one before between the two times, each observation from `likelihood_sample` of the state at its time; state `i` uses key `i`, observation `i` key `k + 1 + i`. -/
theorem C48_simulate (splitN : K → ℕ → List K) (m : Model X Y K) (t : Fin (k + 1) → ℝ) (key : K)
    (keys : Fin (2 * (k + 1)) → K) (hkeys : splitN key (2 * (k + 1)) = List.ofFn keys) :
    ∃ (x : Fin (k + 1) → X) (y : Fin (k + 1) → Y), simulate splitN m (List.ofFn t) key = some (List.ofFn x, List.ofFn y) ∧
      x 0 = m.initialSample (t 0) (keys 0) ∧
      (∀ i : Fin k, x i.succ = m.transitionSample (x i.castSucc) (t i.castSucc) (t i.succ) (keys ⟨i + 1, by omega⟩)) ∧
      ∀ i : Fin (k + 1), y i = m.likelihoodSample (x i) (t i) (keys ⟨k + 1 + i, by omega⟩) := by
  -- the states, by recursion on time
  set latent := (splitN key (2 * (k + 1))).take (k + 1) with hlatent
  have hlat : ∀ (i : ℕ) (h : i < k + 1), latent[i]? = some (keys ⟨i, by omega⟩) := by
    intro i h
    rw [hlatent, hkeys, List.getElem?_take_of_lt h, List.getElem?_eq_getElem (by rw [List.length_ofFn]; omega), List.getElem_ofFn]
  set step : X → ℕ → X := fun x i => m.transitionSample x ((List.ofFn t).getD (i - 1) (t 0)) ((List.ofFn t).getD i (t 0)) (latent.getD i (keys 0)) with hstep
  set c : ℕ → X := fun i => Nat.rec (m.initialSample (t 0) (keys 0)) (fun i x => step x (i + 1)) i with hc
  have hscan := scan_carry step (m.initialSample (t 0) (keys 0)) ((List.range k).map (· + 1)) c rfl fun i h => by simp [hc]
  have ht : ∀ (i : ℕ) (h : i < k + 1), (List.ofFn t).getD i (t 0) = t ⟨i, h⟩ := by
    intro i h
    rw [List.getD_eq_getElem _ _ (by simpa using h), List.getElem_ofFn]
  have hxs : [m.initialSample (t 0) (keys 0)] ++ (List.range k).map (fun i => c (i + 1)) = List.ofFn fun i : Fin (k + 1) => c i := by
    apply List.ext_getElem
    · simp
    · intro i h1 h2
      cases i with
      | zero => simp [hc]
      | succ i => simp [-List.ofFn_succ]
  refine ⟨fun i => c i, fun i => m.likelihoodSample (c i) (t i) (keys ⟨k + 1 + i, by omega⟩), ?_, rfl, ?_, fun _ => rfl⟩
  · unfold simulate
    simp only [List.length_ofFn, ofFn_zero, Option.bind_eq_bind, Option.bind_some, Nat.add_sub_cancel]
    rw [← hlatent, hlat 0 (by omega)]
    simp only [Option.bind_some]
    rw [List.length_map, List.length_range] at hscan
    have h0 : keys ⟨0, by omega⟩ = keys 0 := rfl
    rw [h0, hscan, hxs]
    congr 2
    rw [hkeys, zip_ofFn]
    apply List.ext_getElem
    · simp; omega
    · intro i h1 h2
      simp [-List.ofFn_succ]
  · intro i
    change step (c i) (i + 1) = _
    rw [hstep]
    dsimp only
    rw [Nat.add_sub_cancel, ht i (by omega), ht (i + 1) (by omega), List.getD_eq_getElem?_getD, hlat (i + 1) (by omega)]
    rfl

/-- C48: the keys are pairwise distinct. -/
theorem C48_keys (k : ℕ) (key : Keys.Key) : pathSplit key (2 * (k + 1)) = List.ofFn (fun i : Fin (2 * (k + 1)) => (i : ℕ) :: key) ∧
    Function.Injective fun i : Fin (2 * (k + 1)) => (i : ℕ) :: key := by
  refine ⟨?_, ?_⟩
  · unfold pathSplit
    apply List.ext_getElem <;> simp [-List.ofFn_succ]
  · intro i j h
    simpa [Fin.ext_iff] using h

end Mocat.Props
