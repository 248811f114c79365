import Verif.Model.OnlineSessions
import Verif.Lemmas.Cholesky
/-!
# C133: online filtering with a model whose parameters change
-/
namespace Mocat.Props
open Matrix Mocat Mocat.Filtering Mocat.NonlinearGaussian Mocat.EnsembleFilter Mocat.OnlineSessions

variable {Θ G X K : Type} {dy d e : ℕ}

/-! ## Specification -/

/-- The attributes of the model after a history: the last assignment. -/
def modelAfter (θ : Θ) : List (Event Θ X K dy) → Θ
  | [] => θ
  | .assign θ' :: h => modelAfter θ' h
  | _ :: h => modelAfter θ h

/-- The attributes the model had at the last `initiate_particles`, if any. -/
def initiatedWith (θ : Θ) : List (Event Θ X K dy) → Option Θ
  | [] => none
  | .assign θ' :: h => initiatedWith θ' h
  | .initiate _ _ _ _ :: h => (initiatedWith θ h).or (some θ)
  | .propagate _ _ _ _ _ _ _ :: h => initiatedWith θ h

/-- Some `propagate_particle_filter` with `n` particles occurs. -/
def Propagates (n : ℕ) (h : List (Event Θ X K dy)) : Prop := ∃ p y t key thr full, Event.propagate n p y t key thr full ∈ h

/-- Some `initiate_particles` with `n` particles occurs. -/
def Initiates (n : ℕ) (h : List (Event Θ X K dy)) : Prop := ∃ key y t, Event.initiate n key y t ∈ h

/-- No assignment occurs. -/
def Unchanged (h : List (Event Θ X K dy)) : Prop := ∀ θ, Event.assign θ ∉ h

/-- What the next action should return: the step of a filter started up with, and reading, the current attributes of the model. -/
noncomputable def expected (C : FilterClass Θ G X K dy) (env : (n : ℕ) → Env K n) (θ : Θ) : Event Θ X K dy → Option ((n : ℕ) × Particles X n dy)
  | .assign _ => none
  | .initiate n key y t => some ⟨n, initiateParticles (env n) (C.vec (C.startup θ) θ n) key y t⟩
  | .propagate n p y t key thr full => (propagate (env n) (C.vec (C.startup θ) θ n) thr full p y t key).map fun q => ⟨n, q⟩

/-! ## Proofs -/

section
variable (C : FilterClass Θ G X K dy) (env : (n : ℕ) → Env K n)

theorem after_append (s : Sess Θ G) (h1 h2 : List (Event Θ X K dy)) : after C env s (h1 ++ h2) = after C env (after C env s h1) h2 := by
  induction h1 generalizing s with
  | nil => rfl
  | cons ev h1 ih => exact ih _

theorem step_model (s : Sess Θ G) (ev : Event Θ X K dy) : (step C env s ev).1.model = modelAfter s.model [ev] := by
  cases ev with
  | assign θ => rfl
  | initiate n key y t => rfl
  | propagate n p y t key thr full =>
    simp only [step]
    split <;> rfl

theorem modelAfter_cons (θ : Θ) (ev : Event Θ X K dy) (h : List (Event Θ X K dy)) : modelAfter θ (ev :: h) = modelAfter (modelAfter θ [ev]) h := by
  cases ev <;> rfl

theorem after_model (s : Sess Θ G) (h : List (Event Θ X K dy)) : (after C env s h).model = modelAfter s.model h := by
  induction h generalizing s with
  | nil => rfl
  | cons ev h ih =>
    rw [after, ih, step_model]
    exact (modelAfter_cons _ _ _).symm

theorem after_started (s : Sess Θ G) (h : List (Event Θ X K dy)) : (after C env s h).started = ((initiatedWith s.model h).map C.startup).or s.started := by
  induction h generalizing s with
  | nil => simp [after, initiatedWith]
  | cons ev h ih =>
    rw [after, ih]
    cases ev with
    | assign θ => rfl
    | initiate n key y t =>
      simp only [step, initiatedWith]
      cases initiatedWith s.model h <;> simp
    | propagate n p y t key thr full =>
      simp only [step, initiatedWith]
      split <;> rfl

/-- Code stays as it was compiled. -/
theorem propCode_keep (s : Sess Θ G) (h : List (Event Θ X K dy)) {n : ℕ} {c : G × Θ} (hc : s.propCode n = some c) : (after C env s h).propCode n = some c := by
  induction h generalizing s with
  | nil => exact hc
  | cons ev h ih =>
    refine ih _ ?_
    cases ev with
    | assign θ => exact hc
    | initiate n key y t => exact hc
    | propagate m p y t key thr full =>
      simp only [step]
      split
      · exact hc
      · simp only [compiled]
        split
        · exact hc
        · next hm =>
          refine (Function.update_of_ne ?_ _ _).trans hc
          rintro rfl
          rw [hc] at hm
          cases hm

theorem propCode_none (s : Sess Θ G) (h : List (Event Θ X K dy)) {n : ℕ} (hc : s.propCode n = none) (hn : ¬Propagates n h) : (after C env s h).propCode n = none := by
  induction h generalizing s with
  | nil => exact hc
  | cons ev h ih =>
    have hn' : ¬Propagates n h := fun ⟨p, y, t, key, thr, full, hm⟩ => hn ⟨p, y, t, key, thr, full, List.mem_cons_of_mem _ hm⟩
    refine ih _ ?_ hn'
    cases ev with
    | assign θ => exact hc
    | initiate n key y t => exact hc
    | propagate m p y t key thr full =>
      simp only [step]
      split
      · exact hc
      · simp only [compiled]
        split
        · exact hc
        · refine (Function.update_of_ne ?_ _ _).trans hc
          rintro rfl
          exact hn ⟨p, y, t, key, thr, full, List.mem_cons_self⟩

theorem initCode_keep (s : Sess Θ G) (h : List (Event Θ X K dy)) {n : ℕ} {c : G × Θ} (hc : s.initCode n = some c) : (after C env s h).initCode n = some c := by
  induction h generalizing s with
  | nil => exact hc
  | cons ev h ih =>
    refine ih _ ?_
    cases ev with
    | assign θ => exact hc
    | initiate m key y t =>
      simp only [step]
      split
      · simp only [compiled]
        split
        · exact hc
        · next hm =>
          refine (Function.update_of_ne ?_ _ _).trans hc
          rintro rfl
          rw [hc] at hm
          cases hm
      · exact hc
    | propagate m p y t key thr full =>
      simp only [step]
      split <;> exact hc

theorem initCode_none (s : Sess Θ G) (h : List (Event Θ X K dy)) {n : ℕ} (hc : s.initCode n = none) (hn : ¬Initiates n h) : (after C env s h).initCode n = none := by
  induction h generalizing s with
  | nil => exact hc
  | cons ev h ih =>
    have hn' : ¬Initiates n h := fun ⟨key, y, t, hm⟩ => hn ⟨key, y, t, List.mem_cons_of_mem _ hm⟩
    refine ih _ ?_ hn'
    cases ev with
    | assign θ => exact hc
    | initiate m key y t =>
      simp only [step]
      split
      · simp only [compiled]
        split
        · exact hc
        · refine (Function.update_of_ne ?_ _ _).trans hc
          rintro rfl
          exact hn ⟨key, y, t, List.mem_cons_self⟩
      · exact hc
    | propagate m p y t key thr full =>
      simp only [step]
      split <;> exact hc

/-- The first step with `n` particles reads the current attributes, and the gains of the last start. -/
theorem C133_first_step (θ θi : Θ) (h : List (Event Θ X K dy)) (n : ℕ) (hn : ¬Propagates n h) (hi : initiatedWith θ h = some θi) (p : Particles X n dy) (y : Obs dy) (t : ℝ) (key : K) (thr : ℝ) (full : Bool) :
    result C env θ h (.propagate n p y t key thr full) = (propagate (env n) (C.vec (C.startup θi) (modelAfter θ h) n) thr full p y t key).map fun q => ⟨n, q⟩ := by
  have h1 : (after C env (Sess.new θ) h).started = some (C.startup θi) := by rw [after_started]; simp [Sess.new, hi]
  have h2 := propCode_none C env (Sess.new θ) h (n := n) rfl hn
  have h3 : (after C env (Sess.new θ) h).model = modelAfter θ h := after_model C env _ h
  simp only [result, step, h1, Option.some_or, compiled, h2, h3]

/-- C133, exactly: every later step with `n` particles, whatever was assigned or started in between, runs with the attributes and gains at the first one. -/
theorem C133_exact (θ θi : Θ) (h1 h2 : List (Event Θ X K dy)) (n : ℕ) (hn : ¬Propagates n h1) (hi : initiatedWith θ h1 = some θi)
    (p0 : Particles X n dy) (y0 : Obs dy) (t0 : ℝ) (key0 : K) (thr0 : ℝ) (full0 : Bool) (p : Particles X n dy) (y : Obs dy) (t : ℝ) (key : K) (thr : ℝ) (full : Bool) :
    result C env θ (h1 ++ .propagate n p0 y0 t0 key0 thr0 full0 :: h2) (.propagate n p y t key thr full)
      = (propagate (env n) (C.vec (C.startup θi) (modelAfter θ h1) n) thr full p y t key).map fun q => ⟨n, q⟩ := by
  have e1 : (after C env (Sess.new θ) h1).started = some (C.startup θi) := by rw [after_started]; simp [Sess.new, hi]
  have e2 := propCode_none C env (Sess.new θ) h1 (n := n) rfl hn
  have e3 : (after C env (Sess.new θ) h1).model = modelAfter θ h1 := after_model C env _ h1
  have e4 : (step C env (after C env (Sess.new θ) h1) (.propagate n p0 y0 t0 key0 thr0 full0)).1.propCode n = some (C.startup θi, modelAfter θ h1) := by
    simp only [step, e1, Option.some_or, compiled, e2, e3, Function.update_self]
  have e5 := propCode_keep C env _ h2 e4
  have e6 : ∃ g, (after C env (step C env (after C env (Sess.new θ) h1) (.propagate n p0 y0 t0 key0 thr0 full0)).1 h2).started = some g := by
    rw [after_started]
    have : (step C env (after C env (Sess.new θ) h1) (.propagate n p0 y0 t0 key0 thr0 full0)).1.started = some (C.startup θi) := by
      simp only [step, e1, Option.some_or]
    rw [this]
    cases initiatedWith _ h2 <;> simp
  obtain ⟨g, e6⟩ := e6
  rw [result, after_append, after]
  simp only [step, compiled] at e5 e6 ⊢
  rw [e6]
  simp only [Option.some_or, e5]

/-- `initiate_particles` of a filter whose first draw is not compiled (the optimal and the ensemble Kalman filter) always uses the current attributes. -/
theorem C133_initiate (hC : C.jitInitial = false) (θ : Θ) (h : List (Event Θ X K dy)) (n : ℕ) (key : K) (y : Obs dy) (t : ℝ) :
    result C env θ h (.initiate n key y t) = expected C env (modelAfter θ h) (.initiate n key y t) := by
  have h3 : (after C env (Sess.new θ) h).model = modelAfter θ h := after_model C env _ h
  simp only [result, step, expected, hC, h3, Bool.false_eq_true, if_false]

/-- Of the other filters it uses the attributes at the first call with that number of particles. -/
theorem C133_initiate_exact (hC : C.jitInitial = true) (θ : Θ) (h1 h2 : List (Event Θ X K dy)) (n : ℕ) (hn : ¬Initiates n h1) (key0 key : K) (y0 y : Obs dy) (t0 t : ℝ) :
    result C env θ h1 (.initiate n key y t) = expected C env (modelAfter θ h1) (.initiate n key y t) ∧
    result C env θ (h1 ++ .initiate n key0 y0 t0 :: h2) (.initiate n key y t) = expected C env (modelAfter θ h1) (.initiate n key y t) := by
  have e2 := initCode_none C env (Sess.new θ) h1 (n := n) rfl hn
  have e3 : (after C env (Sess.new θ) h1).model = modelAfter θ h1 := after_model C env _ h1
  have e4 : (step C env (after C env (Sess.new θ) h1) (.initiate n key0 y0 t0)).1.initCode n = some (C.startup (modelAfter θ h1), modelAfter θ h1) := by
    simp only [step, compiled, hC, if_true, e2, e3, Function.update_self]
  have e5 := initCode_keep C env _ h2 e4
  refine ⟨by simp only [result, step, expected, compiled, hC, if_true, e2, e3], ?_⟩
  rw [result, after_append, after]
  simp only [step, compiled] at e5 ⊢
  simp only [hC, if_true] at e5 ⊢
  rw [e5]
  rfl

theorem modelAfter_unchanged (θ : Θ) (h : List (Event Θ X K dy)) (hu : Unchanged h) : modelAfter θ h = θ := by
  induction h with
  | nil => rfl
  | cons ev h ih =>
    have hu' : Unchanged h := fun θ' hm => hu θ' (List.mem_cons_of_mem _ hm)
    cases ev with
    | assign θ' => exact absurd List.mem_cons_self (hu θ')
    | initiate n key y t => exact ih hu'
    | propagate n p y t key thr full => exact ih hu'

theorem modelAfter_append (θ : Θ) (h1 h2 : List (Event Θ X K dy)) : modelAfter θ (h1 ++ h2) = modelAfter (modelAfter θ h1) h2 := by
  induction h1 generalizing θ with
  | nil => rfl
  | cons ev h1 ih => cases ev <;> exact ih _

/-- In a stretch without assignments after a start, code for `n` particles is compiled from the current attributes. -/
theorem code_fresh (s : Sess Θ G) (h : List (Event Θ X K dy)) (hu : Unchanged h) {n : ℕ} (hs : s.started = some (C.startup s.model))
    (hi : s.initCode n = none ∨ s.initCode n = some (C.startup s.model, s.model)) (hp : s.propCode n = none ∨ s.propCode n = some (C.startup s.model, s.model)) :
    (after C env s h).started = some (C.startup s.model) ∧ ((after C env s h).initCode n = none ∨ (after C env s h).initCode n = some (C.startup s.model, s.model)) ∧
      ((after C env s h).propCode n = none ∨ (after C env s h).propCode n = some (C.startup s.model, s.model)) := by
  induction h generalizing s with
  | nil => exact ⟨hs, hi, hp⟩
  | cons ev h ih =>
    have hu' : Unchanged h := fun θ' hm => hu θ' (List.mem_cons_of_mem _ hm)
    have hcomp : ∀ (code : ℕ → Option (G × Θ)) (m : ℕ), (code n = none ∨ code n = some (C.startup s.model, s.model)) →
        (compiled code m (C.startup s.model, s.model)).2 n = none ∨ (compiled code m (C.startup s.model, s.model)).2 n = some (C.startup s.model, s.model) := fun code m hc => by
      simp only [compiled]
      split
      · exact hc
      · by_cases hm : n = m
        · right
          subst hm
          exact Function.update_self _ _ _
        · have hu2 : Function.update code m (some (C.startup s.model, s.model)) n = code n := Function.update_of_ne hm _ code
          rw [← hu2] at hc
          exact hc
    have key : (step C env s ev).1.model = s.model ∧ (step C env s ev).1.started = some (C.startup s.model) ∧
        ((step C env s ev).1.initCode n = none ∨ (step C env s ev).1.initCode n = some (C.startup s.model, s.model)) ∧
        ((step C env s ev).1.propCode n = none ∨ (step C env s ev).1.propCode n = some (C.startup s.model, s.model)) := by
      cases ev with
      | assign θ' => exact absurd List.mem_cons_self (hu θ')
      | initiate m key y t =>
        refine ⟨rfl, rfl, ?_, hp⟩
        simp only [step]
        split
        · exact hcomp _ m hi
        · exact hi
      | propagate m p y t key thr full =>
        simp only [step, hs, Option.some_or]
        exact ⟨trivial, trivial, hi, hcomp _ m hp⟩
    obtain ⟨k1, k2, k3, k4⟩ := key
    have := ih (step C env s ev).1 hu' (by rw [k2, k1]) (by rw [k1]; exact k3) (by rw [k1]; exact k4)
    rwa [k1] at this

/-- C133, where it holds: whatever happened before, as long as it involved no call with `n` particles, after a call of `initiate_particles` and as long as nothing is assigned, every call with `n` particles uses the
current attributes of the model. -/
theorem C133_partial (θ : Θ) (h1 h2 : List (Event Θ X K dy)) (n m : ℕ) (hp : ¬Propagates n h1) (hi : ¬Initiates n h1) (hu : Unchanged h2) (key0 : K) (y0 : Obs dy) (t0 : ℝ) :
    (∀ key y t, result C env θ (h1 ++ .initiate m key0 y0 t0 :: h2) (.initiate n key y t) = expected C env (modelAfter θ h1) (.initiate n key y t)) ∧
    (∀ p y t key thr full, result C env θ (h1 ++ .initiate m key0 y0 t0 :: h2) (.propagate n p y t key thr full) = expected C env (modelAfter θ h1) (.propagate n p y t key thr full)) := by
  have e1 := initCode_none C env (Sess.new θ) h1 (n := n) rfl hi
  have e2 := propCode_none C env (Sess.new θ) h1 (n := n) rfl hp
  have e3 : (after C env (Sess.new θ) h1).model = modelAfter θ h1 := after_model C env _ h1
  have hs : (step C env (after C env (Sess.new θ) h1) (.initiate m key0 y0 t0)).1.initCode n = none ∨
      (step C env (after C env (Sess.new θ) h1) (.initiate m key0 y0 t0)).1.initCode n = some (C.startup (modelAfter θ h1), modelAfter θ h1) := by
    simp only [step, e3]
    split
    · simp only [compiled]
      split
      · exact .inl e1
      · by_cases hm : n = m
        · right
          subst hm
          exact Function.update_self _ _ _
        · exact .inl ((Function.update_of_ne hm _ _).trans e1)
    · exact .inl e1
  have hm0 : (step C env (after C env (Sess.new θ) h1) (.initiate m key0 y0 t0)).1.model = modelAfter θ h1 := e3
  obtain ⟨f1, f2, f3⟩ := code_fresh C env (step C env (after C env (Sess.new θ) h1) (.initiate m key0 y0 t0)).1 h2 hu (n := n) (by rw [hm0]; simp only [step, e3]) (by rw [hm0]; exact hs) (.inl e2)
  have f4 := after_model C env (step C env (after C env (Sess.new θ) h1) (.initiate m key0 y0 t0)).1 h2
  rw [hm0, modelAfter_unchanged _ _ hu] at f4
  rw [hm0] at f1 f2 f3
  constructor
  · intro key y t
    rw [result, after_append, after]
    generalize after C env (step C env (after C env (Sess.new θ) h1) (.initiate m key0 y0 t0)).1 h2 = s at *
    simp only [step, expected, f4]
    split
    · rcases f2 with f2 | f2 <;> simp only [compiled, f2]
    · rfl
  · intro p y t key thr full
    rw [result, after_append, after]
    generalize after C env (step C env (after C env (Sess.new θ) h1) (.initiate m key0 y0 t0)).1 h2 = s at *
    simp only [step, expected, f4, f1, Option.some_or]
    rcases f3 with f3 | f3 <;> simp only [compiled, f3]

end

/-! ## What `expected` is for the three filters: the methods of `Verif.Model.EnsembleFilter` for the current model -/

theorem expected_bootstrap (mk : Θ → Ssm.Model X (Obs dy) K) (θ : Θ) (n : ℕ) : (bootstrapClass mk).vec ((bootstrapClass mk).startup θ) θ n = ofFilter (bootstrap (mk θ)) := rfl

theorem expected_optimal [Inhabited K] (normal : K → (r c : ℕ) → Fin r → Fin c → ℝ) (chol : Chol) (θ : NLG d e) (n : ℕ) :
    (optimalClass normal chol).vec ((optimalClass normal chol).startup θ) θ n = optimal normal chol θ := rfl

theorem expected_ensembleKalman [Inhabited K] (splitN : (m : ℕ) → K → Fin m → K) (normal : K → (r c : ℕ) → Fin r → Fin c → ℝ) (chol : Chol) (θ : NLG d e) (n : ℕ) :
    (ensembleKalmanClass splitN normal chol).vec ((ensembleKalmanClass splitN normal chol).startup θ) θ n = ensembleKalman splitN normal chol θ := rfl

/-! ## Filters never started -/

/-- The optimal filter has no gains before its first `initiate_particles`: every step raises, whatever was assigned. -/
theorem C133_never_started [Inhabited K] (normal : K → (r c : ℕ) → Fin r → Fin c → ℝ) (chol : Chol) (env : (n : ℕ) → Env K n) (θ : NLG d e) (h : List (Event (NLG d e) (Fin d → ℝ) K e))
    (hi : ∀ n, ¬Initiates n h) (n : ℕ) (p : Particles (Fin d → ℝ) n e) (y : Obs e) (t : ℝ) (key : K) (thr : ℝ) (full : Bool) :
    result (optimalClass normal chol) env θ h (.propagate n p y t key thr full) = none := by
  have h0 : ∀ (θ : NLG d e) (h : List (Event (NLG d e) (Fin d → ℝ) K e)), (∀ n, ¬Initiates n h) → initiatedWith θ h = none := by
    intro θ h
    induction h generalizing θ with
    | nil => intro _; rfl
    | cons ev h ih =>
      intro hi
      have hi' : ∀ n, ¬Initiates n h := fun n ⟨k, y, t, hm⟩ => hi n ⟨k, y, t, List.mem_cons_of_mem _ hm⟩
      cases ev with
      | assign θ' => exact ih θ' hi'
      | initiate m k y t => exact absurd ⟨k, y, t, List.mem_cons_self⟩ (hi m)
      | propagate m p y t k thr full => exact ih θ hi'
  have h1 : (after (optimalClass normal chol) env (Sess.new θ) h).started = none := by
    rw [after_started]
    simp [Sess.new, h0 θ h hi]
  simp only [result, step, h1]
  rfl

/-- The steps of the other two filters do not need a start: the first one with `n` particles uses the current attributes of the model. -/
theorem C133_no_start_needed (C : FilterClass Θ G X K dy) (hb : ∀ θ, C.before θ = some (C.startup θ)) (env : (n : ℕ) → Env K n) (θ : Θ) (h : List (Event Θ X K dy)) (hi : initiatedWith θ h = none) (n : ℕ)
    (hn : ¬Propagates n h) (p : Particles X n dy) (y : Obs dy) (t : ℝ) (key : K) (thr : ℝ) (full : Bool) :
    result C env θ h (.propagate n p y t key thr full) = expected C env (modelAfter θ h) (.propagate n p y t key thr full) := by
  have h1 : (after C env (Sess.new θ) h).started = none := by
    rw [after_started]
    simp [Sess.new, hi]
  have h2 := propCode_none C env (Sess.new θ) h (n := n) rfl hn
  have h3 : (after C env (Sess.new θ) h).model = modelAfter θ h := after_model C env _ h
  simp only [result, step, expected, compiled, h1, h2, h3, hb, Option.none_or]

example (mk : Θ → Ssm.Model X (Obs dy) K) (θ : Θ) : (bootstrapClass mk).before θ = some ((bootstrapClass mk).startup θ) := rfl

example [Inhabited K] (splitN : (m : ℕ) → K → Fin m → K) (normal : K → (r c : ℕ) → Fin r → Fin c → ℝ) (chol : Chol) (θ : NLG d e) :
    (ensembleKalmanClass splitN normal chol).before θ = some ((ensembleKalmanClass splitN normal chol).startup θ) := rfl

/-! ## Where it fails -/

/-- A model with one parameter: every step adds `a`. -/
def driftModel (a : ℝ) : Ssm.Model ℝ (Obs 1) Unit where
  initialPotential _ _ := 0
  initialSample _ _ := 0
  transitionPotential _ _ _ _ := 0
  transitionSample x _ _ _ := x + a
  likelihoodPotential _ _ _ := 0
  likelihoodSample _ _ _ := 0

/-- One particle; no randomness. -/
def envEx : (n : ℕ) → Env Unit n := fun _ => ⟨fun _ _ i => i, fun _ _ _ => ()⟩

/-- One particle at `x`, at time 0. -/
noncomputable def oneAt {X : Type} (x : X) : Particles X 1 1 := ⟨[fun _ => x], [fun _ => .fin 0], [0], .rows [0], [.fin 1]⟩

theorem lt_ess_false : ¬Fl.lt (.fin 1) (.fin ((1 / 2 : ℝ) * ((1 : ℕ) : ℝ))) := by
  simp only [Fl.lt, Nat.cast_one]
  norm_num

/-- The last particle of a result with one particle. -/
def lastParticle {X : Type} : Option ((n : ℕ) × Particles X n 1) → Option X
  | some ⟨_ + 1, p⟩ => p.value.getLast?.map fun v => v 0
  | _ => none

theorem lastParticle_propagate {X K : Type} (env : Env K 1) (f : VecFilter X K 1 1) (x : X) (y : Obs 1) (t : ℝ) (key : K) :
    lastParticle ((propagate env f (1 / 2) true (oneAt x) y t key).map fun q => ⟨1, q⟩) = some ((f.propose (fun _ => x) 0 y t (env.splitN 1 key)).1 0) := by
  simp only [EnsembleFilter.propagate, oneAt, List.getLast?_singleton, Option.bind_eq_bind, Option.bind_some, lt_ess_false, if_false, Option.map_some, lastParticle, List.getLast?_append, Option.some_or]

/-- Bootstrap filter: a parameter assigned between two steps has no effect on the second. -/
theorem C133_fails_step : ∃ (h : List (Event ℝ ℝ Unit 1)) (ev : Event ℝ ℝ Unit 1), modelAfter 0 h = 5 ∧
    lastParticle (result (bootstrapClass driftModel) envEx 0 h ev) = some 0 ∧ lastParticle (expected (bootstrapClass driftModel) envEx (modelAfter 0 h) ev) = some 5 := by
  refine ⟨[.initiate 1 () 0 0, .propagate 1 (oneAt 0) 0 1 () (1 / 2) true, .assign 5], .propagate 1 (oneAt 0) 0 2 () (1 / 2) true, rfl, ?_, ?_⟩
  · have := C133_exact (bootstrapClass driftModel) envEx 0 0 [.initiate 1 () 0 0] [.assign 5] 1 (by rintro ⟨p, y, t, key, thr, full, hm⟩; simp at hm) rfl
      (oneAt 0) 0 1 () (1 / 2) true (oneAt 0) 0 2 () (1 / 2) true
    refine (congrArg lastParticle this).trans ?_
    rw [lastParticle_propagate]
    simp [bootstrapClass, ofFilter, bootstrap, driftModel, modelAfter]
  · rw [expected, lastParticle_propagate]
    simp [bootstrapClass, ofFilter, bootstrap, driftModel, modelAfter]

/-- A nonlinear Gaussian model in dimension 1 whose transition function adds `a`. -/
def driftNLG (a : ℝ) : NLG 1 1 := ⟨0, 1, fun x _ _ => x + fun _ => a, 1, 0, 1⟩

/-- Optimal filter: assigning a new transition function and calling `initiate_particles` again does not help; the steps are still those of the old model (normals equal to zero). -/
theorem C133_fails_restart (chol : Chol) : ∃ (h : List (Event (NLG 1 1) (Fin 1 → ℝ) Unit 1)) (ev : Event (NLG 1 1) (Fin 1 → ℝ) Unit 1), modelAfter (driftNLG 0) h = driftNLG 5 ∧
    (∃ h' key y t, h = h' ++ [.assign (driftNLG 5), .initiate 1 key y t]) ∧
    lastParticle (result (optimalClass (fun _ _ _ _ _ => 0) chol) envEx (driftNLG 0) h ev) = some 0 ∧
    lastParticle (expected (optimalClass (fun _ _ _ _ _ => 0) chol) envEx (modelAfter (driftNLG 0) h) ev) = some fun _ => 5 := by
  refine ⟨[.initiate 1 () 0 0, .propagate 1 (oneAt 0) 0 1 () (1 / 2) true, .assign (driftNLG 5), .initiate 1 () 0 0], .propagate 1 (oneAt 0) 0 2 () (1 / 2) true, rfl,
    ⟨[.initiate 1 () 0 0, .propagate 1 (oneAt 0) 0 1 () (1 / 2) true], (), 0, 0, rfl⟩, ?_, ?_⟩
  · have := C133_exact (optimalClass (fun _ _ _ _ _ => 0) chol) envEx (driftNLG 0) (driftNLG 0) [.initiate 1 () 0 0] [.assign (driftNLG 5), .initiate 1 () 0 0] 1
      (by rintro ⟨p, y, t, key, thr, full, hm⟩; simp at hm) rfl (oneAt 0) 0 1 () (1 / 2) true (oneAt 0) 0 2 () (1 / 2) true
    refine (congrArg lastParticle this).trans ?_
    rw [lastParticle_propagate]
    have hz : ((fun _ => 0 : Fin 1 → ℝ)) = 0 := rfl
    simp [optimalClass, proposalGain, modelAfter, driftNLG, hz]
  · rw [expected, lastParticle_propagate]
    have hz : ((fun _ => 0 : Fin 1 → ℝ)) = 0 := rfl
    simp [optimalClass, proposalGain, modelAfter, driftNLG, hz]

/-! ## A case that meets the hypotheses of `C133_partial` -/

/-- Steps with 4 particles, two assignments, a new start with 6 particles and two steps: the second uses the second assignment. -/
example (p : Particles ℝ 4 1) (q q' : Particles ℝ 6 1) (y : Obs 1) : result (bootstrapClass driftModel) envEx 0
    ([.initiate 4 () y 0, .propagate 4 p y 1 () (1 / 2) true, .assign 1, .propagate 4 p y 1 () (1 / 2) true, .assign 2] ++ .initiate 6 () y 0 :: [.propagate 6 q y 1 () (1 / 2) true]) (.propagate 6 q' y 2 () (1 / 2) true)
    = expected (bootstrapClass driftModel) envEx 2 (.propagate 6 q' y 2 () (1 / 2) true) :=
  (C133_partial (bootstrapClass driftModel) envEx 0 [.initiate 4 () y 0, .propagate 4 p y 1 () (1 / 2) true, .assign 1, .propagate 4 p y 1 () (1 / 2) true, .assign 2] [.propagate 6 q y 1 () (1 / 2) true] 6 6
    (by rintro ⟨p', y', t, key, thr, full, hm⟩; simp at hm) (by rintro ⟨key, y', t, hm⟩; simp at hm) (by intro θ hm; simp at hm) () y 0).2 q' y 2 () (1 / 2) true

end Mocat.Props
