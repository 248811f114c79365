import Verif.Model.CompiledLeapfrog
import Verif.Lemmas.Leapfrog
import Verif.Props.Mcmc
import Mathlib.Analysis.Calculus.FDeriv.Pow
import Mathlib.Analysis.Calculus.FDeriv.Pi
/-!
# C138: leapfrog trajectories and runs use the current attributes of the scenario
-/
namespace Mocat.Props
open Mocat Mocat.Mcmc Mocat.CompiledLeapfrog

variable {Θ K : Type} {d : ℕ}

/-! ## Specification -/

/-- The attributes after a history. -/
def attrsAfter (θ : Θ) : List (CompiledLeapfrog.Event Θ K d) → Θ
  | [] => θ
  | .assign θ' :: h => attrsAfter θ' h
  | _ :: h => attrsAfter θ h

/-- What an action should return when start-up and evaluations see the attributes `θ` and leapfrog steps those of `θ'`. -/
noncomputable def valueWith (C : CompiledLeapfrog.Class Θ K d) (env : CompiledLeapfrog.Env K d) (θ θ' : Θ) : CompiledLeapfrog.Event Θ K d → Option (Out d)
  | .assign _ => none
  | .initGrad => none
  | .leapfrog s stepsize keys temp => some (.chain (Mcmc.leapfrog (C.prior θ') (C.lik θ') s stepsize keys temp))
  | .evaluate x key temp => some (.valGrad ((C.prior θ x key).1 + temp * (C.lik θ x key).1) fun i => (C.prior θ x key).2 i + temp * (C.lik θ x key).2 i)
  | .underdamped value momenta par steps corr n key temp =>
    some (.states (CompiledLeapfrog.udRun env (C.prior θ, C.lik θ) (C.prior θ', C.lik θ') temp value momenta par steps corr n key))
  | .randomWalk value stepsize corr n key temp => some (.walk (rwRun env (C.prior θ, C.lik θ) temp value stepsize corr n key))

/-- What the property asks for: everything sees the current attributes. -/
noncomputable def expectedOut (C : CompiledLeapfrog.Class Θ K d) (env : CompiledLeapfrog.Env K d) (θ : Θ) (ev : CompiledLeapfrog.Event Θ K d) : Option (Out d) := valueWith C env θ θ ev

/-- The action runs compiled leapfrog code for this number of steps. -/
def usesCode (nested : Bool) (L : ℕ) : CompiledLeapfrog.Event Θ K d → Prop
  | .leapfrog _ _ keys _ => keys.length = L
  | .underdamped _ _ _ steps _ _ _ _ => nested = true ∧ steps = L
  | _ => False

/-- The gradient functions are new: `init_grad` was the last action, or nothing happened yet. -/
def NewGradients (pre : List (CompiledLeapfrog.Event Θ K d)) : Prop := pre = [] ∨ ∃ p, pre = p ++ [.initGrad]

/-- `init_grad` is not called. -/
def KeepsGradients (h : List (CompiledLeapfrog.Event Θ K d)) : Prop := .initGrad ∉ h

/-- No attribute is assigned. -/
def KeepsAttrs (h : List (CompiledLeapfrog.Event Θ K d)) : Prop := ∀ θ, .assign θ ∉ h

/-! ## Proofs -/

section
variable (nested : Bool) (C : CompiledLeapfrog.Class Θ K d) (env : CompiledLeapfrog.Env K d)

theorem cl_after_append (o : Obj Θ) (h1 h2 : List (CompiledLeapfrog.Event Θ K d)) :
    CompiledLeapfrog.after nested C env o (h1 ++ h2) = CompiledLeapfrog.after nested C env (CompiledLeapfrog.after nested C env o h1) h2 := by
  induction h1 generalizing o with
  | nil => rfl
  | cons ev h1 ih => exact ih _

theorem attrsAfter_append (θ : Θ) (h1 h2 : List (CompiledLeapfrog.Event Θ K d)) : attrsAfter θ (h1 ++ h2) = attrsAfter (attrsAfter θ h1) h2 := by
  induction h1 generalizing θ with
  | nil => rfl
  | cons ev h1 ih => cases ev <;> exact ih _

theorem attrsAfter_keeps (θ : Θ) (h : List (CompiledLeapfrog.Event Θ K d)) (hk : KeepsAttrs h) : attrsAfter θ h = θ := by
  induction h with
  | nil => rfl
  | cons ev h ih =>
    have h1 := ih fun θ' hm => hk θ' (List.mem_cons_of_mem _ hm)
    cases ev <;> first | exact h1 | exact absurd List.mem_cons_self (hk _)

theorem compiled_attrs (o : Obj Θ) (L : ℕ) : (o.compiled L).2.attrs = o.attrs ∧ (o.compiled L).2.version = o.version := by
  unfold Obj.compiled
  split <;> exact ⟨rfl, rfl⟩

theorem compiled_fst (o : Obj Θ) (L : ℕ) : (o.compiled L).1 = (o.code o.version L).getD o.attrs := by
  unfold Obj.compiled
  split <;> rename_i h <;> rw [h] <;> rfl

/-- The code after compiling. -/
theorem compiled_code (o : Obj Θ) (L v L' : ℕ) : (o.compiled L).2.code v L' = if v = o.version ∧ L' = L then some ((o.code v L').getD o.attrs) else o.code v L' := by
  unfold Obj.compiled
  split
  · rename_i h
    by_cases hv : v = o.version ∧ L' = L
    · rw [if_pos hv, hv.1, hv.2, h]; rfl
    · rw [if_neg hv]
  · rename_i h
    by_cases hv : v = o.version
    · subst hv
      by_cases hL : L' = L
      · subst hL
        simp [h]
      · simp [hL]
    · simp [hv]

theorem cl_step_attrs (o : Obj Θ) (ev : CompiledLeapfrog.Event Θ K d) : (CompiledLeapfrog.step nested C env o ev).1.attrs = attrsAfter o.attrs [ev] := by
  cases ev <;> try rfl
  · exact (compiled_attrs o _).1
  · cases nested
    · rfl
    · exact (compiled_attrs o _).1

theorem cl_after_attrs (o : Obj Θ) (h : List (CompiledLeapfrog.Event Θ K d)) : (CompiledLeapfrog.after nested C env o h).attrs = attrsAfter o.attrs h := by
  induction h generalizing o with
  | nil => rfl
  | cons ev h ih =>
    rw [CompiledLeapfrog.after, ih, cl_step_attrs]
    exact (attrsAfter_append o.attrs [ev] h).symm

/-- The version after an action. -/
theorem cl_step_version (o : Obj Θ) (ev : CompiledLeapfrog.Event Θ K d) : o.version ≤ (CompiledLeapfrog.step nested C env o ev).1.version ∧
    (ev ≠ .initGrad → (CompiledLeapfrog.step nested C env o ev).1.version = o.version) := by
  cases ev with
  | initGrad => exact ⟨Nat.le_succ _, fun h => absurd rfl h⟩
  | leapfrog s e keys t => exact ⟨(compiled_attrs o _).2.ge, fun _ => (compiled_attrs o _).2⟩
  | underdamped v m p L c n k t =>
    cases nested
    · exact ⟨le_rfl, fun _ => rfl⟩
    · exact ⟨(compiled_attrs o _).2.ge, fun _ => (compiled_attrs o _).2⟩
  | _ => exact ⟨le_rfl, fun _ => rfl⟩

/-- The code after an action. -/
theorem cl_step_code (o : Obj Θ) (ev : CompiledLeapfrog.Event Θ K d) (v L : ℕ) :
    (v = o.version ∧ usesCode nested L ev ∧ (CompiledLeapfrog.step nested C env o ev).1.code v L = some ((o.code v L).getD o.attrs)) ∨
    (¬(v = o.version ∧ usesCode nested L ev) ∧ (CompiledLeapfrog.step nested C env o ev).1.code v L = o.code v L) := by
  have key : ∀ L', (v = o.version ∧ L' = L ∧ (o.compiled L').2.code v L = some ((o.code v L).getD o.attrs)) ∨ (¬(v = o.version ∧ L' = L) ∧ (o.compiled L').2.code v L = o.code v L) := by
    intro L'
    rw [compiled_code]
    by_cases h : v = o.version ∧ L = L'
    · exact .inl ⟨h.1, h.2.symm, if_pos h⟩
    · exact .inr ⟨fun hh => h ⟨hh.1, hh.2.symm⟩, if_neg h⟩
  cases ev with
  | leapfrog s e keys t => exact key keys.length
  | underdamped vl m p L' c n k t =>
    cases nested
    · exact .inr ⟨fun h => absurd h.2.1 (by simp), rfl⟩
    · rcases key L' with h | h
      · exact .inl ⟨h.1, ⟨rfl, h.2.1⟩, h.2.2⟩
      · exact .inr ⟨fun hh => h.1 ⟨hh.1, hh.2.2⟩, h.2⟩
  | _ => exact .inr ⟨fun h => h.2, rfl⟩

/-- Nothing is compiled for gradient functions that do not exist yet. -/
theorem cl_future (o : Obj Θ) (ho : ∀ v L, o.version < v → o.code v L = none) (h : List (CompiledLeapfrog.Event Θ K d)) :
    ∀ v L, (CompiledLeapfrog.after nested C env o h).version < v → (CompiledLeapfrog.after nested C env o h).code v L = none := by
  induction h generalizing o with
  | nil => exact ho
  | cons ev h ih =>
    refine ih _ fun v L hv => ?_
    have h1 := lt_of_le_of_lt (cl_step_version nested C env o ev).1 hv
    rcases cl_step_code nested C env o ev v L with h2 | h2
    · exact absurd h2.1 h1.ne'
    · rw [h2.2]; exact ho v L h1

theorem cl_new_gradients (θ : Θ) (pre : List (CompiledLeapfrog.Event Θ K d)) (hp : NewGradients pre) (L : ℕ) :
    (CompiledLeapfrog.after nested C env (Obj.new θ) pre).code (CompiledLeapfrog.after nested C env (Obj.new θ) pre).version L = none := by
  rcases hp with rfl | ⟨p, rfl⟩
  · rfl
  · rw [cl_after_append]
    exact cl_future nested C env (Obj.new θ) (fun _ _ _ => rfl) p _ L (Nat.lt_succ_self _)

theorem cl_version_keep (o : Obj Θ) (h : List (CompiledLeapfrog.Event Θ K d)) (hk : KeepsGradients h) : (CompiledLeapfrog.after nested C env o h).version = o.version := by
  induction h generalizing o with
  | nil => rfl
  | cons ev h ih =>
    rw [CompiledLeapfrog.after, ih _ fun hm => hk (List.mem_cons_of_mem _ hm)]
    exact (cl_step_version nested C env o ev).2 fun he => hk (he ▸ List.mem_cons_self)

theorem cl_code_none (o : Obj Θ) (h : List (CompiledLeapfrog.Event Θ K d)) (hk : KeepsGradients h) {L : ℕ} (hu : ∀ ev ∈ h, ¬usesCode nested L ev) (hc : o.code o.version L = none) :
    (CompiledLeapfrog.after nested C env o h).code o.version L = none := by
  induction h generalizing o with
  | nil => exact hc
  | cons ev h ih =>
    have hv := (cl_step_version nested C env o ev).2 fun he => hk (he ▸ List.mem_cons_self)
    have h1 : (CompiledLeapfrog.step nested C env o ev).1.code o.version L = none := by
      rcases cl_step_code nested C env o ev o.version L with h2 | h2
      · exact absurd h2.2.1 (hu ev List.mem_cons_self)
      · rw [h2.2]; exact hc
    have h2 := ih (CompiledLeapfrog.step nested C env o ev).1 (fun hm => hk (List.mem_cons_of_mem _ hm)) (fun ev' hm => hu ev' (List.mem_cons_of_mem _ hm)) (by rw [hv]; exact h1)
    rw [hv] at h2
    exact h2

theorem cl_code_keep (o : Obj Θ) (h : List (CompiledLeapfrog.Event Θ K d)) {v L : ℕ} {c : Θ} (hc : o.code v L = some c) : (CompiledLeapfrog.after nested C env o h).code v L = some c := by
  induction h generalizing o with
  | nil => exact hc
  | cons ev h ih =>
    refine ih _ ?_
    rcases cl_step_code nested C env o ev v L with h2 | h2
    · rw [h2.2.2, hc]; rfl
    · rw [h2.2]; exact hc

/-- While no attribute is assigned, code made for new gradient functions contains the current attributes. -/
theorem cl_code_current (o : Obj Θ) (h : List (CompiledLeapfrog.Event Θ K d)) (hk : KeepsGradients h) (ha : KeepsAttrs h) {L : ℕ} (hc : (o.code o.version L).getD o.attrs = o.attrs) :
    ((CompiledLeapfrog.after nested C env o h).code o.version L).getD o.attrs = o.attrs := by
  induction h generalizing o with
  | nil => exact hc
  | cons ev h ih =>
    have hv := (cl_step_version nested C env o ev).2 fun he => hk (he ▸ List.mem_cons_self)
    have he : (CompiledLeapfrog.step nested C env o ev).1.attrs = o.attrs :=
      (cl_step_attrs nested C env o ev).trans (attrsAfter_keeps _ _ fun θ hm => ha θ (by rw [List.mem_singleton] at hm; rw [hm]; exact List.mem_cons_self))
    have h1 : ((CompiledLeapfrog.step nested C env o ev).1.code o.version L).getD o.attrs = o.attrs := by
      rcases cl_step_code nested C env o ev o.version L with h2 | h2
      · rw [h2.2.2]; exact hc
      · rw [h2.2]; exact hc
    have h2 := ih (CompiledLeapfrog.step nested C env o ev).1 (fun hm => hk (List.mem_cons_of_mem _ hm)) (fun θ hm => ha θ (List.mem_cons_of_mem _ hm)) (by rw [hv, he]; exact h1)
    rw [hv, he] at h2
    exact h2

/-- What an action returns, by the code it finds. -/
theorem cl_step_value (o : Obj Θ) (ev : CompiledLeapfrog.Event Θ K d) {L : ℕ} (hu : usesCode nested L ev) :
    (CompiledLeapfrog.step nested C env o ev).2 = valueWith C env o.attrs ((o.code o.version L).getD o.attrs) ev := by
  cases ev with
  | leapfrog s e keys t =>
    obtain rfl : keys.length = L := hu
    simp only [CompiledLeapfrog.step, valueWith, compiled_fst]
  | underdamped v m p L' c n k t =>
    obtain ⟨hn, rfl⟩ : nested = true ∧ L' = L := hu
    simp only [CompiledLeapfrog.step, valueWith, hn, if_true, compiled_fst]
  | _ => exact absurd hu id

end

section
variable (nested : Bool) (C : CompiledLeapfrog.Class Θ K d) (env : CompiledLeapfrog.Env K d)

/-- C138 where it holds: as long as no attribute is assigned between the first leapfrog of `L` steps with the present gradient functions and this one, everything sees the current attributes; in particular the first time, and
whenever `init_grad` has just been called. Missing: assignments in between (`C138_exact`, `C138_fails`). -/
theorem C138_partial (θ : Θ) (pre h1 h2 : List (CompiledLeapfrog.Event Θ K d)) (hp : NewGradients pre) (k1 : KeepsGradients h1) (k2 : KeepsGradients h2) (L : ℕ)
    (hu : ∀ ev ∈ h1, ¬usesCode nested L ev) (ha : KeepsAttrs h2) (ev : CompiledLeapfrog.Event Θ K d) (hev : usesCode nested L ev) :
    CompiledLeapfrog.result nested C env θ (pre ++ h1 ++ h2) ev = expectedOut C env (attrsAfter θ (pre ++ h1 ++ h2)) ev := by
  have e1 := cl_code_none nested C env _ h1 k1 hu (cl_new_gradients nested C env θ pre hp L)
  rw [← cl_after_append, ← cl_version_keep nested C env _ h1 k1, ← cl_after_append] at e1
  have e2 := cl_code_current nested C env (CompiledLeapfrog.after nested C env (Obj.new θ) (pre ++ h1)) h2 k2 ha (L := L) (by rw [e1]; rfl)
  rw [← cl_version_keep nested C env _ h2 k2, ← cl_after_append] at e2
  rw [CompiledLeapfrog.result, cl_step_value nested C env _ ev hev, expectedOut]
  have e3 : (CompiledLeapfrog.after nested C env (Obj.new θ) (pre ++ h1 ++ h2)).attrs = attrsAfter θ (pre ++ h1 ++ h2) := cl_after_attrs nested C env _ _
  have e4 : (CompiledLeapfrog.after nested C env (Obj.new θ) (pre ++ h1)).attrs = attrsAfter θ (pre ++ h1 ++ h2) := by
    rw [attrsAfter_append _ _ h2, attrsAfter_keeps _ h2 ha]
    exact cl_after_attrs nested C env _ _
  rw [e4] at e2
  rw [e3, e2]

/-- C138, exactly: later leapfrogs of that many steps with the same gradient functions run on the attributes of the first one, whatever was assigned since; the rest of a run (start-up) sees the current attributes. -/
theorem C138_exact (θ : Θ) (pre h1 h2 : List (CompiledLeapfrog.Event Θ K d)) (hp : NewGradients pre) (k1 : KeepsGradients h1) (k2 : KeepsGradients h2) (L : ℕ)
    (hu : ∀ ev ∈ h1, ¬usesCode nested L ev) (ev0 ev : CompiledLeapfrog.Event Θ K d) (hev0 : usesCode nested L ev0) (hev : usesCode nested L ev) :
    CompiledLeapfrog.result nested C env θ (pre ++ h1 ++ ev0 :: h2) ev = valueWith C env (attrsAfter θ (pre ++ h1 ++ ev0 :: h2)) (attrsAfter θ (pre ++ h1)) ev := by
  have e1 := cl_code_none nested C env _ h1 k1 hu (cl_new_gradients nested C env θ pre hp L)
  rw [← cl_after_append, ← cl_version_keep nested C env _ h1 k1, ← cl_after_append] at e1
  have hi : ev0 ≠ .initGrad := by rintro rfl; exact hev0
  have e2 : (CompiledLeapfrog.step nested C env (CompiledLeapfrog.after nested C env (Obj.new θ) (pre ++ h1)) ev0).1.code
      (CompiledLeapfrog.after nested C env (Obj.new θ) (pre ++ h1)).version L = some (attrsAfter θ (pre ++ h1)) := by
    rcases cl_step_code nested C env (CompiledLeapfrog.after nested C env (Obj.new θ) (pre ++ h1)) ev0 _ L with h | h
    · rw [h.2.2, e1]
      exact congrArg some (cl_after_attrs nested C env _ _)
    · exact absurd ⟨rfl, hev0⟩ h.1
  have e3 := cl_code_keep nested C env _ h2 e2
  have e4 : (CompiledLeapfrog.after nested C env (Obj.new θ) (pre ++ h1 ++ ev0 :: h2)).version = (CompiledLeapfrog.after nested C env (Obj.new θ) (pre ++ h1)).version := by
    rw [cl_after_append nested C env (Obj.new θ) (pre ++ h1) (ev0 :: h2), CompiledLeapfrog.after, cl_version_keep nested C env _ h2 k2, (cl_step_version nested C env _ ev0).2 hi]
  have e5 : (CompiledLeapfrog.after nested C env (Obj.new θ) (pre ++ h1 ++ ev0 :: h2)).attrs = attrsAfter θ (pre ++ h1 ++ ev0 :: h2) := cl_after_attrs nested C env _ _
  have e6 : (CompiledLeapfrog.after nested C env (Obj.new θ) (pre ++ h1 ++ ev0 :: h2)).code (CompiledLeapfrog.after nested C env (Obj.new θ) (pre ++ h1 ++ ev0 :: h2)).version L
      = some (attrsAfter θ (pre ++ h1)) := by
    rw [e4, cl_after_append nested C env (Obj.new θ) (pre ++ h1) (ev0 :: h2)]
    exact e3
  rw [CompiledLeapfrog.result, cl_step_value nested C env _ ev hev, e5, e6]
  rfl

/-- The first row of a run, whatever happened before: the start value with potentials and gradients of the current attributes, both evaluated with the second of the three keys of the start-up
(`RandomWalk`: of the two keys), while the chain goes on with the first. -/
theorem C138_first_row (θ : Θ) (h : List (CompiledLeapfrog.Event Θ K d)) (value momenta : Fin d → ℝ) (n : ℤ) (key : K) (temp : ℝ) :
    (∀ (par : UDParams) (steps : ℕ) (corr : Correction K (LfState d) UDParams), ∃ rest,
      CompiledLeapfrog.result nested C env θ h (.underdamped value momenta par steps corr n key temp) = some (.states (⟨⟨value, momenta,
        (C.prior (attrsAfter θ h) value (env.split3 key).2.1).1, (C.prior (attrsAfter θ h) value (env.split3 key).2.1).2,
        (C.lik (attrsAfter θ h) value (env.split3 key).2.1).1, (C.lik (attrsAfter θ h) value (env.split3 key).2.1).2,
        (C.prior (attrsAfter θ h) value (env.split3 key).2.1).1 + temp * (C.lik (attrsAfter θ h) value (env.split3 key).2.1).1,
        fun i => (C.prior (attrsAfter θ h) value (env.split3 key).2.1).2 i + temp * (C.lik (attrsAfter θ h) value (env.split3 key).2.1).2 i⟩, .fin 1, 0⟩ :: rest))) ∧
    (∀ (stepsize : ℝ) (corr : Correction K (RWPayload d) ℝ), ∃ rest,
      CompiledLeapfrog.result nested C env θ h (.randomWalk value stepsize corr n key temp) = some (.walk (⟨⟨value,
        .fin ((C.prior (attrsAfter θ h) value (env.split key).2).1 + temp * (C.lik (attrsAfter θ h) value (env.split key).2).1)⟩, .fin 1, 0⟩ :: rest))) := by
  have h1 : (CompiledLeapfrog.after nested C env (Obj.new θ) h).attrs = attrsAfter θ h := cl_after_attrs nested C env _ _
  refine ⟨fun par steps corr => ?_, fun stepsize corr => ?_⟩
  · rw [← h1]; exact ⟨_, rfl⟩
  · rw [← h1]; exact ⟨_, rfl⟩

/-- `scenario.init_grad()` after assigning is enough: whatever happened before, the next leapfrog or run sees the current attributes. -/
theorem C138_init_grad (θ : Θ) (h : List (CompiledLeapfrog.Event Θ K d)) (ev : CompiledLeapfrog.Event Θ K d) :
    CompiledLeapfrog.result nested C env θ (h ++ [.initGrad]) ev = expectedOut C env (attrsAfter θ h) ev := by
  have ha : attrsAfter θ (h ++ [.initGrad]) = attrsAfter θ h := by rw [attrsAfter_append]; rfl
  by_cases hu : ∃ L, usesCode nested L ev
  · obtain ⟨L, hL⟩ := hu
    have h1 := C138_partial nested C env θ (h ++ [.initGrad]) [] [] (.inr ⟨h, rfl⟩) (by simp [KeepsGradients]) (by simp [KeepsGradients]) L (by simp) (by simp [KeepsAttrs]) ev hL
    simp only [List.append_nil] at h1
    rw [h1, ha]
  · have h1 : (CompiledLeapfrog.after nested C env (Obj.new θ) (h ++ [.initGrad])).attrs = attrsAfter θ (h ++ [.initGrad]) := cl_after_attrs nested C env _ _
    rw [CompiledLeapfrog.result, ← ha, ← h1]
    cases ev with
    | leapfrog s e keys t => exact absurd ⟨_, rfl⟩ hu
    | underdamped v m p L' c n k t =>
      cases nested
      · rfl
      · exact absurd ⟨L', rfl, rfl⟩ hu
    | _ => rfl

/-- Evaluations of the potential and runs of `RandomWalk` always see the current attributes; so do runs of `Underdamped` where nested compiled functions are expanded anew. -/
theorem C138_current (θ : Θ) (h : List (CompiledLeapfrog.Event Θ K d)) (ev : CompiledLeapfrog.Event Θ K d) (hu : ∀ L, ¬usesCode nested L ev) :
    CompiledLeapfrog.result nested C env θ h ev = expectedOut C env (attrsAfter θ h) ev := by
  have h1 : (CompiledLeapfrog.after nested C env (Obj.new θ) h).attrs = attrsAfter θ h := cl_after_attrs nested C env _ _
  rw [CompiledLeapfrog.result, ← h1]
  cases ev with
  | leapfrog s e keys t => exact absurd rfl (hu keys.length)
  | underdamped v m p L' c n k t =>
    cases nested
    · rfl
    · exact absurd ⟨rfl, rfl⟩ (hu L')
  | _ => rfl

end

/-! ## What a run on old code records -/

/-- The correction returns one of the two states, up to `alpha` and the tuned parameter. -/
def CorrPicks {σ π : Type*} (corr : Correction K σ π) : Prop := ∀ smp rs re ps pe, (corr smp rs re ps pe).1.payload = rs.payload ∨ (corr smp rs re ps pe).1.payload = ps.payload

theorem corrPicks_uncorrected {σ π : Type*} : CorrPicks (uncorrected : Correction K σ π) := fun _ _ _ _ _ => .inr rfl

theorem corrPicks_metropolis {σ π : Type*} (split : K → K × K) (uniform : K → ℝ) : CorrPicks (metropolis split uniform : Correction K σ π) := by
  intro smp rs re ps pe
  classical
  simp only [metropolis]
  by_cases h : Fl.lt (Fl.fin (uniform (split pe.key).2)) (if (smp.acceptance rs re ps pe).isNan then Fl.fin 0 else smp.acceptance rs re ps pe)
  · right; rw [if_pos h]
  · left; rw [if_neg h]

theorem corrPicks_rm {σ π : Type*} (rm : RM π) (sup : Correction K σ π) (h : CorrPicks sup) : CorrPicks (rm.correct sup) := by
  intro smp rs re ps pe
  have h1 := h smp rs re ps pe
  simp only [RM.correct]
  split <;> (split <;> exact h1)

/-- The potential and its parts recorded with a state are those of the given functions at its value. -/
def RecordedBy (prior lik : (Fin d → ℝ) → ℝ × (Fin d → ℝ)) (temp : ℝ) (s : LfState d) : Prop :=
  s.priorPotential = (prior s.value).1 ∧ s.likelihoodPotential = (lik s.value).1 ∧ s.potential = (prior s.value).1 + temp * (lik s.value).1

theorem recorded_foldl (prior lik : (Fin d → ℝ) → ℝ × (Fin d → ℝ)) (ε temp : ℝ) (keys : List K) (s : LfState d) :
    let r := keys.foldl (fun s k => (leapfrogStep (fun x _ => prior x) (fun x _ => lik x) ε temp s k).1) s
    r = s ∨ RecordedBy prior lik temp r := by
  induction keys generalizing s with
  | nil => exact .inl rfl
  | cons k ks ih =>
    right
    rcases ih (leapfrogStep (fun x _ => prior x) (fun x _ => lik x) ε temp s k).1 with h | h
    · simp only [List.foldl_cons]
      rw [h]
      exact ⟨rfl, rfl, rfl⟩
    · exact h

/-- The start state, or a state recorded by the leapfrog's functions. -/
def StartOr (prior lik : (Fin d → ℝ) → ℝ × (Fin d → ℝ)) (temp : ℝ) (s0 s : LfState d) : Prop :=
  (s.value = s0.value ∧ s.priorPotential = s0.priorPotential ∧ s.likelihoodPotential = s0.likelihoodPotential ∧ s.potential = s0.potential) ∨ RecordedBy prior lik temp s

/-- A run whose leapfrog steps run on other attributes than its start-up records, at every row, either the start value with its potentials or the potentials of the attributes in the code: the potentials of the current
attributes appear nowhere else. For potentials that use no randomness, and corrections that return the old or the proposed state. -/
theorem C138_stale_chain (env : CompiledLeapfrog.Env K d) (p l p' l' : (Fin d → ℝ) → ℝ × (Fin d → ℝ)) (temp : ℝ) (value momenta : Fin d → ℝ) (par : UDParams) (steps : ℕ)
    (corr : Correction K (LfState d) UDParams) (hc : CorrPicks corr) (n : ℤ) (key : K) :
    ∀ s ∈ CompiledLeapfrog.udRun env (fun x _ => p x, fun x _ => l x) (fun x _ => p' x, fun x _ => l' x) temp value momenta par steps corr n key,
      (s.payload.value = value ∧ s.payload.potential = (p value).1 + temp * (l value).1) ∨ s.payload.potential = (p' s.payload.value).1 + temp * (l' s.payload.value).1 := by
  intro s hs
  obtain ⟨m, -, h2, -, -⟩ := C12_run (update (Mcmc.underdamped env.split env.splitN env.normal (fun x _ => p' x) (fun x _ => l' x) temp steps) corr)
    (fun _ e => terminated (n - 1) e) (n - 1) (udStart env (fun x _ => p x) (fun x _ => l x) temp value momenta key, ⟨(env.split3 key).1, 0, par⟩)
  rw [CompiledLeapfrog.udRun, runFrom, h2, List.mem_map] at hs
  obtain ⟨i, -, rfl⟩ := hs
  have key2 := bodyIter_inv (update (Mcmc.underdamped env.split env.splitN env.normal (fun x _ => p' x) (fun x _ => l' x) temp steps) corr)
    (fun c => StartOr p' l' temp (udStart env (fun x _ => p x) (fun x _ => l x) temp value momenta key).payload c.1.payload)
    (udStart env (fun x _ => p x) (fun x _ => l x) temp value momenta key, ⟨(env.split3 key).1, 0, par⟩) (.inl ⟨rfl, rfl, rfl, rfl⟩) ?_ i
  · rcases key2 with h | h
    · exact .inl ⟨h.1, h.2.2.2⟩
    · exact .inr h.2.2
  · intro s e hP
    simp only [update]
    rcases hc (Mcmc.underdamped env.split env.splitN env.normal (fun x _ => p' x) (fun x _ => l' x) temp steps) _ _ _ _ with h | h
    · rw [h]; exact hP
    · rw [h]
      simp only [Mcmc.underdamped, leapfrog_last]
      rcases recorded_foldl p' l' e.params.stepsize temp (env.splitN (env.split e.key).1 steps).2
        { s.payload with momenta := refreshMomenta e.params s.payload.momenta (env.normal (env.split e.key).2) } with h1 | h1
      · rw [h1]; exact hP
      · exact .inr h1

/-! ## `Gaussian` -/

/-- The gradient function of `gaussianClass` is the gradient of its potential. -/
theorem gaussianClass_grad (θ : GaussianAttrs d) (x : Fin d → ℝ) (k : K) :
    HasFDerivAt (fun z => ((gaussianClass (K := K)).lik θ z k).1) (∑ i, ((gaussianClass (K := K)).lik θ x k).2 i • ContinuousLinearMap.proj (R := ℝ) (φ := fun _ : Fin d => ℝ) i) x := by
  have h1 : ∀ i, HasFDerivAt (fun z : Fin d → ℝ => (z i - θ.mean i) * (1 / Real.sqrt (θ.covariance i)))
      ((1 / Real.sqrt (θ.covariance i)) • ContinuousLinearMap.proj (R := ℝ) (φ := fun _ : Fin d => ℝ) i) x := fun i =>
    (((hasFDerivAt_apply i x).sub_const (θ.mean i)).mul_const (1 / Real.sqrt (θ.covariance i)))
  have h2 := (HasFDerivAt.fun_sum fun i (_ : i ∈ Finset.univ) => (h1 i).pow 2).const_mul (0.5 : ℝ)
  refine h2.congr_fderiv ?_
  ext v
  simp only [gaussianClass, smul_apply, sum_apply, ContinuousLinearMap.proj_apply, smul_eq_mul, Finset.mul_sum]
  refine Finset.sum_congr rfl fun i _ => ?_
  simp only [nsmul_eq_mul, Nat.cast_ofNat, Nat.add_one_sub_one, pow_one]
  ring

/-- Trivial generators: one key, normal draws 0. -/
def zeroEnv : CompiledLeapfrog.Env Unit 1 := ⟨fun _ => ((), ()), fun _ => ((), (), ()), fun _ m => ((), List.replicate m ()), fun _ _ => 0⟩

/-- A state at 0 at rest. -/
def restState : LfState 1 := ⟨fun _ => 0, fun _ => 0, 0, fun _ => 0, 0, fun _ => 0, 0, fun _ => 0⟩

/-- Unit variance and the given mean. -/
def unitGaussian (m : ℝ) : GaussianAttrs 1 := ⟨fun _ => m, fun _ => 1⟩

/-- The potentials along what is returned. -/
def outPotentials : Option (Out 1) → List ℝ
  | some (.chain c) => c.states.map fun s => s.potential
  | some (.states l) => l.map fun s => s.payload.potential
  | _ => []

theorem rest_leapfrog (m : ℝ) : outPotentials (some (.chain (Mcmc.leapfrog ((gaussianClass (K := Unit)).prior (unitGaussian m)) ((gaussianClass (K := Unit)).lik (unitGaussian m)) restState 1 [()] 1)))
    = [0, 0.5 * m ^ 2] := by
  simp [outPotentials, Mcmc.leapfrog, scan, leapfrogStep, gaussianClass, unitGaussian, restState]

/-- C138 fails: `leapfrog` on a standard Gaussian, then the mean is set to 5, then `leapfrog` again: the trajectory reports the potential 0 of the old mean at 0, instead of 12.5. In every version of JAX. -/
theorem C138_fails (nested : Bool) : ∃ (h : List (CompiledLeapfrog.Event (GaussianAttrs 1) Unit 1)) (ev : CompiledLeapfrog.Event (GaussianAttrs 1) Unit 1),
    attrsAfter (unitGaussian 0) h = unitGaussian 5 ∧
    outPotentials (CompiledLeapfrog.result nested gaussianClass zeroEnv (unitGaussian 0) h ev) = [0, 0] ∧
    outPotentials (expectedOut gaussianClass zeroEnv (unitGaussian 5) ev) = [0, 12.5] := by
  refine ⟨[.leapfrog restState 1 [()] 1, .assign (unitGaussian 5)], .leapfrog restState 1 [()] 1, rfl, ?_, ?_⟩
  · have h := C138_exact nested (gaussianClass (K := Unit)) zeroEnv (unitGaussian 0) [] [] [.assign (unitGaussian 5)] (.inl rfl) (by simp [KeepsGradients]) (by simp [KeepsGradients]) 1 (by simp)
      (.leapfrog restState 1 [()] 1) (.leapfrog restState 1 [()] 1) rfl rfl
    simp only [List.nil_append, List.append_nil] at h
    rw [h]
    refine (rest_leapfrog 0).trans ?_
    norm_num
  · refine (rest_leapfrog 5).trans ?_
    norm_num

theorem stale_run (m : ℝ) : outPotentials (some (.states (CompiledLeapfrog.udRun zeroEnv ((gaussianClass (K := Unit)).prior (unitGaussian 5), (gaussianClass (K := Unit)).lik (unitGaussian 5))
    ((gaussianClass (K := Unit)).prior (unitGaussian m), (gaussianClass (K := Unit)).lik (unitGaussian m)) 1 (fun _ => 0) (fun _ => 0) ⟨2, none⟩ 1 uncorrected 2 ()))) = [12.5, 0.5 * (10 - m) ^ 2] := by
  simp only [outPotentials, CompiledLeapfrog.udRun]
  rw [C12_mcmc _ _ (keepsIter_underdamped _ _ _ _ _ _ _) corrKeepsIter_uncorrected]
  simp only [Nat.cast_zero, sub_zero, Int.reduceSub, Int.toNat_one, Nat.reduceAdd, List.range_succ, List.range_zero, List.nil_append, List.map_cons, List.map_nil, List.cons_append]
  rw [bodyIter_succ]
  simp only [bodyIter, Function.iterate_zero, id, update, uncorrected, Mcmc.underdamped, leapfrog_last]
  simp [zeroEnv, udStart, gaussianClass, unitGaussian, leapfrogStep, refreshMomenta, decay]
  norm_num

/-- C138 fails for runs where nested compiled functions share their code: a run of `Underdamped`, then the mean is set to 5, then the same run again. It starts with the potential 12.5 of the new mean at 0, and then reports
50, the potential of the old mean at 10; that of the new mean is 12.5. -/
theorem C138_fails_run : ∃ (h : List (CompiledLeapfrog.Event (GaussianAttrs 1) Unit 1)) (ev : CompiledLeapfrog.Event (GaussianAttrs 1) Unit 1),
    attrsAfter (unitGaussian 0) h = unitGaussian 5 ∧
    outPotentials (CompiledLeapfrog.result true gaussianClass zeroEnv (unitGaussian 0) h ev) = [12.5, 50] ∧
    outPotentials (expectedOut gaussianClass zeroEnv (unitGaussian 5) ev) = [12.5, 12.5] := by
  refine ⟨[.underdamped (fun _ => 0) (fun _ => 0) ⟨2, none⟩ 1 uncorrected 2 () 1, .assign (unitGaussian 5)], .underdamped (fun _ => 0) (fun _ => 0) ⟨2, none⟩ 1 uncorrected 2 () 1, rfl, ?_, ?_⟩
  · have h := C138_exact true (gaussianClass (K := Unit)) zeroEnv (unitGaussian 0) [] [] [.assign (unitGaussian 5)] (.inl rfl) (by simp [KeepsGradients]) (by simp [KeepsGradients]) 1 (by simp)
      (.underdamped (fun _ => 0) (fun _ => 0) ⟨2, none⟩ 1 uncorrected 2 () 1) (.underdamped (fun _ => 0) (fun _ => 0) ⟨2, none⟩ 1 uncorrected 2 () 1) ⟨rfl, rfl⟩ ⟨rfl, rfl⟩
    simp only [List.nil_append, List.append_nil] at h
    rw [h]
    refine (stale_run 0).trans ?_
    norm_num
  · refine (stale_run 5).trans ?_
    norm_num

/-- Non-vacuity of `C138_partial`: the mean is set before the first trajectory, which is then repeated. -/
example : outPotentials (CompiledLeapfrog.result true gaussianClass zeroEnv (unitGaussian 0) [.assign (unitGaussian 5), .leapfrog restState 1 [()] 1] (.leapfrog restState 1 [()] 1)) = [0, 12.5] := by
  have h := C138_partial true (gaussianClass (K := Unit)) zeroEnv (unitGaussian 0) [] [.assign (unitGaussian 5)] [.leapfrog restState 1 [()] 1] (.inl rfl) (by simp [KeepsGradients]) (by simp [KeepsGradients]) 1
    (by simp [usesCode]) (by simp [KeepsAttrs]) (.leapfrog restState 1 [()] 1) rfl
  simp only [List.nil_append, List.cons_append] at h
  rw [h]
  refine (rest_leapfrog 5).trans ?_
  norm_num

/-- Non-vacuity of `C138_init_grad`: the session of `C138_fails` with `init_grad` after the assignment. -/
example : outPotentials (CompiledLeapfrog.result true gaussianClass zeroEnv (unitGaussian 0) ([.leapfrog restState 1 [()] 1, .assign (unitGaussian 5)] ++ [.initGrad]) (.leapfrog restState 1 [()] 1)) = [0, 12.5] := by
  rw [C138_init_grad]
  refine (rest_leapfrog 5).trans ?_
  norm_num

/-- Non-vacuity of `C138_current`: `potential_and_grad` after the assignment. -/
example : CompiledLeapfrog.result true gaussianClass zeroEnv (unitGaussian 0) [.evaluate (fun _ => 0) () 1, .assign (unitGaussian 5)] (.evaluate (fun _ => 0) () 1) = some (.valGrad 12.5 fun _ => -5) := by
  rw [C138_current true gaussianClass zeroEnv (unitGaussian 0) _ (.evaluate (fun _ => 0) () 1) (fun L h => h)]
  simp [expectedOut, valueWith, attrsAfter, gaussianClass, unitGaussian]
  norm_num

/-- Non-vacuity of `C138_stale_chain`: `Metropolis` and `RMMetropolis` return one of the two states. -/
example (split : K → K × K) (uniform : K → ℝ) (rm : RM UDParams) : CorrPicks (rm.correct (metropolis split uniform) : Correction K (LfState d) UDParams) := corrPicks_rm _ _ (corrPicks_metropolis _ _)

end Mocat.Props
