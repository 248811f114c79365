import Verif.Model.SmoothingSessions
import Verif.Props.OnlineSessions
/-!
# C142: repeated filtering and smoothing use the model's current parameters
-/
namespace Mocat.Props
open Mocat Mocat.Filtering Mocat.EnsembleFilter Mocat.OnlineSessions Mocat.Backward Mocat.SmoothingSessions

variable {Θ G X K : Type} {dy : ℕ}

/-! ## Specification -/

/-- The attributes after a list of actions: the last assigned. -/
def smAttrs (θ : Θ) : List (SmoothingSessions.Event Θ X K dy) → Θ
  | [] => θ
  | .assign θ' :: h => smAttrs θ' h
  | _ :: h => smAttrs θ h

open Classical in
/-- The attributes at the first action of a kind, if any. -/
noncomputable def firstAttrs (P : SmoothingSessions.Event Θ X K dy → Prop) (θ : Θ) : List (SmoothingSessions.Event Θ X K dy) → Option Θ
  | [] => none
  | .assign θ' :: h => firstAttrs P θ' h
  | ev :: h => if P ev then some θ else firstAttrs P θ h

/-- The action runs the filter with `n` particles. -/
def RunsFilter (n : ℕ) : SmoothingSessions.Event Θ X K dy → Prop
  | .marginals n' _ _ _ _ => n' = n
  | .ffbsi n' _ _ _ _ _ _ _ _ => n' = n
  | _ => False

/-- The action simulates backwards with this signature: rejection or not, number of times, of particles, of trajectories. -/
def Simulates (sig : BackSig) : SmoothingSessions.Event Θ X K dy → Prop
  | .backward T n m _ _ _ rej _ => sig = ⟨decide (0 < rej.maxRej), T, n, m⟩
  | .ffbsi n m _ _ _ _ os rej _ => sig = ⟨decide (0 < rej.maxRej), os.length + 1, n, m⟩
  | _ => False

/-- No attribute is assigned. -/
def NoAssign (h : List (SmoothingSessions.Event Θ X K dy)) : Prop := ∀ θ, .assign θ ∉ h

/-- What an action returns when first draws run on the attributes `θi`, steps of the filter on `θp` and backward simulation on `θb`. -/
noncomputable def smoothWith (C : FilterClass Θ G X K dy) (trans : Θ → X → ℝ → X → ℝ → ℝ) (R : Runtime K) (θi θp θb : Θ) : SmoothingSessions.Event Θ X K dy → Option (SmoothingSessions.Out X dy)
  | .assign _ => none
  | .marginals n thr o os key => (run (R.env n) { initial := (C.vec (C.startup θi) θi n).initial, propose := (C.vec (C.startup θp) θp n).propose } thr (o.1 :: os.map Prod.fst) (o.2 :: os.map Prod.snd) key).map (Out.particles n)
  | .backward T n m hn _ p rej key =>
    let r := backwardSimulation (R.rand m n hn) (trans θb) p T rej.maxRej rej.initBound rej.inflation (R.splitT key)
    some (.trajectories m r.1 r.2)
  | .ffbsi n m hn _ thr o os rej key =>
    (run (R.env n) { initial := (C.vec (C.startup θi) θi n).initial, propose := (C.vec (C.startup θp) θp n).propose } thr (o.1 :: os.map Prod.fst) (o.2 :: os.map Prod.snd) (R.split2 key).1).bind fun p =>
      (marginalsOf p).map fun mp =>
        let r := backwardSimulation (R.rand m n hn) (trans θb) mp (os.length + 1) rej.maxRej rej.initBound rej.inflation (R.splitT (R.split2 key).2)
        .trajectories m r.1 r.2

/-- What the property asks for: everything runs on the current attributes. -/
noncomputable def smoothExpected (C : FilterClass Θ G X K dy) (trans : Θ → X → ℝ → X → ℝ → ℝ) (R : Runtime K) (θ : Θ) (ev : SmoothingSessions.Event Θ X K dy) :
    Option (SmoothingSessions.Out X dy) := smoothWith C trans R θ θ θ ev

/-! ## Proofs -/

theorem scan_snd_length {α β γ : Type*} (f : α → β → α × γ) (a : α) (l : List β) : (scan f a l).2.length = l.length := by
  induction l generalizing a with
  | nil => rfl
  | cons b l ih => simp [scan, ih]

theorem run_rows {n : ℕ} (env : Env K n) (f : VecFilter X K dy n) (thr : ℝ) (o : Obs dy × ℝ) (os : List (Obs dy × ℝ)) (key : K) :
    ∃ p mp, run env f thr (o.1 :: os.map Prod.fst) (o.2 :: os.map Prod.snd) key = some p ∧ p.value.length = os.length + 1 ∧ marginalsOf p = some mp := by
  simp only [EnsembleFilter.run, EnsembleFilter.runWithKeys, EnsembleFilter.initiateParticles, latest, List.getLast?_singleton, Option.bind_eq_bind, Option.bind_some]
  refine ⟨_, _, rfl, ?_, rfl⟩
  simp [scan_snd_length, withKeys, Nat.add_comm]

section
variable (nested : Bool) (C : FilterClass Θ G X K dy) (trans : Θ → X → ℝ → X → ℝ → ℝ) (R : Runtime K)

theorem sm_step_model (s : SmoothingSessions.Sess Θ) (ev : SmoothingSessions.Event Θ X K dy) : (SmoothingSessions.step nested C trans R s ev).1.model = smAttrs s.model [ev] := by
  cases ev with
  | assign θ => rfl
  | marginals n thr o os key => rfl
  | backward T n m hn hm p rej key => rfl
  | ffbsi n m hn hm thr o os rej key =>
    simp only [SmoothingSessions.step]
    split
    · rfl
    · split <;> rfl

theorem smAttrs_cons (θ : Θ) (ev : SmoothingSessions.Event Θ X K dy) (h : List (SmoothingSessions.Event Θ X K dy)) : smAttrs θ (ev :: h) = smAttrs (smAttrs θ [ev]) h := by
  cases ev <;> rfl

theorem sm_after_model (s : SmoothingSessions.Sess Θ) (h : List (SmoothingSessions.Event Θ X K dy)) : (SmoothingSessions.after nested C trans R s h).model = smAttrs s.model h := by
  induction h generalizing s with
  | nil => rfl
  | cons ev h ih => rw [SmoothingSessions.after, ih, sm_step_model, ← smAttrs_cons]

open Classical in
theorem firstAttrs_cons (P : SmoothingSessions.Event Θ X K dy → Prop) (hP : ∀ θ, ¬P (.assign θ)) (θ : Θ) (ev : SmoothingSessions.Event Θ X K dy) (h : List (SmoothingSessions.Event Θ X K dy)) :
    firstAttrs P θ (ev :: h) = if P ev then some θ else firstAttrs P (smAttrs θ [ev]) h := by
  cases ev with
  | assign θ' => rw [if_neg (hP θ')]; rfl
  | _ => rfl

/-- A code that is written exactly by the actions of one kind, with the current attributes unless it is there already, contains the attributes of the first such action. -/
theorem sm_code (code : SmoothingSessions.Sess Θ → Option Θ) (P : SmoothingSessions.Event Θ X K dy → Prop) (hP : ∀ θ, ¬P (.assign θ))
    (hw : ∀ s ev, P ev → code (SmoothingSessions.step nested C trans R s ev).1 = some ((code s).getD s.model))
    (hk : ∀ s ev, ¬P ev → code (SmoothingSessions.step nested C trans R s ev).1 = code s) (s : SmoothingSessions.Sess Θ) (h : List (SmoothingSessions.Event Θ X K dy)) :
    code (SmoothingSessions.after nested C trans R s h) = (code s).or (firstAttrs P s.model h) := by
  induction h generalizing s with
  | nil => simp [SmoothingSessions.after, firstAttrs]
  | cons ev h ih =>
    rw [SmoothingSessions.after, ih, firstAttrs_cons P hP, sm_step_model]
    by_cases hev : P ev
    · rw [hw s ev hev, if_pos hev]
      cases code s <;> rfl
    · rw [hk s ev hev, if_neg hev]

theorem sm_ffbsi_sess (s : SmoothingSessions.Sess Θ) (n m : ℕ) (hn : NeZero n) (hm : NeZero m) (thr : ℝ) (o : Obs dy × ℝ) (os : List (Obs dy × ℝ)) (rej : Rej) (key : K) :
    (SmoothingSessions.step nested C trans R s (.ffbsi n m hn hm thr o os rej key)).1
      = { s with
          initCode := Function.update s.initCode n (some ((s.initCode n).getD s.model))
          propCode := Function.update s.propCode n (some ((s.propCode n).getD s.model))
          backCode := Function.update s.backCode ⟨decide (0 < rej.maxRej), os.length + 1, n, m⟩ (some ((s.backCode ⟨decide (0 < rej.maxRej), os.length + 1, n, m⟩).getD s.model)) } := by
  obtain ⟨p, mp, h1, h2, h3⟩ := run_rows (R.env n) (mixed C (if C.jitInitial then (s.initCode n).getD s.model else s.model) (if nested then (s.propCode n).getD s.model else s.model) n) thr o os
    (R.split2 key).1
  simp only [SmoothingSessions.step, filterCall, h1, h3, h2, backCall]

theorem sm_initCode (s : SmoothingSessions.Sess Θ) (h : List (SmoothingSessions.Event Θ X K dy)) (n : ℕ) :
    (SmoothingSessions.after nested C trans R s h).initCode n = (s.initCode n).or (firstAttrs (RunsFilter n) s.model h) := by
  refine sm_code nested C trans R (fun s => s.initCode n) (RunsFilter n) (fun _ => id) (fun s ev hev => ?_) (fun s ev hev => ?_) s h
  · cases ev with
    | assign θ => exact hev.elim
    | backward T n m hn hm p rej key => exact hev.elim
    | marginals n' thr o os key =>
      obtain rfl : n' = n := hev
      simp only [SmoothingSessions.step, filterCall, Function.update_self]
    | ffbsi n' m hn hm thr o os rej key =>
      obtain rfl : n' = n := hev
      simp only [sm_ffbsi_sess, Function.update_self]
  · cases ev with
    | assign θ => rfl
    | backward T n m hn hm p rej key => rfl
    | marginals n' thr o os key => simp only [SmoothingSessions.step, filterCall, Function.update_of_ne (Ne.symm hev)]
    | ffbsi n' m hn hm thr o os rej key => simp only [sm_ffbsi_sess, Function.update_of_ne (Ne.symm hev)]

theorem sm_propCode (s : SmoothingSessions.Sess Θ) (h : List (SmoothingSessions.Event Θ X K dy)) (n : ℕ) :
    (SmoothingSessions.after nested C trans R s h).propCode n = (s.propCode n).or (firstAttrs (RunsFilter n) s.model h) := by
  refine sm_code nested C trans R (fun s => s.propCode n) (RunsFilter n) (fun _ => id) (fun s ev hev => ?_) (fun s ev hev => ?_) s h
  · cases ev with
    | assign θ => exact hev.elim
    | backward T n m hn hm p rej key => exact hev.elim
    | marginals n' thr o os key =>
      obtain rfl : n' = n := hev
      simp only [SmoothingSessions.step, filterCall, Function.update_self]
    | ffbsi n' m hn hm thr o os rej key =>
      obtain rfl : n' = n := hev
      simp only [sm_ffbsi_sess, Function.update_self]
  · cases ev with
    | assign θ => rfl
    | backward T n m hn hm p rej key => rfl
    | marginals n' thr o os key => simp only [SmoothingSessions.step, filterCall, Function.update_of_ne (Ne.symm hev)]
    | ffbsi n' m hn hm thr o os rej key => simp only [sm_ffbsi_sess, Function.update_of_ne (Ne.symm hev)]

theorem sm_backCode (s : SmoothingSessions.Sess Θ) (h : List (SmoothingSessions.Event Θ X K dy)) (sig : BackSig) :
    (SmoothingSessions.after nested C trans R s h).backCode sig = (s.backCode sig).or (firstAttrs (Simulates sig) s.model h) := by
  refine sm_code nested C trans R (fun s => s.backCode sig) (Simulates sig) (fun _ => id) (fun s ev hev => ?_) (fun s ev hev => ?_) s h
  · cases ev with
    | assign θ => exact hev.elim
    | marginals n' thr o os key => exact hev.elim
    | backward T n m hn hm p rej key =>
      obtain rfl : sig = _ := hev
      simp only [SmoothingSessions.step, backCall, Function.update_self]
    | ffbsi n' m hn hm thr o os rej key =>
      obtain rfl : sig = _ := hev
      simp only [sm_ffbsi_sess, Function.update_self]
  · cases ev with
    | assign θ => rfl
    | marginals n' thr o os key => rfl
    | backward T n m hn hm p rej key => simp only [SmoothingSessions.step, backCall, Function.update_of_ne hev]
    | ffbsi n' m hn hm thr o os rej key => simp only [sm_ffbsi_sess, Function.update_of_ne hev]

/-- The attributes on which compiled code of a kind runs: those at the first action of that kind, the current ones if there was none. -/
noncomputable def codeAttrs (P : SmoothingSessions.Event Θ X K dy → Prop) (θ : Θ) (h : List (SmoothingSessions.Event Θ X K dy)) : Θ := (firstAttrs P θ h).getD (smAttrs θ h)

/-- C142, exactly, for the filter: the first draw (if compiled) and the step (if nested compiled functions share their code) run on the attributes at the first call with that number of particles, otherwise on the current
ones. -/
theorem C142_exact_filter (θ : Θ) (h : List (SmoothingSessions.Event Θ X K dy)) (n : ℕ) (thr : ℝ) (o : Obs dy × ℝ) (os : List (Obs dy × ℝ)) (key : K) (θb : Θ) :
    SmoothingSessions.result nested C trans R θ h (.marginals n thr o os key)
      = smoothWith C trans R (if C.jitInitial then codeAttrs (RunsFilter n) θ h else smAttrs θ h) (if nested then codeAttrs (RunsFilter n) θ h else smAttrs θ h) θb (.marginals n thr o os key) := by
  have e1 := sm_after_model nested C trans R (Sess.new θ) h
  have e2 := sm_initCode nested C trans R (Sess.new θ) h n
  have e3 := sm_propCode nested C trans R (Sess.new θ) h n
  simp only [SmoothingSessions.result, SmoothingSessions.step, filterCall, e1, e2, e3, smoothWith, codeAttrs]
  rfl

/-- C142, exactly, for backward simulation: it runs on the attributes at the first call with the same numbers of times, particles and trajectories and the same choice of rejection. -/
theorem C142_exact_backward (θ : Θ) (h : List (SmoothingSessions.Event Θ X K dy)) (T n m : ℕ) (hn : NeZero n) (hm : NeZero m) (p : Marginals X n) (rej : Rej) (key : K) (θi θp : Θ) :
    SmoothingSessions.result nested C trans R θ h (.backward T n m hn hm p rej key)
      = smoothWith C trans R θi θp (codeAttrs (Simulates ⟨decide (0 < rej.maxRej), T, n, m⟩) θ h) (.backward T n m hn hm p rej key) := by
  have e1 := sm_after_model nested C trans R (Sess.new θ) h
  have e2 := sm_backCode nested C trans R (Sess.new θ) h ⟨decide (0 < rej.maxRej), T, n, m⟩
  simp only [SmoothingSessions.result, SmoothingSessions.step, backCall, e1, e2, smoothWith, codeAttrs]
  rfl

/-- C142, exactly, for forward filtering, backward simulation: first draw, step and backward simulation each run on the attributes at the first call that compiled them. They may differ. -/
theorem C142_exact (θ : Θ) (h : List (SmoothingSessions.Event Θ X K dy)) (n m : ℕ) (hn : NeZero n) (hm : NeZero m) (thr : ℝ) (o : Obs dy × ℝ) (os : List (Obs dy × ℝ)) (rej : Rej) (key : K) :
    SmoothingSessions.result nested C trans R θ h (.ffbsi n m hn hm thr o os rej key)
      = smoothWith C trans R (if C.jitInitial then codeAttrs (RunsFilter n) θ h else smAttrs θ h) (if nested then codeAttrs (RunsFilter n) θ h else smAttrs θ h)
          (codeAttrs (Simulates ⟨decide (0 < rej.maxRej), os.length + 1, n, m⟩) θ h) (.ffbsi n m hn hm thr o os rej key) := by
  have e1 := sm_after_model nested C trans R (Sess.new θ) h
  have e2 := sm_initCode nested C trans R (Sess.new θ) h n
  have e3 := sm_propCode nested C trans R (Sess.new θ) h n
  have e4 := sm_backCode nested C trans R (Sess.new θ) h ⟨decide (0 < rej.maxRej), os.length + 1, n, m⟩
  have n2 : ((Sess.new θ : SmoothingSessions.Sess Θ).initCode n).or (firstAttrs (RunsFilter n) (Sess.new θ : SmoothingSessions.Sess Θ).model h) = firstAttrs (RunsFilter n) θ h := rfl
  have n3 : ((Sess.new θ : SmoothingSessions.Sess Θ).propCode n).or (firstAttrs (RunsFilter n) (Sess.new θ : SmoothingSessions.Sess Θ).model h) = firstAttrs (RunsFilter n) θ h := rfl
  have n1 : smAttrs (Sess.new θ : SmoothingSessions.Sess Θ).model h = smAttrs θ h := rfl
  rw [n2] at e2
  rw [n3] at e3
  rw [n1] at e1
  obtain ⟨p, mp, h1, h2, h3⟩ := run_rows (R.env n) (mixed C (if C.jitInitial then codeAttrs (RunsFilter n) θ h else smAttrs θ h)
    (if nested then codeAttrs (RunsFilter n) θ h else smAttrs θ h) n) thr o os (R.split2 key).1
  have h1' := h1
  simp only [codeAttrs] at h1'
  have h1'' := h1'
  simp only [mixed] at h1''
  simp only [SmoothingSessions.result, SmoothingSessions.step, filterCall, e1, e2, e3, h1', h1'', h3, h2, backCall, smoothWith, Option.bind_some, Option.map_some, e4, codeAttrs]
  rfl

/-- The two actions share compiled code: they run the filter with the same number of particles, or simulate backwards with the same signature. -/
def SharesCode (ev ev' : SmoothingSessions.Event Θ X K dy) : Prop := (∃ n, RunsFilter n ev ∧ RunsFilter n ev') ∨ ∃ sig, Simulates sig ev ∧ Simulates sig ev'

omit nested C trans R in
theorem smAttrs_append (θ : Θ) (h1 h2 : List (SmoothingSessions.Event Θ X K dy)) : smAttrs θ (h1 ++ h2) = smAttrs (smAttrs θ h1) h2 := by
  induction h1 generalizing θ with
  | nil => rfl
  | cons ev h1 ih => rw [List.cons_append, smAttrs_cons, ih, ← smAttrs_cons]

theorem smAttrs_noAssign (θ : Θ) (h : List (SmoothingSessions.Event Θ X K dy)) (hn : NoAssign h) : smAttrs θ h = θ := by
  induction h with
  | nil => rfl
  | cons ev h ih =>
    have hn' : NoAssign h := fun θ' hm => hn θ' (List.mem_cons_of_mem _ hm)
    cases ev with
    | assign θ' => exact absurd List.mem_cons_self (hn θ')
    | _ => exact ih hn'

theorem firstAttrs_none (P : SmoothingSessions.Event Θ X K dy → Prop) (hP : ∀ θ, ¬P (.assign θ)) (θ : Θ) (h : List (SmoothingSessions.Event Θ X K dy)) (hn : ∀ ev ∈ h, ¬P ev) :
    firstAttrs P θ h = none := by
  induction h generalizing θ with
  | nil => rfl
  | cons ev h ih => rw [firstAttrs_cons P hP, if_neg (hn ev List.mem_cons_self), ih _ fun e he => hn e (List.mem_cons_of_mem _ he)]

theorem firstAttrs_append (P : SmoothingSessions.Event Θ X K dy → Prop) (hP : ∀ θ, ¬P (.assign θ)) (θ : Θ) (h1 h2 : List (SmoothingSessions.Event Θ X K dy)) (hn : ∀ ev ∈ h1, ¬P ev) :
    firstAttrs P θ (h1 ++ h2) = firstAttrs P (smAttrs θ h1) h2 := by
  induction h1 generalizing θ with
  | nil => rfl
  | cons ev h1 ih =>
    rw [List.cons_append, firstAttrs_cons P hP, if_neg (hn ev List.mem_cons_self), ih _ fun e he => hn e (List.mem_cons_of_mem _ he), ← smAttrs_cons]

theorem firstAttrs_noAssign (P : SmoothingSessions.Event Θ X K dy → Prop) (hP : ∀ θ, ¬P (.assign θ)) (θ : Θ) (h : List (SmoothingSessions.Event Θ X K dy)) (hn : NoAssign h) :
    (firstAttrs P θ h).getD θ = θ := by
  induction h with
  | nil => rfl
  | cons ev h ih =>
    have hn' : NoAssign h := fun θ' hm => hn θ' (List.mem_cons_of_mem _ hm)
    have he : smAttrs θ [ev] = θ := smAttrs_noAssign θ [ev] fun θ' hm => hn θ' (by rw [List.mem_singleton] at hm; rw [hm]; exact List.mem_cons_self)
    rw [firstAttrs_cons P hP, he]
    split_ifs
    · rfl
    · exact ih hn'

/-- If no attribute was assigned since the first action of a kind, the code of that kind is current. -/
theorem codeAttrs_current (P : SmoothingSessions.Event Θ X K dy → Prop) (hP : ∀ θ, ¬P (.assign θ)) (θ : Θ) (h1 h2 : List (SmoothingSessions.Event Θ X K dy)) (hn : ∀ ev ∈ h1, ¬P ev) (ha : NoAssign h2) :
    codeAttrs P θ (h1 ++ h2) = smAttrs θ (h1 ++ h2) := by
  rw [codeAttrs, firstAttrs_append P hP θ h1 h2 hn, smAttrs_append, smAttrs_noAssign _ h2 ha, firstAttrs_noAssign P hP _ h2 ha]

/-- Code of a kind keeps the attributes of the first action of that kind for ever. -/
theorem codeAttrs_first (P : SmoothingSessions.Event Θ X K dy → Prop) (hP : ∀ θ, ¬P (.assign θ)) (θ : Θ) (h1 h2 : List (SmoothingSessions.Event Θ X K dy)) (ev : SmoothingSessions.Event Θ X K dy)
    (hn : ∀ ev ∈ h1, ¬P ev) (hev : P ev) : codeAttrs P θ (h1 ++ ev :: h2) = smAttrs θ h1 := by
  rw [codeAttrs, firstAttrs_append P hP θ h1 _ hn, firstAttrs_cons P hP, if_pos hev]; rfl

/-- C142 where it holds: a call returns what the current attributes give as long as no attribute was assigned since the first call that shares compiled code with it; in particular if there was no such call (new sizes, or the
first call at all). Missing: assignments in between (`C142_exact`, `C142_fails`). -/
theorem C142_partial (θ : Θ) (h1 h2 : List (SmoothingSessions.Event Θ X K dy)) (ev : SmoothingSessions.Event Θ X K dy) (hs : ∀ ev' ∈ h1, ¬SharesCode ev ev') (ha : NoAssign h2) :
    SmoothingSessions.result nested C trans R θ (h1 ++ h2) ev = smoothExpected C trans R (smAttrs θ (h1 ++ h2)) ev := by
  have hF : ∀ n, RunsFilter n ev → codeAttrs (RunsFilter n) θ (h1 ++ h2) = smAttrs θ (h1 ++ h2) := fun n hn =>
    codeAttrs_current _ (fun _ => id) θ h1 h2 (fun ev' he hn' => hs ev' he (.inl ⟨n, hn, hn'⟩)) ha
  have hB : ∀ sig, Simulates sig ev → codeAttrs (Simulates sig) θ (h1 ++ h2) = smAttrs θ (h1 ++ h2) := fun sig hn =>
    codeAttrs_current _ (fun _ => id) θ h1 h2 (fun ev' he hn' => hs ev' he (.inr ⟨sig, hn, hn'⟩)) ha
  cases ev with
  | assign θ' => rfl
  | marginals n thr o os key =>
    rw [C142_exact_filter nested C trans R θ (h1 ++ h2) n thr o os key (smAttrs θ (h1 ++ h2)), hF n rfl, ite_self, ite_self]; rfl
  | backward T n m hn hm p rej key =>
    rw [C142_exact_backward nested C trans R θ (h1 ++ h2) T n m hn hm p rej key (smAttrs θ (h1 ++ h2)) (smAttrs θ (h1 ++ h2)), hB _ rfl]; rfl
  | ffbsi n m hn hm thr o os rej key => rw [C142_exact, hF n rfl, hB _ rfl, ite_self, ite_self]; rfl

/-- C142, estimation loops: where nested compiled functions share their code and the first draw is compiled (bootstrap filter), every call of the same sizes after the first returns what the attributes at the first call give,
whatever was assigned since. -/
theorem C142_frozen (hC : C.jitInitial = true) (θ : Θ) (h1 h2 : List (SmoothingSessions.Event Θ X K dy)) (n m : ℕ) (hn : NeZero n) (hm : NeZero m) (thr thr' : ℝ) (o o' : Obs dy × ℝ) (os os' : List (Obs dy × ℝ))
    (rej rej' : Rej) (key key' : K) (hT : os'.length = os.length) (hr : 0 < rej'.maxRej ↔ 0 < rej.maxRej) (hs : ∀ ev' ∈ h1, ¬SharesCode (.ffbsi n m hn hm thr o os rej key) ev') :
    SmoothingSessions.result true C trans R θ (h1 ++ .ffbsi n m hn hm thr o os rej key :: h2) (.ffbsi n m hn hm thr' o' os' rej' key')
      = smoothExpected C trans R (smAttrs θ h1) (.ffbsi n m hn hm thr' o' os' rej' key') := by
  have hsig : (⟨decide (0 < rej'.maxRej), os'.length + 1, n, m⟩ : BackSig) = ⟨decide (0 < rej.maxRej), os.length + 1, n, m⟩ := by rw [hT, decide_eq_decide.2 hr]
  have hF : codeAttrs (RunsFilter n) θ (h1 ++ .ffbsi n m hn hm thr o os rej key :: h2) = smAttrs θ h1 :=
    codeAttrs_first _ (fun _ => id) θ h1 h2 _ (fun ev' he hn' => hs ev' he (.inl ⟨n, rfl, hn'⟩)) rfl
  have hB : codeAttrs (Simulates ⟨decide (0 < rej'.maxRej), os'.length + 1, n, m⟩) θ (h1 ++ .ffbsi n m hn hm thr o os rej key :: h2) = smAttrs θ h1 := by
    rw [hsig]
    exact codeAttrs_first _ (fun _ => id) θ h1 h2 _ (fun ev' he hn' => hs ev' he (.inr ⟨_, rfl, hn'⟩)) rfl
  rw [C142_exact, hF, hB, if_pos hC, if_pos rfl]; rfl

end

/-- For the bootstrap filter, what the property asks for is the forward filtering, backward simulation of C84, C91 and C132. -/
theorem C142_expected_bootstrap (mk : Θ → Ssm.Model X (Obs dy) K) (trans : Θ → X → ℝ → X → ℝ → ℝ) (R : Runtime K) (θ : Θ) (n m : ℕ) (hn : NeZero n) (hm : NeZero m) (thr : ℝ) (o : Obs dy × ℝ) (os : List (Obs dy × ℝ))
    (rej : Rej) (key : K) :
    smoothExpected (bootstrapClass mk) trans R θ (.ffbsi n m hn hm thr o os rej key)
      = (Backward.ffbsi R.split2 R.splitT (R.env n) (bootstrap (mk θ)) (R.rand m n hn) (trans θ) thr (o.1 :: os.map Prod.fst) (o.2 :: os.map Prod.snd) rej.maxRej rej.initBound rej.inflation key).map
          fun r => .trajectories m r.1 r.2 := by
  obtain ⟨p, mp, h1, h2, h3⟩ := run_rows (R.env n) (mixed (bootstrapClass mk) θ θ n) thr o os (R.split2 key).1
  have h4 : Filtering.run (R.env n) (bootstrap (mk θ)) thr (o.1 :: os.map Prod.fst) (o.2 :: os.map Prod.snd) (R.split2 key).1 = some p := h1
  simp only [mixed] at h1
  simp only [smoothExpected, smoothWith, h1, h3, Option.bind_some, Option.map_some, Backward.ffbsi, h4, h2, Option.bind_eq_bind]

/-! ## Failures -/

/-- Keys play no role; a categorical draw takes candidate 1 if its log weight is larger than that of candidate 0, else candidate 0. -/
noncomputable def plainRuntime : Runtime Unit where
  env _ := { categorical := fun _ _ i => i, splitN := fun _ _ _ => () }
  rand _ n _ :=
    { choice := fun _ lw => open Classical in if Fl.lt (lw 0) (lw (Fin.ofNat n 1)) then Fin.ofNat n 1 else 0
      choices := fun _ _ _ => 0
      uniform := fun _ => 0, uniforms := fun _ _ => 0, split3 := fun _ => ((), (), ()), splitN := fun _ _ => () }
  split2 _ := ((), ())
  splitT _ _ := ()

/-- A model with one attribute `θ`: it starts at `θ`, adds `θ` at every step, and prefers to come from `θ`. -/
noncomputable def wanderModel (θ : ℝ) : Ssm.Model ℝ (Obs 1) Unit where
  initialPotential _ _ := 0
  initialSample _ _ := θ
  transitionPotential x _ _ _ := (x - θ) ^ 2
  transitionSample x _ _ _ := x + θ
  likelihoodPotential _ _ _ := 0
  likelihoodSample _ _ _ := fun _ => 0

/-- The values of the trajectories returned, by time. -/
def outPaths : Option (SmoothingSessions.Out ℝ 1) → List (List ℝ)
  | some (.trajectories _ v _) => v.map List.ofFn
  | _ => []

/-- Two particles, at 0 and 1, at the first of two times. -/
def smTwoParticles : Marginals ℝ 2 where
  value i j := if i = 0 then (if j = 0 then 0 else 1) else 0
  t i := i
  logWeight _ _ := .fin 0

theorem backward_two (θ : ℝ) (h : θ = 0 ∨ θ = 1) :
    outPaths (smoothExpected (bootstrapClass wanderModel) (fun θ => (wanderModel θ).transitionPotential) plainRuntime θ
      (.backward 2 2 1 ⟨two_ne_zero⟩ ⟨one_ne_zero⟩ smTwoParticles ⟨0, 0, 1⟩ ())) = [[θ], [0]] := by
  rcases h with rfl | rfl
  · simp [smoothExpected, smoothWith, outPaths, backwardSimulation, scan, backStep, full, fullLogWeight, plainRuntime, smTwoParticles, wanderModel, Fl.lt, Fl.sub, Fl.add, Fl.neg]
  · simp [smoothExpected, smoothWith, outPaths, backwardSimulation, scan, backStep, full, fullLogWeight, plainRuntime, smTwoParticles, wanderModel, Fl.lt, Fl.sub, Fl.add, Fl.neg]

/-- C142 fails, in every version of jax: backward simulation with `θ = 0`, then `θ` is set to 1, then backward simulation again: the trajectory comes from 0, which the model no longer prefers. -/
theorem C142_fails (nested : Bool) : ∃ (h : List (SmoothingSessions.Event ℝ ℝ Unit 1)) (ev : SmoothingSessions.Event ℝ ℝ Unit 1), smAttrs 0 h = 1 ∧
    outPaths (SmoothingSessions.result nested (bootstrapClass wanderModel) (fun θ => (wanderModel θ).transitionPotential) plainRuntime 0 h ev) = [[0], [0]] ∧
    outPaths (smoothExpected (bootstrapClass wanderModel) (fun θ => (wanderModel θ).transitionPotential) plainRuntime 1 ev) = [[1], [0]] := by
  refine ⟨[.backward 2 2 1 ⟨two_ne_zero⟩ ⟨one_ne_zero⟩ smTwoParticles ⟨0, 0, 1⟩ (), .assign 1], .backward 2 2 1 ⟨two_ne_zero⟩ ⟨one_ne_zero⟩ smTwoParticles ⟨0, 0, 1⟩ (), rfl, ?_, backward_two 1 (.inr rfl)⟩
  rw [C142_exact_backward nested _ _ _ _ _ _ _ _ _ _ _ _ _ 0 0]
  have : codeAttrs (Simulates ⟨decide ((0 : ℤ) < 0), 2, 2, 1⟩) (0 : ℝ) ([] ++ (.backward 2 2 1 ⟨two_ne_zero⟩ ⟨one_ne_zero⟩ smTwoParticles ⟨0, 0, 1⟩ () : SmoothingSessions.Event ℝ ℝ Unit 1) :: [.assign 1]) = 0 :=
    codeAttrs_first _ (fun _ => id) 0 [] _ _ (by simp) rfl
  rw [List.nil_append] at this
  simp only at this ⊢
  rw [this]
  exact backward_two 0 (.inl rfl)

/-- One trajectory from one particle through two observations, with the first draw from `θi` and the step from `θp`. -/
theorem drift_path (θi θp θb : ℝ) :
    outPaths (smoothWith (bootstrapClass wanderModel) (fun θ => (wanderModel θ).transitionPotential) plainRuntime θi θp θb
      (.ffbsi 1 1 ⟨one_ne_zero⟩ ⟨one_ne_zero⟩ 0 (fun _ => 0, 0) [(fun _ => 0, 1)] ⟨0, 0, 1⟩ ())) = [[θi], [θi + θp]] := by
  simp [smoothWith, outPaths, EnsembleFilter.run, EnsembleFilter.runWithKeys, EnsembleFilter.initiateParticles, latest, withKeys, scan, EnsembleFilter.body, marginalsOf, backwardSimulation, backStep, full,
    plainRuntime, wanderModel, bootstrapClass, ofFilter, bootstrap]
  split_ifs <;> rfl

/-- C142 fails in an estimation loop: smoothing with `θ = 0`, then `θ` is set to 1, then the same smoothing again: the path 0, 0 of the old model where nested compiled functions share their code, the path 0, 1 of neither
model where they do not; that of the new model is 1, 2. -/
theorem C142_fails_loop : ∃ (h : List (SmoothingSessions.Event ℝ ℝ Unit 1)) (ev : SmoothingSessions.Event ℝ ℝ Unit 1), smAttrs 0 h = 1 ∧
    outPaths (SmoothingSessions.result true (bootstrapClass wanderModel) (fun θ => (wanderModel θ).transitionPotential) plainRuntime 0 h ev) = [[0], [0]] ∧
    outPaths (SmoothingSessions.result false (bootstrapClass wanderModel) (fun θ => (wanderModel θ).transitionPotential) plainRuntime 0 h ev) = [[0], [1]] ∧
    outPaths (smoothExpected (bootstrapClass wanderModel) (fun θ => (wanderModel θ).transitionPotential) plainRuntime 1 ev) = [[1], [2]] := by
  refine ⟨[.ffbsi 1 1 ⟨one_ne_zero⟩ ⟨one_ne_zero⟩ 0 (fun _ => 0, 0) [(fun _ => 0, 1)] ⟨0, 0, 1⟩ (), .assign 1], .ffbsi 1 1 ⟨one_ne_zero⟩ ⟨one_ne_zero⟩ 0 (fun _ => 0, 0) [(fun _ => 0, 1)] ⟨0, 0, 1⟩ (), rfl,
    ?_, ?_, ?_⟩
  · have := C142_frozen (bootstrapClass wanderModel) (fun θ => (wanderModel θ).transitionPotential) plainRuntime rfl 0 [] [.assign 1] 1 1 ⟨one_ne_zero⟩ ⟨one_ne_zero⟩ 0 0 (fun _ => 0, 0) (fun _ => 0, 0)
      [(fun _ => 0, 1)] [(fun _ => 0, 1)] ⟨0, 0, 1⟩ ⟨0, 0, 1⟩ () () rfl Iff.rfl (by simp)
    rw [List.nil_append] at this
    rw [this]
    refine (drift_path _ _ _).trans ?_
    simp [smAttrs]
  · rw [C142_exact]
    have hF : codeAttrs (RunsFilter 1) (0 : ℝ) ([] ++ (.ffbsi 1 1 ⟨one_ne_zero⟩ ⟨one_ne_zero⟩ 0 (fun _ => 0, 0) [(fun _ => 0, 1)] ⟨0, 0, 1⟩ () : SmoothingSessions.Event ℝ ℝ Unit 1) :: [.assign 1]) = 0 :=
      codeAttrs_first _ (fun _ => id) 0 [] _ _ (by simp) rfl
    rw [List.nil_append] at hF
    refine (drift_path _ _ _).trans ?_
    rw [hF]
    simp [smAttrs, bootstrapClass]
  · refine (drift_path _ _ _).trans ?_
    norm_num

/-- Non-vacuity of `C142_partial`: smoothing with another number of particles before the assignment does not matter. -/
example (nested : Bool) : outPaths (SmoothingSessions.result nested (bootstrapClass wanderModel) (fun θ => (wanderModel θ).transitionPotential) plainRuntime 0
    ([.ffbsi 2 1 ⟨two_ne_zero⟩ ⟨one_ne_zero⟩ 0 (fun _ => 0, 0) [(fun _ => 0, 1)] ⟨0, 0, 1⟩ (), .assign 1] ++ [])
    (.ffbsi 1 1 ⟨one_ne_zero⟩ ⟨one_ne_zero⟩ 0 (fun _ => 0, 0) [(fun _ => 0, 1)] ⟨0, 0, 1⟩ ())) = [[1], [2]] := by
  rw [C142_partial]
  · refine (drift_path _ _ _).trans ?_
    norm_num [smAttrs]
  · intro ev' he hs
    simp only [List.mem_cons, List.not_mem_nil, or_false] at he
    rcases he with rfl | rfl
    · rcases hs with ⟨n, h1, h2⟩ | ⟨sig, h1, h2⟩
      · have h1' : 1 = n := h1
        have h2' : 2 = n := h2
        omega
      · have h1' : sig = _ := h1
        have h2' : sig = _ := h2
        rw [h1'] at h2'
        exact absurd (congrArg BackSig.n h2') (by norm_num)
    · rcases hs with ⟨n, h1, h2⟩ | ⟨sig, h1, h2⟩
      · exact h2
      · exact h2
  · simp [NoAssign]

end Mocat.Props
