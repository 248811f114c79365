import Verif.Model.Sessions
import Verif.Props.Startup
import Mathlib.Tactic.Ring
import Mathlib.Tactic.NormNum
/-!
# C99: parameters across several runs; C100: start states across several runs
-/
namespace Mocat.Props
open Mocat.Startup Mocat.Sessions

variable {V : Type*}

/-- The last value given to parameter `k` of sampler object `i` as a keyword argument in a session. -/
def lastGiven (i : ℕ) (k : String) : List (RunCall V) → Option (Option V)
  | [] => none
  | c :: cs => match lastGiven i k cs with
    | some w => some w
    | none => if c.sampler = i then Dict.get c.kwargs k else none

theorem exec_sampler_wf {w : World V} {c : RunCall V} (h : ∀ i, SamplerObj.Wf (w.sampler i)) (i : ℕ) :
    SamplerObj.Wf ((exec w c).1.sampler i) := by
  unfold exec
  simp only [Function.update_apply]
  split
  · exact foldl_startupKwarg_nodup c.kwargs (h _)
  · exact h i

theorem after_wf (cs : List (RunCall V)) : ∀ {w : World V}, (∀ i, SamplerObj.Wf (w.sampler i)) →
    ∀ i, SamplerObj.Wf ((after w cs).sampler i) := by
  induction cs with
  | nil => intro w h i; exact h i
  | cons c cs ih => intro w h i; exact ih (fun i => exec_sampler_wf h i) i

theorem exec_params (w : World V) (c : RunCall V) (hc : KwargsWf c.kwargs) (i : ℕ) (k : String) (hk : k ∉ cdictAttrs) :
    Dict.get ((exec w c).1.sampler i).params k =
      match Dict.get (w.sampler i).params k, (if c.sampler = i then Dict.get c.kwargs k else none) with
      | none, _ => none
      | some _, some v => some v
      | some d, none => some d := by
  unfold exec
  simp only [Function.update_apply]
  by_cases h : c.sampler = i
  · subst h
    rw [if_pos rfl, if_pos rfl]
    have h4 := (foldl_startupKwarg c.kwargs hc (w.sampler c.sampler) k).2
    have hh : hasattr (w.sampler c.sampler).params k = (Dict.get (w.sampler c.sampler).params k).isSome := by
      simp [hasattr, hk]
    have h5 : (startup (w.sampler c.sampler) (c.extra.bind w.extra) c.kwargs).1.params =
      (c.kwargs.foldl startupKwarg (w.sampler c.sampler)).params := rfl
    rw [h5, h4, hh]
    rcases Dict.get c.kwargs k with _ | w' <;> rcases Dict.get (w.sampler c.sampler).params k with _ | d <;> simp
  · rw [if_neg (Ne.symm h), if_neg h]
    rcases Dict.get (w.sampler i).params k with _ | d <;> rfl

theorem after_params (cs : List (RunCall V)) (i : ℕ) (k : String) (hk : k ∉ cdictAttrs) :
    ∀ w : World V, (∀ c ∈ cs, KwargsWf c.kwargs) → Dict.get ((after w cs).sampler i).params k =
      match Dict.get (w.sampler i).params k, lastGiven i k cs with
      | none, _ => none
      | some _, some v => some v
      | some d, none => some d := by
  induction cs with
  | nil => intro w _; rcases h : Dict.get (w.sampler i).params k with _ | d <;> simp [after, lastGiven, h]
  | cons c cs ih =>
    intro w hc
    have h3 : after w (c :: cs) = after (exec w c).1 cs := rfl
    rw [h3, ih _ (fun c h => hc c (List.mem_cons_of_mem _ h)), exec_params w c (hc c List.mem_cons_self) i k hk, lastGiven]
    rcases lastGiven i k cs with _ | v <;> rcases Dict.get (w.sampler i).params k with _ | d <;>
      rcases (if c.sampler = i then Dict.get c.kwargs k else none) with _ | v' <;> rfl

/-- An extra object none of the calls is given keeps its parameters. -/
theorem after_extra_unused (cs : List (RunCall V)) (j : ℕ) (h : ∀ c ∈ cs, c.extra ≠ some j) :
    ∀ w : World V, (after w cs).extra j = w.extra j := by
  induction cs with
  | nil => intro w; rfl
  | cons c cs ih =>
    intro w
    have h3 : after w (c :: cs) = after (exec w c).1 cs := rfl
    rw [h3, ih (fun c hc => h c (List.mem_cons_of_mem _ hc))]
    have hne := h c List.mem_cons_self
    unfold exec
    rcases hce : c.extra with _ | j'
    · rfl
    · simp only
      rw [Function.update_of_ne]
      rintro rfl
      exact hne hce

/-- What the caller put into the extra object a call is given, before the session. -/
def ownValue (w : World V) (c : RunCall V) (k : String) : Option V :=
  match Dict.get ((c.extra.bind w.extra).getD []) k with
  | some (some v) => some v
  | _ => none

/-- C99, parameters used: a call whose extra object was given to no earlier call of the session (or that has no extra)
starts from the caller's own value in the extra if there is one, else its keyword argument, else the last keyword
argument an earlier call gave to the same sampler object, else that object's value. Runs of other samplers, or with other
extras, make no difference. Missing: extra objects used before (`C99_fails_reused_extra`). -/
theorem C99_used_partial (w : World V) (pre : List (RunCall V)) (c : RunCall V) (hw : ∀ i, SamplerObj.Wf (w.sampler i))
    (hpre : ∀ c ∈ pre, KwargsWf c.kwargs) (hc : KwargsWf c.kwargs) (hfresh : ∀ j, c.extra = some j → ∀ c' ∈ pre, c'.extra ≠ some j)
    (k : String) (hk : k ∉ cdictAttrs) (d : Option V) (hd : Dict.get (w.sampler c.sampler).params k = some d) :
    Dict.get (chainOf w pre c).used k = some
      (match ownValue w c k with
       | some v => some v
       | none => match Dict.get c.kwargs k with
         | some v => v
         | none => (lastGiven c.sampler k pre).getD d) := by
  have hex : c.extra.bind (after w pre).extra = c.extra.bind w.extra := by
    rcases hce : c.extra with _ | j
    · rfl
    · exact after_extra_unused pre j (hfresh j hce) w
  have h1 : (chainOf w pre c).used = (startup ((after w pre).sampler c.sampler) (c.extra.bind w.extra) c.kwargs).2 := by
    unfold chainOf exec
    rw [← hex]
  rw [h1, C13_precedence _ _ _ (after_wf pre hw _) hc k hk, after_params pre c.sampler k hk w hpre, hd]
  unfold ownValue
  rcases Dict.get ((c.extra.bind w.extra).getD []) k with _ | _ | v <;>
    rcases Dict.get c.kwargs k with _ | v' <;>
    rcases lastGiven c.sampler k pre with _ | v'' <;> rfl

/-- C99, what a summary says: read at the end of a session, the summary of the chain of any call in it has for a parameter
the last keyword argument given to the same sampler object in the *whole* session, later calls included, else the value the
object started with. -/
theorem C99_summary (w : World V) (pre post : List (RunCall V)) (c : RunCall V)
    (hcs : ∀ c' ∈ pre ++ c :: post, KwargsWf c'.kwargs)
    (k : String) (hk : k ∉ cdictAttrs) (d : Option V) (hd : Dict.get (w.sampler c.sampler).params k = some d) :
    Dict.get (summaryParams (after w (pre ++ c :: post)) (chainOf w pre c)) k =
      some ((lastGiven c.sampler k (pre ++ c :: post)).getD d) := by
  have h1 : (chainOf w pre c).sampler = c.sampler := rfl
  unfold summaryParams
  rw [h1, after_params _ _ k hk w hcs, hd]
  rcases lastGiven c.sampler k (pre ++ c :: post) with _ | v <;> rfl

theorem lastGiven_append (i : ℕ) (k : String) (as bs : List (RunCall V)) :
    lastGiven i k (as ++ bs) = match lastGiven i k bs with
      | some v => some v
      | none => lastGiven i k as := by
  induction as with
  | nil => simp only [List.nil_append, lastGiven]; rcases lastGiven i k bs with _ | v <;> rfl
  | cons a as ih =>
    simp only [List.cons_append, lastGiven, ih]
    rcases lastGiven i k bs with _ | v <;> simp

/-- C99, an honest summary: if the call's extra is new to the session and has no value of its own for the parameter, and no
later call gives that parameter of the same sampler object by keyword, then the summary, read at the end of the session, has
the value the run started from. Missing: the other cases, in which it need not (`C99_fails_summary_later`,
`C99_fails_summary_extra`). -/
theorem C99_summary_partial (w : World V) (pre post : List (RunCall V)) (c : RunCall V) (hw : ∀ i, SamplerObj.Wf (w.sampler i))
    (hcs : ∀ c' ∈ pre ++ c :: post, KwargsWf c'.kwargs) (hfresh : ∀ j, c.extra = some j → ∀ c' ∈ pre, c'.extra ≠ some j)
    (k : String) (hk : k ∉ cdictAttrs) (hparam : Dict.get (w.sampler c.sampler).params k ≠ none)
    (hown : ownValue w c k = none)
    (hpost : ∀ c' ∈ post, c'.sampler = c.sampler → Dict.get c'.kwargs k = none) :
    Dict.get (summaryParams (after w (pre ++ c :: post)) (chainOf w pre c)) k = Dict.get (chainOf w pre c).used k := by
  obtain ⟨d, hd⟩ := Option.ne_none_iff_exists'.mp hparam
  have hp : lastGiven c.sampler k post = none := by
    clear hcs
    induction post with
    | nil => rfl
    | cons a post ih =>
      simp only [lastGiven, ih (fun c' h => hpost c' (List.mem_cons_of_mem _ h))]
      split
      · rename_i h; exact hpost a List.mem_cons_self h
      · rfl
  rw [C99_summary w pre post c hcs k hk d hd,
    C99_used_partial w pre c hw (fun c' h => hcs c' (List.mem_append_left _ h)) (hcs c (by simp)) hfresh k hk d hd,
    lastGiven_append, hown]
  simp only [lastGiven, hp, if_true]
  rcases Dict.get c.kwargs k with _ | v
  · rcases lastGiven c.sampler k pre with _ | v <;> rfl
  · rfl

/-- A non-`None` parameter in an extra object survives any call. -/
theorem exec_extra_keeps (w : World V) (c : RunCall V) (hw : ∀ i, SamplerObj.Wf (w.sampler i)) (j : ℕ) (k : String)
    (hk : k ∉ cdictAttrs) (v : V) (hj : Dict.get ((w.extra j).getD []) k = some (some v)) :
    Dict.get (((exec w c).1.extra j).getD []) k = some (some v) := by
  unfold exec
  rcases hce : c.extra with _ | j'
  · exact hj
  · simp only [Function.update_apply]
    by_cases h : j = j'
    · subst h
      rw [if_pos rfl]
      simp only [Option.bind_some, Option.getD_some, startup]
      rw [foldl_fillParam_get _ (foldl_startupKwarg_nodup c.kwargs (hw _)) k hk, hj]
    · rw [if_neg h]; exact hj

/-- C99, parameters stick to an extra object: once a call given the extra object `j` has started from a (non-`None`) value
of a parameter, every later call given the same object starts from that value, whichever sampler it runs and whatever its
keyword arguments. -/
theorem C99_sticky (w : World V) (pre mid : List (RunCall V)) (c c' : RunCall V) (hw : ∀ i, SamplerObj.Wf (w.sampler i))
    (j : ℕ) (hc : c.extra = some j) (hc' : c'.extra = some j) (k : String) (hk : k ∉ cdictAttrs) (v : V)
    (hv : Dict.get (chainOf w pre c).used k = some (some v)) :
    Dict.get (chainOf w (pre ++ c :: mid) c').used k = some (some v) := by
  have h0 : Dict.get (((exec (after w pre) c).1.extra j).getD []) k = some (some v) := by
    have : (exec (after w pre) c).1.extra j = some (chainOf w pre c).used := by
      unfold exec chainOf exec
      simp only [hc, Function.update_self]
    rw [this]; exact hv
  have keep : ∀ (mid : List (RunCall V)) (w : World V), (∀ i, SamplerObj.Wf (w.sampler i)) →
      Dict.get ((w.extra j).getD []) k = some (some v) → Dict.get (((after w mid).extra j).getD []) k = some (some v) := by
    intro mid
    induction mid with
    | nil => intro w _ h; exact h
    | cons a mid ih => intro w hw h; exact ih _ (fun i => exec_sampler_wf hw i) (exec_extra_keeps w a hw j k hk v h)
  have hwp := after_wf pre hw
  have h1 := keep mid _ (fun i => exec_sampler_wf (c := c) hwp i) h0
  have h2 : after w (pre ++ c :: mid) = after (exec (after w pre) c).1 mid := by
    simp only [after, List.foldl_append, List.foldl_cons]
  rw [← h2] at h1
  unfold chainOf exec
  simp only [hc', Option.bind_some, startup]
  rw [foldl_fillParam_get _ (foldl_startupKwarg_nodup c'.kwargs (after_wf _ hw _)) k hk, h1]

/-- A world with one sampler, of stepsize 1, and extra objects without parameters. -/
def oneSampler : World ℕ := ⟨fun _ => ⟨[], ["n", "max_iter"], [("stepsize", some 1)]⟩, fun _ => none⟩

/-- C99 fails: `run(..., stepsize=2)` then `run(..., stepsize=3)` with the same sampler object: the first chain was run with
stepsize 2, but its summary now says 3. -/
theorem C99_fails_summary_later :
    let c : RunCall ℕ := ⟨0, none, [("stepsize", some 2)]⟩
    let c' : RunCall ℕ := ⟨0, none, [("stepsize", some 3)]⟩
    Dict.get (chainOf oneSampler [] c).used "stepsize" = some (some 2) ∧
    Dict.get (summaryParams (after oneSampler [c]) (chainOf oneSampler [] c)) "stepsize" = some (some 2) ∧
    Dict.get (summaryParams (after oneSampler [c, c']) (chainOf oneSampler [] c)) "stepsize" = some (some 3) := by
  refine ⟨by decide, by decide, by decide⟩

/-- C99 fails: with stepsize 5 in the parameters of `initial_extra` the run uses 5, its summary says 1. -/
theorem C99_fails_summary_extra :
    let w : World ℕ := { oneSampler with extra := fun _ => some [("stepsize", some 5)] }
    let c : RunCall ℕ := ⟨0, some 0, []⟩
    Dict.get (chainOf w [] c).used "stepsize" = some (some 5) ∧
    Dict.get (summaryParams (after w [c]) (chainOf w [] c)) "stepsize" = some (some 1) := by
  refine ⟨by decide, by decide⟩

/-- C99 fails: the same extra object (without parameters of its own) given to `run(..., stepsize=2)` and then to
`run(..., stepsize=3)`: the second run too uses stepsize 2, though with a new extra object it would use 3. -/
theorem C99_fails_reused_extra :
    let c : RunCall ℕ := ⟨0, some 0, [("stepsize", some 2)]⟩
    let c' : RunCall ℕ := ⟨0, some 0, [("stepsize", some 3)]⟩
    Dict.get (chainOf oneSampler [c] c').used "stepsize" = some (some 2) ∧
    Dict.get (chainOf oneSampler [c] { c' with extra := some 1 }).used "stepsize" = some (some 3) := by
  refine ⟨by decide, by decide⟩

/-- Non-vacuity of the positive theorems: two samplers run alternately, two extras. -/
example :
    let w : World ℕ := { oneSampler with extra := fun j => if j = 1 then some [("x", some 9)] else none }
    let pre : List (RunCall ℕ) := [⟨0, some 0, [("stepsize", some 2)]⟩, ⟨1, none, [("stepsize", some 7)]⟩]
    let c : RunCall ℕ := ⟨0, some 1, []⟩
    (∀ i, SamplerObj.Wf (w.sampler i)) ∧ ownValue w c "stepsize" = none ∧
    Dict.get (chainOf w pre c).used "stepsize" = some (some 2) ∧
    Dict.get (summaryParams (after w (pre ++ [c, ⟨1, none, [("stepsize", some 8)]⟩])) (chainOf w pre c)) "stepsize" =
      some (some 2) := by
  refine ⟨fun i => by simp [SamplerObj.Wf, oneSampler], by decide, by decide, by decide⟩

/-! ## C100 -/

variable {X G : Type*} [Add G] [SMul ℝ G]

/-- The state object has the evaluations of its own value in the scenario, as far as the sampler uses them. -/
def Right (k : Kind) (sc : Target X G) (s : StateObj X G) : Prop :=
  s.potential = some (sc.prior s.value + sc.temperature * sc.lik s.value) ∧
  (k ≠ Kind.randomWalk →
    s.prior = some (sc.prior s.value) ∧ s.gradPrior = some (sc.gradPrior s.value) ∧
    s.lik = some (sc.lik s.value) ∧ s.gradLik = some (sc.gradLik s.value) ∧
    s.gradPotential = some (sc.gradPrior s.value + sc.temperature • sc.gradLik s.value))

/-- The value the state object has after a program: the last one set, else the first. -/
def lastValue (x : X) : List (Event X G) → X
  | [] => x
  | .run _ _ :: es => lastValue x es
  | .setValue y :: es => lastValue y es

theorem start_value (k : Kind) (sc : Target X G) (s : StateObj X G) : (start k sc s).value = s.value := by
  cases k <;> rfl

theorem history_value (es : List (Event X G)) : ∀ s : StateObj X G, (history s es).value = lastValue s.value es := by
  induction es with
  | nil => intro s; rfl
  | cons e es ih =>
    intro s
    have h : history s (e :: es) = history (handle s e) es := rfl
    rw [h, ih]
    cases e with
    | run k sc => simp only [handle, start_value, lastValue]
    | setValue y => rfl

/-- C100 for the random walk and Underdamped samplers: whatever the state object went through, runs of any sampler on any
scenario and new values included, a run starts from its current value with the potentials and gradients of that value in
the scenario of this run. -/
theorem C100_always_fresh (s : StateObj X G) (es : List (Event X G)) (k : Kind) (hk : k ≠ .qn) (sc : Target X G) :
    (start k sc (history s es)).value = lastValue s.value es ∧ Right k sc (start k sc (history s es)) := by
  refine ⟨by rw [start_value, history_value], ?_⟩
  cases k with
  | randomWalk => exact ⟨rfl, fun h => absurd rfl h⟩
  | underdamped => exact ⟨rfl, fun _ => ⟨rfl, rfl, rfl, rfl, rfl⟩⟩
  | qn => exact absurd rfl hk

/-- Two scenarios with the same evaluations (the temperature may differ). -/
def SameEvals (a b : Target X G) : Prop :=
  a.prior = b.prior ∧ a.gradPrior = b.gradPrior ∧ a.lik = b.lik ∧ a.gradLik = b.gradLik

/-- Recorded evaluations, where there are any, are those of the value in the scenario. -/
def NotStale (sc : Target X G) (s : StateObj X G) : Prop :=
  (∀ a, s.prior = some a → a = sc.prior s.value) ∧ (∀ a, s.gradPrior = some a → a = sc.gradPrior s.value) ∧
  (∀ a, s.lik = some a → a = sc.lik s.value) ∧ (∀ a, s.gradLik = some a → a = sc.gradLik s.value)

theorem qnStart_eq {sc : Target X G} {s : StateObj X G} (h : NotStale sc s) : qnStart sc s = underdampedStart sc s := by
  obtain ⟨value, po, gpo, pr, gp, li, gl⟩ := s
  obtain ⟨h1, h2, h3, h4⟩ := h
  simp only at h1 h2 h3 h4
  unfold qnStart underdampedStart
  rcases pr with _ | pr <;> rcases gp with _ | gp <;> rcases li with _ | li <;> rcases gl with _ | gl <;>
    simp_all

theorem start_notStale {a b : Target X G} (hab : SameEvals a b) (k : Kind) {s : StateObj X G} (h : NotStale b s) :
    NotStale b (start k a s) := by
  have ha : NotStale a s := by
    obtain ⟨e1, e2, e3, e4⟩ := hab
    unfold NotStale; rw [e1, e2, e3, e4]; exact h
  have hu : NotStale b (underdampedStart a s) := by
    obtain ⟨e1, e2, e3, e4⟩ := hab
    simp [NotStale, underdampedStart, e1, e2, e3, e4]
  cases k with
  | randomWalk => exact h
  | underdamped => exact hu
  | qn => change NotStale b (qnStart a s); rw [qnStart_eq ha]; exact hu

/-- C100 for the quasi-Newton sampler, partly: if the object started without evaluations and was only ever given to runs on
scenarios with the evaluations of this one (at any temperature), its value left alone, then the run starts from the
potentials and gradients of its value. Missing: new values and other scenarios (`C100_fails_new_value`,
`C100_fails_new_scenario`). -/
theorem C100_qn_partial (x : X) (runs : List (Kind × Target X G)) (sc : Target X G) (h : ∀ r ∈ runs, SameEvals r.2 sc) :
    let s := history { value := x } (runs.map fun r => .run r.1 r.2)
    (start .qn sc s).value = x ∧ Right .qn sc (start .qn sc s) := by
  intro s
  have key : ∀ (runs : List (Kind × Target X G)) (s : StateObj X G), (∀ r ∈ runs, SameEvals r.2 sc) → NotStale sc s →
      NotStale sc (history s (runs.map fun r => Event.run r.1 r.2)) ∧
      (history s (runs.map fun r => Event.run r.1 r.2)).value = s.value := by
    intro runs
    induction runs with
    | nil => intro s _ hs; exact ⟨hs, rfl⟩
    | cons r runs ih =>
      intro s h hs
      obtain ⟨h1, h2⟩ := ih (start r.1 r.2 s) (fun r hr => h r (List.mem_cons_of_mem _ hr))
        (start_notStale (h r List.mem_cons_self) r.1 hs)
      exact ⟨h1, h2.trans (start_value _ _ _)⟩
  obtain ⟨h1, h2⟩ := key runs { value := x } h
    (by simp [NotStale])
  refine ⟨(start_value _ _ _).trans h2, ?_⟩
  have : start .qn sc s = underdampedStart sc s := qnStart_eq h1
  rw [this]
  exact ⟨rfl, fun _ => ⟨rfl, rfl, rfl, rfl, rfl⟩⟩

/-- A scenario on the line: prior potential `x^2`, likelihood potential `c`. -/
def lineTarget (c : ℝ) : Target ℝ ℝ := ⟨fun x => x ^ 2, fun x => 2 * x, fun _ => c, fun _ => 0, 1, 1⟩

/-- C100 fails for the quasi-Newton sampler: run it from the value 0, set the value to 1, run it again: the second run starts
from the value 1 with potential 0, though the potential of 1 is 1. -/
theorem C100_fails_new_value :
    let s := history { value := (0 : ℝ) } [.run .qn (lineTarget 0), .setValue 1]
    (start .qn (lineTarget 0) s).value = 1 ∧ (start .qn (lineTarget 0) s).potential = some 0 ∧
      ¬ Right .qn (lineTarget 0) (start .qn (lineTarget 0) s) := by
  have h1 : (start .qn (lineTarget 0) (history { value := (0 : ℝ) } [.run .qn (lineTarget 0), .setValue 1])).potential =
      some 0 := by
    simp [history, handle, start, qnStart, lineTarget]
  refine ⟨rfl, h1, fun h => ?_⟩
  have h2 := h.1
  rw [h1] at h2
  have h3 : (start .qn (lineTarget 0) (history { value := (0 : ℝ) } [.run .qn (lineTarget 0), .setValue 1])).value = 1 := rfl
  rw [h3] at h2
  norm_num [lineTarget] at h2

/-- C100 fails for the quasi-Newton sampler: a state object used for a run on one scenario (by Underdamped, say) carries that
scenario's evaluations into a quasi-Newton run on another. -/
theorem C100_fails_new_scenario :
    let s := history { value := (0 : ℝ) } [.run .underdamped (lineTarget 0)]
    (start .qn (lineTarget 5) s).potential = some 0 ∧ ¬ Right .qn (lineTarget 5) (start .qn (lineTarget 5) s) := by
  have h1 : (start .qn (lineTarget 5) (history { value := (0 : ℝ) } [.run .underdamped (lineTarget 0)])).potential =
      some 0 := by
    simp [history, handle, start, qnStart, underdampedStart, lineTarget]
  refine ⟨h1, fun h => ?_⟩
  have h2 := h.1
  rw [h1] at h2
  have h3 : (start .qn (lineTarget 5) (history { value := (0 : ℝ) } [.run .underdamped (lineTarget 0)])).value = 0 := rfl
  rw [h3] at h2
  norm_num [lineTarget] at h2

/-- Non-vacuity of `C100_qn_partial`: earlier runs at other temperatures. -/
example : ∀ r ∈ [(Kind.underdamped, { lineTarget 3 with temperature := 0 }), (Kind.qn, lineTarget 3)],
    SameEvals r.2 (lineTarget 3) := by
  simp [SameEvals, lineTarget]

end Mocat.Props
