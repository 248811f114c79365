import Verif.Model.AbcSessions
import Mathlib.Tactic.NormNum
/-!
# C106: start states of ABC and ensemble Kalman samplers across several runs
-/
namespace Mocat.Props
open Mocat.AbcSessions

variable {X P D R K : Type*}

/-- What a run of a sampler should start from: data simulated at the value, and (for ABC) the prior potential of the value and the distance of
the data in the scenario, and (for ABC-SMC) the first threshold of the sampler. -/
def RightStart (k : AbcSessions.Kind) (sc : AbcSessions.Target X P D R K) (s : AbcSessions.StateObj X P D R) : Prop :=
  ∃ data, s.data = some data ∧ (∃ key, data = sc.simulate s.value key) ∧
    match k with
    | .eki => True
    | .chain => s.prior = some (sc.prior s.value) ∧ s.distance = some (sc.distance data)
    | .smc schedule => s.prior = some (sc.prior s.value) ∧ s.distance = some (sc.distance data) ∧ s.threshold = some schedule

/-- Attributes, where there are any, are right for the scenario; thresholds are the first of `schedule`. -/
def StartConsistent (sc : AbcSessions.Target X P D R K) (schedule : Option ℝ) (s : AbcSessions.StateObj X P D R) : Prop :=
  (∀ p, s.prior = some p → p = sc.prior s.value) ∧ (∀ d, s.data = some d → ∃ key, d = sc.simulate s.value key) ∧
  (∀ r, s.distance = some r → ∃ d, s.data = some d ∧ r = sc.distance d) ∧ ∀ t, s.threshold = some t → t = schedule

theorem start_consistent (k : AbcSessions.Kind) (sc : AbcSessions.Target X P D R K) (key : K) (schedule : Option ℝ)
    (hk : ∀ c, k = .smc c → c = schedule) {s : AbcSessions.StateObj X P D R} (h : StartConsistent sc schedule s) :
    (AbcSessions.start k sc key s).value = s.value ∧ StartConsistent sc schedule (AbcSessions.start k sc key s) ∧
      RightStart k sc (AbcSessions.start k sc key s) := by
  obtain ⟨x, p, d, r, t⟩ := s
  obtain ⟨h1, h2, h3, h4⟩ := h
  simp only at h1 h2 h3 h4
  have hp : p.getD (sc.prior x) = sc.prior x := by
    rcases p with _ | p
    · rfl
    · exact h1 p rfl
  have hd : ∃ key', d.getD (sc.simulate x key) = sc.simulate x key' := by
    rcases d with _ | d
    · exact ⟨key, rfl⟩
    · exact h2 d rfl
  have hr : r.getD (sc.distance (d.getD (sc.simulate x key))) = sc.distance (d.getD (sc.simulate x key)) := by
    rcases r with _ | r
    · rfl
    · obtain ⟨d', hd', hr'⟩ := h3 r rfl
      rw [hd']; exact hr'
  have ht : ∀ c, c = schedule → t.getD c = c := by
    rintro c rfl
    rcases t with _ | t
    · rfl
    · exact h4 t rfl
  cases k with
  | chain =>
    refine ⟨rfl, ⟨?_, ?_, ?_, h4⟩, _, rfl, hd, ?_, ?_⟩ <;> simp only [AbcSessions.start, abcStart]
    · rintro _ ⟨⟩; exact hp
    · rintro _ ⟨⟩; exact hd
    · rintro _ ⟨⟩; exact ⟨_, rfl, hr⟩
    · rw [hp]
    · rw [hr]
  | smc c =>
    refine ⟨rfl, ⟨?_, ?_, ?_, ?_⟩, _, rfl, hd, ?_, ?_, ?_⟩ <;> simp only [AbcSessions.start, smcStart, abcStart]
    · rintro _ ⟨⟩; exact hp
    · rintro _ ⟨⟩; exact hd
    · rintro _ ⟨⟩; exact ⟨_, rfl, hr⟩
    · rintro _ ⟨⟩; rw [ht c (hk c rfl), hk c rfl]
    · rw [hp]
    · rw [hr]
    · rw [ht c (hk c rfl)]
  | eki =>
    refine ⟨rfl, ⟨h1, ?_, ?_, h4⟩, _, rfl, hd, trivial⟩ <;> simp only [AbcSessions.start, ekiStart]
    · rintro _ ⟨⟩; exact hd
    · rintro a ha
      obtain ⟨d', hd', hr'⟩ := h3 a ha
      exact ⟨_, rfl, by rw [hd']; exact hr'⟩

/-- C106, what holds: a state object that began with a value only, and was given to any number of runs of any of these samplers on the same
scenario, ABC-SMC always with the same first threshold, starts every such run rightly: with its own value, data simulated at it, their distance, the prior
potential, and the threshold. Missing: new values, other scenarios or data, other schedules (`C106_fails_*`). -/
theorem C106_same_scenario_partial (x : X) (sc : AbcSessions.Target X P D R K) (schedule : Option ℝ) (runs : List (AbcSessions.Kind × K))
    (hruns : ∀ r ∈ runs, ∀ c, r.1 = .smc c → c = schedule) (k : AbcSessions.Kind) (hk : ∀ c, k = .smc c → c = schedule) (key : K) :
    let s : AbcSessions.StateObj X P D R := AbcSessions.history { value := x } (runs.map fun r => .run r.1 sc r.2)
    (AbcSessions.start k sc key s).value = x ∧ RightStart k sc (AbcSessions.start k sc key s) := by
  intro s
  have inv : ∀ (runs : List (AbcSessions.Kind × K)) (s : AbcSessions.StateObj X P D R),
      (∀ r ∈ runs, ∀ c, r.1 = AbcSessions.Kind.smc c → c = schedule) → StartConsistent sc schedule s →
      StartConsistent sc schedule (AbcSessions.history s (runs.map fun r => AbcSessions.Event.run r.1 sc r.2)) ∧
      (AbcSessions.history s (runs.map fun r => AbcSessions.Event.run r.1 sc r.2)).value = s.value := by
    intro runs
    induction runs with
    | nil => intro s _ hs; exact ⟨hs, rfl⟩
    | cons r runs ih =>
      intro s h hs
      obtain ⟨h1, h2, -⟩ := start_consistent r.1 sc r.2 schedule (h r List.mem_cons_self) hs
      obtain ⟨h3, h4⟩ := ih (AbcSessions.start r.1 sc r.2 s) (fun r hr => h r (List.mem_cons_of_mem _ hr)) h2
      exact ⟨h3, h4.trans h1⟩
  obtain ⟨h1, h2⟩ := inv runs { value := x } hruns (by simp [StartConsistent])
  obtain ⟨h3, -, h4⟩ := start_consistent k sc key schedule hk h1
  exact ⟨h3.trans h2, h4⟩

/-- Parameter and data on the line, the simulator without noise, data `y`. -/
def lineAbc (y : ℝ) : AbcSessions.Target ℝ ℝ ℝ ℝ Unit := ⟨fun x => x ^ 2, fun x _ => x, fun d => |d - y|⟩

/-- C106 fails for new values: run from 0, set the value to 1, run again: for every one of the samplers the second run starts with data simulated at 0. -/
theorem C106_fails_new_value (k : AbcSessions.Kind) :
    let s := AbcSessions.history { value := (0 : ℝ) } [.run k (lineAbc 0) (), .setValue 1]
    (AbcSessions.start k (lineAbc 0) () s).value = 1 ∧ (AbcSessions.start k (lineAbc 0) () s).data = some 0 ∧
      ¬ RightStart k (lineAbc 0) (AbcSessions.start k (lineAbc 0) () s) := by
  have h : ∀ s : AbcSessions.StateObj ℝ ℝ ℝ ℝ, s.value = 1 → s.data = some 0 → ¬ RightStart k (lineAbc 0) s := by
    rintro s h1 h2 ⟨d, hd, ⟨key, hkey⟩, -⟩
    rw [h2] at hd
    obtain rfl := Option.some.inj hd
    rw [h1] at hkey
    norm_num [lineAbc] at hkey
  cases k <;> exact ⟨rfl, rfl, h _ rfl rfl⟩

/-- C106 fails for new data: a chain or ABC-SMC run with data 0, then one with data 5 from the same object: its distance is still that to 0. -/
theorem C106_fails_new_data (k : AbcSessions.Kind) (hk : k ≠ .eki) :
    let s := AbcSessions.history { value := (0 : ℝ) } [.run k (lineAbc 0) ()]
    (AbcSessions.start k (lineAbc 5) () s).distance = some 0 ∧ ¬ RightStart k (lineAbc 5) (AbcSessions.start k (lineAbc 5) () s) := by
  have h : ∀ s : AbcSessions.StateObj ℝ ℝ ℝ ℝ, s.data = some 0 → s.distance = some 0 → ¬ RightStart k (lineAbc 5) s := by
    rintro s h1 h2 ⟨d, hd, -, hrest⟩
    rw [h1] at hd
    obtain rfl := Option.some.inj hd
    cases k with
    | eki => exact hk rfl
    | chain => rw [h2] at hrest; norm_num [lineAbc] at hrest
    | smc c => rw [h2] at hrest; norm_num [lineAbc] at hrest
  cases k with
  | eki => exact absurd rfl hk
  | chain => exact ⟨by norm_num [AbcSessions.history, AbcSessions.handle, AbcSessions.start, abcStart, lineAbc],
      h _ (by norm_num [AbcSessions.history, AbcSessions.handle, AbcSessions.start, abcStart, lineAbc])
        (by norm_num [AbcSessions.history, AbcSessions.handle, AbcSessions.start, abcStart, lineAbc])⟩
  | smc c => exact ⟨by norm_num [AbcSessions.history, AbcSessions.handle, AbcSessions.start, smcStart, abcStart, lineAbc],
      h _ (by norm_num [AbcSessions.history, AbcSessions.handle, AbcSessions.start, smcStart, abcStart, lineAbc])
        (by norm_num [AbcSessions.history, AbcSessions.handle, AbcSessions.start, smcStart, abcStart, lineAbc])⟩

/-- C106 fails for another schedule: an object used with a schedule starting at `a` starts a run whose schedule starts at `b` with threshold `a`. -/
theorem C106_fails_schedule (sc : AbcSessions.Target X P D R K) (key key' : K) (x : X) (a b : ℝ) :
    (AbcSessions.start (.smc (some b)) sc key' (AbcSessions.history { value := x } [.run (.smc (some a)) sc key])).threshold = some (some a) := rfl

/-- Non-vacuity of `C106_same_scenario_partial`: three runs by different samplers. -/
example : RightStart (.smc (some 2)) (lineAbc 0) (AbcSessions.start (.smc (some 2)) (lineAbc 0) ()
    (AbcSessions.history { value := (3 : ℝ) } [.run .eki (lineAbc 0) (), .run .chain (lineAbc 0) (), .run (.smc (some 2)) (lineAbc 0) ()])) :=
  (C106_same_scenario_partial (3 : ℝ) (lineAbc 0) (some 2) [(.eki, ()), (.chain, ()), (.smc (some 2), ())]
    (by intro r hr c hc; simp only [List.mem_cons, List.not_mem_nil, or_false] at hr; rcases hr with rfl | rfl | rfl <;> simp_all)
    (.smc (some 2)) (by intro c hc; simp_all) ()).2

end Mocat.Props
