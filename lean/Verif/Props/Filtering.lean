import Verif.Model.Filtering
import Verif.Props.Ssm
import Mathlib.Data.List.Nodup
/-!
# C49-C52: particle filters
-/
namespace Mocat.Props
open Mocat Mocat.Filtering Mocat.Metrics

variable {X K : Type} {n dy : ℕ}

/-! ## C49 -/

open Classical in
/-- Specification of one filter step from slice `a` to slice `b` with observation `y` at time `t` and key `k`: particles are redrawn from the weights of `a` if its ESS is below the
threshold; particle `i` of `b` is proposed from the (redrawn) particle `i`; its log weight is the old one (0 after redrawing) plus the incremental one. -/
structure Follows (env : Filtering.Env K n) (f : Filter X K dy) (thr : ℝ) (a b : Slice X n dy) (y : Obs dy) (t : ℝ) (k : K) : Prop where
  time : b.t = t
  obs : b.y = y
  step : ∃ (anc : Fin n → Fin n) (w : Fin n → Fl),
    (if Fl.lt a.ess (.fin (thr * n)) then anc = env.categorical k a.logWeight ∧ w = fun _ => Fl.fin 0 else anc = id ∧ w = a.logWeight) ∧
    ∀ i, b.value i = f.proposalSample (a.value (anc i)) a.t y t (env.splitN n k i) ∧
      b.logWeight i = Fl.add (w i) (f.intermediateLogWeight (a.value (anc i)) a.t (b.value i) y t)
  ess : b.ess = essLogWeight b.logWeight

theorem body_follows (env : Filtering.Env K n) (f : Filter X K dy) (thr : ℝ) (a : Slice X n dy) (o : Obs dy × ℝ × K) :
    Follows env f thr a (body env f thr a o) o.1 o.2.1 o.2.2 := by
  refine ⟨rfl, rfl, ?_, rfl⟩
  by_cases h : Fl.lt a.ess (.fin (thr * n))
  · refine ⟨env.categorical o.2.2 a.logWeight, fun _ => Fl.fin 0, by rw [if_pos h]; exact ⟨rfl, rfl⟩, fun i => ?_⟩
    simp only [body, if_pos h]
    exact ⟨rfl, rfl⟩
  · refine ⟨id, a.logWeight, by rw [if_neg h]; exact ⟨rfl, rfl⟩, fun i => ?_⟩
    simp only [body, if_neg h]
    exact ⟨rfl, rfl⟩

theorem scan_body (g : Slice X n dy → Obs dy × ℝ × K → Slice X n dy) (s : Slice X n dy) (os : List (Obs dy × ℝ × K)) :
    (scan (fun s o => (g s o, g s o)) s os).2.length = os.length ∧
    ∀ i (h : i < os.length) (h1 : i < (s :: (scan (fun s o => (g s o, g s o)) s os).2).length)
      (h2 : i < (scan (fun s o => (g s o, g s o)) s os).2.length),
      (scan (fun s o => (g s o, g s o)) s os).2[i] = g (s :: (scan (fun s o => (g s o, g s o)) s os).2)[i] os[i] := by
  induction os generalizing s with
  | nil => exact ⟨rfl, fun i h => absurd h (by simp)⟩
  | cons o os ih =>
    obtain ⟨h1, h2⟩ := ih (g s o)
    rw [scan]
    refine ⟨by simp [h1], ?_⟩
    intro i hi ha hb
    cases i with
    | zero => rfl
    | succ i => exact h2 i (by simpa using hi) (by simpa using ha) (by simpa using hb)

/-- C49: the filter returns the initial slices followed by one slice per observation, aligned in all its arrays, each following from the one before. `slices` are the new ones. -/
theorem C49_aligned (env : Filtering.Env K n) (f : Filter X K dy) (thr : ℝ) (init : Particles X n dy) (s0 : Slice X n dy) (hs0 : latest init = some s0)
    (rows : List (Obs dy)) (hrows : init.y = .rows rows) (ys : List (Obs dy)) (ts : List ℝ) (hlen : ts.length = ys.length) (key : K) :
    ∃ slices : List (Slice X n dy), slices.length = ys.length ∧
      runFrom env f thr init ys ts key = some
        { value := init.value ++ slices.map Slice.value, logWeight := init.logWeight ++ slices.map Slice.logWeight, t := init.t ++ ts,
          y := .rows (rows ++ ys), ess := init.ess ++ slices.map Slice.ess } ∧
      ∀ i (h : i < ys.length) (h1 : i < (s0 :: slices).length) (h2 : i < slices.length),
        Follows env f thr (s0 :: slices)[i] slices[i] ys[i] ts[i] (env.splitN ys.length key ⟨i, h⟩) := by
  have hl : (withKeys env ys ts key).length = ys.length := by simp [withKeys, hlen]
  have hsb := scan_body (body env f thr) s0 (withKeys env ys ts key)
  have hget : ∀ i (h : i < (withKeys env ys ts key).length), (withKeys env ys ts key)[i] =
      (ys[i]'(by omega), ts[i]'(by omega), env.splitN ys.length key ⟨i, by omega⟩) := by
    intro i h
    simp [withKeys]
  obtain ⟨slices, hsl⟩ : ∃ l, (scan (fun s o => (body env f thr s o, body env f thr s o)) s0 (withKeys env ys ts key)).2 = l := ⟨_, rfl⟩
  rw [hsl] at hsb
  obtain ⟨h1, h2⟩ := hsb
  have hfol : ∀ i (h : i < ys.length) (h1 : i < (s0 :: slices).length) (h2 : i < slices.length),
      Follows env f thr (s0 :: slices)[i] slices[i] ys[i] ts[i] (env.splitN ys.length key ⟨i, h⟩) := by
    intro i h ha hb
    have := h2 i (by omega) ha hb
    have hf := body_follows env f thr (s0 :: slices)[i] (withKeys env ys ts key)[i]
    rw [← this] at hf
    have e := hget i (by omega)
    rw [e] at hf
    exact hf
  refine ⟨slices, by rw [h1, hl], ?_, hfol⟩
  have ht : slices.map Slice.t = ts := by
    apply List.ext_getElem
    · simp [h1, hl, hlen]
    · intro i ha hb
      rw [List.getElem_map]
      exact (hfol i (by omega) (by simp at ha ⊢; omega) (by simpa using ha)).time
  have hy : slices.map Slice.y = ys := by
    apply List.ext_getElem
    · simp [h1, hl]
    · intro i ha hb
      rw [List.getElem_map]
      exact (hfol i (by omega) (by simp at ha ⊢; omega) (by simpa using ha)).obs
  unfold runFrom runWithKeys
  rw [hs0]
  simp only [Option.bind_eq_bind, Option.bind_some]
  rw [hsl, hrows, ht, hy]

/-- C49: without an initial sample the first slice is drawn from `initial_sample` with the first observation and weighted by `initial_log_weight`;
there are as many slices as observations. -/
theorem C49_from_start (env : Filtering.Env K n) (f : Filter X K dy) (thr : ℝ) (y0 : Obs dy) (ys : List (Obs dy)) (t0 : ℝ) (ts : List ℝ)
    (hlen : ts.length = ys.length) (key : K) :
    ∃ slices : List (Slice X n dy), slices.length = (y0 :: ys).length ∧
      run env f thr (y0 :: ys) (t0 :: ts) key = some
        { value := slices.map Slice.value, logWeight := slices.map Slice.logWeight, t := t0 :: ts, y := .rows (y0 :: ys), ess := slices.map Slice.ess } ∧
      (∃ s0, slices[0]? = some s0 ∧ (∀ i, s0.value i = f.initialSample y0 t0 (env.splitN n (env.splitN 2 key 1) i) ∧
        s0.logWeight i = f.initialLogWeight (s0.value i) y0 t0) ∧ s0.ess = essLogWeight s0.logWeight ∧ s0.t = t0) ∧
      ∀ i (h : i < ys.length) (h1 : i + 1 < slices.length),
        Follows env f thr slices[i] slices[i + 1] ys[i] ts[i] (env.splitN ys.length (env.splitN 2 key 0) ⟨i, h⟩) := by
  set k1 := env.splitN 2 key 1
  set v := fun i => f.initialSample y0 t0 (env.splitN n k1 i)
  set s0 : Slice X n dy := ⟨v, fun i => f.initialLogWeight (v i) y0 t0, t0, y0, essLogWeight fun i => f.initialLogWeight (v i) y0 t0⟩ with hs0
  have hlatest : latest (initiateParticles env f k1 y0 t0) = some s0 := rfl
  obtain ⟨slices, h1, h2, h3⟩ := C49_aligned env f thr (initiateParticles env f k1 y0 t0) s0 hlatest [y0] rfl ys ts hlen (env.splitN 2 key 0)
  refine ⟨s0 :: slices, by simp [h1], ?_, ⟨s0, rfl, fun i => ⟨rfl, rfl⟩, rfl, rfl⟩, ?_⟩
  · unfold run
    dsimp only
    rw [h2]
    rfl
  · intro i h ha
    exact h3 i h (by simp; omega) (by omega)

/-! ## C50 -/

theorem getLast?_mapLast {α : Type*} (g : α → α) (l : List α) : (mapLast g l).getLast? = l.getLast?.map g := by
  match l with
  | [] => rfl
  | [a] => rfl
  | a :: b :: l =>
    rw [mapLast, List.getLast?_cons_cons, ← getLast?_mapLast g (b :: l)]
    have : mapLast g (b :: l) ≠ [] := by cases l <;> simp [mapLast]
    obtain ⟨c, l', hc⟩ := List.exists_cons_of_ne_nil this
    rw [hc, List.getLast?_cons_cons]

/-- The last particles, log weight, time and ESS of a history. -/
def lastOf (p : Particles X n dy) : Option ((Fin n → X) × (Fin n → Fl) × ℝ × Fl) := do
  let v ← p.value.getLast?
  let w ← p.logWeight.getLast?
  let t ← p.t.getLast?
  let e ← p.ess.getLast?
  some (v, w, t, e)

theorem lastOf_iff (p : Particles X n dy) (v w t e) : lastOf p = some (v, w, t, e) ↔
    p.value.getLast? = some v ∧ p.logWeight.getLast? = some w ∧ p.t.getLast? = some t ∧ p.ess.getLast? = some e := by
  unfold lastOf
  cases p.value.getLast? <;> cases p.logWeight.getLast? <;> cases p.t.getLast? <;> cases p.ess.getLast? <;> simp

/-- One online step and one batch step from the same latest slice give the same latest slice. -/
theorem propagate_last (env : Filtering.Env K n) (f : Filter X K dy) (thr : ℝ) (full : Bool) (p : Particles X n dy) (s : Slice X n dy)
    (h : lastOf p = some (s.value, s.logWeight, s.t, s.ess)) (y : Obs dy) (t : ℝ) (k : K) :
    ∃ p', propagate env f thr full p y t k = some p' ∧
      lastOf p' = some ((body env f thr s (y, t, k)).value, (body env f thr s (y, t, k)).logWeight, (body env f thr s (y, t, k)).t,
        (body env f thr s (y, t, k)).ess) := by
  obtain ⟨h1, h2, h3, h4⟩ := (lastOf_iff _ _ _ _ _).1 h
  by_cases hr : Fl.lt s.ess (.fin (thr * n))
  · have hv : (resampleParticles env p s.logWeight k full).value.getLast? = some (s.value ∘ env.categorical k s.logWeight) := by
      unfold resampleParticles
      cases full
      · simp [getLast?_mapLast, h1]
      · simp [h1]
    have hw : (resampleParticles env p s.logWeight k full).logWeight.getLast? = some (fun _ => Fl.fin 0) := by
      simp [resampleParticles, getLast?_mapLast, h2]
    have ht : (resampleParticles env p s.logWeight k full).t.getLast? = some s.t := h3
    unfold propagate
    simp only [h4, h2, Option.bind_eq_bind, Option.bind_some, if_pos hr, hv, hw, ht]
    refine ⟨_, rfl, ?_⟩
    rw [lastOf_iff]
    simp only [List.getLast?_append, List.getLast?_singleton, Option.some_or, body, if_pos hr]
    refine ⟨?_, ?_, ?_, ?_⟩ <;> first | rfl | trivial
  · unfold propagate
    simp only [h4, h2, Option.bind_eq_bind, Option.bind_some, if_neg hr, h1, h3]
    refine ⟨_, rfl, ?_⟩
    rw [lastOf_iff]
    simp only [List.getLast?_append, List.getLast?_singleton, Option.some_or, body, if_neg hr]
    refine ⟨?_, ?_, ?_, ?_⟩ <;> first | rfl | trivial

theorem online_last (env : Filtering.Env K n) (f : Filter X K dy) (thr : ℝ) (full : Bool) (os : List (Obs dy × ℝ × K)) (p : Particles X n dy) (s : Slice X n dy)
    (h : lastOf p = some (s.value, s.logWeight, s.t, s.ess)) :
    ∃ p', online env f thr full p os = some p' ∧
      lastOf p' = some ((os.foldl (body env f thr) s).value, (os.foldl (body env f thr) s).logWeight, (os.foldl (body env f thr) s).t,
        (os.foldl (body env f thr) s).ess) := by
  induction os generalizing p s with
  | nil => exact ⟨p, rfl, h⟩
  | cons o os ih =>
    obtain ⟨y, t, k⟩ := o
    obtain ⟨p1, e1, h1⟩ := propagate_last env f thr full p s h y t k
    obtain ⟨p2, e2, h2⟩ := ih p1 _ h1
    refine ⟨p2, ?_, h2⟩
    rw [online, e1, Option.bind_some, e2]

theorem runWithKeys_last (env : Filtering.Env K n) (f : Filter X K dy) (thr : ℝ) (os : List (Obs dy × ℝ × K)) (p : Particles X n dy) (s : Slice X n dy)
    (hs : latest p = some s) (rows : List (Obs dy)) (hrows : p.y = .rows rows) :
    ∃ p', runWithKeys env f thr p os = some p' ∧
      lastOf p' = some ((os.foldl (body env f thr) s).value, (os.foldl (body env f thr) s).logWeight, (os.foldl (body env f thr) s).t,
        (os.foldl (body env f thr) s).ess) := by
  unfold runWithKeys
  rw [hs]
  simp only [Option.bind_eq_bind, Option.bind_some, hrows]
  refine ⟨_, rfl, ?_⟩
  have hl : ∀ s : Slice X n dy, ((scan (fun s o => (body env f thr s o, body env f thr s o)) s os).2).getLast? =
      if os = [] then none else some (os.foldl (body env f thr) s) := by
    clear hs
    induction os with
    | nil => intro s; rfl
    | cons o os ih =>
      intro s
      rw [scan]
      simp only [List.foldl_cons]
      cases os with
      | nil => rfl
      | cons o' os =>
        rw [List.getLast?_cons, ih]
        simp
  have hlast : lastOf p = some (s.value, s.logWeight, s.t, s.ess) := by
    revert hs
    unfold latest
    rw [lastOf_iff]
    rw [hrows]
    simp only [Option.bind_eq_bind, Option.bind_eq_some_iff]
    rintro ⟨v, hv, w, hw, t, ht, y, hy, e, he, h⟩
    cases h
    exact ⟨hv, hw, ht, he⟩
  obtain ⟨h1, h2, h3, h4⟩ := (lastOf_iff _ _ _ _ _).1 hlast
  rw [lastOf_iff]
  simp only [List.getLast?_append, List.getLast?_map, hl, h1, h2, h3, h4]
  by_cases ho : os = []
  · subst ho; simp
  · simp [ho]

/-- C50: feeding observations one by one through `propagate_particle_filter` gives, after every number of them, the same latest particles, log weights, time and ESS as
`run_particle_filter_for_marginals` on those observations with the same per-step keys, with or without resampling of the whole history. -/
theorem C50_latest (env : Filtering.Env K n) (f : Filter X K dy) (thr : ℝ) (full : Bool) (p : Particles X n dy) (s : Slice X n dy)
    (hs : latest p = some s) (rows : List (Obs dy)) (hrows : p.y = .rows rows) (os : List (Obs dy × ℝ × K)) :
    ∃ a b, online env f thr full p os = some a ∧ runWithKeys env f thr p os = some b ∧ lastOf a = lastOf b ∧ (lastOf a).isSome := by
  obtain ⟨b, hb1, hb2⟩ := runWithKeys_last env f thr os p s hs rows hrows
  have hlast : lastOf p = some (s.value, s.logWeight, s.t, s.ess) := by
    obtain ⟨q, hq1, hq2⟩ := runWithKeys_last env f thr [] p s hs rows hrows
    have : runWithKeys env f thr p [] = some p := by
      unfold runWithKeys
      rw [hs]
      simp only [Option.bind_eq_bind, Option.bind_some, hrows, scan, List.map_nil, List.append_nil]
      obtain ⟨v, w, t, y, e⟩ := p
      simp only at hrows
      rw [hrows]
    rw [this] at hq1
    cases hq1
    exact hq2
  obtain ⟨a, ha1, ha2⟩ := online_last env f thr full os p s hlast
  exact ⟨a, b, ha1, hb1, by rw [ha2, hb2], by rw [ha2]; rfl⟩

/-- C50 does not extend to the record of observations: after one online step it is a flat array of numbers, while the batch filter keeps one row per time. -/
theorem C50_y_record (env : Filtering.Env K n) (f : Filter X K dy) (thr : ℝ) (full : Bool) (p : Particles X n dy) (s : Slice X n dy)
    (hs : latest p = some s) (rows : List (Obs dy)) (hrows : p.y = .rows rows) (y : Obs dy) (t : ℝ) (k : K) :
    (∃ a, propagate env f thr full p y t k = some a ∧ a.y = .flat (rows.flatMap List.ofFn ++ List.ofFn y)) ∧
    (∃ b, runWithKeys env f thr p [(y, t, k)] = some b ∧ b.y = .rows (rows ++ [y])) := by
  constructor
  · obtain ⟨a, -, ha, -, -, -⟩ := C50_latest env f thr full p s hs rows hrows [(y, t, k)]
    rw [online] at ha
    cases hp : propagate env f thr full p y t k with
    | none => rw [hp] at ha; cases ha
    | some a' =>
      refine ⟨a', rfl, ?_⟩
      revert hp
      unfold propagate
      simp only [Option.bind_eq_bind]
      intro hp
      obtain ⟨e, -, hp⟩ := Option.bind_eq_some_iff.1 hp
      obtain ⟨w, -, hp⟩ := Option.bind_eq_some_iff.1 hp
      obtain ⟨xp, -, hp⟩ := Option.bind_eq_some_iff.1 hp
      obtain ⟨wp, -, hp⟩ := Option.bind_eq_some_iff.1 hp
      obtain ⟨tp, -, hp⟩ := Option.bind_eq_some_iff.1 hp
      cases hp
      dsimp only
      split_ifs
      · change YRec.append p.y y = _; rw [hrows]; rfl
      · rw [hrows]; rfl
  · unfold runWithKeys
    rw [hs]
    simp only [Option.bind_eq_bind, Option.bind_some, hrows]
    exact ⟨_, rfl, rfl⟩

/-! ## C51 -/

/-- A step only looks at the keys listed in `stepUses`: two sets of random routines that agree on those keys give the same step. -/
theorem C51_uses_complete (env env' : Filtering.Env Keys.Key n) (f f' : Filter X Keys.Key dy) (thr : ℝ) (s : Slice X n dy) (y : Obs dy) (t : ℝ) (k : Keys.Key)
    (hsplit : ∀ i, env.splitN n k i = (i : ℕ) :: k) (hsplit' : ∀ i, env'.splitN n k i = (i : ℕ) :: k) (hw : f.intermediateLogWeight = f'.intermediateLogWeight)
    (hc : (Use.categorical, k) ∈ stepUses n (open Classical in decide (Fl.lt s.ess (.fin (thr * n)))) k → env.categorical k = env'.categorical k)
    (hp : ∀ q, (Use.proposalSample, q) ∈ stepUses n (open Classical in decide (Fl.lt s.ess (.fin (thr * n)))) k →
      ∀ x t y t', f.proposalSample x t y t' q = f'.proposalSample x t y t' q) :
    body env f thr s (y, t, k) = body env' f' thr s (y, t, k) := by
  have hp' : ∀ (i : Fin n) x t y t', f.proposalSample x t y t' ((i : ℕ) :: k) = f'.proposalSample x t y t' ((i : ℕ) :: k) := fun i =>
    hp _ (by simp [stepUses])
  by_cases h : Fl.lt s.ess (.fin (thr * n))
  · have hc' := hc (by simp [stepUses, h])
    simp only [body, if_pos h, hsplit, hsplit', hp', hw, hc']
  · simp only [body, if_neg h, hsplit, hsplit', hp', hw]

/-- The steps from a slice on only look at the keys listed in `stepsUses`. -/
theorem steps_complete (cat cat' : Keys.Key → (Fin n → Fl) → Fin n → Fin n) (f f' : Filter X Keys.Key dy) (thr : ℝ) (hw : f.intermediateLogWeight = f'.intermediateLogWeight)
    (os : List (Obs dy × ℝ × Keys.Key)) (s : Slice X n dy)
    (hc : ∀ q, (Use.categorical, q) ∈ stepsUses (pathEnv cat) f thr s os → cat q = cat' q)
    (hp : ∀ q, (Use.proposalSample, q) ∈ stepsUses (pathEnv cat) f thr s os → ∀ x t y t', f.proposalSample x t y t' q = f'.proposalSample x t y t' q) :
    (scan (fun s o => (body (pathEnv cat) f thr s o, body (pathEnv cat) f thr s o)) s os).2 =
      (scan (fun s o => (body (pathEnv cat') f' thr s o, body (pathEnv cat') f' thr s o)) s os).2 := by
  induction os generalizing s with
  | nil => rfl
  | cons o os ih =>
    obtain ⟨y, t, k⟩ := o
    have hb : body (pathEnv cat) f thr s (y, t, k) = body (pathEnv cat') f' thr s (y, t, k) :=
      C51_uses_complete (pathEnv cat) (pathEnv cat') f f' thr s y t k (fun _ => rfl) (fun _ => rfl) hw
        (fun h => hc k (List.mem_append_left _ h)) (fun q h => hp q (List.mem_append_left _ h))
    have := ih (body (pathEnv cat) f thr s (y, t, k)) (fun q h => hc q (List.mem_append_right _ h)) (fun q h => hp q (List.mem_append_right _ h))
    simp only [scan]
    rw [this, hb]

/-- A run only looks at the keys listed in `runUses`, for the purposes listed there: random routines that agree on those keys give the same run. -/
theorem C51_run_complete (cat cat' : Keys.Key → (Fin n → Fl) → Fin n → Fin n) (f f' : Filter X Keys.Key dy) (thr : ℝ) (y0 : Obs dy) (ys : List (Obs dy)) (t0 : ℝ) (ts : List ℝ)
    (key : Keys.Key) (hw : f.intermediateLogWeight = f'.intermediateLogWeight) (hw0 : f.initialLogWeight = f'.initialLogWeight)
    (hi : ∀ q, (Use.initialSample, q) ∈ runUses cat f thr y0 ys t0 ts key → ∀ y t, f.initialSample y t q = f'.initialSample y t q)
    (hc : ∀ q, (Use.categorical, q) ∈ runUses cat f thr y0 ys t0 ts key → cat q = cat' q)
    (hp : ∀ q, (Use.proposalSample, q) ∈ runUses cat f thr y0 ys t0 ts key → ∀ x t y t', f.proposalSample x t y t' q = f'.proposalSample x t y t' q) :
    run (pathEnv cat) f thr (y0 :: ys) (t0 :: ts) key = run (pathEnv cat') f' thr (y0 :: ys) (t0 :: ts) key := by
  have h0 : initiateParticles (pathEnv cat) f (1 :: key) y0 t0 = initiateParticles (pathEnv cat') f' (1 :: key) y0 t0 := by
    have e : ∀ i : Fin n, f.initialSample y0 t0 ((i : ℕ) :: 1 :: key) = f'.initialSample y0 t0 ((i : ℕ) :: 1 :: key) := fun i =>
      hi _ (by simp [runUses]) y0 t0
    simp only [initiateParticles, pathEnv, e, hw0]
  have hwk : withKeys (pathEnv cat) ys ts (0 :: key) = withKeys (pathEnv cat') ys ts (0 :: key) := rfl
  change runWithKeys (pathEnv cat) f thr (initiateParticles (pathEnv cat) f (1 :: key) y0 t0) (withKeys (pathEnv cat) ys ts (0 :: key)) =
    runWithKeys (pathEnv cat') f' thr (initiateParticles (pathEnv cat') f' (1 :: key) y0 t0) (withKeys (pathEnv cat') ys ts (0 :: key))
  rw [← h0, ← hwk]
  unfold runUses at hc hp
  unfold runWithKeys
  cases hl : latest (initiateParticles (pathEnv cat) f (1 :: key) y0 t0) with
  | none => rfl
  | some s0 =>
    simp only [hl] at hc hp
    have := steps_complete cat cat' f f' thr hw (withKeys (pathEnv cat) ys ts (0 :: key)) s0
      (fun q h => hc q (List.mem_append_right _ h)) (fun q h => hp q (List.mem_append_right _ h))
    simp only [Option.bind_eq_bind, Option.bind_some]
    rw [this]

/-- A step that resamples uses its key twice: for the categorical draw and for the split. -/
theorem C51_reuse (n : ℕ) (k : Keys.Key) : ¬ ((stepUses n true k).map Prod.snd).Nodup := by
  simp [stepUses]

theorem stepUses_derived (n : ℕ) (r : Bool) (k : Keys.Key) : ∀ q ∈ (stepUses n r k).map Prod.snd, k <:+ q := by
  intro q hq
  simp only [stepUses, List.map_append, List.mem_append, List.map_map, List.mem_map] at hq
  rcases hq with (⟨u, hu, rfl⟩ | hq) | hq
  · cases r
    · simp at hu
    · simp at hu; subst hu; exact List.suffix_refl _
  · simp at hq; subst hq; exact List.suffix_refl _
  · obtain ⟨i, -, rfl⟩ := hq
    exact List.suffix_cons _ _

theorem stepUses_nodup (n : ℕ) (k : Keys.Key) : ((stepUses n false k).map Prod.snd).Nodup := by
  simp only [stepUses, Bool.false_eq_true, if_false, List.nil_append, List.map_append, List.map_cons, List.map_nil, List.map_map]
  rw [List.singleton_append, List.nodup_cons]
  constructor
  · simp
  · refine (List.nodup_range).map ?_
    intro a b h
    simpa using h

theorem stepsUses_derived (env : Filtering.Env Keys.Key n) (f : Filter X Keys.Key dy) (thr : ℝ) (os : List (Obs dy × ℝ × Keys.Key)) (s : Slice X n dy) :
    ∀ q ∈ (stepsUses env f thr s os).map Prod.snd, ∃ o ∈ os, o.2.2 <:+ q := by
  induction os generalizing s with
  | nil => intro q hq; simp [stepsUses] at hq
  | cons o os ih =>
    intro q hq
    rw [stepsUses, List.map_append, List.mem_append] at hq
    rcases hq with hq | hq
    · exact ⟨o, List.mem_cons_self, stepUses_derived _ _ _ q hq⟩
    · obtain ⟨o', ho', h⟩ := ih _ q hq
      exact ⟨o', List.mem_cons_of_mem _ ho', h⟩

theorem suffix_same_length {a b q : Keys.Key} (ha : a <:+ q) (hb : b <:+ q) (h : a.length = b.length) : a = b := by
  rcases List.suffix_or_suffix_of_suffix ha hb with h1 | h1
  · exact h1.eq_of_length h
  · exact (h1.eq_of_length h.symm).symm

/-- If the step keys are distinct and of the same depth, no key is used twice exactly when no step resamples. -/
theorem stepsUses_nodup (env : Filtering.Env Keys.Key n) (f : Filter X Keys.Key dy) (thr : ℝ) (os : List (Obs dy × ℝ × Keys.Key)) (s : Slice X n dy)
    (hnd : (os.map fun o => o.2.2).Nodup) (L : ℕ) (hL : ∀ o ∈ os, o.2.2.length = L) :
    ((stepsUses env f thr s os).map Prod.snd).Nodup ↔
      ∀ i, i < os.length → ¬ Fl.lt ((os.take i).foldl (body env f thr) s).ess (.fin (thr * n)) := by
  induction os generalizing s with
  | nil => simp [stepsUses]
  | cons o os ih =>
    rw [List.map_cons, List.nodup_cons] at hnd
    have ih' := ih (body env f thr s o) hnd.2 fun o' h => hL o' (List.mem_cons_of_mem _ h)
    rw [stepsUses, List.map_append, List.nodup_append, ih']
    constructor
    · rintro ⟨h1, h2, -⟩ i hi
      cases i with
      | zero =>
        intro hlt
        rw [@decide_eq_true (Fl.lt s.ess (.fin (thr * n))) (_) hlt] at h1
        exact C51_reuse n o.2.2 h1
      | succ i => exact h2 i (by simpa using hi)
    · intro h
      have h0 : ¬ Fl.lt s.ess (.fin (thr * n)) := h 0 (by simp)
      refine ⟨?_, fun i hi => h (i + 1) (by simpa using hi), ?_⟩
      · rw [@decide_eq_false _ (_) h0]; exact stepUses_nodup n _
      · rintro a ha b hb rfl
        obtain ⟨o', ho', hs'⟩ := stepsUses_derived env f thr os _ a hb
        have hs := stepUses_derived _ _ _ a ha
        have := suffix_same_length hs hs' (by rw [hL o List.mem_cons_self, hL o' (List.mem_cons_of_mem _ ho')])
        exact hnd.1 (List.mem_map.2 ⟨o', ho', this.symm⟩)

/-- C51: in a filter run no key is consumed twice exactly when no step resamples; so keys are shared by different steps in no run, and each step that resamples reuses its key.
(The full property, that no key is ever consumed twice, fails: see `C51_reuse`.) -/
theorem C51_partial (cat : Keys.Key → (Fin n → Fl) → Fin n → Fin n) (f : Filter X Keys.Key dy) (thr : ℝ) (y0 : Obs dy) (ys : List (Obs dy)) (t0 : ℝ) (ts : List ℝ)
    (hlen : ts.length = ys.length) (key : Keys.Key) (s0 : Slice X n dy) (hs0 : latest (initiateParticles (pathEnv cat) f (1 :: key) y0 t0) = some s0) :
    ((runUses cat f thr y0 ys t0 ts key).map Prod.snd).Nodup ↔
      ∀ i, i < ys.length → ¬ Fl.lt (((withKeys (pathEnv cat) ys ts (0 :: key)).take i).foldl (body (pathEnv cat) f thr) s0).ess (.fin (thr * n)) := by
  have hl : (withKeys (pathEnv cat) ys ts (0 :: key)).length = ys.length := by simp [withKeys, hlen]
  have hkeys : (withKeys (pathEnv cat) ys ts (0 :: key)).map (fun o => o.2.2) = (List.range ys.length).map fun i => i :: 0 :: key := by
    apply List.ext_getElem
    · simp [hl]
    · intro i h1 h2
      simp [withKeys, pathEnv]
  have hmem : ∀ o ∈ withKeys (pathEnv cat) ys ts (0 :: key), ∃ i, o.2.2 = i :: 0 :: key := by
    intro o ho
    have : o.2.2 ∈ (withKeys (pathEnv cat) ys ts (0 :: key)).map (fun o => o.2.2) := List.mem_map_of_mem ho
    rw [hkeys] at this
    obtain ⟨i, -, hi⟩ := List.mem_map.1 this
    exact ⟨i, hi.symm⟩
  have hsteps := stepsUses_nodup (pathEnv cat) f thr (withKeys (pathEnv cat) ys ts (0 :: key)) s0
    (by rw [hkeys]; exact List.nodup_range.map fun a b h => by simpa using h) (key.length + 2)
    (fun o ho => by obtain ⟨i, hi⟩ := hmem o ho; rw [hi]; simp)
  rw [hl] at hsteps
  rw [← hsteps]
  unfold runUses
  simp only [hs0]
  rw [List.map_append, List.nodup_append]
  constructor
  · exact fun h => h.2.1
  · intro h
    refine ⟨?_, h, ?_⟩
    · simp only [List.map_append, List.map_cons, List.map_nil, List.map_map]
      have hr : ((List.range n).map fun i => i :: 1 :: key).Nodup := List.nodup_range.map fun a b h => by simpa using h
      have e : (Prod.snd ∘ fun i : ℕ => (Use.initialSample, i :: 1 :: key)) = fun i => i :: 1 :: key := rfl
      rw [e, List.nodup_append, List.nodup_append]
      refine ⟨⟨by simp, hr, ?_⟩, by simp, ?_⟩
      · rintro a ha b hb rfl
        obtain ⟨i, -, rfl⟩ := List.mem_map.1 hb
        simp at ha
        have h2 : (i :: 1 :: key).length = key.length := congrArg List.length ha
        simp only [List.length_cons] at h2
        omega
      · rintro a ha b hb rfl
        simp at hb
        subst hb
        simp at ha
    · rintro a ha b hb rfl
      obtain ⟨o, ho, hs⟩ := stepsUses_derived _ f thr _ s0 a hb
      obtain ⟨i, hi⟩ := hmem o ho
      rw [hi] at hs
      simp only [List.map_append, List.map_cons, List.map_nil, List.map_map, List.mem_append, List.mem_cons, List.not_mem_nil, or_false,
        List.mem_map, Function.comp_apply] at ha
      have hle := hs.length_le
      rcases ha with ((rfl | rfl) | ⟨j, -, rfl⟩) | rfl
      · simp at hle
      · simp at hle
      · have := hs.eq_of_length (by simp)
        simp at this
      · simp at hle

/-! ## C52 (bootstrap part) -/

/-- C52: the bootstrap filter's incremental weight is the generic importance weight for its own proposal, the transition. -/
theorem C52_bootstrap (m : Ssm.Model X (Obs dy) K) (x : X) (t : ℝ) (x' : X) (y : Obs dy) (t' : ℝ) :
    bootstrapLogWeight m x t x' y t' = genericLogWeight m (bootstrapProposalPotential m) x t x' y t' := by
  unfold bootstrapLogWeight genericLogWeight bootstrapProposalPotential
  ring

/-! ## Cases that meet the hypotheses -/

/-- The particles made by `initiate_particles` have a latest slice and a record of rows: the hypotheses of `C49_aligned`, `C50_latest` and `C51_partial` are met by every start of a filter. -/
theorem initiate_latest (env : Filtering.Env K n) (f : Filter X K dy) (key : K) (y : Obs dy) (t : ℝ) :
    (latest (initiateParticles env f key y t)).isSome ∧ (initiateParticles env f key y t).y = .rows [y] := ⟨rfl, rfl⟩

end Mocat.Props
