import Verif.Model.Startup
/-!
# C13: parameter precedence at start-up
-/
namespace Mocat.Props
open Mocat.Startup

variable {V : Type*}

theorem Dict.get_set (d : Dict V) (k k' : String) (v : Option V) :
    Dict.get (Dict.set d k v) k' = if k' = k then some v else Dict.get d k' := by
  induction d with
  | nil =>
    simp only [Dict.set, Dict.get, List.lookup]
    by_cases h : k' = k
    · simp [h]
    · simp [h, beq_eq_false_iff_ne.mpr h]
  | cons a d ih =>
    obtain ⟨a, b⟩ := a
    simp only [Dict.set, Dict.get] at ih ⊢
    by_cases hka : k = a
    · subst hka
      simp only [if_true, List.lookup]
      by_cases h : k' = k
      · simp [h]
      · simp [h, beq_eq_false_iff_ne.mpr h]
    · simp only [if_neg hka, List.lookup]
      by_cases h : k' = a
      · subst h
        simp [Ne.symm hka]
      · simp only [beq_eq_false_iff_ne.mpr h]
        exact ih

theorem Dict.get_none {d : Dict V} {k : String} (h : k ∉ d.map Prod.fst) : Dict.get d k = none := by
  induction d with
  | nil => rfl
  | cons a d ih =>
    simp only [List.map_cons, List.mem_cons, not_or] at h
    simp only [Dict.get, List.lookup, beq_eq_false_iff_ne.mpr h.1]
    exact ih h.2

theorem Dict.set_keys (d : Dict V) (k : String) (v : Option V) :
    (Dict.set d k v).map Prod.fst = if k ∈ d.map Prod.fst then d.map Prod.fst else d.map Prod.fst ++ [k] := by
  induction d with
  | nil => simp [Dict.set]
  | cons a d ih =>
    obtain ⟨a, b⟩ := a
    by_cases h : k = a
    · simp [Dict.set, h]
    · simp only [Dict.set]
      rw [if_neg h, List.map_cons, List.map_cons, ih]
      simp only [List.mem_cons, h, false_or]
      split <;> simp

theorem Dict.set_nodup {d : Dict V} (h : (d.map Prod.fst).Nodup) (k : String) (v : Option V) :
    ((Dict.set d k v).map Prod.fst).Nodup := by
  rw [Dict.set_keys]
  split
  · exact h
  · rename_i hk
    rw [List.nodup_append]
    refine ⟨h, by simp, ?_⟩
    intro a ha b hb
    rw [List.mem_singleton.mp hb]
    rintro rfl; exact hk ha

theorem startupKwarg_params_get (s : SamplerObj V) (kv : String × Option V) (k : String) :
    Dict.get (startupKwarg s kv).params k =
      if k = kv.1 ∧ hasattr s.params kv.1 then some kv.2 else Dict.get s.params k := by
  unfold startupKwarg
  simp only
  have hp : (if s.hasattr kv.1 = true then { s with attrs := Dict.set s.attrs kv.1 kv.2 } else s).params = s.params := by
    split <;> rfl
  rw [hp]
  by_cases h : hasattr s.params kv.1 = true
  · rw [if_pos h]
    simp only [Dict.get_set, h, and_true]
  · rw [if_neg h, hp]
    simp [h]

theorem startupKwarg_hasattr (s : SamplerObj V) (kv : String × Option V) (k : String) :
    hasattr (startupKwarg s kv).params k = hasattr s.params k := by
  have h := startupKwarg_params_get s kv k
  unfold hasattr at h ⊢
  rw [h]
  split
  · rename_i hh
    obtain ⟨rfl, hh⟩ := hh
    simpa using hh.symm
  · rfl

theorem foldl_startupKwarg (kwargs : List (String × Option V)) (hnd : (kwargs.map Prod.fst).Nodup) :
    ∀ (s : SamplerObj V) (k : String),
    hasattr (kwargs.foldl startupKwarg s).params k = hasattr s.params k ∧
    Dict.get (kwargs.foldl startupKwarg s).params k =
      match Dict.get kwargs k with
      | some v => if hasattr s.params k then some v else none
      | none => Dict.get s.params k := by
  induction kwargs with
  | nil => intro s k; exact ⟨rfl, rfl⟩
  | cons kv kwargs ih =>
    intro s k
    rw [List.map_cons, List.nodup_cons] at hnd
    obtain ⟨h1, h2⟩ := ih hnd.2 (startupKwarg s kv) k
    rw [List.foldl_cons]
    refine ⟨h1.trans (startupKwarg_hasattr s kv k), ?_⟩
    rw [h2, startupKwarg_hasattr]
    obtain ⟨a, v⟩ := kv
    by_cases hk : k = a
    · subst hk
      have hlook : Dict.get kwargs k = none := Dict.get_none hnd.1
      have hl2 : Dict.get ((k, v) :: kwargs) k = some v := by simp [Dict.get, List.lookup]
      rw [hlook, hl2]
      simp only
      rw [startupKwarg_params_get]
      by_cases hh : hasattr s.params k = true
      · simp [hh]
      · rw [if_neg (fun h => hh h.2)]
        have : (Dict.get s.params k) = none := by
          unfold hasattr at hh
          simp only [Bool.or_eq_true, not_or] at hh
          simpa using hh.1
        rw [this, if_neg hh]
    · have hl2 : Dict.get ((a, v) :: kwargs) k = Dict.get kwargs k := by
        simp [Dict.get, List.lookup, beq_eq_false_iff_ne.mpr hk]
      rw [hl2]
      cases Dict.get kwargs k with
      | some w => rfl
      | none => simp only; rw [startupKwarg_params_get]; simp [hk]

theorem startupKwarg_nodup {s : SamplerObj V} (h : (s.params.map Prod.fst).Nodup) (kv : String × Option V) :
    ((startupKwarg s kv).params.map Prod.fst).Nodup := by
  unfold startupKwarg
  simp only
  split <;> split
  · exact Dict.set_nodup h _ _
  · exact h
  · exact Dict.set_nodup h _ _
  · exact h

theorem foldl_startupKwarg_nodup (kwargs : List (String × Option V)) {s : SamplerObj V}
    (h : (s.params.map Prod.fst).Nodup) : ((kwargs.foldl startupKwarg s).params.map Prod.fst).Nodup := by
  induction kwargs generalizing s with
  | nil => exact h
  | cons kv kwargs ih => exact ih (startupKwarg_nodup h kv)

theorem fillParam_get (e : Dict V) (kv : String × Option V) (k : String) (hk : k ∉ cdictAttrs) :
    Dict.get (fillParam e kv) k = if k = kv.1 then
      (match Dict.get e k with
       | some (some v) => some (some v)
       | _ => some kv.2) else Dict.get e k := by
  unfold fillParam
  by_cases h : k = kv.1
  · rw [if_pos h, ← h]
    have hh : hasattr e k = (Dict.get e k).isSome := by simp [hasattr, hk]
    rw [hh]
    unfold isNone
    rcases hg : Dict.get e k with _ | _ | v
    · simp [Dict.get_set]
    · simp [Dict.get_set]
    · simp [hg]
  · rw [if_neg h]
    split
    · rw [Dict.get_set, if_neg h]
    · rfl

theorem foldl_fillParam_get (ps : Dict V) (hnd : (ps.map Prod.fst).Nodup) (k : String) (hk : k ∉ cdictAttrs) :
    ∀ e : Dict V, Dict.get (ps.foldl fillParam e) k =
      match Dict.get e k with
      | some (some v) => some (some v)
      | o => match Dict.get ps k with
        | none => o
        | some d => some d := by
  induction ps with
  | nil => intro e; rw [List.foldl_nil]; rcases hg : Dict.get e k with _ | _ | v <;> rfl
  | cons kv ps ih =>
    intro e
    rw [List.map_cons, List.nodup_cons] at hnd
    rw [List.foldl_cons, ih hnd.2, fillParam_get _ _ _ hk]
    obtain ⟨a, d⟩ := kv
    by_cases h : k = a
    · subst h
      rw [Dict.get_none hnd.1]
      have : Dict.get ((k, d) :: ps) k = some d := by simp [Dict.get, List.lookup]
      rw [this]
      simp only [if_true]
      rcases Dict.get e k with _ | _ | v <;> rcases d with _ | w <;> rfl
    · have : Dict.get ((a, d) :: ps) k = Dict.get ps k := by
        simp [Dict.get, List.lookup, beq_eq_false_iff_ne.mpr h]
      rw [this]
      simp only [if_neg h]

/-- A sampler object as Python can hold it: its parameter names are distinct. -/
def SamplerObj.Wf (s : SamplerObj V) : Prop := (s.params.map Prod.fst).Nodup

/-- Keyword arguments as Python can pass them: distinct names. -/
def KwargsWf (kwargs : List (String × Option V)) : Prop := (kwargs.map Prod.fst).Nodup

/-- C13, precedence in one run, for every parameter name `k` (that is not the name of a method of cdict): the value in
`initial_extra.parameters` if there and not `None`; else, if `k` is a parameter of the sampler, the keyword argument if
given, else the sampler's value; if `k` is not a parameter of the sampler, whatever the extra has. -/
theorem C13_precedence (s : SamplerObj V) (extra : Option (Dict V)) (kwargs : List (String × Option V))
    (hs : SamplerObj.Wf s) (hkw : KwargsWf kwargs) (k : String) (hk : k ∉ cdictAttrs) :
    Dict.get (startup s extra kwargs).2 k =
      match Dict.get (extra.getD []) k with
      | some (some v) => some (some v)
      | o => match Dict.get s.params k, Dict.get kwargs k with
        | none, _ => o
        | some _, some w => some w
        | some d, none => some d := by
  have h1 := foldl_fillParam_get (kwargs.foldl startupKwarg s).params (foldl_startupKwarg_nodup kwargs hs) k hk
    (extra.getD [])
  have h2 := (foldl_startupKwarg kwargs hkw s k).2
  have hh : hasattr s.params k = (Dict.get s.params k).isSome := by simp [hasattr, hk]
  unfold startup
  simp only
  rw [h1, h2, hh]
  rcases Dict.get (extra.getD []) k with _ | _ | v <;> rcases Dict.get kwargs k with _ | w <;>
    rcases Dict.get s.params k with _ | d <;> simp

/-- C13, the names left out: a parameter with the name of a method of cdict never reaches a run through the sampler or a keyword; only `initial_extra.parameters` can carry it. -/
theorem C13_method_names (s : SamplerObj V) (extra : Option (Dict V)) (kwargs : List (String × Option V)) (k : String)
    (hk : k ∈ ["copy", "deepcopy", "save", "tree_flatten", "tree_unflatten", "is_empty", "keys"]) (h : Dict.get (extra.getD []) k = none) :
    Dict.get (startup s extra kwargs).2 k = none := by
  have hc : k ∈ cdictAttrs := hk
  have key : ∀ (ps e : Dict V), Dict.get e k = none → Dict.get (ps.foldl fillParam e) k = none := by
    intro ps
    induction ps with
    | nil => intro e he; exact he
    | cons kv ps ih =>
      intro e he
      refine ih _ ?_
      unfold fillParam
      by_cases h : k = kv.1
      · rw [← h]
        simp [hasattr, hc, isNone, he]
      · split
        · rw [Dict.get_set, if_neg h]; exact he
        · exact he
  exact key _ _ h

example : Dict.get (startup (⟨[], [], [("save", some 1), ("stepsize", some 2)]⟩ : SamplerObj ℕ) none [("save", some 3)]).2 "save" = none ∧
    Dict.get (startup (⟨[], [], [("save", some 1), ("stepsize", some 2)]⟩ : SamplerObj ℕ) none [("save", some 3)]).2 "stepsize" = some (some 2) :=
  ⟨C13_method_names _ _ _ _ (by simp) rfl, rfl⟩

/-- C13: a keyword argument that names neither an attribute nor a parameter of the sampler has no effect at all. -/
theorem C13_unknown_kwarg (s : SamplerObj V) (extra : Option (Dict V)) (pre post : List (String × Option V))
    (k : String) (v : Option V) (h1 : k ∉ cdictAttrs) (h2 : s.hasattr k = false) (h3 : Dict.get s.params k = none)
    (hpre : k ∉ pre.map Prod.fst) :
    startup s extra (pre ++ (k, v) :: post) = startup s extra (pre ++ post) := by
  have key : ∀ s : SamplerObj V, s.hasattr k = false → Dict.get s.params k = none → startupKwarg s (k, v) = s := by
    intro s h2 h3
    simp [startupKwarg, h2, hasattr, h3, h1]
  have pres : ∀ (pre : List (String × Option V)) (s : SamplerObj V), k ∉ pre.map Prod.fst → s.hasattr k = false →
      Dict.get s.params k = none →
      (pre.foldl startupKwarg s).hasattr k = false ∧ Dict.get (pre.foldl startupKwarg s).params k = none := by
    intro pre
    induction pre with
    | nil => intro s _ h2 h3; exact ⟨h2, h3⟩
    | cons a pre ih =>
      intro s hp h2 h3
      rw [List.map_cons, List.mem_cons, not_or] at hp
      refine ih (startupKwarg s a) hp.2 ?_ ?_
      · unfold startupKwarg
        simp only
        unfold SamplerObj.hasattr at h2 ⊢
        split <;> split <;> first | (simp only [Dict.get_set, if_neg hp.1]; exact h2) | exact h2
      · rw [startupKwarg_params_get, if_neg (fun h => hp.1 h.1)]; exact h3
  have hfold : (pre ++ (k, v) :: post).foldl startupKwarg s = (pre ++ post).foldl startupKwarg s := by
    obtain ⟨a, b⟩ := pres pre s hpre h2 h3
    rw [List.foldl_append, List.foldl_cons, key _ a b, ← List.foldl_append]
  simp only [startup, hfold]

/-- The last value given to `k` as a keyword argument in a history of runs. -/
def lastKwarg : List (Call V) → String → Option (Option V)
  | [], _ => none
  | c :: cs, k => match lastKwarg cs k with
    | some w => some w
    | none => Dict.get c.2 k

theorem afterRuns_spec (calls : List (Call V)) (hc : ∀ c ∈ calls, KwargsWf c.2) (k : String) (hk : k ∉ cdictAttrs) :
    ∀ s : SamplerObj V, SamplerObj.Wf s → SamplerObj.Wf (afterRuns s calls) ∧
    Dict.get (afterRuns s calls).params k =
      match Dict.get s.params k, lastKwarg calls k with
      | none, _ => none
      | some _, some w => some w
      | some d, none => some d := by
  induction calls with
  | nil => intro s hs; refine ⟨hs, ?_⟩; cases h : Dict.get s.params k <;> simp [afterRuns, lastKwarg, h]
  | cons c calls ih =>
    intro s hs
    have hwf : SamplerObj.Wf (startup s c.1 c.2).1 := foldl_startupKwarg_nodup c.2 hs
    obtain ⟨h1, h2⟩ := ih (fun c hc' => hc c (List.mem_cons_of_mem _ hc')) (startup s c.1 c.2).1 hwf
    refine ⟨h1, ?_⟩
    have h3 : afterRuns s (c :: calls) = afterRuns (startup s c.1 c.2).1 calls := rfl
    rw [h3, h2]
    have h4 := (foldl_startupKwarg c.2 (hc c List.mem_cons_self) s k).2
    have hh : hasattr s.params k = (Dict.get s.params k).isSome := by simp [hasattr, hk]
    have h5 : (startup s c.1 c.2).1.params = (c.2.foldl startupKwarg s).params := rfl
    rw [h5, h4, hh, lastKwarg]
    rcases lastKwarg calls k with _ | w <;> rcases Dict.get c.2 k with _ | w' <;>
      rcases Dict.get s.params k with _ | d <;> simp

/-- C13, histories: after any history of runs on one sampler object, a run uses for a parameter `k` of the sampler the
extra's value if there and not `None`, else its own keyword argument, else the last keyword argument given to `k` in any
earlier run, else the value the sampler started with. -/
theorem C13_history (s : SamplerObj V) (calls : List (Call V)) (c : Call V) (hs : SamplerObj.Wf s)
    (hcs : ∀ c ∈ calls, KwargsWf c.2) (hc : KwargsWf c.2) (k : String) (hk : k ∉ cdictAttrs) (d : Option V)
    (hd : Dict.get s.params k = some d) :
    Dict.get (runParams s calls c) k =
      match Dict.get (c.1.getD []) k with
      | some (some v) => some (some v)
      | _ => match Dict.get c.2 k with
        | some w => some w
        | none => match lastKwarg calls k with
          | some w => some w
          | none => some d := by
  obtain ⟨h1, h2⟩ := afterRuns_spec calls hcs k hk s hs
  unfold runParams
  rw [C13_precedence _ _ _ h1 hc k hk, h2, hd]
  rcases Dict.get (c.1.getD []) k with _ | _ | v <;> rcases Dict.get c.2 k with _ | w' <;>
      rcases lastKwarg calls k with _ | w <;> simp

/-- C13, construction: a keyword argument of the constructor that is not an attribute of the sampler becomes a parameter. -/
theorem C13_construct (s : SamplerObj V) (k : String) (v : Option V) (h : s.hasattr k = false) :
    Dict.get (construct s [(k, v)]).params k = some v := by
  simp [construct, initKwarg, h, Dict.get_set]

/-- Non-vacuity: the sampler has stepsize 0.1 and friction 1; an earlier run was given stepsize 5; this run finds
friction 7 and an unknown `x` in the extra, and a keyword `friction`. -/
example :
    let s : SamplerObj ℕ := ⟨[], ["n", "max_iter"], [("stepsize", some 1), ("friction", some 2)]⟩
    let p := runParams s [(none, [("stepsize", some 5)])]
      (some [("friction", some 7), ("x", some 9)], [("friction", some 8), ("typo", some 3)])
    SamplerObj.Wf s ∧ Dict.get p "stepsize" = some (some 5) ∧ Dict.get p "friction" = some (some 7) ∧
      Dict.get p "x" = some (some 9) ∧ Dict.get p "typo" = none := by
  refine ⟨by simp [SamplerObj.Wf], by decide, by decide, by decide, by decide⟩

end Mocat.Props
