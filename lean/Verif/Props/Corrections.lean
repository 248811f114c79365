import Verif.Model.Corrections
import Verif.Props.Startup
import Verif.Props.Mcmc
import Mathlib.Tactic.NormNum
/-!
# C103: which correction a run uses, and with which settings; C104: which values of the parameters the updates use
-/
namespace Mocat.Props
open Mocat Mocat.Startup Mocat.Corrections

/-! ## C103 -/

/-- The last correction given to sampler `i` by keyword in a session. -/
def lastCorr (i : ℕ) : List Corrections.RunCall → Option Arg
  | [] => none
  | c :: cs => match lastCorr i cs with
    | some a => some a
    | none => if c.sampler = i then c.correction else none

/-- The correction in force for a call: its keyword, else the last keyword given to the sampler, else what the sampler had. -/
def inForce (w : Corrections.World) (pre : List Corrections.RunCall) (c : Corrections.RunCall) : Arg :=
  match c.correction with
  | some a => a
  | none => (lastCorr c.sampler pre).getD (w.correction c.sampler)

/-- The class an object is made from, when the argument is `None` or a class. -/
def madeFrom : Arg → Option Cls
  | .none => some .uncorrected
  | .cls c => some c
  | _ => none

/-- Attribute `b` stands for argument `a`: it is `a`, or an object made from it. -/
def Stands (w : Corrections.World) (b a : Arg) : Prop :=
  b = a ∨ ∃ j k, b = .obj j ∧ madeFrom a = some k ∧ (w.objs[j]?).map Obj.cls = some k

theorem setKwarg_cls (o : Obj) (kv : String × Option Val) : (setKwarg o kv).cls = o.cls := by
  unfold setKwarg; split <;> rfl

theorem foldl_setKwarg_cls (kwargs : List (String × Option Val)) : ∀ o : Obj, (kwargs.foldl setKwarg o).cls = o.cls := by
  induction kwargs with
  | nil => intro o; rfl
  | cons kv kwargs ih => intro o; rw [List.foldl_cons, ih, setKwarg_cls]

theorem startupObj_cls (i : ℕ) (kwargs : List (String × Option Val)) (o : Obj) : (startupObj i kwargs o).cls = o.cls := by
  have h := foldl_setKwarg_cls kwargs o
  unfold startupObj
  dsimp only
  split
  · exact h
  · exact h

theorem newObj_cls (k : Cls) : (newObj k).cls = k := by cases k <;> rfl

theorem exec_cls (w : Corrections.World) (c : Corrections.RunCall) (j : ℕ) (k : Cls) (h : (w.objs[j]?).map Obj.cls = some k) :
    ((Corrections.exec w c).1.objs[j]?).map Obj.cls = some k := by
  have hj : j < w.objs.length := by
    by_contra hj
    rw [List.getElem?_eq_none (by omega)] at h
    simp at h
  have key : ∀ (objs : List Obj) (j' : ℕ), (objs[j]?).map Obj.cls = some k →
      ((objs.modify j' (startupObj c.sampler c.kwargs))[j]?).map Obj.cls = some k := by
    intro objs j' h
    rw [List.getElem?_modify]
    rcases ho : objs[j]? with _ | o
    · simp [ho] at h
    · rw [ho] at h
      simp only [Option.map_some, Option.some.injEq] at h
      by_cases hjj : j' = j
      · simp [hjj, startupObj_cls, h]
      · simp [hjj, h]
  have happ : ∀ o : Obj, ((w.objs ++ [o])[j]?).map Obj.cls = some k := fun o => by rw [List.getElem?_append_left hj]; exact h
  unfold Corrections.exec
  cases c.correction.getD (w.correction c.sampler) <;> simp only [check]
  · exact key _ _ (happ _)
  · exact key _ _ (happ _)
  · exact key _ _ h
  · exact h

theorem after_cls (cs : List Corrections.RunCall) (j : ℕ) (k : Cls) :
    ∀ w : Corrections.World, (w.objs[j]?).map Obj.cls = some k → ((Corrections.after w cs).objs[j]?).map Obj.cls = some k := by
  induction cs with
  | nil => intro w h; exact h
  | cons c cs ih => intro w h; exact ih _ (exec_cls w c j k h)

/-- What one call leaves on its own sampler. -/
theorem exec_stands (w : Corrections.World) (c : Corrections.RunCall) :
    Stands (Corrections.exec w c).1 ((Corrections.exec w c).1.correction c.sampler) (c.correction.getD (w.correction c.sampler)) := by
  have hnew : ∀ k, (((w.objs ++ [newObj k]).modify w.objs.length (startupObj c.sampler c.kwargs))[w.objs.length]?).map Obj.cls = some k := by
    intro k
    rw [List.getElem?_modify]
    simp [startupObj_cls, newObj_cls]
  unfold Corrections.exec
  cases h : c.correction.getD (w.correction c.sampler) <;> simp only [check, Function.update_self]
  · exact Or.inr ⟨_, _, rfl, rfl, hnew _⟩
  · exact Or.inr ⟨_, _, rfl, rfl, hnew _⟩
  · exact Or.inl rfl
  · exact Or.inl rfl

theorem exec_correction_ne (w : Corrections.World) (c : Corrections.RunCall) (i : ℕ) (h : c.sampler ≠ i) :
    (Corrections.exec w c).1.correction i = w.correction i := by
  unfold Corrections.exec
  dsimp only
  split <;> exact Function.update_of_ne (Ne.symm h) _ _

theorem after_stands (cs : List Corrections.RunCall) (i : ℕ) : ∀ w : Corrections.World,
    Stands (Corrections.after w cs) ((Corrections.after w cs).correction i) ((lastCorr i cs).getD (w.correction i)) := by
  induction cs with
  | nil => intro w; exact Or.inl rfl
  | cons c cs ih =>
    intro w
    have h3 : Corrections.after w (c :: cs) = Corrections.after (Corrections.exec w c).1 cs := rfl
    have h := ih (Corrections.exec w c).1
    rw [h3, lastCorr]
    rcases hl : lastCorr i cs with _ | a
    · rw [hl, Option.getD_none] at h
      by_cases hi : c.sampler = i
      · subst hi
        have hs := exec_stands w c
        simp only [if_true]
        rcases hs with hs | ⟨j, k, hb, ha, hk⟩
        · rw [hs] at h; exact h
        · rw [hb] at h
          rcases h with h | ⟨_, _, _, h, _⟩
          · exact Or.inr ⟨j, k, h, ha, after_cls cs j k _ hk⟩
          · simp [madeFrom] at h
      · simp only [if_neg hi, Option.getD_none]
        rw [exec_correction_ne w c i hi] at h
        exact h
    · rw [hl, Option.getD_some] at h
      simp only [Option.getD_some]
      exact h

/-- C103, which correction: the correction in force is the keyword of the call, else the last keyword given to the same sampler
object, else what the sampler had. If it is an object, the run uses that object; if it is a class, an object of that class; if it
is `None`, no correction; anything else raises. -/
theorem C103_which (w : Corrections.World) (pre : List Corrections.RunCall) (c : Corrections.RunCall) :
    (∀ j, inForce w pre c = .obj j → (Corrections.exec (Corrections.after w pre) c).2 = some j) ∧
    (∀ k, madeFrom (inForce w pre c) = some k → ∃ j o, (Corrections.exec (Corrections.after w pre) c).2 = some j ∧
      (Corrections.exec (Corrections.after w pre) c).1.objs[j]? = some o ∧ o.cls = k) ∧
    (inForce w pre c = .other → (Corrections.exec (Corrections.after w pre) c).2 = none) := by
  have hst : Stands (Corrections.after w pre) (c.correction.getD ((Corrections.after w pre).correction c.sampler)) (inForce w pre c) := by
    unfold inForce
    rcases c.correction with _ | a
    · exact after_stands pre c.sampler w
    · exact Or.inl rfl
  set w' := Corrections.after w pre
  have hcls := fun (j : ℕ) (k : Cls) (h : (w'.objs[j]?).map Obj.cls = some k) => exec_cls w' c j k h
  refine ⟨fun j hj => ?_, fun k hk => ?_, fun ho => ?_⟩
  · rcases hst with hst | ⟨_, _, _, h, _⟩
    · unfold Corrections.exec
      simp only [hst, hj, check]
    · rw [hj] at h; simp [madeFrom] at h
  · rcases hst with hst | ⟨j, k', hb, hk', hj⟩
    · have hs := exec_stands w' c
      rw [hst] at hs
      rcases hs with hs | ⟨j, k'', hb, hk'', hj⟩
      · exfalso
        unfold Corrections.exec at hs
        simp only [hst] at hs
        cases hf : inForce w pre c <;> rw [hf] at hs hk <;> simp [check, madeFrom] at hs hk
      · rw [hk] at hk''
        obtain rfl := Option.some.inj hk''
        rcases ho : (Corrections.exec w' c).1.objs[j]? with _ | o
        · simp [ho] at hj
        · rw [ho] at hj
          refine ⟨j, o, ?_, ho, by simpa using hj⟩
          unfold Corrections.exec at hb ⊢
          simp only [hst] at hb ⊢
          cases hf : inForce w pre c <;> rw [hf] at hb hk <;> simp [check, madeFrom] at hb hk ⊢ <;> exact hb
    · rw [hk] at hk'
      obtain rfl := Option.some.inj hk'
      have hj' := hcls j k hj
      rcases ho : (Corrections.exec w' c).1.objs[j]? with _ | o
      · simp [ho] at hj'
      · rw [ho] at hj'
        refine ⟨j, o, ?_, ho, by simpa using hj'⟩
        unfold Corrections.exec
        simp only [hb, check]
  · rcases hst with hst | ⟨_, _, _, h, _⟩
    · unfold Corrections.exec
      simp only [hst, ho, check]
    · rw [ho] at h; simp [madeFrom] at h

/-- Objects that calls name, or samplers hold, exist before the session. -/
def Known (w : Corrections.World) (cs : List Corrections.RunCall) : Prop :=
  (∀ i j, w.correction i = .obj j → j < w.objs.length) ∧ ∀ c ∈ cs, ∀ j, c.correction = some (.obj j) → j < w.objs.length

theorem exec_length (w : Corrections.World) (c : Corrections.RunCall) : w.objs.length ≤ (Corrections.exec w c).1.objs.length := by
  unfold Corrections.exec
  cases c.correction.getD (w.correction c.sampler) <;> simp [check]

theorem Known.arg {w : Corrections.World} {c : Corrections.RunCall} {cs : List Corrections.RunCall} (h : Known w (c :: cs)) {j : ℕ}
    (hj : c.correction.getD (w.correction c.sampler) = .obj j) : j < w.objs.length := by
  rcases hc : c.correction with _ | a
  · rw [hc] at hj; exact h.1 _ _ hj
  · rw [hc, Option.getD_some] at hj
    exact h.2 c List.mem_cons_self j (by rw [hc, hj])

theorem Known.step {w : Corrections.World} {c : Corrections.RunCall} {cs : List Corrections.RunCall} (h : Known w (c :: cs)) :
    Known (Corrections.exec w c).1 cs := by
  refine ⟨fun i j hij => ?_, fun c' hc' j hj => lt_of_lt_of_le (h.2 c' (List.mem_cons_of_mem _ hc') j hj) (exec_length w c)⟩
  by_cases hi : c.sampler = i
  · subst hi
    have harg := fun j => h.arg (j := j)
    unfold Corrections.exec at hij ⊢
    cases hf : c.correction.getD (w.correction c.sampler) <;> rw [hf] at hij <;>
      simp only [check, Function.update_self, Arg.obj.injEq, reduceCtorEq] at hij ⊢
    · simp [← hij]
    · simp [← hij]
    · rw [List.length_modify, ← hij]; exact harg _ hf
  · rw [exec_correction_ne w c i hi] at hij
    exact lt_of_lt_of_le (h.1 i j hij) (exec_length w c)

theorem Known.after {cs ds : List Corrections.RunCall} : ∀ {w : Corrections.World}, Known w (cs ++ ds) → Known (Corrections.after w cs) ds := by
  induction cs with
  | nil => intro w h; exact h
  | cons c cs ih => intro w h; exact ih h.step

/-- The last value given to setting `k` of correction object `j` by a keyword of a run that used the object. -/
noncomputable def lastSetting (j : ℕ) (k : String) : Corrections.World → List Corrections.RunCall → Option (Option Val)
  | _, [] => none
  | w, c :: cs => match lastSetting j k (Corrections.exec w c).1 cs with
    | some v => some v
    | none => if (Corrections.exec w c).2 = some j then Dict.get c.kwargs k else none

/-- The settings of `RMMetropolis` (metropolis.py 77-80). -/
def rmSettings : List String := ["adapt_cut_off", "rm_stepsize_scale", "rm_stepsize_neg_exponent", "log_update"]

theorem setKwarg_get (o : Obj) (kv : String × Option Val) (k : String) {v : Option Val} (hv : Dict.get o.attrs k = some v) :
    Dict.get (setKwarg o kv).attrs k = some (if k = kv.1 then kv.2 else v) := by
  unfold setKwarg
  by_cases h : k = kv.1
  · have ho : o.hasattr kv.1 = true := by simp [Obj.hasattr, ← h, hv]
    rw [if_pos ho]
    simp only [Dict.get_set, h, if_true]
  · split
    · simp only [Dict.get_set, if_neg h]; exact hv
    · exact hv

theorem foldl_setKwarg_get (kwargs : List (String × Option Val)) (hnd : KwargsWf kwargs) (k : String) : ∀ (o : Obj) {v : Option Val},
    Dict.get o.attrs k = some v → Dict.get (kwargs.foldl setKwarg o).attrs k = some ((Dict.get kwargs k).getD v) := by
  induction kwargs with
  | nil => intro o v hv; exact hv
  | cons kv kwargs ih =>
    intro o v hv
    unfold KwargsWf at hnd
    rw [List.map_cons, List.nodup_cons] at hnd
    rw [List.foldl_cons, ih hnd.2 _ (setKwarg_get o kv k hv)]
    obtain ⟨a, b⟩ := kv
    by_cases h : k = a
    · subst h
      rw [Dict.get_none hnd.1]
      simp [Dict.get, List.lookup]
    · have : Dict.get ((a, b) :: kwargs) k = Dict.get kwargs k := by simp [Dict.get, List.lookup, beq_eq_false_iff_ne.mpr h]
      rw [this]
      simp [h]

theorem startupObj_get (i : ℕ) (kwargs : List (String × Option Val)) (hnd : KwargsWf kwargs) (o : Obj) (k : String) (hk : k ∈ rmSettings)
    {v : Option Val} (hv : Dict.get o.attrs k = some v) :
    Dict.get (startupObj i kwargs o).attrs k = some ((Dict.get kwargs k).getD v) := by
  have h := foldl_setKwarg_get kwargs hnd k o hv
  have h1 : k ≠ "tuning" := by rintro rfl; simp [rmSettings] at hk
  have h2 : k ≠ "_param_update" := by rintro rfl; simp [rmSettings] at hk
  unfold startupObj
  dsimp only
  split
  · simp only [Dict.get_set, if_neg h1, if_neg h2]; exact h
  · exact h

theorem exec_setting {w : Corrections.World} {c : Corrections.RunCall} {cs : List Corrections.RunCall} (hw : Known w (c :: cs))
    (hnd : KwargsWf c.kwargs) (j : ℕ) (hcls : ∀ k', ((Corrections.exec w c).1.objs[j]?).map Obj.cls = some k' → k' = .rm) (k : String)
    (hk : k ∈ rmSettings) {v : Option Val} (hv : Dict.get (w.objs[j]?.getD (newObj .rm)).attrs k = some v) :
    Dict.get ((Corrections.exec w c).1.objs[j]?.getD (newObj .rm)).attrs k
      = some ((if (Corrections.exec w c).2 = some j then Dict.get c.kwargs k else none).getD v) := by
  have hmake : ∀ k', (∀ k'', (((w.objs ++ [newObj k']).modify w.objs.length (startupObj c.sampler c.kwargs))[j]?).map Obj.cls = some k'' → k'' = .rm) →
      Dict.get (((w.objs ++ [newObj k']).modify w.objs.length (startupObj c.sampler c.kwargs))[j]?.getD (newObj .rm)).attrs k
        = some ((if w.objs.length = j then Dict.get c.kwargs k else none).getD v) := by
    intro k' hk'
    rw [List.getElem?_modify] at hk' ⊢
    by_cases hj : w.objs.length = j
    · subst hj
      have hrm : k' = .rm := hk' k' (by simp [startupObj_cls, newObj_cls])
      subst hrm
      simp only [List.getElem?_concat_length, if_true, Option.map_some, Option.getD_some, Functor.map]
      rw [List.getElem?_eq_none le_rfl, Option.getD_none] at hv
      exact startupObj_get _ _ hnd _ k hk hv
    · simp only [if_neg hj, Option.getD_none, Functor.map, Option.map_id']
      rw [List.getElem?_append]
      split
      · exact hv
      · rename_i hlt
        rw [List.getElem?_eq_none (by simp; omega)]
        rw [List.getElem?_eq_none (by omega)] at hv
        exact hv
  have harg := fun j => hw.arg (j := j)
  unfold Corrections.exec at hcls ⊢
  cases hf : c.correction.getD (w.correction c.sampler) <;> rw [hf] at hcls <;> simp only [check, Option.some.injEq] at hcls ⊢
  · exact hmake _ hcls
  · exact hmake _ hcls
  · rename_i j'
    have hj' := harg j' hf
    rw [List.getElem?_modify]
    by_cases hj : j' = j
    · subst hj
      rw [List.getElem?_eq_getElem hj'] at hv ⊢
      simp only [if_true, Functor.map, Option.map_some, Option.getD_some] at hv ⊢
      exact startupObj_get _ _ hnd _ k hk hv
    · simp only [if_neg hj, Option.getD_none, Functor.map, Option.map_id']
      exact hv
  · simp only [reduceCtorEq, if_false, Option.getD_none]
    exact hv

/-- C103, settings: after any session, every setting of a Robbins-Monro correction object has the value last given to it by a
keyword of a run that used this object, on whichever sampler; before that, the value it had before the session, or the default if
it was made during it. -/
theorem C103_settings (w : Corrections.World) (cs : List Corrections.RunCall) (hw : Known w cs) (hkw : ∀ c ∈ cs, KwargsWf c.kwargs)
    (j : ℕ) (o : Obj) (ho : (Corrections.after w cs).objs[j]? = some o) (hrm : o.cls = .rm) (k : String) (hk : k ∈ rmSettings)
    (v : Option Val) (hv : Dict.get (w.objs[j]?.getD (newObj .rm)).attrs k = some v) :
    Dict.get o.attrs k = some ((lastSetting j k w cs).getD v) := by
  induction cs generalizing w v with
  | nil =>
    have ho' : w.objs[j]? = some o := ho
    rw [ho', Option.getD_some] at hv
    exact hv
  | cons c cs ih =>
    have ho' : (Corrections.after (Corrections.exec w c).1 cs).objs[j]? = some o := ho
    have hcls : ∀ k', ((Corrections.exec w c).1.objs[j]?).map Obj.cls = some k' → k' = .rm := by
      intro k' hk'
      have := after_cls cs j k' _ hk'
      rw [ho', Option.map_some, hrm] at this
      exact (Option.some.inj this).symm
    have h1 := exec_setting hw (hkw c List.mem_cons_self) j hcls k hk hv
    rw [ih _ hw.step (fun c hc => hkw c (List.mem_cons_of_mem _ hc)) ho' _ h1, lastSetting]
    rcases lastSetting j k (Corrections.exec w c).1 cs with _ | u <;> rfl

/-- The documented settings of `RMMetropolis()` (metropolis.py 75-80): adapt throughout, step sizes `1 / n ^ (2/3)`, on the log scale. -/
noncomputable def documented : String → Option Val
  | "adapt_cut_off" => some .inf
  | "rm_stepsize_scale" => some (.num 1)
  | "rm_stepsize_neg_exponent" => some (.num (2 / 3))
  | "log_update" => some (.bool true)
  | _ => none

/-- C103, defaults: an adaptive correction made from the class during a session has the documented settings, but for those given by
keyword to a run that used it. -/
theorem C103_defaults (w : Corrections.World) (cs : List Corrections.RunCall) (hw : Known w cs) (hkw : ∀ c ∈ cs, KwargsWf c.kwargs)
    (j : ℕ) (hj : w.objs.length ≤ j) (o : Obj) (ho : (Corrections.after w cs).objs[j]? = some o) (hrm : o.cls = .rm) (k : String)
    (hk : k ∈ ["adapt_cut_off", "rm_stepsize_scale", "rm_stepsize_neg_exponent", "log_update"]) :
    Dict.get o.attrs k = some ((lastSetting j k w cs).getD (documented k)) := by
  refine C103_settings w cs hw hkw j o ho hrm k ?_ (documented k) ?_
  · simp only [List.mem_cons, List.not_mem_nil, or_false] at hk
    rcases hk with rfl | rfl | rfl | rfl <;> simp [rmSettings]
  · rw [List.getElem?_eq_none hj, Option.getD_none]
    simp only [List.mem_cons, List.not_mem_nil, or_false] at hk
    rcases hk with rfl | rfl | rfl | rfl <;> (simp only [newObj, documented, Dict.get]; rfl)

/-- C103, what a run with Robbins-Monro adaptation starts with: the update rule is the one `log_update` asks for, and the tuning
(parameter, target, metric, direction) is that of the sampler being run, whatever the object was used for before. -/
theorem C103_rule (w : Corrections.World) (pre : List Corrections.RunCall) (c : Corrections.RunCall) (j : ℕ) (o : Obj)
    (hj : (Corrections.exec (Corrections.after w pre) c).2 = some j)
    (ho : (Corrections.exec (Corrections.after w pre) c).1.objs[j]? = some o) (hrm : o.cls = .rm) :
    Dict.get o.attrs "tuning" = some (some (.tuningOf c.sampler)) ∧
    ∀ b, Dict.get o.attrs "log_update" = some (some (.bool b)) →
      Dict.get o.attrs "_param_update" = some (some (if b then .logRule else .plainRule)) := by
  set w' := Corrections.after w pre
  obtain ⟨o', rfl⟩ : ∃ o', o = startupObj c.sampler c.kwargs o' := by
    unfold Corrections.exec at hj ho
    cases hf : c.correction.getD (w'.correction c.sampler) <;> rw [hf] at hj ho <;> simp only [check, Option.some.injEq, reduceCtorEq] at hj ho <;>
    · subst hj
      rw [List.getElem?_modify] at ho
      simp only [if_true, Functor.map, Option.map_eq_some_iff] at ho
      obtain ⟨o', -, rfl⟩ := ho
      exact ⟨o', rfl⟩
  rw [startupObj_cls] at hrm
  have hc : (c.kwargs.foldl setKwarg o').cls = .rm := by rw [foldl_setKwarg_cls, hrm]
  unfold startupObj
  simp only [hc, Dict.get_set]
  refine ⟨by simp, fun b hb => ?_⟩
  simp only [String.reduceEq, if_true, if_false] at hb ⊢
  rw [hb]
  rfl

/-- Object `j` exists and no sampler but `i` holds it. -/
def OwnedBy (i j : ℕ) (w : Corrections.World) : Prop := j < w.objs.length ∧ ∀ i', i' ≠ i → w.correction i' ≠ .obj j

theorem ownedBy_step {i j : ℕ} {w : Corrections.World} {c : Corrections.RunCall} (h : OwnedBy i j w) (hc : c.correction ≠ some (.obj j)) :
    OwnedBy i j (Corrections.exec w c).1 ∧ ((Corrections.exec w c).2 = some j → c.sampler = i) := by
  have harg : c.sampler ≠ i → c.correction.getD (w.correction c.sampler) ≠ .obj j := by
    intro hi
    rcases hcc : c.correction with _ | a
    · exact h.2 _ hi
    · rw [Option.getD_some]; rintro rfl; exact hc hcc
  refine ⟨⟨lt_of_lt_of_le h.1 (exec_length w c), fun i' hi' => ?_⟩, fun hj => ?_⟩
  · by_cases hs : c.sampler = i'
    · subst hs
      have := harg hi'
      unfold Corrections.exec
      cases hf : c.correction.getD (w.correction c.sampler) <;> rw [hf] at this <;>
        simp only [check, Function.update_self, ne_eq, Arg.obj.injEq, reduceCtorEq, not_false_eq_true] at this ⊢
      · have := h.1; omega
      · have := h.1; omega
      · exact this
    · rw [exec_correction_ne w c i' hs]; exact h.2 i' hi'
  · by_contra hi
    have := harg hi
    unfold Corrections.exec at hj
    cases hf : c.correction.getD (w.correction c.sampler) <;> rw [hf] at this hj <;>
      simp only [check, Option.some.injEq, ne_eq, Arg.obj.injEq, reduceCtorEq] at this hj
    · have := h.1; omega
    · have := h.1; omega
    · exact this hj

theorem ownedBy_after {i j : ℕ} (cs : List Corrections.RunCall) : ∀ {w : Corrections.World}, OwnedBy i j w →
    (∀ c ∈ cs, c.correction ≠ some (.obj j)) → OwnedBy i j (Corrections.after w cs) := by
  induction cs with
  | nil => intro w h _; exact h
  | cons c cs ih =>
    intro w h hc
    exact ih (ownedBy_step h (hc c List.mem_cons_self)).1 (fun c' h' => hc c' (List.mem_cons_of_mem _ h'))

theorem after_length (cs : List Corrections.RunCall) : ∀ w : Corrections.World, w.objs.length ≤ (Corrections.after w cs).objs.length := by
  induction cs with
  | nil => intro w; exact le_rfl
  | cons c cs ih => intro w; exact (exec_length w c).trans (ih _)

/-- C103, no sharing: a correction object made for a sampler from a class (or `None`) is never used by a run of another sampler,
so settings given to the one do not reach the other. -/
theorem C103_not_shared (w : Corrections.World) (pre mid : List Corrections.RunCall) (c c' : Corrections.RunCall)
    (hw : Known w (pre ++ c :: (mid ++ [c']))) (hne : c'.sampler ≠ c.sampler) (k : Cls)
    (hk : madeFrom (c.correction.getD ((Corrections.after w pre).correction c.sampler)) = some k) (j : ℕ)
    (hj : (Corrections.exec (Corrections.after w pre) c).2 = some j) :
    (Corrections.exec (Corrections.after (Corrections.exec (Corrections.after w pre) c).1 mid) c').2 ≠ some j := by
  have hkn : Known (Corrections.after w pre) (c :: (mid ++ [c'])) := hw.after
  have hlen := after_length pre w
  set w' := Corrections.after w pre
  have hjl : j = w'.objs.length ∧ OwnedBy c.sampler j (Corrections.exec w' c).1 := by
    have hl : j = w'.objs.length := by
      unfold Corrections.exec at hj
      cases hf : c.correction.getD (w'.correction c.sampler) <;> rw [hf] at hj hk <;> simp [check, madeFrom] at hj hk <;> exact hj.symm
    refine ⟨hl, ?_, fun i' hi' hh => ?_⟩
    · subst hl
      unfold Corrections.exec
      cases hf : c.correction.getD (w'.correction c.sampler) <;> rw [hf] at hk <;> simp [check, madeFrom] at hk ⊢
    · rw [exec_correction_ne w' c i' (Ne.symm hi')] at hh
      have := hkn.1 _ _ hh
      omega
  have hcalls : ∀ d ∈ mid ++ [c'], d.correction ≠ some (.obj j) := by
    intro d hd hh
    have := hw.2 d (by simp only [List.mem_append, List.mem_cons] at hd ⊢; tauto) j hh
    omega
  have hown := ownedBy_after mid hjl.2 (fun d hd => hcalls d (by simp [hd]))
  intro hh
  exact hne ((ownedBy_step hown (hcalls c' (by simp))).2 hh)

/-- C103 fails after an error: a sampler with a valid correction (object 0) is given something that is not a correction. That
call raises, and so does the next one, which gives no correction and would have worked before. (Python stores the keyword on the
sampler before it checks it.) -/
theorem C103_fails_after_error :
    let w : Corrections.World := ⟨fun _ => .obj 0, [newObj .metropolis]⟩
    let bad : Corrections.RunCall := ⟨0, some .other, []⟩
    let next : Corrections.RunCall := ⟨0, none, []⟩
    (Corrections.exec w next).2 = some 0 ∧ (Corrections.exec w bad).2 = none ∧ (Corrections.exec (Corrections.exec w bad).1 next).2 = none := by
  refine ⟨rfl, rfl, rfl⟩

/-- Two samplers, the first given a Robbins-Monro class with a cut-off, then run without keywords; the second given the class. -/
example :
    let w : Corrections.World := ⟨fun _ => .cls .metropolis, []⟩
    let c1 : Corrections.RunCall := ⟨0, some (.cls .rm), [("adapt_cut_off", some (.num 10))]⟩
    let c2 : Corrections.RunCall := ⟨1, some (.cls .rm), []⟩
    let c3 : Corrections.RunCall := ⟨0, none, []⟩
    Known w [c1, c2, c3] ∧ inForce w [c1, c2] c3 = .cls .rm ∧ (Corrections.exec (Corrections.after w [c1, c2]) c3).2 = some 0 ∧
      lastSetting 0 "adapt_cut_off" w [c1, c2, c3] = some (some (.num 10)) ∧ lastSetting 1 "adapt_cut_off" w [c1, c2, c3] = none := by
  refine ⟨⟨?_, ?_⟩, rfl, rfl, rfl, rfl⟩
  · intro i j h; cases h
  · intro c hc j h
    simp only [List.mem_cons, List.not_mem_nil, or_false] at hc
    rcases hc with rfl | rfl | rfl <;> simp at h

/-- C103, keywords of a run: with a newly made `Metropolis`, a keyword that names one of its methods replaces that method on the object; any other is not stored there. -/
theorem C103_method_keyword (w : Corrections.World) (i : ℕ) (k : String) (v : Option Val) :
    let r := Corrections.exec w ⟨i, some (.cls .metropolis), [(k, v)]⟩
    ∃ j o, r.2 = some j ∧ r.1.objs[j]? = some o ∧ Dict.get o.attrs k = if k ∈ ["startup", "correct", "clean_chain"] then some v else none := by
  refine ⟨w.objs.length, startupObj i [(k, v)] (newObj .metropolis), rfl, ?_, ?_⟩
  · simp only [Corrections.exec, Option.getD_some, check]
    rw [List.getElem?_modify]
    simp
  · have : (newObj .metropolis).hasattr k = decide (k ∈ ["startup", "correct", "clean_chain"]) := by
      simp [Obj.hasattr, newObj, classAttrs, Dict.get]
    simp only [startupObj, List.foldl_cons, List.foldl_nil, setKwarg, this, decide_eq_true_eq]
    by_cases h : k ∈ ["startup", "correct", "clean_chain"]
    · simp only [if_pos h, newObj, Dict.get_set, if_true]
    · simp only [if_neg h, newObj]
      rfl

/-- C103, keywords of a run with a newly made `RMMetropolis`: a keyword that names one of its methods replaces that method on the object; one that names neither a method nor an attribute is not stored there. -/
theorem C103_method_keyword_rm (w : Corrections.World) (i : ℕ) (k : String) (v : Option Val) :
    let r := Corrections.exec w ⟨i, some (.cls .rm), [(k, v)]⟩
    ∃ j o, r.2 = some j ∧ r.1.objs[j]? = some o ∧
      (k ∈ ["startup", "correct", "clean_chain", "adapt", "robbins_monro_update", "log_robbins_monro_update"] → Dict.get o.attrs k = some v) ∧
      (k ∉ ["startup", "correct", "clean_chain", "adapt", "robbins_monro_update", "log_robbins_monro_update"] → Dict.get (newObj .rm).attrs k = none → Dict.get o.attrs k = none) := by
  refine ⟨w.objs.length, startupObj i [(k, v)] (newObj .rm), rfl, ?_, fun h => ?_, fun h h0 => ?_⟩
  · simp only [Corrections.exec, Option.getD_some, check]
    rw [List.getElem?_modify]
    simp
  · have hh : (newObj .rm).hasattr k = true := by
      have : (classAttrs .rm).contains k = true := List.contains_iff_mem.mpr h
      unfold Obj.hasattr
      rw [show (newObj .rm).cls = .rm from rfl, this, Bool.or_true]
    have hc : (newObj .rm).cls = .rm := rfl
    have h1 : k ≠ "tuning" := by rintro rfl; simp at h
    have h2 : k ≠ "_param_update" := by rintro rfl; simp at h
    simp only [startupObj, List.foldl_cons, List.foldl_nil, setKwarg, hh, if_true, hc, Dict.get_set, if_neg h1, if_neg h2]
  · have hh : (newObj .rm).hasattr k = false := by
      have : (classAttrs .rm).contains k = false := by
        rw [Bool.eq_false_iff]
        exact fun h' => h (List.contains_iff_mem.mp h')
      unfold Obj.hasattr
      rw [show (newObj .rm).cls = .rm from rfl, this, h0]
      rfl
    have hc : (newObj .rm).cls = .rm := rfl
    have h1 : k ≠ "tuning" := by rintro rfl; simp [newObj, Dict.get] at h0
    have h2 : k ≠ "_param_update" := by rintro rfl; simp [newObj, Dict.get] at h0
    simp only [startupObj, List.foldl_cons, List.foldl_nil, setKwarg, hh, Bool.false_eq_true, if_false, hc, Dict.get_set, if_neg h1, if_neg h2]
    exact h0

/-! ## C104 -/

theorem startup_params_get {V : Type*} (s : SamplerObj V) (extra : Option (Dict V)) (kwargs : List (String × Option V)) (hkw : KwargsWf kwargs)
    (k : String) (d : Option V) (hd : Dict.get s.params k = some d) :
    Dict.get (startup s extra kwargs).1.params k = some ((Dict.get kwargs k).getD d) := by
  have h := (foldl_startupKwarg kwargs hkw s k).2
  have hh : hasattr s.params k = true := by simp [hasattr, hd]
  have h5 : (startup s extra kwargs).1.params = (kwargs.foldl startupKwarg s).params := rfl
  rw [h5, h, hd, hh]
  rcases Dict.get kwargs k with _ | v <;> rfl

variable {K : Type*} {d : ℕ}

/-- C104 for `Underdamped`: if the caller's extra has no value of its own for `leapfrog_steps`, the run is the run of the underdamped
sampler with the stepsize, friction and number of leapfrog steps found in the run's recorded parameters (the parameters of C13).
Missing: extras with their own `leapfrog_steps`, which are ignored (`C104_fails_leapfrog`). -/
theorem C104_underdamped_partial (split : K → K × K) (splitN : K → ℕ → K × List K) (normal : K → Fin d → ℝ) (prior lik : Mcmc.ValGrad K d)
    (temperature : ℝ) (corr : Mcmc.Correction K (Mcmc.LfState d) Mcmc.UDParams) (n : ℤ) (s0 : Mcmc.State (Mcmc.LfState d)) (key : K)
    (s : SamplerObj PVal) (extra : Option (Dict PVal)) (kwargs : List (String × Option PVal)) (hs : SamplerObj.Wf s) (hkw : KwargsWf kwargs)
    (dflt : Option PVal) (hd : Dict.get s.params "leapfrog_steps" = some dflt)
    (hextra : ∀ v, Dict.get (extra.getD []) "leapfrog_steps" ≠ some (some v)) :
    udRun split splitN normal prior lik temperature corr n s0 key s extra kwargs =
      let used := (startup s extra kwargs).2
      Mcmc.runFrom (Mcmc.underdamped split splitN normal prior lik temperature (natOf used "leapfrog_steps")) corr n s0
        ⟨key, 0, ⟨realOf used "stepsize", frictionOf used "friction"⟩⟩ := by
  have hk : "leapfrog_steps" ∉ cdictAttrs := by decide
  have h1 := startup_params_get s extra kwargs hkw _ dflt hd
  have h2 := C13_precedence s extra kwargs hs hkw "leapfrog_steps" hk
  have h3 : natOf (startup s extra kwargs).1.params "leapfrog_steps" = natOf (startup s extra kwargs).2 "leapfrog_steps" := by
    unfold natOf
    rw [h1, h2, hd]
    rcases he : Dict.get (extra.getD []) "leapfrog_steps" with _ | _ | v
    · rcases Dict.get kwargs "leapfrog_steps" with _ | w <;> rfl
    · rcases Dict.get kwargs "leapfrog_steps" with _ | w <;> rfl
    · exact absurd he (hextra v)
  simp only [udRun, h3]

/-- An `Underdamped` sampler with stepsize 1, one leapfrog step, infinite friction. -/
def plainUd : SamplerObj PVal :=
  ⟨[], ["n", "max_iter", "correction"], [("stepsize", some (.num 1)), ("leapfrog_steps", some (.nat 1)), ("friction", some .inf)]⟩

/-- Its runs of two rows on a flat one-dimensional target from 0, all normal draws 1, no correction. -/
noncomputable def flatRun (extra : Option (Dict PVal)) (kwargs : List (String × Option PVal)) : List (Mcmc.State (Mcmc.LfState 1)) :=
  udRun (K := Unit) (fun _ => ((), ())) (fun _ m => ((), List.replicate m ())) (fun _ _ => 1) (fun _ _ => (0, fun _ => 0)) (fun _ _ => (0, fun _ => 0)) 1
    Mcmc.uncorrected 2 ⟨⟨fun _ => 0, fun _ => 0, 0, fun _ => 0, 0, fun _ => 0, 0, fun _ => 0⟩, .fin 1, 0⟩ () plainUd extra kwargs

theorem flat_leapfrog (ε : ℝ) (L : ℕ) : ∀ s dflt : Mcmc.LfState 1, s.gradPotential = (fun _ => 0) →
    ((s :: (scan (Mcmc.leapfrogStep (K := Unit) (fun _ _ => (0, fun _ => 0)) (fun _ _ => (0, fun _ => 0)) ε 1) s (List.replicate L ())).2.map
      Prod.fst).getLastD dflt).value 0 = s.value 0 + L * (ε * s.momenta 0) := by
  induction L with
  | zero => intro s dflt _; simp [scan]
  | succ L ih =>
    intro s dflt hs
    have h := ih (Mcmc.leapfrogStep (K := Unit) (fun _ _ => (0, fun _ => 0)) (fun _ _ => (0, fun _ => 0)) ε 1 s ()).1 s (by simp [Mcmc.leapfrogStep])
    simp only [List.replicate_succ, scan, List.map_cons, List.getLastD_cons] at h ⊢
    refine h.trans ?_
    simp [Mcmc.leapfrogStep, hs]
    ring

theorem flatRun_value (L : ℕ) (ε : ℝ) {extra : Option (Dict PVal)} {kwargs : List (String × Option PVal)}
    (h1 : natOf (startup plainUd extra kwargs).1.params "leapfrog_steps" = L) (h2 : realOf (startup plainUd extra kwargs).2 "stepsize" = ε)
    (h3 : frictionOf (startup plainUd extra kwargs).2 "friction" = none) :
    (flatRun extra kwargs).map (fun s => s.payload.value 0) = [0, L * ε] := by
  simp only [flatRun, udRun, h1, h2, h3]
  rw [C12_mcmc _ _ (keepsIter_underdamped _ _ _ _ _ _ _) corrKeepsIter_uncorrected]
  simp only [Nat.cast_zero, sub_zero, Int.reduceSub, Int.toNat_one, Nat.reduceAdd, List.range_succ, List.range_zero, List.nil_append,
    List.map_cons, List.map_nil, List.cons_append]
  congr 1
  rw [Mcmc.bodyIter_succ]
  simp only [bodyIter, Function.iterate_zero, id, Mcmc.update, Mcmc.uncorrected, Mcmc.underdamped, Mcmc.leapfrog, Mcmc.LfChain.last]
  rw [flat_leapfrog _ _ _ _ rfl]
  simp [Mcmc.refreshMomenta, Mcmc.decay]

/-- C104 fails for `leapfrog_steps` in `initial_extra`: the run records 2 leapfrog steps as its parameter but makes one (the chain moves
by 1); asked for by keyword, two steps are made (the chain moves by 2). -/
theorem C104_fails_leapfrog :
    natOf (startup plainUd (some [("leapfrog_steps", some (.nat 2))]) []).2 "leapfrog_steps" = 2 ∧
    (flatRun (some [("leapfrog_steps", some (.nat 2))]) []).map (fun s => s.payload.value 0) = [0, 1] ∧
    (flatRun none [("leapfrog_steps", some (.nat 2))]).map (fun s => s.payload.value 0) = [0, 2] := by
  refine ⟨rfl, ?_, ?_⟩
  · rw [flatRun_value 1 1 rfl rfl rfl]; norm_num
  · rw [flatRun_value 2 1 rfl rfl rfl]; norm_num

/-- Non-vacuity of `C104_underdamped_partial`, with an extra that has its own stepsize. -/
example : (flatRun (some [("stepsize", some (.num 3))]) []).map (fun s => s.payload.value 0) = [0, 3] := by
  rw [flatRun_value 1 3 rfl rfl rfl]; norm_num

/-- C104, Robbins-Monro start, exact: the tuned parameter starts at `2.38 ^ 2 / dim` if the sampler's own value (after keywords) is
`None`, otherwise at the value of C13. -/
theorem C104_rm_start (s : SamplerObj ℝ) (extra : Option (Dict ℝ)) (kwargs : List (String × Option ℝ)) (hs : SamplerObj.Wf s)
    (hkw : KwargsWf kwargs) (k : String) (hk : k ∉ cdictAttrs) (dim : ℕ) (dflt : Option ℝ) (hd : Dict.get s.params k = some dflt) :
    Dict.get (rmStart s extra kwargs k dim) k =
      match (Dict.get kwargs k).getD dflt, Dict.get (extra.getD []) k with
      | none, _ => some (some (2.38 ^ 2 / dim))
      | some _, some (some v) => some (some v)
      | some v, _ => some (some v) := by
  have h1 := startup_params_get s extra kwargs hkw k dflt hd
  have h2 := C13_precedence s extra kwargs hs hkw k hk
  rw [hd] at h2
  unfold rmStart
  simp only [isNone, h1]
  rcases hg : Dict.get kwargs k with _ | w
  · rw [hg] at h2
    rcases dflt with _ | v
    · simp [Dict.get_set]
    · simp only [Option.getD_none, Bool.false_eq_true, if_false, h2]
      rcases Dict.get (extra.getD []) k with _ | _ | u <;> rfl
  · rw [hg] at h2
    rcases w with _ | w
    · simp [Dict.get_set]
    · simp only [Option.getD_some, Bool.false_eq_true, if_false, h2]
      rcases Dict.get (extra.getD []) k with _ | _ | u <;> rfl

/-- C104, Robbins-Monro start: if the sampler has a value for the tuned parameter, or the caller's extra has none, the adaptation starts from
the value the extra has, else the keyword argument, else the sampler's value, else `2.38 ^ 2 / dim`. Missing: a value in the extra while
the sampler's is `None` (`C104_fails_rm`). -/
theorem C104_rm_partial (s : SamplerObj ℝ) (extra : Option (Dict ℝ)) (kwargs : List (String × Option ℝ)) (hs : SamplerObj.Wf s)
    (hkw : KwargsWf kwargs) (k : String) (hk : k ∉ cdictAttrs) (dim : ℕ) (dflt : Option ℝ) (hd : Dict.get s.params k = some dflt)
    (h : (Dict.get kwargs k).getD dflt ≠ none ∨ ∀ v, Dict.get (extra.getD []) k ≠ some (some v)) :
    Dict.get (rmStart s extra kwargs k dim) k =
      some (some ((((Dict.get (extra.getD []) k).getD none).or ((Dict.get kwargs k).getD dflt)).getD (2.38 ^ 2 / dim))) := by
  rw [C104_rm_start s extra kwargs hs hkw k hk dim dflt hd]
  rcases hg : (Dict.get kwargs k).getD dflt with _ | w <;> rcases he : Dict.get (extra.getD []) k with _ | _ | u <;> simp_all

/-- C104 fails for the tuned parameter: `RandomWalk()` with `RMMetropolis` and an extra with stepsize 1/2 in one dimension. The
adaptation starts at 2.38². -/
theorem C104_fails_rm :
    Dict.get (rmStart ⟨[], ["n", "max_iter", "correction"], [("stepsize", none)]⟩ (some [("stepsize", some (1 / 2))]) [] "stepsize" 1) "stepsize"
      = some (some (2.38 ^ 2)) := by
  rw [C104_rm_start _ _ _ (by simp [SamplerObj.Wf]) (by simp [KwargsWf]) "stepsize" (by decide) 1 none rfl]
  simp [Dict.get]

end Mocat.Props
