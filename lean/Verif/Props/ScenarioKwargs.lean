import Verif.Model.ScenarioKwargs
import Verif.Props.Scenario
/-!
# C158: keyword arguments of a scenario's constructor
-/
namespace Mocat.Props
open Mocat.Scenario

variable {E K V : Type}

/-- The last value given for something by keyword, or else what the class gives. -/
def latestArg {α : Type} (pick : Kwarg E K V → Option α) (fromClass : Option α) (l : List (Kwarg E K V)) : Option α :=
  (l.reverse.findSome? pick).or fromClass

def priorArg : Kwarg E K V → Option (Pot E K) | .prior f => some f | _ => none
def likArg : Kwarg E K V → Option (Pot E K) | .lik f => some f | _ => none
def potArg : Kwarg E K V → Option (Pot E K) | .pot f => some f | _ => none
def dimArg : Kwarg E K V → Option ℕ | .dim d => some d | _ => none
def tempArg : Kwarg E K V → Option ℝ | .temp t => some t | _ => none
def otherArg (n : String) : Kwarg E K V → Option V | .other m v => if m = n then some v else none | _ => none

/-- The target a caller means by a class and keyword arguments. -/
def askedPrior (o : Object E K V) (l : List (Kwarg E K V)) : Pot E K := (latestArg priorArg o.prior l).getD fun _ _ => 0
def askedLik (o : Object E K V) (l : List (Kwarg E K V)) : Pot E K :=
  ((latestArg likArg o.lik l).or (latestArg potArg o.pot l)).getD fun _ _ => 0
def askedTemp (o : Object E K V) (l : List (Kwarg E K V)) : ℝ := (latestArg tempArg o.temp l).getD 1

/-- The argument names an attribute that the object has: one of the functions of a scenario, or something the class gives a
value. -/
def KnownKwarg (o : Object E K V) : Kwarg E K V → Bool
  | .prior _ => true
  | .lik _ => true
  | .pot _ => true
  | .dim _ => o.dim.isSome
  | .temp _ => o.temp.isSome
  | .other name _ => (o.others name).isSome

def AllKnownKwargs (o : Object E K V) (l : List (Kwarg E K V)) : Prop := ∀ a ∈ l, KnownKwarg o a = true

theorem knownKwarg_eq (o : Object E K V) (a : Kwarg E K V) : KnownKwarg o a = hasAttr o a := by cases a <;> rfl

theorem latestArg_cons {α : Type} (pick : Kwarg E K V → Option α) (c : Option α) (a : Kwarg E K V)
    (l : List (Kwarg E K V)) : latestArg pick c (a :: l) = latestArg pick ((pick a).or c) l := by
  simp only [latestArg, List.reverse_cons, List.findSome?_append, List.findSome?_cons, List.findSome?_nil]
  cases l.reverse.findSome? pick <;> cases pick a <;> rfl

theorem hasAttr_store (o : Object E K V) (a b : Kwarg E K V) (h : hasAttr o b = true) : hasAttr (store o a) b = true := by
  cases a <;> cases b <;> simp_all [hasAttr, store]
  split <;> simp_all

theorem takeKwargs_known (l : List (Kwarg E K V)) : ∀ o : Object E K V, AllKnownKwargs o l →
    (takeKwargs o l).prior = latestArg priorArg o.prior l ∧ (takeKwargs o l).lik = latestArg likArg o.lik l ∧
    (takeKwargs o l).pot = latestArg potArg o.pot l ∧ (takeKwargs o l).dim = latestArg dimArg o.dim l ∧
    (takeKwargs o l).temp = latestArg tempArg o.temp l ∧
    (∀ n, (takeKwargs o l).others n = latestArg (otherArg n) (o.others n) l) := by
  induction l with
  | nil => intro o _; simp [takeKwargs, latestArg]
  | cons a l ih =>
    intro o h
    have ha : hasAttr o a = true := (knownKwarg_eq o a).symm.trans (h a (by simp))
    have hl : AllKnownKwargs (store o a) l := fun b hb =>
      (knownKwarg_eq _ b).trans (hasAttr_store o a b ((knownKwarg_eq o b).symm.trans (h b (by simp [hb]))))
    obtain ⟨h1, h2, h3, h4, h5, h6⟩ := ih _ hl
    simp only [takeKwargs, ha, if_true, latestArg_cons]
    refine ⟨h1.trans ?_, h2.trans ?_, h3.trans ?_, h4.trans ?_, h5.trans ?_, fun n => (h6 n).trans ?_⟩ <;>
      (cases a <;> simp [store, priorArg, likArg, potArg, dimArg, tempArg, otherArg])
    rename_i m v
    by_cases hn : n = m
    · simp [hn]
    · simp [hn, Ne.symm hn]

/-- What `dim` is known to be after the arguments have been read, when every argument names an attribute of the object. -/
theorem latestArg_dim_isSome (o : Object E K V) (l : List (Kwarg E K V)) (hd : o.dim.isSome) :
    (latestArg dimArg o.dim l).isSome := by
  simp only [latestArg]
  cases l.reverse.findSome? dimArg <;> simp [hd]

/-- C158 (partial: only for arguments naming attributes the object already has): the scenario built has the target asked for,
and every further attribute has the last value given for it. Missing: `temperature` and `dim` of classes that give them no
value, see the failures below. -/
theorem C158_partial (o : Object E K V) (l : List (Kwarg E K V)) (hl : AllKnownKwargs o l) (hd : o.dim.isSome)
    (ht : (latestArg potArg o.pot l).isSome ∨ (latestArg likArg o.lik l).isSome) :
    ∃ r, build o l = some r ∧
      (∀ x k, potential r.1 x k = some (askedPrior o l x k + askedTemp o l * askedLik o l x k)) ∧
      ∀ n, r.2 n = latestArg (otherArg n) (o.others n) l := by
  obtain ⟨h1, h2, h3, h4, h5, h6⟩ := takeKwargs_known l o hl
  have hsome := latestArg_dim_isSome o l hd
  refine ⟨(construct ⟨(takeKwargs o l).prior, (takeKwargs o l).lik, (takeKwargs o l).pot, (takeKwargs o l).temp,
    (takeKwargs o l).baseSetattr⟩, (takeKwargs o l).others), ?_, ?_, ?_⟩
  · unfold build
    rw [if_neg]
    simp only [h4, Bool.and_eq_true, not_and, Bool.not_eq_true]
    intro _
    cases hx : latestArg dimArg o.dim l <;> simp_all
  · intro x k
    rw [C09_construct _ (by simpa only [h2, h3] using ht)]
    simp only [intendedPrior, intendedLik, intendedTemp, h1, h2, h3, h5, askedPrior, askedLik, askedTemp]
    cases latestArg likArg o.lik l <;> simp
  · intro n; exact h6 n

/-- Arguments naming nothing the object has are dropped without an error: the call is the same as the one without them. -/
theorem C158_dropped (o : Object E K V) (l : List (Kwarg E K V)) :
    build o l = build o (l.filter fun a => KnownKwarg o a) := by
  simp only [knownKwarg_eq]
  have key : ∀ (l : List (Kwarg E K V)) (o o' : Object E K V), (∀ a, hasAttr o' a = hasAttr o a) →
      takeKwargs o' l = takeKwargs o' (l.filter fun a => hasAttr o a) := by
    intro l
    induction l with
    | nil => intro o o' _; rfl
    | cons a l ih =>
      intro o o' h
      by_cases ha : hasAttr o a = true
      · rw [List.filter_cons_of_pos ha]
        simp only [takeKwargs, h a, ha, if_true]
        refine ih o _ fun b => ?_
        rw [← h b]
        rcases hb : hasAttr o' b with _ | _
        · have ha' := (h a).trans ha
          cases a <;> cases b <;> simp_all [hasAttr, store]
          rename_i m _ m' _
          by_cases hm : m' = m
          · subst hm; simp_all
          · simp [hm]
        · exact hasAttr_store o' a b hb
      · rw [List.filter_cons_of_neg ha]
        simp only [takeKwargs, h a, ha]
        exact ih o o' h
  simp only [build, key l o o fun _ => rfl]

/-- C158 fails for the temperature: an object without a value for `temperature` ignores `temperature=t`, and its target is that
of temperature 1. No class of the library gives it one; only the two-dimensional mixture, whose constructor runs that of
`Scenario` twice, has one by the time its arguments are read. -/
theorem C158_fails_temperature (o : Object E K V) (hT : o.temp = none) (hd : o.dim.isSome)
    (ht : o.pot.isSome ∨ o.lik.isSome) (t : ℝ) :
    build o [.temp t] = build o [] ∧
    ∃ r, build o [.temp t] = some r ∧
      ∀ x k, potential r.1 x k = some (askedPrior o [] x k + 1 * askedLik o [] x k) := by
  have e : build o [.temp t] = build o [] := by
    rw [C158_dropped]; simp [KnownKwarg, hT]
  refine ⟨e, ?_⟩
  obtain ⟨r, h1, h2, -⟩ := C158_partial o [] (by simp [AllKnownKwargs]) hd (by simpa [latestArg] using ht)
  refine ⟨r, e.trans h1, fun x k => ?_⟩
  rw [h2]
  simp [askedTemp, latestArg, hT]

/-- C158 fails for the dimension: a scenario built from keyword arguments alone, `Scenario(potential=f, dim=d, …)`, raises
because `dim=d` was dropped. -/
theorem C158_fails_dim (o : Object E K V) (hD : o.dim = none) (f : Pot E K) (d : ℕ) (l : List (Kwarg E K V)) :
    build o (.pot f :: .dim d :: l) = none := by
  have keep : ∀ (l : List (Kwarg E K V)) (o : Object E K V), o.dim = none → o.pot.isSome →
      (takeKwargs o l).dim = none ∧ (takeKwargs o l).pot.isSome := by
    intro l
    induction l with
    | nil => intro o h1 h2; exact ⟨h1, h2⟩
    | cons a l ih =>
      intro o h1 h2
      simp only [takeKwargs]
      refine ih _ ?_ ?_ <;> cases a <;> simp [hasAttr, store, h1, h2] <;> split <;> simp_all
  obtain ⟨h1, h2⟩ := keep l { o with pot := some f } hD rfl
  have e : takeKwargs o (.pot f :: .dim d :: l) = takeKwargs { o with pot := some f } l := by
    simp [takeKwargs, hasAttr, store, hD]
  unfold build
  rw [e]
  simp [h1, h2]

/-! ## Concrete cases -/

/-- A class with potential `x²`, of dimension 1, and an attribute `lengthiness`. -/
private noncomputable def square : Object ℝ Unit ℝ :=
  { pot := some fun x _ => x ^ 2, dim := some 1, others := fun n => if n = "lengthiness" then some 100 else none }

/-- The arguments of `C158_partial` can be met, and it says what one expects: prior and attribute given are used. -/
example : ∃ r, build square [.prior fun x _ => 3 * x, .other "lengthiness" 50] = some r ∧
    potential r.1 2 () = some 10 ∧ r.2 "lengthiness" = some 50 := by
  obtain ⟨r, h1, h2, h3⟩ := C158_partial square [.prior fun x _ => 3 * x, .other "lengthiness" 50]
    (by simp [AllKnownKwargs, KnownKwarg, square]) rfl (by simp [latestArg, square])
  refine ⟨r, h1, ?_, ?_⟩
  · rw [h2]
    norm_num [askedPrior, askedTemp, askedLik, latestArg, List.findSome?, priorArg, likArg, potArg, tempArg, square]
  · rw [h3]; simp [latestArg, otherArg]

/-- A caller asking for temperature 1/2 gets twice the potential asked for. -/
example : ∃ r, build square [.temp (1 / 2)] = some r ∧ potential r.1 2 () = some 4 ∧
    askedPrior square [.temp (1 / 2)] 2 () + askedTemp square [.temp (1 / 2)] * askedLik square [.temp (1 / 2)] 2 () = 2 := by
  obtain ⟨-, r, h1, h2⟩ := C158_fails_temperature square rfl rfl (Or.inl rfl) (1 / 2)
  refine ⟨r, h1, ?_, ?_⟩
  · rw [h2]; norm_num [askedPrior, askedLik, latestArg, square]
  · norm_num [askedPrior, askedTemp, askedLik, latestArg, priorArg, likArg, potArg, tempArg, square]

/-- A class that sets `temperature` honours the argument. -/
example : ∃ r, build { square with temp := some 1 } [.temp (1 / 2)] = some r ∧ potential r.1 2 () = some 2 := by
  obtain ⟨r, h1, h2, -⟩ := C158_partial { square with temp := some 1 } [.temp (1 / 2)]
    (by simp [AllKnownKwargs, KnownKwarg]) rfl (by simp [latestArg, potArg, square])
  refine ⟨r, h1, ?_⟩
  rw [h2]; norm_num [askedPrior, askedTemp, askedLik, latestArg, priorArg, likArg, potArg, tempArg, square]

example : build ({} : Object ℝ Unit ℝ) [.pot fun x _ => x ^ 2, .dim 1] = none := C158_fails_dim _ rfl _ _ _

end Mocat.Props
