import Verif.Model.Scenario
/-!
# Keyword arguments of `Scenario`: core.py 146-197

The constructor copies a keyword argument into the object only when the object already has an attribute of that name
(core.py 168-170). The functions of a scenario are methods of the base class, so every scenario has them. `dim` and
`temperature` are annotations without a value (core.py 148-149), so an object has them only when its class, or the
constructor of its class before it calls this one, gave them one.
-/
namespace Mocat.Scenario

variable {E K V : Type}

/-- What an object has when `Scenario.__init__` starts: the functions its class implements, `dim` and `temperature` if its
class gives them a value, and further attributes (for instance `lengthiness` or `plot_resolution`,
scenarios/twodim/toy_examples.py 27-33 and scenarios/twodim/vectorise.py 36-40). -/
structure Object (E K V : Type) where
  prior : Option (Pot E K) := none
  lik : Option (Pot E K) := none
  pot : Option (Pot E K) := none
  dim : Option ℕ := none
  temp : Option ℝ := none
  others : String → Option V := fun _ => none
  baseSetattr : Bool := true

/-- A keyword argument, by the attribute it names. Arguments for the samplers of prior and likelihood are among `other`. -/
inductive Kwarg (E K V : Type) where
  | prior (f : Pot E K)
  | lik (f : Pot E K)
  | pot (f : Pot E K)
  | dim (d : ℕ)
  | temp (t : ℝ)
  | other (name : String) (v : V)

/-- core.py 169: `hasattr(self, key)` -/
def hasAttr (o : Object E K V) : Kwarg E K V → Bool
  | .prior _ | .lik _ | .pot _ => true
  | .dim _ => o.dim.isSome
  | .temp _ => o.temp.isSome
  | .other name _ => (o.others name).isSome

/-- core.py 170: `self.__dict__[key] = value` -/
def store (o : Object E K V) : Kwarg E K V → Object E K V
  | .prior f => { o with prior := some f }
  | .lik f => { o with lik := some f }
  | .pot f => { o with pot := some f }
  | .dim d => { o with dim := some d }
  | .temp t => { o with temp := some t }
  | .other name v => { o with others := fun n => if n = name then some v else o.others n }

/-- core.py 168-170 -/
def takeKwargs (o : Object E K V) : List (Kwarg E K V) → Object E K V
  | [] => o
  | a :: l => takeKwargs (if hasAttr o a then store o a else o) l

/-- core.py 161-197 with keyword arguments: the scenario and its further attributes. A scenario with a target whose `dim` is
not known raises at line 173 (`none`). The reshaping at lines 173-176 is left out, as in `construct`. -/
def build (o : Object E K V) (l : List (Kwarg E K V)) : Option (Scen E K × (String → Option V)) :=
  let o := takeKwargs o l
  if (o.pot.isSome || o.lik.isSome) && o.dim.isNone then none
  else some (construct ⟨o.prior, o.lik, o.pot, o.temp, o.baseSetattr⟩, o.others)

end Mocat.Scenario
