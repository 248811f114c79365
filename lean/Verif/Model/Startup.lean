import Mathlib.Data.List.Basic
import Mathlib.Data.List.Lookmap
/-!
# Parameters at start-up: sample.py

Python dictionaries are association lists in insertion order. A Python value is `Option V`, `none` being
Python's `None`; so `Dict.get d k : Option (Option V)` tells an absent key from one whose value is `None`.
-/
namespace Mocat.Startup

variable {V : Type*}

/-- `obj.__dict__` of a `cdict` or a sampler. -/
abbrev Dict (V : Type*) := List (String × Option V)

/-- `d.get(k)`, distinguishing an absent key. -/
def Dict.get (d : Dict V) (k : String) : Option (Option V) := List.lookup k d

/-- `setattr(obj, k, v)`: replace in place, or append. -/
def Dict.set : Dict V → String → Option V → Dict V
  | [], k, v => [(k, v)]
  | (k', v') :: d, k, v => if k = k' then (k, v) :: d else (k', v') :: Dict.set d k v

/-- Names every `cdict` has through its class (core.py 20-84), whatever is in its `__dict__`. (Names with double
underscores are left out.) -/
def cdictAttrs : List String :=
  ["copy", "deepcopy", "save", "tree_flatten", "tree_unflatten", "is_empty", "keys"]

/-- `hasattr(c, k)` for a cdict `c` -/
def hasattr (d : Dict V) (k : String) : Bool := (Dict.get d k).isSome || cdictAttrs.contains k

/-- A sampler: its own attributes, those it has through its class, and its `parameters`. The attribute
`parameters` itself is not among `attrs`. -/
structure SamplerObj (V : Type*) where
  attrs : Dict V
  classAttrs : List String
  params : Dict V

/-- `hasattr(self, k)` for a sampler -/
def SamplerObj.hasattr (s : SamplerObj V) (k : String) : Bool := (Dict.get s.attrs k).isSome || s.classAttrs.contains k

/-- sample.py 34-38, `Sampler.__init__`: each keyword argument goes to the sampler if it has an attribute of that name,
else to its parameters. -/
def initKwarg (s : SamplerObj V) (kv : String × Option V) : SamplerObj V :=
  if s.hasattr kv.1 then { s with attrs := Dict.set s.attrs kv.1 kv.2 }
  else { s with params := Dict.set s.params kv.1 kv.2 }

/-- sample.py 52-56, one pass of the keyword loop of `Sampler.startup` (two independent `if`s).
A keyword named `parameters`, which would replace the whole dictionary, is not modelled. -/
def startupKwarg (s : SamplerObj V) (kv : String × Option V) : SamplerObj V :=
  let s := if s.hasattr kv.1 then { s with attrs := Dict.set s.attrs kv.1 kv.2 } else s
  if hasattr s.params kv.1 then { s with params := Dict.set s.params kv.1 kv.2 } else s

/-- `getattr(c, k) is None` (class attributes are methods, never `None`) -/
def isNone (d : Dict V) (k : String) : Bool :=
  match Dict.get d k with
  | some none => true
  | _ => false

/-- sample.py 69-71, one pass of the loop over the sampler's parameters: fill in what the extra lacks or has as `None`. -/
def fillParam (e : Dict V) (kv : String × Option V) : Dict V :=
  if !hasattr e kv.1 || isNone e kv.1 then Dict.set e kv.1 kv.2 else e

/-- sample.py 46-72, `Sampler.startup`, as far as parameters go (the `max_iter` type check and the `iter` default are
not part of it): new sampler and `initial_extra.parameters`. `none` for the latter means the extra had no
`parameters`. -/
def startup (s : SamplerObj V) (extraParams : Option (Dict V)) (kwargs : List (String × Option V)) :
    SamplerObj V × Dict V :=
  let s := kwargs.foldl startupKwarg s
  (s, s.params.foldl fillParam (extraParams.getD []))

/-- One call of `run` on a sampler object: the parameters given in `initial_extra` and the keyword arguments. -/
abbrev Call (V : Type*) := Option (Dict V) × List (String × Option V)

/-- The sampler object after a history of `run` calls (sample.py 110-148 calls `startup` on the object itself). -/
def afterRuns (s : SamplerObj V) (calls : List (Call V)) : SamplerObj V :=
  calls.foldl (fun s c => (startup s c.1 c.2).1) s

/-- sample.py 118-130 with a sampler *object*: parameters with which the run starts, after a history of calls. -/
def runParams (s : SamplerObj V) (calls : List (Call V)) (c : Call V) : Dict V :=
  (startup (afterRuns s calls) c.1 c.2).2

/-- sample.py 24-38: a new sampler object from class defaults and keyword arguments. -/
def construct (s : SamplerObj V) (kwargs : List (String × Option V)) : SamplerObj V := kwargs.foldl initKwarg s

end Mocat.Startup
