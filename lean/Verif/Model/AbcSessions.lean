import Mathlib.Data.Real.Basic
/-!
# Start-up of ABC and ensemble Kalman samplers on a state object used before: abc/abc.py 44-63, abc/smc.py 44-77, transport/teki.py 69-110

`X` is the value of a chain or the values of an ensemble (then `prior`, `simulate`, `distance` act member by member).
-/
namespace Mocat.AbcSessions

variable {X P D R K : Type*}

/-- What start-up uses of an ABC scenario: prior potential, simulator, distance to the data. -/
structure Target (X P D R K : Type*) where
  prior : X → P
  simulate : X → K → D
  distance : D → R

/-- A state object: its value and whichever attributes it has. A threshold is a real or infinite (`none`). -/
structure StateObj (X P D R : Type*) where
  value : X
  prior : Option P := none
  data : Option D := none
  distance : Option R := none
  threshold : Option (Option ℝ) := none

/-- abc/abc.py 44-63, `ABCSampler.startup` (chains), and abc/smc.py 55-69 (ensembles): each attribute is computed only if the object lacks
it. `key` is the key split off for the simulator. The prior potential is taken to be implemented and free of randomness. -/
def abcStart (sc : Target X P D R K) (key : K) (s : StateObj X P D R) : StateObj X P D R :=
  let s := { s with prior := some (s.prior.getD (sc.prior s.value)) }
  let data := s.data.getD (sc.simulate s.value key)
  let s := { s with data := some data }
  { s with distance := some (s.distance.getD (sc.distance data)) }

/-- abc/smc.py 71-75, `ABCSMCSampler.startup`: with a schedule the first threshold is its first entry, else infinity. -/
def smcStart (schedule : Option ℝ) (sc : Target X P D R K) (key : K) (s : StateObj X P D R) : StateObj X P D R :=
  let s := abcStart sc key s
  { s with threshold := some (s.threshold.getD schedule) }

/-- transport/teki.py 94-98, `TemperedEKI.startup`: simulated data only. -/
def ekiStart (sc : Target X P D R K) (key : K) (s : StateObj X P D R) : StateObj X P D R :=
  { s with data := some (s.data.getD (sc.simulate s.value key)) }

/-- Which sampler starts from the state; for ABC-SMC with the first entry of its threshold schedule, if it has one. -/
inductive Kind
  | chain
  | smc (schedule : Option ℝ)
  | eki

/-- Start-up of the sampler on the state object, in place. -/
def start : Kind → Target X P D R K → K → StateObj X P D R → StateObj X P D R
  | .chain => abcStart
  | .smc schedule => smcStart schedule
  | .eki => ekiStart

/-- What a program does with a state object between runs. -/
inductive Event (X P D R K : Type*)
  | run (k : Kind) (sc : Target X P D R K) (key : K)
  | setValue (x : X)

/-- One event. -/
def handle (s : StateObj X P D R) : Event X P D R K → StateObj X P D R
  | .run k sc key => start k sc key s
  | .setValue x => { s with value := x }

/-- The state object after a program. -/
def history (s : StateObj X P D R) (es : List (Event X P D R K)) : StateObj X P D R := es.foldl handle s

end Mocat.AbcSessions
