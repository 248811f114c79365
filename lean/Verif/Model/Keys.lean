import Verif.Model.StandardMcmc
/-!
# Random keys: a free model of `jax.random.split` and the uses made of keys by the MCMC samplers

A key is the path of splits that produced it from the root key: `i :: k` is the `i`-th key of
`random.split(k, ·)`. Distinct paths are distinct keys. (In JAX distinct paths give keys that are distinct up to hash
collisions.)
-/
namespace Mocat.Keys
open Mocat Mocat.Mcmc

abbrev Key := List ℕ

/-- `random.split(key)` -/
def split (k : Key) : Key × Key := (0 :: k, 1 :: k)

/-- `random.split(key, 3)` -/
def split3 : Split3 Key := fun k => (0 :: k, 1 :: k, 2 :: k)

/-- `random.split(key, m + 1)`: first key and the `m` others -/
def splitN (k : Key) (m : ℕ) : Key × List Key := (0 :: k, (List.range m).map fun i => (i + 1) :: k)

/-- What a key is used for. `potential` is one evaluation of the scenario at one point
(for `Underdamped` this hands the key both to the prior and to the likelihood, utils.py 126-129); `simulate` is one simulation of data (ABC). -/
inductive Use
  | split
  | normal
  | uniform
  | potential
  | priorSample
  | simulate
  deriving DecidableEq

/-- Uses of keys in one `RandomWalk` + `Metropolis` update that starts with key `k`, in order:
standard_mcmc.py 53, 55, 56; metropolis.py 60, 61. -/
def rwUses (k : Key) : List (Use × Key) :=
  [(.split, k), (.normal, 1 :: k), (.potential, 2 :: k), (.split, 0 :: k), (.uniform, 1 :: 0 :: k)]

/-- The key in `extra` after that update (metropolis.py 69). -/
def rwNext (k : Key) : Key := 0 :: 0 :: k

/-- Uses of keys in one `Underdamped` + `Metropolis` update: standard_mcmc.py 120-122, 129-136 (one evaluation per
leapfrog step); metropolis.py 60, 61. -/
def udUses (L : ℕ) (k : Key) : List (Use × Key) :=
  [(.split, k), (.normal, 1 :: k), (.split, 0 :: k)]
  ++ (List.range L).map (fun i => (.potential, (i + 1) :: 0 :: k))
  ++ [(.split, 0 :: 0 :: k), (.uniform, 1 :: 0 :: 0 :: k)]

/-- The key in `extra` after that update. -/
def udNext (k : Key) : Key := 0 :: 0 :: 0 :: k

/-- `random.split(key, 4)` -/
def split4 (k : Key) : Key × Key × Key × Key := (0 :: k, 1 :: k, 2 :: k, 3 :: k)

/-- Uses of keys in one `RandomWalkABC` + `Metropolis` update: abc/mcmc.py 30 (one half of a split is thrown away), 69-73; metropolis.py 60, 61. -/
def abcUses (k : Key) : List (Use × Key) :=
  [(.split, k), (.split, 0 :: k), (.normal, 1 :: 0 :: k), (.potential, 2 :: 0 :: k), (.simulate, 3 :: 0 :: k), (.split, 0 :: 0 :: k), (.uniform, 1 :: 0 :: 0 :: k)]

/-- The key in `extra` after that update. -/
def abcNext (k : Key) : Key := 0 :: 0 :: 0 :: k

/-- Uses of keys at the start-up of `QNUnderdamped` after the initial value is there: qn_underdamped.py 56-65. -/
def qnStartupUses (k : Key) : List (Use × Key) := [(.split, k), (.potential, 1 :: k), (.potential, 2 :: k)]

/-- Uses of keys at the start-up of an ABC sampler after the initial value is there: abc/abc.py 53-59. -/
def abcStartupUses (k : Key) : List (Use × Key) :=
  [(.split, k), (.potential, 1 :: k), (.split, 0 :: k), (.simulate, 1 :: 0 :: k)]

/-- Start-up with (mcmc/sampler.py 40-42) or without a draw of the initial value from the prior. -/
def withPrior (priorSample : Bool) (uses : Key → List (Use × Key)) (k : Key) : List (Use × Key) :=
  if priorSample then [(.split, k), (.priorSample, 1 :: k)] ++ uses (0 :: k) else uses k

/-- Uses at start-up. mcmc/sampler.py 40-42: with `priorSample` (no initial state and a scenario that can sample its prior)
one split and one draw; then one split and one potential evaluation (standard_mcmc.py 39-40; for
`Underdamped` lines 95-101, a split in three whose third key is not used: both potentials get the second). -/
def startupUses (priorSample : Bool) (k : Key) : List (Use × Key) :=
  if priorSample then [(.split, k), (.priorSample, 1 :: k), (.split, 0 :: k), (.potential, 1 :: 0 :: k)]
  else [(.split, k), (.potential, 1 :: k)]

/-- The key with which the first update starts. -/
def startupNext (priorSample : Bool) (k : Key) : Key := if priorSample then 0 :: 0 :: k else 0 :: k

/-- All uses in `m` updates, each starting with the key left by the previous one. -/
def runUses (uses : Key → List (Use × Key)) (next : Key → Key) : ℕ → Key → List (Use × Key)
  | 0, _ => []
  | m + 1, k => uses k ++ runUses uses next m (next k)

end Mocat.Keys
