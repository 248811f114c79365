import Verif.Model.Backward
/-!
# Model of `mocat/src/ssm/online_smoothing.py` 177-388

The rejection stitching (21-174) is `Backward.rejection` and `Backward.full` with `m = N = n`.
-/
namespace Mocat.Online
open Mocat Mocat.Metrics Mocat.Filtering Mocat.Backward

variable {X K : Type} {n dy : ℕ}

/-- The smoother's particles cdict. `logWeight` is the latest log weight (`jnp.atleast_2d(log_weight)[-1]`); `marginal` is `marginal_filter`. The `ess` entry, which the smoothers write but do not read,
is left out. -/
structure Smoother (X : Type) (n dy : ℕ) where
  value : List (Fin n → X)
  logWeight : Fin n → Fl
  t : List ℝ
  y : List (Obs dy)
  evals : List ℕ
  marginal : Particles X n dy

/-- Filter particles handed to the smoother (online_smoothing.py 222-223, 298-307: missing entries are filled in on the first call). -/
def ofParticles (p : Particles X n dy) : Option (Smoother X n dy) :=
  match p.y, p.logWeight.getLast? with
  | .rows y, some lw => some { value := p.value, logWeight := lw, t := p.t, y := y, evals := [0], marginal := p }
  | _, _ => none

/-- `a[i]` with a static index: beyond the end it is clamped to the last entry. -/
def clampGet {α : Type*} (l : List α) (i : ℕ) : Option α := if i < l.length then l[i]? else l.getLast?

/-- What stays the same between calls: generators, model transition potential, filter, `lag` and the rejection parameters. -/
structure Cfg (X K : Type) (n dy : ℕ) where
  env : Env K n
  rand : Rand K n n
  trans : X → ℝ → X → ℝ → ℝ
  filter : Filter X K dy
  lag : ℕ
  thr : ℝ
  maxRej : ℤ
  initBound : ℝ
  inflation : ℝ

/-- online_smoothing.py 188-206: the indices of the recent trajectories, and the number of transition evaluations. `x0` are the last values of the early block, `r0`, `r1` the first two of the recent one. -/
noncomputable def stitchInds [NeZero n] (c : Cfg X K n dy) (x0 r0 r1 : Fin n → X) (lw : Fin n → Fl) (t t' : ℝ) (key : K) : (Fin n → Fin n) × ℕ :=
  let w := fun j => Fl.add (lw j) (Fl.fin (c.trans (r0 j) t (r1 j) t'))
  let pot := fun i j => c.trans (x0 i) t (r1 j) t'
  if 0 < c.maxRej then rejection c.rand w pot c.initBound c.inflation c.maxRej key
  else (full c.rand w pot key, n ^ 2)

/-- online_smoothing.py 177-208, `fixed_lag_stitching`. -/
noncomputable def fixedLagStitching [NeZero n] (c : Cfg X K n dy) (early : List (Fin n → X)) (t : ℝ) (recent : List (Fin n → X)) (lw : Fin n → Fl) (t' : ℝ) (key : K) :
    Option (List (Fin n → X) × ℕ) := do
  let x0 ← early.getLast?
  let r0 ← recent[0]?
  let r1 ← clampGet recent 1
  let out := stitchInds c x0 r0 r1 lw t t' key
  some (early ++ (recent.drop 1).map (fun v => v ∘ out.1), out.2)

/-- online_smoothing.py 211-281, `propagate_particle_smoother_pf`. -/
noncomputable def propagatePf [NeZero n] (c : Cfg X K n dy) (s : Smoother X n dy) (yNew : Obs dy) (tNew : ℝ) (key : K) : Option (Smoother X n dy) := do
  let val := open Classical in if Fl.lt (essLogWeight s.logWeight) (.fin (n - 1e-3)) then s.value.map (fun v => v ∘ c.env.categorical key s.logWeight) else s.value
  let xPrev ← val.getLast?
  let tPrev ← s.t.getLast?
  let keys := c.env.splitN n key
  let xNew := fun i => c.filter.proposalSample (xPrev i) tPrev yNew tNew (keys i)
  let lw := fun i => c.filter.intermediateLogWeight (xPrev i) tPrev (xNew i) yNew tNew
  let val := val ++ [xNew]
  let ts := s.t ++ [tNew]
  let ys := s.y ++ [yNew]
  let lenT := ts.length
  if c.lag + 1 ≤ lenT then do
    let tt ← ts[lenT - c.lag - 1]?
    let t' ← clampGet ts (lenT - c.lag)
    let out ← fixedLagStitching c (val.take (lenT - c.lag)) tt (val.drop (lenT - c.lag - 1)) lw t' key
    some { s with value := out.1, logWeight := fun _ => .fin 0, t := ts, y := ys, evals := s.evals ++ [out.2] }
  else some { s with value := val, logWeight := lw, t := ts, y := ys, evals := s.evals ++ [0] }

/-- `marginal_filter[k:]` as backward simulation reads it. -/
def marginalsFrom (p : Particles X n dy) (k : ℕ) : Option (Marginals X n) := do
  let x ← p.value.getLast?
  let lw ← p.logWeight.getLast?
  let t ← p.t.getLast?
  some { value := fun i => p.value.getD (k + i) x, logWeight := fun i => p.logWeight.getD (k + i) lw, t := fun i => p.t.getD (k + i) t }

/-- `backward_simulation(ssm_scenario, marginal_filter[k:], key, n, ...)` (online_smoothing.py 331-351). -/
noncomputable def backSim [NeZero n] (c : Cfg X K n dy) (p : Particles X n dy) (k : ℕ) (key : K) : Option (List (Fin n → X) × List ℕ) := do
  let mg ← marginalsFrom p k
  let T := p.value.length - k
  some (backwardSimulation c.rand c.trans mg T c.maxRej c.initBound c.inflation fun i => if h : i < T then c.env.splitN T key ⟨i, h⟩ else key)

/-- online_smoothing.py 284-375, `propagate_particle_smoother_bs`. -/
noncomputable def propagateBs [NeZero n] (c : Cfg X K n dy) (s : Smoother X n dy) (yNew : Obs dy) (tNew : ℝ) (key : K) : Option (Smoother X n dy) := do
  let keys := c.env.splitN 4 key
  let mf ← propagate c.env c.filter c.thr false s.marginal yNew tNew (keys 1)
  let ts := s.t ++ [tNew]
  let ys := s.y ++ [yNew]
  let lenT := ts.length
  if c.lag + 1 ≤ lenT then do
    let tt ← ts[lenT - c.lag - 1]?
    let t' ← clampGet ts (lenT - c.lag)
    let back ← backSim c mf (lenT - c.lag - 1) (keys 2)
    let out ← fixedLagStitching c (s.value.take (lenT - c.lag)) tt back.1 (fun _ => .fin 0) t' key
    some { value := out.1, logWeight := fun _ => .fin 0, t := ts, y := ys, evals := s.evals ++ [out.2 + back.2.sum], marginal := mf }
  else do
    let back ← backSim c mf 0 (keys 2)
    some { value := back.1, logWeight := fun _ => .fin 0, t := ts, y := ys, evals := s.evals ++ [back.2.sum], marginal := mf }

/-- online_smoothing.py 378-400, `propagate_particle_smoother` -/
noncomputable def propagateSmoother [NeZero n] (backward : Bool) (c : Cfg X K n dy) (s : Smoother X n dy) (yNew : Obs dy) (tNew : ℝ) (key : K) : Option (Smoother X n dy) :=
  if backward then propagateBs c s yNew tNew key else propagatePf c s yNew tNew key

/-- Successive calls. -/
noncomputable def calls [NeZero n] (backward : Bool) (c : Cfg X K n dy) (s : Smoother X n dy) : List (Obs dy × ℝ × K) → Option (Smoother X n dy)
  | [] => some s
  | (y, t, k) :: os => (propagateSmoother backward c s y t k).bind fun s' => calls backward c s' os

end Mocat.Online
