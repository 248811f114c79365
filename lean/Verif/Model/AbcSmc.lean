import Verif.Model.Abc
/-!
# Model of `mocat/src/abc/smc.py`

Distances of simulated data are finite reals here. An ensemble of `n` particles is a function on `Fin n`: the rows of the stacked cdict.
-/
namespace Mocat.AbcSmc
open Mocat Mocat.Abc

/-- The attributes of a particle that the inner ABC-MCMC sampler writes. -/
@[ext] structure Mc (X D : Type*) where
  value : X
  prior : Fl
  data : D
  distance : ℝ
  alpha : ℝ

/-- One row of the ensemble state (smc.py 44-79, 228-246). -/
@[ext] structure Particle (X D : Type*) where
  mc : Mc X D
  threshold : Fl
  logWeight : Fl
  ess : Fl

/-- `extra`: key, `iter`, `parameters.threshold`, the other parameters (`π`) and `alpha_mean`. -/
structure Extra (K π : Type*) where
  key : K
  iter : ℕ
  threshold : Fl
  params : π
  alphaMean : Fl

variable {K π X D : Type*} {n d : ℕ}

abbrev Ensemble (n : ℕ) (X D : Type*) := Fin n → Particle X D

/-! ## Configuration -/

/-- smc.py 25-42: the attributes `threshold_schedule` (`none`: not assigned yet; `some none`: assigned `None`, that is, adaptive) and `max_iter`. -/
structure Config where
  schedule : Option (Option (List ℝ))
  maxIter : ℤ

/-- smc.py 33-42, assignment of `threshold_schedule`. The result `none` is an error: `len(None)` raises a `TypeError` in line 36. -/
def Config.setSchedule (c : Config) (value : Option (List ℝ)) : Option Config :=
  match value with
  | none => match c.schedule with
    | none => some { c with schedule := some none }
    | some none => none
    | some (some l) => some { schedule := some none, maxIter := if c.maxIter = l.length then 10000 else c.maxIter }
  | some l => some { schedule := some (some l), maxIter := l.length }

/-- smc.py 25-31, construction. -/
def Config.init (schedule : Option (List ℝ)) (maxIter : ℤ) : Option Config :=
  Config.setSchedule { schedule := none, maxIter := maxIter } schedule

/-- smc.py 103-126: settings. -/
structure Settings where
  mcmcSteps : ℕ
  essThresholdRetain : ℝ
  essThresholdResample : ℝ
  terminationAlpha : ℝ

/-- The inner ABC-MCMC sampler (smc.py 114-122): its update. Its `extra` carries the threshold and the other parameters. -/
structure Kernel (K π X D : Type*) where
  update : Mc X D → Mcmc.Extra K (Fl × π) → Mc X D × Mcmc.Extra K (Fl × π)

/-- The default inner sampler: `RandomWalkABC` with `Metropolis` (abc/mcmc.py 40-76), whose other parameter is the stepsize, on a scenario whose
distances are finite (`sc.distance y` is `Fl.fin _`). -/
noncomputable def rwKernel (split : K → K × K) (split4 : Split4 K) (normal : K → Fin d → ℝ) (uniform : K → ℝ)
    (sc : Abc.Scenario K (Fin d → ℝ) D) : Kernel K (Fin d → ℝ) (Fin d → ℝ) D where
  update m e :=
    let r := Mcmc.update (randomWalkABC split split4 normal sc) (Mcmc.metropolis split uniform)
      ⟨⟨m.value, m.prior, m.data, Fl.fin m.distance, e.params.2⟩, Fl.fin m.alpha, 0⟩
      ⟨e.key, e.iter, ⟨e.params.1, e.params.2, fun _ => 0, fun _ => 0⟩⟩
    (⟨r.1.payload.value, r.1.payload.prior, r.1.payload.data, Mcmc.flToReal r.1.payload.distance, Mcmc.flToReal r.1.alpha⟩,
     ⟨r.2.key, r.2.iter, (r.2.params.threshold, r.2.params.stepsize)⟩)

/-- `threshold_schedule[i]`: a `jnp` array indexed with an integer; out of range gives the last entry. -/
def scheduleAt (l : List ℝ) (i : ℕ) : ℝ := l.getD (min i (l.length - 1)) 0

/-- smc.py 97: `jnp.cov` of one coordinate over the ensemble. -/
noncomputable def sampleVar (v : Fin n → ℝ) : ℝ :=
  (∑ i, (v i - (∑ j, v j) / n) ^ 2) / ((n : ℝ) - 1)

/-- smc.py 94-98, `adapt_stepsize_scaled_diag_cov`: the new stepsize, from the values of the ensemble. -/
noncomputable def scaledDiagCov (ens : Fin n → Mc (Fin d → ℝ) D) (_ : Fin d → ℝ) : Fin d → ℝ :=
  fun j => sampleVar (fun i => (ens i).value j) / d * (238 / 100) ^ 2

variable [NeZero n]

/-- smc.py 163-166, `next_threshold_adaptive`: `quantile(distance, retain * ess[0] / n)`; NaN if `ess` is NaN. -/
noncomputable def nextThresholdAdaptive (p : Settings) (ens : Ensemble n X D) : Fl :=
  match (ens 0).ess with
  | .fin e => Fl.fin (quantile (fun i => (ens i).mc.distance) (p.essThresholdRetain * e / n))
  | _ => Fl.nan

/-- smc.py 33-42, `next_threshold` as set by the schedule. -/
noncomputable def nextThreshold (c : Config) (p : Settings) (ens : Ensemble n X D) (iter : ℕ) : Fl :=
  match c.schedule with
  | some (some l) => Fl.fin (scheduleAt l iter)
  | _ => nextThresholdAdaptive p ens

open Classical in
/-- smc.py 168-173, `log_weight`: `where(distance > threshold, -inf, 0)` -/
noncomputable def logWeight (threshold : Fl) (distance : ℝ) : Fl := if Fl.lt threshold (Fl.fin distance) then Fl.ninf else Fl.fin 0

open Classical in
/-- smc.py 240-241: `(alpha * alive).sum() / alive.sum()`; `0 / 0` is NaN. -/
noncomputable def alphaMean (alpha : Fin n → ℝ) (weights : Fin n → Fl) : Fl :=
  let alive := Finset.univ.filter fun i => Fl.lt Fl.ninf (weights i)
  if alive.card = 0 then Fl.nan else Fl.fin ((∑ i, alpha i * if Fl.lt Fl.ninf (weights i) then 1 else 0) / alive.card)

/-- smc.py 228-246, `adapt`. `prevWeights` are `previous_ensemble_state.log_weight` at the time line 240 reads them; `none`: the two ensemble arguments are the same
object (start-up, lines 147-148), so that the new weights are read. `adaptParams` is `adapt_mcmc_params`. -/
noncomputable def adapt (c : Config) (p : Settings) (adaptParams : (Fin n → Mc X D) → π → π) (prevWeights : Option (Fin n → Fl))
    (new : Ensemble n X D) (e : Extra K π) : Ensemble n X D × Extra K π :=
  let next := nextThreshold c p new e.iter
  let lw := fun i => logWeight next (new i).mc.distance
  let ess := Metrics.essLogWeight lw
  let am := alphaMean (fun i => (new i).mc.alpha) (prevWeights.getD lw)
  (fun i => { new i with threshold := next, logWeight := lw i, ess := ess },
   { e with threshold := next, params := adaptParams (fun i => (new i).mc) e.params, alphaMean := am })

/-- transport/smc.py 61-71, `resample` -/
def resample (categorical : K → (Fin n → Fl) → Fin n → Fin n) (ens : Ensemble n X D) (key : K) : Ensemble n X D :=
  let indices := categorical key fun i => (ens i).logWeight
  fun i => { ens (indices i) with logWeight := Fl.fin 0, ess := Fl.fin n }

/-- smc.py 152-155, `resample_criterion`: `ess[0] < resample * n` -/
def resampleCriterion (p : Settings) (ens : Ensemble n X D) : Prop :=
  Fl.lt (ens 0).ess (Fl.fin (p.essThresholdResample * n))

/-- smc.py 184-208 and 175-182, `forward_proposal_non_zero_weight` with `clean_mcmc_chain`. The inner start-up sets `alpha = 1` and leaves all else
(the state has all attributes, the parameters are set). With `mcmc_steps = 0` the code raises an error. -/
noncomputable def forwardLive (kernel : Kernel K π X D) (p : Settings) (m : Mc X D) (e : Extra K π) (key : K) : Mc X D :=
  let start : Mc X D × Mcmc.Extra K (Fl × π) := ({ m with alpha := 1 }, ⟨key, e.iter, (e.threshold, e.params)⟩)
  let r := scan (fun (c : Mc X D × Mcmc.Extra K (Fl × π)) (_ : Unit) => let new := kernel.update c.1 c.2; (new, new.1)) start
    (List.replicate p.mcmcSteps ())
  { r.2.getLastD start.1 with alpha := (r.2.map Mc.alpha).sum / r.2.length }

open Classical in
/-- smc.py 210-219, `forward_proposal`: particles of zero weight are left alone. -/
noncomputable def forwardProposal (kernel : Kernel K π X D) (p : Settings) (particle : Particle X D) (e : Extra K π) (key : K) :
    Particle X D :=
  if Fl.lt Fl.ninf particle.logWeight then { particle with mc := forwardLive kernel p particle.mc e key } else particle

open Classical in
/-- The ensemble `update` moves: resampled or not (transport/smc.py 77-89). -/
noncomputable def resampled (splitN : K → Fin (n + 2) → K) (categorical : K → (Fin n → Fl) → Fin n → Fin n) (p : Settings)
    (ens : Ensemble n X D) (e : Extra K π) : Ensemble n X D :=
  if resampleCriterion p ens then resample categorical ens (splitN e.key (Fin.last n).castSucc) else ens

/-- transport/smc.py 73-99, `update`, with the methods above. -/
noncomputable def update (splitN : K → Fin (n + 2) → K) (categorical : K → (Fin n → Fl) → Fin n → Fin n) (kernel : Kernel K π X D)
    (c : Config) (p : Settings) (adaptParams : (Fin n → Mc X D) → π → π) (ens : Ensemble n X D) (e : Extra K π) :
    Ensemble n X D × Extra K π :=
  let keys := splitN e.key
  let e2 := { e with iter := e.iter + 1, key := keys (Fin.last (n + 1)) }
  let moved := resampled splitN categorical p ens e
  let advanced := fun i : Fin n => forwardProposal kernel p (moved i) e2 (keys i.castSucc.castSucc)
  adapt c p adaptParams (some fun i => (moved i).logWeight) advanced e2

/-- smc.py 44-79 and 128-149, start-up from the initial particles (values drawn from the prior, data simulated at them). `initialThreshold` of
lines 68-72 is only used by the inner start-up, which ignores it. -/
noncomputable def startup (c : Config) (p : Settings) (adaptParams : (Fin n → Mc X D) → π → π) (init : Fin n → Mc X D)
    (key : K) (params : π) : Ensemble n X D × Extra K π :=
  let thr := match c.schedule with
    | some (some l) => Fl.fin (scheduleAt l 0)
    | _ => Fl.pinf
  let ens : Ensemble n X D := fun i => { mc := { init i with alpha := 1 }, threshold := thr, logWeight := Fl.fin 0, ess := Fl.fin n }
  adapt c p adaptParams none ens { key := key, iter := 0, threshold := thr, params := params, alphaMean := Fl.nan }

/-- transport/sampler.py 22-28 and abc/smc.py 54-67: the initial particles when no initial state is given and the scenario can sample its prior, and the key that is left. `splitM key i` is the `i`-th key of
`random.split(key, m)`; the number of keys does not matter in the model of keys. -/
noncomputable def initialDraw (split : K → K × K) (splitM : K → ℕ → K) (sc : Abc.Scenario K X D) (n : ℕ) (key : K) : (Fin n → Mc X D) × K :=
  let keys := split key
  let x := fun i : Fin n => sc.priorSample (splitM keys.2 i)
  let prior := fun i : Fin n => sc.priorPotential (x i) (splitM keys.1 i)
  let key2 := splitM keys.1 n
  let data := fun i : Fin n => sc.likelihoodSample (x i) (splitM key2 i)
  (fun i => ⟨x i, prior i, data i, Mcmc.flToReal (sc.distance (data i)), 1⟩, splitM key2 n)

/-- `a ≤ b` on numbers; false as soon as one operand is NaN. -/
def le : Fl → ℝ → Prop
  | .fin x, y => x ≤ y
  | .ninf, _ => True
  | _, _ => False

open Classical in
/-- smc.py 157-161, `termination_criterion` -/
noncomputable def terminated (c : Config) (p : Settings) (_ : Ensemble n X D) (e : Extra K π) : Bool :=
  decide (le e.alphaMean p.terminationAlpha) || decide (c.maxIter ≤ (e.iter : ℤ))

/-- sample.py 110-148, `run`. -/
noncomputable def run (splitN : K → Fin (n + 2) → K) (categorical : K → (Fin n → Fl) → Fin n → Fin n) (kernel : Kernel K π X D)
    (c : Config) (p : Settings) (adaptParams : (Fin n → Mc X D) → π → π) (init : Fin n → Mc X D) (key : K) (params : π) :
    List (Ensemble n X D) :=
  Run.run (update splitN categorical kernel c p adaptParams) (terminated c p) c.maxIter (startup c p adaptParams init key params)

end Mocat.AbcSmc
