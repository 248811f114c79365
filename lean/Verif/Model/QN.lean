import Verif.Model.StandardMcmc
import Verif.Model.Bfgs
/-!
# Model of `mocat/src/mcmc/qn_underdamped.py` (`QNUnderdamped`)
-/
namespace Mocat.QN
open Mocat Mocat.Mcmc Mocat.Bfgs

variable {K : Type*} {d : ℕ}

/-- The `memory` cdict: five arrays of `m` rows, the diagonal and the factors `ps, qs, us, ts` (one entry per pair of
successive rows). qn_underdamped.py 77-89, 129. -/
structure Memory (d : ℕ) where
  value : List (Vec d)
  priorPotential : List Fl
  gradPriorPotential : List (Vec d)
  likelihoodPotential : List Fl
  gradLikelihoodPotential : List (Vec d)
  diag : Diag d
  factors : List (PQUT d)

/-- `jnp.append(x[1:], new)`: drop the first row, append the new one. qn_underdamped.py 114-120. -/
def push {α : Type*} (x : List α) (new : α) : List α := x.tail ++ [new]

/-- qn_underdamped.py 93-104: rows passed on to the BFGS routine, in memory order (`sort_bfgs = False`, `argsort = none`) or
gathered by `jnp.argsort` of the potentials (library, a parameter). -/
def valsGrads (argsort : Option (List Fl → List ℕ)) (value : List (Vec d)) (potential : List Fl) (grad : List (Vec d)) :
    List (Vec d × Vec d) :=
  match argsort with
  | none => value.zip grad
  | some f => (f potential).map fun i => (value.getD i 0, grad.getD i 0)

open Classical in
/-- qn_underdamped.py 106-133, `update_memory`. `r` is `self.parameters.pos_def_r` (`none` is `-inf`). -/
noncomputable def updateMemory (argsort : Option (List Fl → List ℕ)) (r : Option ℝ) (mem : Memory d) (value : Vec d)
    (priorPotential : Fl) (gradPrior : Vec d) (likelihoodPotential : Fl) (gradLik : Vec d) (temperature : ℝ) : Memory d :=
  let value' := push mem.value value
  let prior' := push mem.priorPotential priorPotential
  let gradPrior' := push mem.gradPriorPotential gradPrior
  let lik' := push mem.likelihoodPotential likelihoodPotential
  let gradLik' := push mem.gradLikelihoodPotential gradLik
  let potential := List.zipWith (fun a b => Fl.add a (Fl.mul (Fl.fin temperature) b)) prior' lik'
  let grad := List.zipWith (fun a b => a + temperature • b) gradPrior' gradLik'
  let flags := prior'.dropLast.map fun p => decide (Fl.lt Fl.ninf p)
  { value := value', priorPotential := prior', gradPriorPotential := gradPrior', likelihoodPotential := lik'
    gradLikelihoodPotential := gradLik', diag := mem.diag
    factors := sqrtPqut mem.diag r (pairs (valsGrads argsort value' potential grad) flags) }

/-- qn_underdamped.py 77-89: the memory made by `startup` when there is none: `m` rows of zeros with potentials `-inf`, then
one more such row is pushed. -/
noncomputable def initMemory (argsort : Option (List Fl → List ℕ)) (r : Option ℝ) (m : ℕ) (diag : Diag d)
    (temperature : ℝ) : Memory d :=
  let mem : Memory d :=
    { value := List.replicate m 0, priorPotential := List.replicate m Fl.ninf, gradPriorPotential := List.replicate m 0
      likelihoodPotential := List.replicate m Fl.ninf, gradLikelihoodPotential := List.replicate m 0
      diag := diag, factors := [] }
  updateMemory argsort r mem 0 Fl.ninf 0 Fl.ninf 0 temperature

/-- The `(p, q)` and `(u, t)` rows of the memory. -/
def Memory.pq (mem : Memory d) : List (Vec d × Vec d) := mem.factors.map fun o => (o.p, o.q)
def Memory.ut (mem : Memory d) : List (Vec d × Vec d) := mem.factors.map fun o => (o.u, o.t)

/-- State attributes of a quasi-Newton run: those of the leapfrog and `memory`. -/
structure QNState (d : ℕ) where
  lf : LfState d
  memory : Memory d

/-- `parameters` in `extra` (qn_underdamped.py 38-44) read by the update: stepsize and friction, `max_val`. -/
structure QNParams where
  ud : UDParams
  maxVal : ℝ

/-- qn_underdamped.py 238-261, `leapfrog_step`. -/
noncomputable def bfgsLeapfrogStep (prior lik : ValGrad K d) (stepsize temperature : ℝ) (pq : List (Vec d × Vec d))
    (invDiag : Diag d) (s : LfState d) (key : K) : LfState d × (LfState d × List (Fin d → ℝ)) :=
  let pHalf : Vec d := fun i => s.momenta i - stepsize / 2 * s.gradPotential i
  let minvPHalf := sqrtProd pq (sqrtTransposeProd pq pHalf invDiag) invDiag
  let value := fun i => s.value i + stepsize * minvPHalf i
  let pr := prior value key
  let li := lik value key
  let gradPotential := fun i => pr.2 i + temperature * li.2 i
  let momenta := fun i => pHalf i - stepsize / 2 * gradPotential i
  let new : LfState d :=
    { value := value, momenta := momenta
      priorPotential := pr.1, gradPriorPotential := pr.2
      likelihoodPotential := li.1, gradLikelihoodPotential := li.2
      potential := pr.1 + temperature * li.1, gradPotential := gradPotential }
  (new, (new, [pHalf, momenta]))

/-- qn_underdamped.py 226-282, `_bfgs_leapfrog` / `bfgs_leapfrog`; one step per key. -/
noncomputable def bfgsLeapfrog (prior lik : ValGrad K d) (s : LfState d) (stepsize : ℝ) (keys : List K)
    (pq : List (Vec d × Vec d)) (invDiag : Diag d) (temperature : ℝ) : LfChain d :=
  let r := scan (bfgsLeapfrogStep prior lik stepsize temperature pq invDiag) s keys
  { states := s :: r.2.map Prod.fst
    momenta := s.momenta :: (r.2.map Prod.snd).flatten }

/-- qn_underdamped.py 156-164: negation and OU refresh of the momenta with preconditioned noise. -/
noncomputable def refresh (p : UDParams) (mem : Memory d) (momenta ξ : Vec d) : Vec d :=
  refreshMomenta p momenta (sqrtProd mem.ut ξ mem.diag)

/-- qn_underdamped.py 205-213: momentum potential `0.5 * square(D^T p).sum()`. -/
noncomputable def momentaPotential (mem : Memory d) (p : Vec d) : ℝ :=
  0.5 * ∑ i, (sqrtTransposeProd mem.pq p mem.diag.inv) i ^ 2

/-- qn_underdamped.py 220-222: some coordinate of value or momenta exceeds `max_val`. -/
def exceeds (maxVal : ℝ) (s : LfState d) : Prop := (∃ i, maxVal < |s.value i|) ∨ ∃ i, maxVal < |s.momenta i|

open Classical in
/-- qn_underdamped.py 135-223, `QNUnderdamped`. `split` is `random.split(key, 2)` (first component: row -1, kept; second:
row -2, used for noise); `splitN key L` are the last row (kept) and the first `L` rows of
`random.split(key, leapfrog_steps + 1)`. `leapfrog_steps` and `pos_def_r` are read from the sampler itself. -/
noncomputable def qnUnderdamped (split : K → K × K) (splitN : K → ℕ → K × List K) (normal : K → Vec d)
    (argsort : Option (List Fl → List ℕ)) (prior lik : ValGrad K d) (temperature : ℝ) (leapfrogSteps : ℕ)
    (r : Option ℝ) : Sampler K (QNState d) QNParams where
  always s e :=
    let ks := split e.key
    let l := s.payload.lf
    let mem := updateMemory argsort r s.payload.memory l.value (Fl.fin l.priorPotential) l.gradPriorPotential
      (Fl.fin l.likelihoodPotential) l.gradLikelihoodPotential temperature
    ({ s with payload := { lf := { l with momenta := refresh e.params.ud mem l.momenta (normal ks.2) }, memory := mem } },
     { e with key := ks.1 })
  proposal s e :=
    let ks := splitN e.key leapfrogSteps
    let mem := s.payload.memory
    let chain := bfgsLeapfrog prior lik s.payload.lf e.params.ud.stepsize ks.2 mem.pq mem.diag.inv temperature
    let last := chain.last s.payload.lf
    ({ s with payload := { s.payload with lf := { last with
        momenta := fun i => - last.momenta i
        potential := last.priorPotential + temperature * last.likelihoodPotential
        gradPotential := fun i => last.gradPriorPotential i + temperature * last.gradLikelihoodPotential i } } },
     { e with key := ks.1 })
  acceptance rs re ps _ :=
    let mem := rs.payload.memory
    let preMin := Fl.exp (Fl.fin (- ps.payload.lf.potential + rs.payload.lf.potential
      - momentaPotential mem ps.payload.lf.momenta + momentaPotential mem rs.payload.lf.momenta))
    let alpha := Fl.minimum (Fl.fin 1) preMin
    if exceeds re.params.maxVal ps.payload.lf then Fl.fin 0 else alpha

end Mocat.QN
