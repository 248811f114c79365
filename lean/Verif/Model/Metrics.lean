import Verif.Base.Fl
import Mathlib.Analysis.Fourier.ZMod
/-!
# Model of `mocat/src/metrics.py`
-/
namespace Mocat.Metrics
open Mocat

/-! ## Effective sample size of weights -/

/-- `exp` of a log weight as a real; `-inf` gives 0. (`nan` and `+inf` are handled separately in `logsumexp`.) -/
noncomputable def wexp : Fl → ℝ
  | .fin x => Real.exp x
  | _ => 0

/-- `log` of a non-negative sum -/
noncomputable def flLog (x : ℝ) : Fl :=
  open Classical in if x = 0 then Fl.ninf else Fl.fin (Real.log x)

/-- Library: `jax.scipy.special.logsumexp`. -/
noncomputable def logsumexp {n : ℕ} (v : Fin n → Fl) : Fl :=
  open Classical in
  if ∃ i, v i = Fl.nan then Fl.nan
  else if ∃ i, v i = Fl.pinf then Fl.pinf
  else flLog (∑ i, wexp (v i))

/-- metrics.py 69-74, `log_ess_log_weight` -/
noncomputable def logEssLogWeight {n : ℕ} (v : Fin n → Fl) : Fl :=
  Fl.sub (Fl.mul (Fl.fin 2) (logsumexp v)) (logsumexp fun i => Fl.mul (Fl.fin 2) (v i))

/-- metrics.py 77-78, `ess_log_weight` -/
noncomputable def essLogWeight {n : ℕ} (v : Fin n → Fl) : Fl := Fl.exp (logEssLogWeight v)

/-! ## Autocorrelation -/

/-- metrics.py 29-33, `_next_pow_two`: the loop, started at `i`. -/
def nextPowTwoFrom (n i : ℕ) : ℕ :=
  if 0 < i ∧ i < n then nextPowTwoFrom n (i * 2) else i
  termination_by n - i

/-- metrics.py 29-33, `_next_pow_two` -/
def nextPowTwo (n : ℕ) : ℕ := nextPowTwoFrom n 1

/-- `jnp.fft.fft(vals, n=N)`: the series is cut or zero-padded to length `N`. -/
noncomputable def padded (N : ℕ) (vals : List ℝ) (j : ZMod N) : ℂ := ((vals.getD j.val 0 : ℝ) : ℂ)

/-- `jnp.mean` -/
noncomputable def mean (vals : List ℝ) : ℝ := vals.sum / vals.length

/-- `max_lag_eval = min(max_lag_eval, len(vals))` (metrics.py 39) -/
def lagCount (vals : List ℝ) (maxLagEval : ℕ) : ℕ := min maxLagEval vals.length

theorem nextPowTwoFrom_pos (n i : ℕ) (h : 0 < i) : 0 < nextPowTwoFrom n i := by
  unfold nextPowTwoFrom
  split_ifs with hc
  · exact nextPowTwoFrom_pos n (i * 2) (by omega)
  · exact h
  termination_by n - i

instance (n : ℕ) : NeZero (2 * nextPowTwo n) := ⟨by have := nextPowTwoFrom_pos n 1 one_pos; unfold nextPowTwo; omega⟩

/-- metrics.py 41-42: the array `acf` before normalisation, at lag `k`. Library: `fft` and `ifft` are the discrete Fourier
transform and its inverse. -/
noncomputable def acfRaw (vals : List ℝ) (maxLagEval : ℕ) (k : ℕ) : ℝ :=
  let n := nextPowTwo (lagCount vals maxLagEval)
  let f := ZMod.dft (padded (2 * n) (vals.map fun x => x - mean vals))
  (ZMod.dft.symm (fun m => f m * starRingEnd ℂ (f m)) (k : ZMod (2 * n))).re

/-- metrics.py 36-43, `autocorrelation` -/
noncomputable def autocorrelation (vals : List ℝ) (maxLagEval : ℕ) : List ℝ :=
  let acf := (List.range (lagCount vals maxLagEval)).map (acfRaw vals maxLagEval)
  acf.map fun a => a / acf.headD 0

/-! ## Integrated autocorrelation time -/

/-- `jnp.cumsum`, continued from `acc`. -/
def cumsumFrom (acc : ℝ) : List ℝ → List ℝ
  | [] => []
  | a :: l => (acc + a) :: cumsumFrom (acc + a) l

/-- metrics.py 50: `1 + 2 * jnp.cumsum(autocorr[1:])` -/
def iatsAll (autocorr : List ℝ) : List ℝ := (cumsumFrom 0 autocorr.tail).map fun s => 1 + 2 * s

/-- `jnp.argmax` of a boolean array: first `True`, else 0. -/
def argmaxBool (l : List Bool) : ℕ := (l.findIdx? id).getD 0

/-- metrics.py 53-56: the default window. -/
noncomputable def defaultLag (iats : List ℝ) : ℕ :=
  open Classical in
  argmaxBool ((List.range iats.length).map fun j => decide ((((j + 1 : ℕ) : ℝ) - 5 * iats.getD j 0) > 0))

/-- Indexing an array with a traced or Python integer: out-of-range indices are clamped to the last element (for a
`jnp` array); `none` on an empty array (the code raises an error). -/
def clampIndex (l : List ℝ) (i : ℕ) : Option ℝ := l[min i (l.length - 1)]?

/-- metrics.py 46-58, `integrated_autocorrelation_time`, from the autocorrelations. -/
noncomputable def iatFrom (autocorr : List ℝ) (maxLagIat : Option ℕ) : Option ℝ :=
  let iats := iatsAll autocorr
  clampIndex iats (maxLagIat.getD (defaultLag iats))

/-- metrics.py 61-66, `ess_autocorrelation` -/
noncomputable def essAutocorrelation (vals : List ℝ) (maxLagIat : Option ℕ) (maxLagEval : ℕ) : Option ℝ :=
  (iatFrom (autocorrelation vals maxLagEval) maxLagIat).map fun iat => vals.length / iat

/-! ## Squared jumping distance -/

/-- metrics.py 81-85, `squared_jumping_distance`, one coordinate. -/
noncomputable def squaredJumpingDistance (vals : List ℝ) : ℝ :=
  mean ((vals.tail.zipWith (fun a b => a - b) vals.dropLast).map fun s => s ^ 2)

end Mocat.Metrics
