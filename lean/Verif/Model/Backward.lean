import Verif.Model.Filtering
/-!
# Model of `mocat/src/ssm/backward.py` and of the stitching in `mocat/src/ssm/online_smoothing.py` 21-208

The rejection samplers of the two files are the same code up to names: for each of `m` target particles an index among `N` candidates is drawn. `dens i j` is the conditional density of candidate `j` for
particle `i`. In backward.py the state holds the candidate's value `x0_all[j]` where the model (like online_smoothing.py) holds the index `j`.
-/
namespace Mocat.Backward
open Mocat Mocat.Metrics Mocat.Filtering

variable {X K : Type} {m N n dy : ℕ}

/-- Library routines: `choice key lw` is `random.categorical(key, lw)`, `choices` the same with `shape=(m,)`, `uniform` is `random.uniform(key)`, `uniforms` the same with `shape=(m,)`. -/
structure Rand (K : Type) (m N : ℕ) where
  choice : K → (Fin N → Fl) → Fin N
  choices : K → (Fin N → Fl) → Fin m → Fin N
  uniform : K → ℝ
  uniforms : K → Fin m → ℝ
  split3 : K → K × K × K
  splitN : K → Fin m → K

/-- `u > dens / bound` (backward.py 70, 146). With a zero bound the quotient is NaN or `+inf` and the comparison is false. -/
def Rejects (u dens bound : ℝ) : Prop := bound ≠ 0 ∧ dens / bound < u

/-- The loop state (backward.py 151-156; online_smoothing.py 154-159). -/
structure RState (K : Type) (m N : ℕ) where
  notYet : Fin m → Bool
  idx : Fin m → Fin N
  bound : ℝ
  keys : Fin m → K
  iter : ℕ
  evals : ℕ

/-- `not_yet_accepted_arr.sum()` -/
def RState.pending (s : RState K m N) : ℕ := (Finset.univ.filter fun i => s.notYet i = true).card

/-- `jnp.max` of an array -/
noncomputable def maxOf [NeZero m] (f : Fin m → ℝ) : ℝ := Finset.univ.sup' ⟨0, Finset.mem_univ 0⟩ f

/-- backward.py 58-89, `rejection_proposal_single_cond` (online_smoothing.py 59-90): index, density evaluated, whether rejected, key. -/
noncomputable def proposalSingle (r : Rand K m N) (lw : Fin N → Fl) (dens : Fin m → Fin N → ℝ) (s : RState K m N) (i : Fin m) : Fin N × ℝ × Bool × K :=
  if s.notYet i then
    let (key, choiceKey, uniformKey) := r.split3 (s.keys i)
    let j := r.choice choiceKey lw
    let d := dens i j
    (j, d, open Classical in decide (Rejects (r.uniform uniformKey) d s.bound), key)
  else (s.idx i, 0, false, s.keys i)

/-- backward.py 92-124, `rejection_proposal_all` (online_smoothing.py 93-126). -/
noncomputable def proposalAll [NeZero m] (r : Rand K m N) (lw : Fin N → Fl) (dens : Fin m → Fin N → ℝ) (inflation : ℝ) (s : RState K m N) : RState K m N :=
  let mapped := proposalSingle r lw dens s
  let maxDens := maxOf fun i => (mapped i).2.1
  open Classical in
  let reset := decide (s.bound < maxDens)
  { notYet := fun i => if reset then true else (mapped i).2.2.1
    idx := fun i => (mapped i).1
    bound := if reset then maxDens * inflation else s.bound
    keys := fun i => (mapped i).2.2.2
    iter := s.iter + 1
    evals := s.evals + s.pending }

/-- backward.py 137-156: the state before the loop. -/
noncomputable def rejectionInit [NeZero m] (r : Rand K m N) (lw : Fin N → Fl) (dens : Fin m → Fin N → ℝ) (initBound inflation : ℝ) (key : K) : RState K m N :=
  let (k0, k1, k2) := r.split3 key
  let idx := r.choices k0 lw
  let d := fun i => dens i (idx i)
  let maxDens := maxOf d
  let bound := open Classical in if initBound < maxDens then maxDens * inflation else initBound
  { notYet := fun i => open Classical in decide (Rejects (r.uniforms k1 i) (d i) bound)
    idx := idx, bound := bound, keys := r.splitN k2, iter := 1, evals := m }

/-- The loop condition (backward.py 148): some particle is pending and fewer than `maximum_rejections` rounds have been made. -/
def continues (maxRej : ℤ) (s : RState K m N) : Bool := decide (0 < s.pending) && decide ((s.iter : ℤ) < maxRej)

/-- backward.py 148-156: the `while_loop`. -/
noncomputable def rejectionLoop [NeZero m] (r : Rand K m N) (lw : Fin N → Fl) (dens : Fin m → Fin N → ℝ) (inflation : ℝ) (maxRej : ℤ) (s : RState K m N) : RState K m N :=
  if continues maxRej s then rejectionLoop r lw dens inflation maxRej (proposalAll r lw dens inflation s) else s
  termination_by (maxRej - s.iter).toNat
  decreasing_by
    rename_i h
    simp only [continues, Bool.and_eq_true, decide_eq_true_eq] at h
    simp only [proposalAll]
    omega

/-- Log weights of the full conditional draw of one particle (backward.py 27-28; online_smoothing.py 28-29): candidate log weights minus transition potentials `pot j`. -/
noncomputable def fullLogWeight (lw : Fin N → Fl) (pot : Fin N → ℝ) : Fin N → Fl := fun j => Fl.sub (lw j) (Fl.fin (pot j))

/-- backward.py 127-171, `rejection_resampling` (online_smoothing.py 129-174, `rejection_stitching`): the indices drawn and the number of transition evaluations. `pot i j` is the transition
potential, and the density is its `exp(-·)`. -/
noncomputable def rejection [NeZero m] (r : Rand K m N) (lw : Fin N → Fl) (pot : Fin m → Fin N → ℝ) (initBound inflation : ℝ) (maxRej : ℤ) (key : K) : (Fin m → Fin N) × ℕ :=
  let dens := fun i j => Real.exp (-pot i j)
  let s := rejectionLoop r lw dens inflation maxRej (rejectionInit r lw dens initBound inflation key)
  (fun i => if s.notYet i then r.choice (s.keys i) (fullLogWeight lw (pot i)) else s.idx i, s.evals + N * s.pending)

/-- backward.py 32-40, `full_resampling` (online_smoothing.py 33-41, `full_stitch`): the indices drawn. -/
noncomputable def full (r : Rand K m N) (lw : Fin N → Fl) (pot : Fin m → Fin N → ℝ) (key : K) : Fin m → Fin N :=
  fun i => r.choice (r.splitN key i) (fullLogWeight lw (pot i))

/-! ## Backward simulation -/

/-- Filter output with `T` time points: values, times and log weights at each time index `< T`. -/
structure Marginals (X : Type) (N : ℕ) where
  value : ℕ → Fin N → X
  t : ℕ → ℝ
  logWeight : ℕ → Fin N → Fl

/-- One step back (backward.py 193-199, 230-233): particles at time index `ind` and the number of transition evaluations. With `maximum_rejections > 0` by rejection, else by full resampling
(backward.py 256-268; then the number reported is `n_pf * n_samps`, line 241). -/
noncomputable def backStep [NeZero m] (r : Rand K m N) (trans : X → ℝ → X → ℝ → ℝ) (p : Marginals X N) (maxRej : ℤ) (initBound inflation : ℝ) (tKeys : ℕ → K)
    (xNext : Fin m → X) (ind : ℕ) : (Fin m → X) × ℕ :=
  let pot := fun i j => trans (p.value ind j) (p.t ind) (xNext i) (p.t (ind + 1))
  if 0 < maxRej then
    let out := rejection r (p.logWeight ind) pot initBound inflation maxRej (tKeys ind)
    (fun i => p.value ind (out.1 i), out.2)
  else (fun i => p.value ind (full r (p.logWeight ind) pot (tKeys ind) i), N * m)

/-- backward.py 174-270, `backward_simulation`: `m = n_samps` trajectories (one ensemble per time) and the transition evaluations per time. `tKeys` is `random.split(random_key, T)`. -/
noncomputable def backwardSimulation [NeZero m] (r : Rand K m N) (trans : X → ℝ → X → ℝ → ℝ) (p : Marginals X N) (T : ℕ) (maxRej : ℤ) (initBound inflation : ℝ) (tKeys : ℕ → K) :
    List (Fin m → X) × List ℕ :=
  let final := fun i => p.value (T - 1) (r.choices (tKeys (T - 1)) (p.logWeight (T - 1)) i)
  let out := (scan (fun x ind =>
      let s := backStep r trans p maxRej initBound inflation tKeys x ind
      (s.1, s)) final ((List.range (T - 1)).reverse)).2
  ((out.map Prod.fst).reverse ++ [final], 0 :: (out.map Prod.snd).reverse)

/-- The arrays `value`, `t`, `log_weight` of a filter's output by time index (backward.py 182-184, 221-223); `none`: no time points. -/
def marginalsOf (p : Particles X N dy) : Option (Marginals X N) :=
  match p.value, p.t, p.logWeight with
  | v :: vs, t :: ts, l :: ls => some { value := fun s => (v :: vs).getD s v, t := fun s => (t :: ts).getD s t, logWeight := fun s => (l :: ls).getD s l }
  | _, _, _ => none

/-- backward.py 273-315, `forward_filtering_backward_simulation`: the filter (with `N = n_pf` particles) runs with the first of two keys, backward simulation of `m = n_samps` trajectories with the second. `split2` is
`random.split(key)` and `splitT T` is `random.split(key, T)`. The run times recorded (lines 309-313) are not modelled. -/
noncomputable def ffbsi [NeZero m] (split2 : K → K × K) (splitT : K → ℕ → K) (env : Env K N) (f : Filter X K dy) (r : Rand K m N) (trans : X → ℝ → X → ℝ → ℝ) (thr : ℝ)
    (ys : List (Obs dy)) (ts : List ℝ) (maxRej : ℤ) (initBound inflation : ℝ) (key : K) : Option (List (Fin m → X) × List ℕ) := do
  let (pfKey, bsiKey) := split2 key
  let p ← run env f thr ys ts pfKey
  let mp ← marginalsOf p
  some (backwardSimulation r trans mp p.value.length maxRej initBound inflation (splitT bsiKey))

end Mocat.Backward
