import Mathlib.Analysis.Real.Sqrt
import Mathlib.Analysis.SpecialFunctions.Log.Basic
import Mathlib.Data.Matrix.Mul
/-!
# L-BFGS factors: `mocat/src/utils.py` 318-434

Vectors are `Fin d → ℝ`; arrays `ps, qs` of shape `(m, d)` are given as the list of their row pairs. `init_diag` is either a
float or a vector.
-/
namespace Mocat.Bfgs
open Matrix

variable {d : ℕ}

abbrev Vec (d : ℕ) := Fin d → ℝ

/-- `init_diag`: a float or a vector. -/
inductive Diag (d : ℕ) where
  | scalar (c : ℝ)
  | vec (v : Vec d)

/-- Broadcast to a vector (used in `init_diag * z`). -/
def Diag.at : Diag d → Vec d
  | .scalar c => fun _ => c
  | .vec v => v

/-- `1 / init_diag` -/
noncomputable def Diag.inv : Diag d → Diag d
  | .scalar c => .scalar (1 / c)
  | .vec v => .vec fun i => 1 / v i

/-- `jnp.prod(init_diag)` -/
def Diag.prod : Diag d → ℝ
  | .scalar c => c
  | .vec v => ∏ i, v i

/-- `jnp.log(jnp.abs(init_diag)).sum()` -/
noncomputable def Diag.logAbsSum : Diag d → ℝ
  | .scalar c => Real.log |c|
  | .vec v => ∑ i, Real.log |v i|

/-- utils.py 375-390, `bfgs_sqrt_prod(ps, qs, z, init_diag)` -/
def sqrtProd (pq : List (Vec d × Vec d)) (z : Vec d) (diag : Diag d) : Vec d :=
  pq.foldl (fun c pq => c - (pq.2 ⬝ᵥ c) • pq.1) (diag.at * z)

/-- utils.py 393-408, `bfgs_sqrt_transpose_prod(ps, qs, z, init_diag)` (indices from last to first) -/
def sqrtTransposeProd (pq : List (Vec d × Vec d)) (z : Vec d) (diag : Diag d) : Vec d :=
  diag.at * pq.reverse.foldl (fun c pq => c - (pq.1 ⬝ᵥ c) • pq.2) z

/-- utils.py 411-421, `bfgs_sqrt_det` -/
def sqrtDet (pq : List (Vec d × Vec d)) (diag : Diag d) : ℝ :=
  diag.prod * (pq.map fun pq => 1 - pq.1 ⬝ᵥ pq.2).prod

/-- utils.py 424-434, `bfgs_sqrt_log_abs_det` -/
noncomputable def sqrtLogAbsDet (pq : List (Vec d × Vec d)) (diag : Diag d) : ℝ :=
  diag.logAbsSum + (pq.map fun pq => Real.log |1 - pq.1 ⬝ᵥ pq.2|).sum

/-- One pair of the history: `s_i`, `y_i` and `update_bools[i]`. -/
structure Pair (d : ℕ) where
  s : Vec d
  y : Vec d
  flag : Bool

/-- utils.py 324-325: differences of successive rows (`flags` is the broadcast `update_bools`). -/
def pairs : List (Vec d × Vec d) → List Bool → List (Pair d)
  | a :: b :: l, f :: fs => ⟨b.1 - a.1, b.2 - a.2, f⟩ :: pairs (b :: l) fs
  | _, _ => []

/-- utils.py 327: `square(s * init_hessian_sqrt_diag).sum(-1)` -/
def sBs (diag : Diag d) (s : Vec d) : ℝ := ∑ i, (s i * diag.at i) ^ 2

/-- utils.py 329: the ratios that are not `-inf`. -/
noncomputable def ratios (diag : Diag d) (l : List (Pair d)) : List ℝ :=
  (l.filter fun p => ¬ sBs diag p.s < 1e-10).map fun p => -(p.s ⬝ᵥ p.y) / sBs diag p.s

/-- utils.py 330: `maximum(0., rats.max() + r)`. `r = none` is `-inf` (then, and when all ratios are `-inf`, the sum is `-inf`
and the maximum 0). -/
noncomputable def lambd (diag : Diag d) (r : Option ℝ) (l : List (Pair d)) : ℝ :=
  match (ratios diag l).max?, r with
  | some m, some r => max 0 (m + r)
  | _, _ => 0

/-- utils.py 331-333: `y + lambd * init_hessian_sqrt_diag ** 2 * s` -/
noncomputable def damp (diag : Diag d) (lam : ℝ) (p : Pair d) : Pair d :=
  { p with y := fun i => p.y i + lam * diag.at i ^ 2 * p.s i }

/-- The four vectors computed for one pair. -/
@[ext] structure PQUT (d : ℕ) where
  p : Vec d
  q : Vec d
  u : Vec d
  t : Vec d

/-- The pair is used (utils.py 352-355). `rInf` is `r == -inf`. -/
def Used (rInf : Prop) (sBs sy : ℝ) (flag : Bool) : Prop :=
  (min |sBs| |sy| > 1e-10 ∧ (rInf ∨ sy > 0)) ∧ flag = true

open Classical in
/-- utils.py 339-361, `body_fun` at a pair. `uts` holds the `(u, t)` of the earlier pairs, padded with zeros to length `m`. -/
noncomputable def bodyFun (diag : Diag d) (rInf : Prop) (uts : List (Vec d × Vec d)) (p : Pair d) : PQUT d :=
  let sy := p.s ⬝ᵥ p.y
  let ct := sqrtTransposeProd uts p.s diag
  let b := sqrtProd uts ct diag
  let sB := p.s ⬝ᵥ b
  if Used rInf sB sy p.flag then
    { p := (1 / sy) • p.s
      q := Real.sqrt (sy / sB) • b + p.y
      u := Real.sqrt (sB / sy) • p.y + b
      t := (1 / sB) • p.s }
  else ⟨0, 0, 0, 0⟩

/-- utils.py 339-362: the scan; `done` are the `(u, t)` already written, `m` the number of rows. -/
noncomputable def scanPairs (diag : Diag d) (rInf : Prop) (m : ℕ) : List (Vec d × Vec d) → List (Pair d) → List (PQUT d)
  | _, [] => []
  | done, p :: l =>
    let o := bodyFun diag rInf (done ++ List.replicate (m - done.length) (0, 0)) p
    o :: scanPairs diag rInf m (done ++ [(o.u, o.t)]) l

/-- utils.py 318-372, `bfgs_sqrt_pqut`, given the pairs of successive differences. -/
noncomputable def sqrtPqut (diag : Diag d) (r : Option ℝ) (l : List (Pair d)) : List (PQUT d) :=
  scanPairs diag (r = none) l.length [] (l.map (damp diag (lambd diag r l)))

/-- Hessian approximation applied to `z` (the composition used at utils.py 347-348): `C Cᵀ z`. -/
noncomputable def hessian (diag : Diag d) (out : List (PQUT d)) (z : Vec d) : Vec d :=
  let ut := out.map fun o => (o.u, o.t)
  sqrtProd ut (sqrtTransposeProd ut z diag) diag

/-- Inverse Hessian approximation applied to `z` (as in mcmc/qn_underdamped.py 242-243). -/
noncomputable def invHessian (diag : Diag d) (out : List (PQUT d)) (z : Vec d) : Vec d :=
  let pq := out.map fun o => (o.p, o.q)
  sqrtProd pq (sqrtTransposeProd pq z diag.inv) diag.inv

end Mocat.Bfgs
