import Verif.Base.Scan
/-!
# Model of `mocat/src/utils.py` 159-202 (`while_loop_stacked`)
-/
namespace Mocat.Loop

variable {σ ε : Type*}

/-- utils.py 169-175, `update_cond`. -/
def updateCond (condFun : σ → ε → Bool) (previousCarry : σ × ε) (finalIter liveIter : ℕ) : Bool :=
  if liveIter ≤ finalIter + 1 then condFun previousCarry.1 previousCarry.2 else false

/-- utils.py 177-190, `update_kernel`. `init_carry` is the closure variable of `_while_loop_stacked`. -/
def updateKernel (condFun : σ → ε → Bool) (bodyFun : σ → ε → σ × ε) (initCarry : σ × ε)
    (prev : (σ × ε) × ℕ) (liveIter : ℕ) : ((σ × ε) × ℕ) × σ :=
  let previousVal := prev.1
  let finalIter := prev.2
  let updateBool := updateCond condFun previousVal finalIter liveIter
  let finalIter' := if updateBool then liveIter else finalIter
  let newVal := if updateBool then bodyFun previousVal.1 previousVal.2 else initCarry
  ((newVal, finalIter'), newVal.1)

/-- utils.py 159-194, `_while_loop_stacked`: returns `(stack, final_val, final_iter)`.
Simplification: a stacked pytree is a list of states. -/
def whileLoopStackedRaw (condFun : σ → ε → Bool) (bodyFun : σ → ε → σ × ε) (initCarry : σ × ε)
    (maxIter : ℤ) : List σ × (σ × ε) × ℕ :=
  let r := scan (updateKernel condFun bodyFun initCarry) (initCarry, 0) (arangeFromOne maxIter)
  (r.2, r.1.1, r.1.2)

/-- utils.py 197-202, `while_loop_stacked`: `full_stack[:final_int]`. -/
def whileLoopStacked (condFun : σ → ε → Bool) (bodyFun : σ → ε → σ × ε) (initCarry : σ × ε)
    (maxIter : ℤ) : List σ :=
  let r := whileLoopStackedRaw condFun bodyFun initCarry maxIter
  r.1.take r.2.2

end Mocat.Loop
