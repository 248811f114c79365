import Verif.Lemmas.Loop
import Mathlib.Tactic.IntervalCases
/-!
# C11: `while_loop_stacked` is a bounded while loop with history
-/
namespace Mocat.Props
open Mocat Mocat.Loop

variable {σ ε : Type*}

/-- `k` applications of the body to the carry. (Specification.) -/
def bodyIter (bodyFun : σ → ε → σ × ε) (k : ℕ) (c : σ × ε) : σ × ε := (fun c => bodyFun c.1 c.2)^[k] c

/-- C11. The result lists the states after 1, 2, ..., m body applications; the condition held before
each of them; `m ≤ max_iter`; and if `m < max_iter` the loop stopped because the condition failed. -/
theorem C11_while_loop_stacked (condFun : σ → ε → Bool) (bodyFun : σ → ε → σ × ε) (init : σ × ε)
    (maxIter : ℤ) :
    ∃ m : ℕ, m ≤ maxIter.toNat ∧
      whileLoopStacked condFun bodyFun init maxIter
        = (List.range m).map (fun i => (bodyIter bodyFun (i + 1) init).1) ∧
      (∀ i < m, condFun (bodyIter bodyFun i init).1 (bodyIter bodyFun i init).2 = true) ∧
      (m < maxIter.toNat → condFun (bodyIter bodyFun m init).1 (bodyIter bodyFun m init).2 = false) := by
  rw [whileLoopStacked_eq]
  obtain ⟨h1, h2, h3⟩ := boundedWhile_spec condFun bodyFun maxIter.toNat init
  exact ⟨_, boundedWhile_length_le _ _ _ _, h1, h2, h3⟩

/-- C11, the raw stack: after the `m` genuine states every remaining entry is the initial state, the
returned counter is `m`, and the returned carry is the initial carry if the loop stopped early. -/
theorem C11_raw_stack (condFun : σ → ε → Bool) (bodyFun : σ → ε → σ × ε) (init : σ × ε) (maxIter : ℤ) :
    ∃ m : ℕ, m ≤ maxIter.toNat ∧
      (whileLoopStackedRaw condFun bodyFun init maxIter).1
        = (List.range m).map (fun i => (bodyIter bodyFun (i + 1) init).1)
          ++ List.replicate (maxIter.toNat - m) init.1 ∧
      (whileLoopStackedRaw condFun bodyFun init maxIter).2.2 = m ∧
      (whileLoopStackedRaw condFun bodyFun init maxIter).2.1
        = (if m < maxIter.toNat then init else bodyIter bodyFun m init) ∧
      (∀ i < m, condFun (bodyIter bodyFun i init).1 (bodyIter bodyFun i init).2 = true) ∧
      (m < maxIter.toNat → condFun (bodyIter bodyFun m init).1 (bodyIter bodyFun m init).2 = false) := by
  obtain ⟨h1, h2, h3⟩ := boundedWhile_spec condFun bodyFun maxIter.toNat init
  have hle := boundedWhile_length_le condFun bodyFun maxIter.toNat init
  refine ⟨(boundedWhile condFun bodyFun maxIter.toNat init).length, hle, ?_, ?_, ?_, h2, h3⟩
  · rw [raw_eq]; exact congrArg (· ++ _) h1
  · rw [raw_eq]
  · rw [raw_eq]; simp only
    split
    · rfl
    · rename_i h
      rw [le_antisymm hle (not_lt.mp h)]; rfl

/-- The number of steps `m` in C11 is determined: it is the first index at which the condition fails,
capped by `max_iter`. -/
theorem C11_length (condFun : σ → ε → Bool) (bodyFun : σ → ε → σ × ε) (init : σ × ε) (maxIter : ℤ) (m : ℕ)
    (hm : m ≤ maxIter.toNat)
    (hlive : ∀ i < m, condFun (bodyIter bodyFun i init).1 (bodyIter bodyFun i init).2 = true)
    (hstop : m < maxIter.toNat → condFun (bodyIter bodyFun m init).1 (bodyIter bodyFun m init).2 = false) :
    whileLoopStacked condFun bodyFun init maxIter
      = (List.range m).map (fun i => (bodyIter bodyFun (i + 1) init).1) := by
  obtain ⟨m', h1, h2, h3, h4⟩ := C11_while_loop_stacked condFun bodyFun init maxIter
  have : m' = m := by
    rcases lt_trichotomy m' m with h | h | h
    · have := h4 (by omega); rw [hlive m' h] at this; cases this
    · exact h
    · have := hstop (by omega); rw [h3 m h] at this; cases this
  rw [h2, this]

/-- Non-vacuity: counting up to 3 with a condition that would become true again after the reset to the
initial carry (the trap in this implementation): exactly three states are returned. -/
example : whileLoopStacked (fun s (_ : Unit) => decide (s < 3)) (fun s e => (s + 1, e)) ((0 : ℕ), ()) 100
    = [1, 2, 3] := by
  rw [C11_length _ _ _ _ 3 (by decide)]
  · decide
  · intro i hi; interval_cases i <;> decide
  · intro _; decide

end Mocat.Props
