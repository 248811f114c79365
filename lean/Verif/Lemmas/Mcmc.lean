import Verif.Model.StandardMcmc
import Verif.Props.Loop
/-! Helper lemmas about MCMC updates. -/
namespace Mocat.Mcmc
open Mocat Mocat.Props

variable {K σ π : Type*} {d : ℕ}

theorem Fl.minimum_one_exp (a : Fl) (h : (Fl.minimum (Fl.fin 1) (Fl.exp a)).isNan = false) :
    ∃ x, 0 ≤ x ∧ x ≤ 1 ∧ Fl.minimum (Fl.fin 1) (Fl.exp a) = Fl.fin x := by
  cases a with
  | nan => simp [Fl.exp, Fl.minimum, Fl.isNan] at h
  | ninf => exact ⟨0, le_refl _, zero_le_one, by simp [Fl.exp, Fl.minimum, Fl.lt]⟩
  | pinf => exact ⟨1, zero_le_one, le_refl _, by simp [Fl.exp, Fl.minimum, Fl.lt]⟩
  | fin x =>
    by_cases hx : Real.exp x < 1
    · exact ⟨Real.exp x, (Real.exp_pos x).le, hx.le, by simp only [Fl.exp, Fl.minimum]; exact if_pos hx⟩
    · exact ⟨1, zero_le_one, le_refl _, by simp only [Fl.exp, Fl.minimum]; exact if_neg hx⟩

/-- iterates of `update` -/
theorem bodyIter_succ {σ ε : Type*} (f : σ → ε → σ × ε) (k : ℕ) (c : σ × ε) :
    bodyIter f (k + 1) c = f (bodyIter f k c).1 (bodyIter f k c).2 := by
  simp [bodyIter, Function.iterate_succ_apply']

theorem bodyIter_inv {σ ε : Type*} (f : σ → ε → σ × ε) (P : σ × ε → Prop) (c : σ × ε) (h0 : P c)
    (hstep : ∀ s e, P (s, e) → P (f s e)) (k : ℕ) : P (bodyIter f k c) := by
  induction k with
  | zero => exact h0
  | succ k ih => rw [bodyIter_succ]; exact hstep _ _ ih

end Mocat.Mcmc
