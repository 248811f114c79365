import Verif.Props.IndependentChains
import Verif.Props.AbcMixing
/-!
# C161 for ABC-MCMC: runs of `RandomWalkABC` with separate keys are independent copies
-/
namespace Mocat.Props
open Mocat Mocat.Mcmc Mocat.Abc Mocat.Ideal Mocat.Meas Mocat.Segments MeasureTheory ProbabilityTheory
open scoped ENNReal

variable {d : ℕ} {D : Type*} [MeasurableSpace D] {S : Set (Fin d → ℝ)} (hS : MeasurableSet S) {V : (Fin d → ℝ) → ℝ} (hV : Measurable V) (pri : Tape → Fin d → ℝ) {sim : (Fin d → ℝ) → Tape → D}
  (hsim : Measurable fun z : (Fin d → ℝ) × Tape => sim z.1 z.2) (dist : D → Fl) {q : ℝ → ℝ} (hq : IsNormalDraw q) (p : Params d) (hB : MeasurableSet (ball dist p.threshold)) (stp : Fin d → ℝ) (al : Fl) (t : ℝ)
include hS hV hsim hq hB

/-- C161 for runs of `RandomWalkABC` with `Metropolis`: with keys that share no splits, the pairs of parameter and data in the rows of the runs are independent, whatever the lengths and starts of the runs. -/
theorem C161_independent_abc {ι : Type*} (I : Finset ι) (keys : ι → Keys.Key) (hk : ∀ a b, a ≠ b → Disjoint (below (keys a)) (below (keys b))) (n : ι → ℕ) (z0 : ι → (Fin d → ℝ) × D)
    {A : ι → ℕ → Set ((Fin d → ℝ) × D)} (hA : ∀ a i, MeasurableSet (A a i)) :
    ideal {ω | ∀ a ∈ I, RowsIn (A a) (abcRows S V pri sim dist q p (n a + 1) (z0 a) stp al t (keys a) ω)} = ∏ a ∈ I, ideal {ω | RowsIn (A a) (abcRows S V pri sim dist q p (n a + 1) (z0 a) stp al t (keys a) ω)} := by
  have e : ∀ a ω, abcRows S V pri sim dist q p (n a + 1) (z0 a) stp al t (keys a) ω = _ := fun a ω => abc_run S V pri sim dist q p (z0 a) stp al t (keys a) (Nat.succ_pos (n a)) ω
  simp only [e]
  exact rows_indep (abcDraws_draws hq) (measurable_abcMove hS hV hB hsim _) I keys hk n z0 hA

/-- C161 for ABC-MCMC: error bars across chains. -/
theorem C161_error_bars_abc (keys : ℕ → Keys.Key) (hk : ∀ a b, a ≠ b → Disjoint (below (keys a)) (below (keys b))) (n : ℕ) (z0 : (Fin d → ℝ) × D) {g : List ((Fin d → ℝ) × D) → ℝ} (hg : MeasurableOn g (n + 1))
    (key : Keys.Key) (h2 : MemLp (fun ω => g (abcRows S V pri sim dist q p (n + 1) z0 stp al t key ω)) 2 ideal) (hne : ¬∃ c, ∀ᵐ ω ∂ideal, g (abcRows S V pri sim dist q p (n + 1) z0 stp al t key ω) = c) :
    HonestAcross g (∫ ω, g (abcRows S V pri sim dist q p (n + 1) z0 stp al t key ω) ∂ideal) fun r ω => abcRows S V pri sim dist q p (n + 1) z0 stp al t (keys r) ω :=
  honest (rows := fun key ω => abcRows S V pri sim dist q p (n + 1) z0 stp al t key ω) (abcDraws_draws hq) (measurable_abcMove hS hV hB hsim _)
    (fun key ω => abc_run S V pri sim dist q p z0 stp al t key (Nat.succ_pos n) ω) keys hk hg key h2 hne

omit hS hV hsim hq hB in
/-- Two runs with the keys of one split: a flat prior, data that is the parameter with uniform noise, and distance its size. -/
example {q : ℝ → ℝ} (hq : IsNormalDraw q) (pri : Tape → Fin 1 → ℝ) (key k : Keys.Key) (n : ℕ) (z0 : (Fin 1 → ℝ) × ℝ) (A : Fin 2 → ℕ → Set ((Fin 1 → ℝ) × ℝ)) (hA : ∀ a i, MeasurableSet (A a i)) :=
  C161_independent_abc MeasurableSet.univ (V := fun _ => 0) measurable_const pri (sim := fun x ω => x 0 + ω (k, 0)) (by fun_prop) (fun y => Fl.fin |y|) hq ⟨.fin 1, fun _ => 1, 0, 0⟩
    (by
      have : ball (fun y : ℝ => Fl.fin |y|) (.fin 1) = {y | |y| < 1} := by
        ext y
        simp [ball, Fl.lt]
      rw [this]
      exact measurableSet_lt (by fun_prop) measurable_const)
    (fun _ => 1) (.fin 1) 0 Finset.univ (fun a : Fin 2 => (a : ℕ) :: key) (fun a b h => split_separate key a b fun e => h (Fin.ext e)) (fun _ => n) (fun _ => z0) hA

end Mocat.Props
