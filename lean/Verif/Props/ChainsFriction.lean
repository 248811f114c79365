import Verif.Props.ChainTails
import Verif.Props.FrictionErgodic
/-!
# C161 and C168 for `Underdamped` with any friction, finite or infinite
-/
namespace Mocat.Props
open Mocat Mocat.Mcmc Mocat.Ideal Mocat.Meas Mocat.Segments MeasureTheory ProbabilityTheory
open scoped ENNReal

variable {d : ℕ}

/-- The positions and momenta in the rows of a run of `n` samples of `Underdamped` with the stepsize and friction of `p`, `L` leapfrog steps and `Metropolis`, started at position and momenta `z`. -/
noncomputable def phaseRows (prior lik : (Fin d → ℝ) → ℝ × (Fin d → ℝ)) (T : ℝ) (q : ℝ → ℝ) (L : ℕ) (p : UDParams) (al : Fl) (t : ℝ) (key : Keys.Key) (n : ℕ) (z : (Fin d → ℝ) × (Fin d → ℝ)) (ω : Tape) :
    List ((Fin d → ℝ) × (Fin d → ℝ)) :=
  (runFrom (underdamped Keys.split Keys.splitN (normalAt q d ω) (fun x _ => prior x) (fun x _ => lik x) T L) (metropolis Keys.split fun k => ω (k, 0)) n (udState prior lik T z al t) ⟨key, 0, p⟩).map
    fun s => (s.payload.value, s.payload.momenta)

variable {prior lik : (Fin d → ℝ) → ℝ × (Fin d → ℝ)} {T : ℝ} {q : ℝ → ℝ} (hq : IsNormalDraw q) (hgr : Measurable (gradField prior lik T)) (hU : Measurable (potAt prior lik T)) (L : ℕ) (p : UDParams) (al : Fl) (t : ℝ)
include hq hgr hU

/-- C161, `Underdamped` with any friction and `Metropolis`: the positions and momenta in the rows of chains run with separate keys are independent, whatever their lengths and starts. -/
theorem C161_independent_friction {ι : Type*} (I : Finset ι) (keys : ι → Keys.Key) (hk : ∀ a b, a ≠ b → Disjoint (below (keys a)) (below (keys b))) (n : ι → ℕ) (z : ι → (Fin d → ℝ) × (Fin d → ℝ))
    {A : ι → ℕ → Set ((Fin d → ℝ) × (Fin d → ℝ))} (hA : ∀ a i, MeasurableSet (A a i)) :
    ideal {ω | ∀ a ∈ I, RowsIn (A a) (phaseRows prior lik T q L p al t (keys a) (n a + 1) (z a) ω)} = ∏ a ∈ I, ideal {ω | RowsIn (A a) (phaseRows prior lik T q L p al t (keys a) (n a + 1) (z a) ω)} := by
  have e : ∀ a ω, phaseRows prior lik T q L p al t (keys a) (n a + 1) (z a) ω = _ := fun a ω => ud_run_phase prior lik T L p (z a) al t (keys a) (Nat.succ_pos (n a)) ω
  simp only [e]
  exact rows_indep (udDrawsAt_draws hq) (measurable_udStep prior lik T L hgr hU p) I keys hk n z hA

/-- C161 for the same sampler: error bars across chains. -/
theorem C161_error_bars_friction (keys : ℕ → Keys.Key) (hk : ∀ a b, a ≠ b → Disjoint (below (keys a)) (below (keys b))) (n : ℕ) (z : (Fin d → ℝ) × (Fin d → ℝ)) {g : List ((Fin d → ℝ) × (Fin d → ℝ)) → ℝ}
    (hg : MeasurableOn g (n + 1)) (key : Keys.Key) (h2 : MemLp (fun ω => g (phaseRows prior lik T q L p al t key (n + 1) z ω)) 2 ideal)
    (hne : ¬∃ c, ∀ᵐ ω ∂ideal, g (phaseRows prior lik T q L p al t key (n + 1) z ω) = c) :
    HonestAcross g (∫ ω, g (phaseRows prior lik T q L p al t key (n + 1) z ω) ∂ideal) fun r ω => phaseRows prior lik T q L p al t (keys r) (n + 1) z ω :=
  honest (rows := fun key ω => phaseRows prior lik T q L p al t key (n + 1) z ω) (udDrawsAt_draws hq) (measurable_udStep prior lik T L hgr hU p)
    (fun key ω => ud_run_phase prior lik T L p z al t key (Nat.succ_pos n) ω) keys hk hg key h2 hne

/-- C168, `Underdamped` with any friction and `Metropolis`. -/
theorem C168_friction (keys : ℕ → Keys.Key) (hk : ∀ a b, a ≠ b → Disjoint (below (keys a)) (below (keys b))) (n : ℕ) (z : (Fin d → ℝ) × (Fin d → ℝ)) {g : List ((Fin d → ℝ) × (Fin d → ℝ)) → ℝ}
    (hg : MeasurableOn g (n + 1)) {a b : ℝ} (hab : ∀ l, g l ∈ Set.Icc a b) (key : Keys.Key) :
    RareAcross g (b - a) (∫ ω, g (phaseRows prior lik T q L p al t key (n + 1) z ω) ∂ideal) fun r ω => phaseRows prior lik T q L p al t (keys r) (n + 1) z ω :=
  rare_chains (rows := fun key ω => phaseRows prior lik T q L p al t key (n + 1) z ω) (udDrawsAt_draws hq) (measurable_udStep prior lik T L hgr hU p)
    (fun key ω => ud_run_phase prior lik T L p z al t key (Nat.succ_pos n) ω) keys hk hg hab key

omit hgr hU in
/-- Friction 1 on the standard normal target in one dimension, keys of one split. -/
example (key : Keys.Key) (z : (Fin 1 → ℝ) × (Fin 1 → ℝ)) :=
  C168_friction (prior := fun y : Fin 1 → ℝ => (y 0 ^ 2 / 2, y)) (lik := fun _ => (0, 0)) (T := 1) hq (by unfold gradField; fun_prop) (by unfold potAt; fun_prop) 3 ⟨1 / 10, some 1⟩ (Fl.fin 1) 0 (fun r => r :: key)
    (split_separate key) 1 z (g := fun l => Real.arctan ((l.getLast?.getD (0, 0)).1 0))
    (Real.continuous_arctan.measurable.comp (by simp; fun_prop)) (fun _ => ⟨(Real.neg_pi_div_two_lt_arctan _).le, (Real.arctan_lt_pi_div_two _).le⟩) key

omit hgr hU in
/-- Two chains with friction 1 on the same target. -/
example (key : Keys.Key) (n : ℕ) (z : (Fin 1 → ℝ) × (Fin 1 → ℝ)) (A : Fin 2 → ℕ → Set ((Fin 1 → ℝ) × (Fin 1 → ℝ))) (hA : ∀ a i, MeasurableSet (A a i)) :=
  C161_independent_friction (prior := fun y : Fin 1 → ℝ => (y 0 ^ 2 / 2, y)) (lik := fun _ => (0, 0)) (T := 1) hq (by unfold gradField; fun_prop) (by unfold potAt; fun_prop) 3 ⟨1 / 10, some 1⟩ (Fl.fin 1) 0
    Finset.univ (fun a : Fin 2 => (a : ℕ) :: key) (fun a b h => split_separate key a b fun e => h (Fin.ext e)) (fun _ => n) (fun _ => z) hA

end Mocat.Props
