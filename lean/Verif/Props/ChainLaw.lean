import Verif.Lemmas.TapeMoves
import Verif.Lemmas.NormalDraw
/-!
# C16, C19 on an ideal generator

The invariance theorems of `Verif.Props.RWInvariant` and `Verif.Props.HMCInvariant` assume that a random key makes the draws of an update and the next key
independent. Here keys are split paths and draws come from an ideal generator (`Verif.Spec.Tape`): no such assumption is left.
-/
namespace Mocat.Props
open Mocat Mocat.Mcmc Mocat.Ideal Mocat.Meas MeasureTheory ProbabilityTheory
open scoped ENNReal

variable {d : ℕ}

/-- C16 on an ideal generator: from every key, after any number of updates of `RandomWalk` with `Metropolis`, a state distributed as `exp (-potential)` on the support still has that distribution. -/
theorem C16_ideal {q : ℝ → ℝ} (hq : IsNormalDraw q) {S : Set (Fin d → ℝ)} (hS : MeasurableSet S) {V : (Fin d → ℝ) → ℝ} (hV : Measurable V) (step : ℝ) (n i : ℕ) (key : Keys.Key)
    (al : Fl) (t : ℝ) (f : (Fin d → ℝ) → ℝ≥0∞) (hf : Measurable f) :
    ∫⁻ x, ∫⁻ ω, f (bodyIter (rwUpdate S V Keys.split3 (normalAt q d ω) Keys.split fun k => ω (k, 0)) n (rwState S V x al t, ⟨key, i, step⟩)).1.payload.value ∂ideal ∂(target S V)
      = ∫⁻ x, f x ∂(target S V) := by
  have hval : ∀ (n : ℕ) (ω : Tape) x k (al : Fl) (i : ℕ),
      (bodyIter (rwUpdate S V Keys.split3 (normalAt q d ω) Keys.split fun k => ω (k, 0)) n (rwState S V x al t, ⟨k, i, step⟩)).1.payload.value
        = tapeIter (rwDraws q d) Keys.rwNext (rwMove S V step) n k x ω := by
    intro n ω
    induction n with
    | zero => intro x k al i; rfl
    | succ n ih =>
      intro x k al i
      obtain ⟨al', h⟩ := rwUpdate_eq S V Keys.split3 (normalAt q d ω) Keys.split (fun k => ω (k, 0)) x al t k i step
      have : bodyIter (rwUpdate S V Keys.split3 (normalAt q d ω) Keys.split fun k => ω (k, 0)) (n + 1) (rwState S V x al t, ⟨k, i, step⟩)
        = bodyIter (rwUpdate S V Keys.split3 (normalAt q d ω) Keys.split fun k => ω (k, 0)) n
          (rwUpdate S V Keys.split3 (normalAt q d ω) Keys.split (fun k => ω (k, 0)) (rwState S V x al t) ⟨k, i, step⟩) := by
        simp [bodyIter, Function.iterate_succ_apply]
      rw [this, h, ih]; rfl
  simp_rw [hval]
  have hs := measurable_rwMove hS hV step
  simp_rw [lintegral_tapeIter (rwDraws_draws hq) hs n key _ hf]
  exact stepOp_invariant hs (fun f hf => rwMove_invariant hS hV step f hf) n hf

/-- C19 on an ideal generator: from every key, after any number of updates of `Underdamped` with `Metropolis`, position and momenta keep their joint distribution. -/
theorem C19_ideal {q : ℝ → ℝ} (hq : IsNormalDraw q) (prior lik : (Fin d → ℝ) → ℝ × (Fin d → ℝ)) (T : ℝ) (L : ℕ) (hg : Measurable (gradField prior lik T)) (hU : Measurable (potAt prior lik T))
    (p : UDParams) (hp : Admissible p) (n i : ℕ) (key : Keys.Key) (al : Fl) (t : ℝ) (f : (Fin d → ℝ) × (Fin d → ℝ) → ℝ≥0∞) (hf : Measurable f) :
    ∫⁻ z, ∫⁻ ω, f (bodyIter (udUpdate prior lik T L Keys.split Keys.splitN (normalAt q d ω) fun k => ω (k, 0)) n
        (udState prior lik T z al t, ⟨key, i, p⟩)).1.payload.phase ∂ideal ∂(udTarget prior lik T)
      = ∫⁻ z, f z ∂(udTarget prior lik T) := by
  have hval : ∀ (n : ℕ) (ω : Tape) z k (al : Fl) (i : ℕ),
      (bodyIter (udUpdate prior lik T L Keys.split Keys.splitN (normalAt q d ω) fun k => ω (k, 0)) n (udState prior lik T z al t, ⟨k, i, p⟩)).1.payload.phase
        = tapeIter (udDrawsAt q d) Keys.udNext (udStep prior lik T L p) n k z ω := by
    intro n ω
    induction n with
    | zero => intro z k al i; rfl
    | succ n ih =>
      intro z k al i
      obtain ⟨al', h⟩ := udUpdate_eq prior lik T L Keys.split Keys.splitN (normalAt q d ω) (fun k => ω (k, 0)) (fun k => by simp [Keys.splitN]) z al t k i p
      have : bodyIter (udUpdate prior lik T L Keys.split Keys.splitN (normalAt q d ω) fun k => ω (k, 0)) (n + 1) (udState prior lik T z al t, ⟨k, i, p⟩)
        = bodyIter (udUpdate prior lik T L Keys.split Keys.splitN (normalAt q d ω) fun k => ω (k, 0)) n
          (udUpdate prior lik T L Keys.split Keys.splitN (normalAt q d ω) (fun k => ω (k, 0)) (udState prior lik T z al t) ⟨k, i, p⟩) := by
        simp [bodyIter, Function.iterate_succ_apply]
      rw [this, h, ih]; rfl
  simp_rw [hval]
  have hs := measurable_udStep prior lik T L hg hU p
  simp_rw [lintegral_tapeIter (udDrawsAt_draws hq) hs n key _ hf]
  exact stepOp_invariant hs (fun f hf => udStep_invariant prior lik T L hg hU p hp f hf) n hf

/-- A case: `RandomWalk` on the positive half-line, `Underdamped` with friction 1 and three leapfrog steps on a quartic potential. -/
example (n : ℕ) (key : Keys.Key) (f : (Fin 1 → ℝ) → ℝ≥0∞) (hf : Measurable f) : ∃ q, IsNormalDraw q ∧
    (∫⁻ x, ∫⁻ ω, f (bodyIter (rwUpdate {x | 0 < x 0} (fun x => x 0) Keys.split3 (normalAt q 1 ω) Keys.split fun k => ω (k, 0)) n
        (rwState {x | 0 < x 0} (fun x => x 0) x (Fl.fin 1) 0, ⟨key, 0, 2⟩)).1.payload.value ∂ideal ∂(target {x | 0 < x 0} fun x => x 0)
      = ∫⁻ x, f x ∂(target {x | 0 < x 0} fun x => x 0)) ∧
    (∫⁻ z, ∫⁻ ω, f (bodyIter (udUpdate (fun x => (x 0 ^ 4, fun _ => 4 * x 0 ^ 3)) (fun _ => (0, 0)) 1 3 Keys.split Keys.splitN (normalAt q 1 ω) fun k => ω (k, 0)) n
        (udState (fun x => (x 0 ^ 4, fun _ => 4 * x 0 ^ 3)) (fun _ => (0, 0)) 1 z (Fl.fin 1) 0, ⟨key, 0, 0.1, some 1⟩)).1.payload.phase.1 ∂ideal
          ∂(udTarget (fun x => (x 0 ^ 4, fun _ => 4 * x 0 ^ 3)) (fun _ => (0, 0)) 1)
      = ∫⁻ z, f z.1 ∂(udTarget (fun x => (x 0 ^ 4, fun _ => 4 * x 0 ^ 3)) (fun _ => (0, 0)) 1)) := by
  obtain ⟨q, hq⟩ := exists_isNormalDraw
  refine ⟨q, hq, C16_ideal hq (measurableSet_lt measurable_const (measurable_pi_apply 0)) (measurable_pi_apply 0) 2 n 0 key _ _ f hf, ?_⟩
  refine C19_ideal hq _ _ 1 3 ?_ ?_ ⟨0.1, some 1⟩ ⟨by norm_num, fun γ h => ?_, fun h => by simp at h⟩ n 0 key _ _ (fun z => f z.1) (hf.comp measurable_fst)
  · unfold gradField; fun_prop
  · unfold potAt; fun_prop
  · simp only [Option.some.injEq] at h; rw [← h]; norm_num

end Mocat.Props
