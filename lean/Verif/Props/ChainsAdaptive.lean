import Verif.Props.ChainTails
import Verif.Props.AdaptiveErgodic
/-!
# C161 and C168 for `RandomWalk` with `RMMetropolis`, which tunes the stepsize during the run
-/
namespace Mocat.Props
open Mocat Mocat.Mcmc Mocat.Ideal Mocat.Meas Mocat.Adaptation Mocat.Segments MeasureTheory ProbabilityTheory
open scoped ENNReal

variable {d : ℕ}

/-- The rows of a run of `n` samples of `RandomWalk` with `RMMetropolis(Metropolis)`, started at `x` with stepsize `step`. -/
noncomputable def adaptiveRows (rm : RM ℝ) (S : Set (Fin d → ℝ)) (V : (Fin d → ℝ) → ℝ) (q : ℝ → ℝ) (step : ℝ) (n : ℕ) (x : Fin d → ℝ) (al : Fl) (t : ℝ) (key : Keys.Key) (ω : Tape) : List (Fin d → ℝ) :=
  (runFrom (randomWalk Keys.split3 (normalAt q d ω) fun x _ => potOn S V x) (rm.correct (metropolis Keys.split fun k => ω (k, 0))) n (rwState S V x al t) ⟨key, 0, step⟩).map fun s => s.payload.value

theorem adaptiveRows_eq {rm : RM ℝ} (hrm : TunesStepsize rm) {q : ℝ → ℝ} {S : Set (Fin d → ℝ)} {V : (Fin d → ℝ) → ℝ} (ω : Tape) (n : ℕ) (x : Fin d → ℝ) (al : Fl) (t : ℝ) (key : Keys.Key) {step : ℝ} (hstep : 0 < step) :
    adaptiveRows rm S V q step (n + 1) x al t key ω = ((List.range (n + 1)).map fun i => tapeIter (rwDraws q d) Keys.rwNext (adaptMove rm S V) i key (x, step, 0) ω).map Prod.fst := by
  rw [adaptiveRows, C12_mcmc _ _ (keepsIter_randomWalk _ _ _) (corrKeepsIter_rm _ _ (corrKeepsIter_metropolis _ _)), List.map_map, List.map_map]
  have hlen : (((n + 1 : ℕ) : ℤ) - 1 - ((0 : ℕ) : ℤ)).toNat + 1 = n + 1 := by omega
  simp only [hlen]
  simp only [Function.comp_def]
  have := fun j => congrArg Prod.fst (rm_values hrm (q := q) (S := S) (V := V) ω j x key al t 0 step hstep)
  unfold rmUpdateOn at this
  simp only at this
  simp only [this]

theorem adaptive_rowsIn {rm : RM ℝ} (hrm : TunesStepsize rm) {q : ℝ → ℝ} {S : Set (Fin d → ℝ)} {V : (Fin d → ℝ) → ℝ} {step : ℝ} (hstep : 0 < step) {A : ℕ → Set (Fin d → ℝ)} {ω : Tape} {n : ℕ} {x : Fin d → ℝ} {al : Fl} {t : ℝ}
    {key : Keys.Key} : RowsIn A (adaptiveRows rm S V q step (n + 1) x al t key ω)
      ↔ RowsIn (fun i => Prod.fst ⁻¹' A i) ((List.range (n + 1)).map fun i => tapeIter (rwDraws q d) Keys.rwNext (adaptMove rm S V) i key (x, step, 0) ω) := by
  rw [adaptiveRows_eq hrm ω n x al t key hstep]
  unfold RowsIn
  constructor
  · intro h i y hy
    exact h i y.1 (by rw [List.getElem?_map, hy]; rfl)
  · intro h i y hy
    rw [List.getElem?_map, Option.map_eq_some_iff] at hy
    obtain ⟨z, hz, rfl⟩ := hy
    exact h i z hz

theorem measurableOn_fst {g : List (Fin d → ℝ) → ℝ} {n : ℕ} (hg : MeasurableOn g n) : MeasurableOn (fun l : List ((Fin d → ℝ) × ℝ × ℕ) => g (l.map Prod.fst)) n := by
  unfold MeasurableOn at hg ⊢
  have h : Measurable fun v : Fin n → (Fin d → ℝ) × ℝ × ℕ => fun i => (v i).1 := measurable_pi_lambda _ fun i => measurable_fst.comp (measurable_pi_apply i)
  have := hg.comp h
  simp only [Function.comp_def] at this
  simpa only [List.map_ofFn, Function.comp_def] using this

variable {rm : RM ℝ} (hrm : TunesStepsize rm) {q : ℝ → ℝ} (hq : IsNormalDraw q) {S : Set (Fin d → ℝ)} (hS : MeasurableSet S) {V : (Fin d → ℝ) → ℝ} (hV : Measurable V) {step : ℝ} (hstep : 0 < step) (al : Fl) (t : ℝ)
include hrm hq hS hV hstep

/-- C161, `RandomWalk` with `RMMetropolis(Metropolis)`: chains with separate keys, each of which tunes its own stepsize, are independent. -/
theorem C161_independent_adaptive {ι : Type*} (I : Finset ι) (keys : ι → Keys.Key) (hk : ∀ a b, a ≠ b → Disjoint (below (keys a)) (below (keys b))) (n : ι → ℕ) (x : ι → Fin d → ℝ)
    {A : ι → ℕ → Set (Fin d → ℝ)} (hA : ∀ a i, MeasurableSet (A a i)) :
    ideal {ω | ∀ a ∈ I, RowsIn (A a) (adaptiveRows rm S V q step (n a + 1) (x a) al t (keys a) ω)} = ∏ a ∈ I, ideal {ω | RowsIn (A a) (adaptiveRows rm S V q step (n a + 1) (x a) al t (keys a) ω)} := by
  simp only [adaptive_rowsIn hrm hstep]
  exact rows_indep (rwDraws_draws hq) (measurable_adaptMove rm hS hV) I keys hk n (fun a => (x a, step, 0)) fun a i => measurable_fst (hA a i)

/-- C161 for the same sampler: error bars across chains. -/
theorem C161_error_bars_adaptive (keys : ℕ → Keys.Key) (hk : ∀ a b, a ≠ b → Disjoint (below (keys a)) (below (keys b))) (n : ℕ) (x : Fin d → ℝ) {g : List (Fin d → ℝ) → ℝ} (hg : MeasurableOn g (n + 1)) (key : Keys.Key)
    (h2 : MemLp (fun ω => g (adaptiveRows rm S V q step (n + 1) x al t key ω)) 2 ideal) (hne : ¬∃ c, ∀ᵐ ω ∂ideal, g (adaptiveRows rm S V q step (n + 1) x al t key ω) = c) :
    HonestAcross g (∫ ω, g (adaptiveRows rm S V q step (n + 1) x al t key ω) ∂ideal) fun r ω => adaptiveRows rm S V q step (n + 1) x al t (keys r) ω := by
  have e : ∀ key ω, adaptiveRows rm S V q step (n + 1) x al t key ω = _ := fun key ω => adaptiveRows_eq hrm ω n x al t key hstep
  simp only [e] at h2 hne ⊢
  have h := honest (rwDraws_draws hq) (measurable_adaptMove rm hS hV) (fun _ _ => rfl) keys hk (measurableOn_fst hg) key h2 hne
  exact ⟨h.unbiased, h.consistent, h.covers⟩

/-- C168, `RandomWalk` with `RMMetropolis(Metropolis)`. -/
theorem C168_adaptive (keys : ℕ → Keys.Key) (hk : ∀ a b, a ≠ b → Disjoint (below (keys a)) (below (keys b))) (n : ℕ) (x : Fin d → ℝ) {g : List (Fin d → ℝ) → ℝ} (hg : MeasurableOn g (n + 1))
    {a b : ℝ} (hab : ∀ l, g l ∈ Set.Icc a b) (key : Keys.Key) :
    RareAcross g (b - a) (∫ ω, g (adaptiveRows rm S V q step (n + 1) x al t key ω) ∂ideal) fun r ω => adaptiveRows rm S V q step (n + 1) x al t (keys r) ω := by
  have e : ∀ key ω, adaptiveRows rm S V q step (n + 1) x al t key ω = _ := fun key ω => adaptiveRows_eq hrm ω n x al t key hstep
  simp only [e]
  exact rare_chains (rwDraws_draws hq) (measurable_adaptMove rm hS hV) (fun _ _ => rfl) keys hk (measurableOn_fst hg) (fun l => hab _) key

omit hrm hS hV hstep in
/-- The correction with its default parameters on a flat target, keys of one split, two rows. -/
example (key : Keys.Key) (x : Fin 1 → ℝ) :=
  C168_adaptive tunes_defaultRM hq MeasurableSet.univ (V := fun _ => 0) measurable_const one_pos (Fl.fin 1) 0 (fun r => r :: key) (split_separate key) 1 x (g := fun l => Real.arctan ((l.getLast?.getD 0) 0))
    (Real.continuous_arctan.measurable.comp (by simp; fun_prop)) (fun _ => ⟨(Real.neg_pi_div_two_lt_arctan _).le, (Real.arctan_lt_pi_div_two _).le⟩) key

omit hrm hS hV hstep in
/-- Two such chains. -/
example (key : Keys.Key) (n : ℕ) (x : Fin 1 → ℝ) (A : Fin 2 → ℕ → Set (Fin 1 → ℝ)) (hA : ∀ a i, MeasurableSet (A a i)) :=
  C161_independent_adaptive tunes_defaultRM hq MeasurableSet.univ (V := fun _ => 0) measurable_const one_pos (Fl.fin 1) 0 Finset.univ (fun a : Fin 2 => (a : ℕ) :: key)
    (fun a b h => split_separate key a b fun e => h (Fin.ext e)) (fun _ => n) (fun _ => x) hA

end Mocat.Props
