import Verif.Props.ChainsFriction
import Verif.Props.ChainsAdaptive
/-!
# C161: chains with the same start have the same law whatever their keys, for the other samplers; chains whose last value is not constant
-/
namespace Mocat.Props
open Mocat Mocat.Mcmc Mocat.Abc Mocat.Ideal Mocat.Meas Mocat.Adaptation Mocat.Segments MeasureTheory ProbabilityTheory
open scoped ENNReal

variable {d : ℕ}

theorem rows_same_law {α D : Type*} [MeasurableSpace α] [MeasurableSpace D] {draw : Keys.Key → Tape → D} {next : Keys.Key → Keys.Key} {step : α → D → α} {δ : Measure D} [SFinite δ]
    (hd : Draws draw next δ) (hs : Measurable (Function.uncurry step)) (n : ℕ) (x : α) (key key' : Keys.Key) {A : ℕ → Set α} (hA : ∀ i, MeasurableSet (A i)) :
    ideal {ω | RowsIn A ((List.range (n + 1)).map fun i => tapeIter draw next step i key x ω)} = ideal {ω | RowsIn A ((List.range (n + 1)).map fun i => tapeIter draw next step i key' x ω)} := by
  have e : ∀ k, {ω | RowsIn A ((List.range (n + 1)).map fun i => tapeIter draw next step i k x ω)} = pathVec draw next step n k x ⁻¹' Set.univ.pi fun i : Fin (n + 1) => A i := fun k => by
    ext ω
    rw [Set.mem_preimage, Set.mem_univ_pi, Set.mem_ofPred_eq, ← ofFn_pathVec, rowsIn_ofFn]
  have hm : MeasurableSet (Set.univ.pi fun i : Fin (n + 1) => A i) := MeasurableSet.univ_pi fun i => hA i
  rw [e, e, ← Measure.map_apply (measurable_pathVec hd hs n key x) hm, ← Measure.map_apply (measurable_pathVec hd hs n key' x) hm, pathVec_law hd hs n key key' x]

/-- C161, `Underdamped` with infinite friction and `Metropolis`: chains with the same start have the same law, whatever their keys. -/
theorem C161_same_law_langevin {prior lik : (Fin d → ℝ) → ℝ × (Fin d → ℝ)} {T : ℝ} {q : ℝ → ℝ} (hq : IsNormalDraw q) (hg : Measurable (gradField prior lik T)) (hU : Measurable (potAt prior lik T)) (L : ℕ) (step : ℝ)
    (p : Fin d → ℝ) (al : Fl) (t : ℝ) (n : ℕ) (x : Fin d → ℝ) (key key' : Keys.Key) {A : ℕ → Set (Fin d → ℝ)} (hA : ∀ i, MeasurableSet (A i)) :
    ideal {ω | RowsIn A (hamiltonianRows prior lik T q L step p al t key (n + 1) x ω)} = ideal {ω | RowsIn A (hamiltonianRows prior lik T q L step p al t key' (n + 1) x ω)} := by
  have e : ∀ key ω, hamiltonianRows prior lik T q L step p al t key (n + 1) x ω = _ := fun key ω => ud_run prior lik T L step (x, p) al t key (Nat.succ_pos n) ω
  simp only [e]
  exact rows_same_law (udDrawsAt_draws hq) (measurable_udMove hg hU L ⟨step, none⟩) n x key key' hA

/-- C161, `Underdamped` with any friction and `Metropolis`: the same for positions and momenta. -/
theorem C161_same_law_friction {prior lik : (Fin d → ℝ) → ℝ × (Fin d → ℝ)} {T : ℝ} {q : ℝ → ℝ} (hq : IsNormalDraw q) (hg : Measurable (gradField prior lik T)) (hU : Measurable (potAt prior lik T)) (L : ℕ) (p : UDParams)
    (al : Fl) (t : ℝ) (n : ℕ) (z : (Fin d → ℝ) × (Fin d → ℝ)) (key key' : Keys.Key) {A : ℕ → Set ((Fin d → ℝ) × (Fin d → ℝ))} (hA : ∀ i, MeasurableSet (A i)) :
    ideal {ω | RowsIn A (phaseRows prior lik T q L p al t key (n + 1) z ω)} = ideal {ω | RowsIn A (phaseRows prior lik T q L p al t key' (n + 1) z ω)} := by
  have e : ∀ key ω, phaseRows prior lik T q L p al t key (n + 1) z ω = _ := fun key ω => ud_run_phase prior lik T L p z al t key (Nat.succ_pos n) ω
  simp only [e]
  exact rows_same_law (udDrawsAt_draws hq) (measurable_udStep prior lik T L hg hU p) n z key key' hA

/-- C161, `RandomWalkABC` with `Metropolis`: the same for parameters and data. -/
theorem C161_same_law_abc {D : Type*} [MeasurableSpace D] {S : Set (Fin d → ℝ)} (hS : MeasurableSet S) {V : (Fin d → ℝ) → ℝ} (hV : Measurable V) (pri : Tape → Fin d → ℝ) {sim : (Fin d → ℝ) → Tape → D}
    (hsim : Measurable fun z : (Fin d → ℝ) × Tape => sim z.1 z.2) (dist : D → Fl) {q : ℝ → ℝ} (hq : IsNormalDraw q) (p : Params d) (hB : MeasurableSet (ball dist p.threshold)) (stp : Fin d → ℝ) (al : Fl) (t : ℝ)
    (n : ℕ) (z0 : (Fin d → ℝ) × D) (key key' : Keys.Key) {A : ℕ → Set ((Fin d → ℝ) × D)} (hA : ∀ i, MeasurableSet (A i)) :
    ideal {ω | RowsIn A (abcRows S V pri sim dist q p (n + 1) z0 stp al t key ω)} = ideal {ω | RowsIn A (abcRows S V pri sim dist q p (n + 1) z0 stp al t key' ω)} := by
  have e : ∀ key ω, abcRows S V pri sim dist q p (n + 1) z0 stp al t key ω = _ := fun key ω => abc_run S V pri sim dist q p z0 stp al t key (Nat.succ_pos n) ω
  simp only [e]
  exact rows_same_law (abcDraws_draws hq) (measurable_abcMove hS hV hB hsim _) n z0 key key' hA

/-- C161, `RandomWalk` with `RMMetropolis(Metropolis)`: the same. -/
theorem C161_same_law_adaptive {rm : RM ℝ} (hrm : TunesStepsize rm) {q : ℝ → ℝ} (hq : IsNormalDraw q) {S : Set (Fin d → ℝ)} (hS : MeasurableSet S) {V : (Fin d → ℝ) → ℝ} (hV : Measurable V) {step : ℝ} (hstep : 0 < step)
    (al : Fl) (t : ℝ) (n : ℕ) (x : Fin d → ℝ) (key key' : Keys.Key) {A : ℕ → Set (Fin d → ℝ)} (hA : ∀ i, MeasurableSet (A i)) :
    ideal {ω | RowsIn A (adaptiveRows rm S V q step (n + 1) x al t key ω)} = ideal {ω | RowsIn A (adaptiveRows rm S V q step (n + 1) x al t key' ω)} := by
  simp only [adaptive_rowsIn hrm hstep]
  exact rows_same_law (rwDraws_draws hq) (measurable_adaptMove rm hS hV) n (x, step, 0) key key' fun i => measurable_fst (hA i)

/-- Copies of one list. -/
theorem copies_mean {α : Type*} (g : List α → ℝ) (l : List α) (R : ℕ) (hR : 1 ≤ R) : chainsMean g (fun _ => l) R = g l ∧ chainsError g (fun _ => l) R = 0 := by
  have hR' : (R : ℝ) ≠ 0 := by positivity
  have h : chainsMean g (fun _ => l) R = g l := by
    simp only [chainsMean, Finset.sum_const, Finset.card_range, nsmul_eq_mul]
    field_simp
  exact ⟨h, by simp [chainsError, h]⟩

/-- C161 and C168 fail for chains of `Underdamped`, with any friction, run with the same key: no spread across chains, and errors as likely as for one chain. -/
theorem C168_same_key_friction {prior lik : (Fin d → ℝ) → ℝ × (Fin d → ℝ)} {T : ℝ} {q : ℝ → ℝ} (L : ℕ) (p : UDParams) (al : Fl) (t : ℝ) (key : Keys.Key) (n : ℕ) (z : (Fin d → ℝ) × (Fin d → ℝ))
    (g : List ((Fin d → ℝ) × (Fin d → ℝ)) → ℝ) (truth ε : ℝ) (R : ℕ) (hR : 1 ≤ R) :
    (∀ ω, chainsError g (fun _ => phaseRows prior lik T q L p al t key (n + 1) z ω) R = 0)
      ∧ ideal.real {ω | ε ≤ |chainsMean g (fun _ => phaseRows prior lik T q L p al t key (n + 1) z ω) R - truth|} = ideal.real {ω | ε ≤ |g (phaseRows prior lik T q L p al t key (n + 1) z ω) - truth|} := by
  simp only [(copies_mean g _ R hR).1]
  exact ⟨fun ω => (copies_mean g _ R hR).2, trivial⟩

/-- The same for `RandomWalkABC`. -/
theorem C168_same_key_abc {D : Type*} {S : Set (Fin d → ℝ)} {V : (Fin d → ℝ) → ℝ} (pri : Tape → Fin d → ℝ) {sim : (Fin d → ℝ) → Tape → D} (dist : D → Fl) {q : ℝ → ℝ} (p : Params d) (stp : Fin d → ℝ) (al : Fl) (t : ℝ)
    (key : Keys.Key) (n : ℕ) (z0 : (Fin d → ℝ) × D) (g : List ((Fin d → ℝ) × D) → ℝ) (truth ε : ℝ) (R : ℕ) (hR : 1 ≤ R) :
    (∀ ω, chainsError g (fun _ => abcRows S V pri sim dist q p (n + 1) z0 stp al t key ω) R = 0)
      ∧ ideal.real {ω | ε ≤ |chainsMean g (fun _ => abcRows S V pri sim dist q p (n + 1) z0 stp al t key ω) R - truth|}
        = ideal.real {ω | ε ≤ |g (abcRows S V pri sim dist q p (n + 1) z0 stp al t key ω) - truth|} := by
  simp only [(copies_mean g _ R hR).1]
  exact ⟨fun ω => (copies_mean g _ R hR).2, trivial⟩

/-- The same for `RandomWalk` with `RMMetropolis`. -/
theorem C168_same_key_adaptive (rm : RM ℝ) {q : ℝ → ℝ} (S : Set (Fin d → ℝ)) (V : (Fin d → ℝ) → ℝ) (step : ℝ) (al : Fl) (t : ℝ) (key : Keys.Key) (n : ℕ) (x : Fin d → ℝ) (g : List (Fin d → ℝ) → ℝ) (truth ε : ℝ) (R : ℕ)
    (hR : 1 ≤ R) :
    (∀ ω, chainsError g (fun _ => adaptiveRows rm S V q step (n + 1) x al t key ω) R = 0)
      ∧ ideal.real {ω | ε ≤ |chainsMean g (fun _ => adaptiveRows rm S V q step (n + 1) x al t key ω) R - truth|} = ideal.real {ω | ε ≤ |g (adaptiveRows rm S V q step (n + 1) x al t key ω) - truth|} := by
  simp only [(copies_mean g _ R hR).1]
  exact ⟨fun ω => (copies_mean g _ R hR).2, trivial⟩

/-! ## Cases -/

/-- Friction 1 on the standard normal target. -/
example {q : ℝ → ℝ} (hq : IsNormalDraw q) (key key' : Keys.Key) (n : ℕ) (z : (Fin 1 → ℝ) × (Fin 1 → ℝ)) {A : ℕ → Set ((Fin 1 → ℝ) × (Fin 1 → ℝ))} (hA : ∀ i, MeasurableSet (A i)) :=
  C161_same_law_friction (prior := fun y : Fin 1 → ℝ => (y 0 ^ 2 / 2, y)) (lik := fun _ => (0, 0)) (T := 1) hq (by unfold gradField; fun_prop) (by unfold potAt; fun_prop) 3 ⟨1 / 10, some 1⟩ (Fl.fin 1) 0 n z key key' hA

/-- The first two rows do not depend on adaptation: the second row is made with the stepsize given. -/
theorem adaptive_two {rm : RM ℝ} (hrm : TunesStepsize rm) {q : ℝ → ℝ} (S : Set (Fin d → ℝ)) (V : (Fin d → ℝ) → ℝ) {step : ℝ} (hstep : 0 < step) (x : Fin d → ℝ) (al : Fl) (t : ℝ) (key : Keys.Key) (ω : Tape) :
    adaptiveRows rm S V q step (1 + 1) x al t key ω = walkRows S V q step (1 + 1) x al t key ω := by
  rw [adaptiveRows_eq hrm ω 1 x al t key hstep]
  have := rw_run (q := q) S V step x al t key (n := 1 + 1) (by omega) ω
  rw [walkRows]
  erw [this]
  rfl

/-- Error bars across adaptive chains on a flat target. -/
example {q : ℝ → ℝ} (hq : IsNormalDraw q) (key : Keys.Key) (x : Fin 1 → ℝ) :=
  C161_error_bars_adaptive tunes_defaultRM hq MeasurableSet.univ (V := fun _ => 0) measurable_const one_pos (Fl.fin 1) 0 (fun r => r :: key) (split_separate key) 1 x
    (g := fun l => Real.arctan ((l.getLast?.getD 0) 0)) (Real.continuous_arctan.measurable.comp (by simp; fun_prop)) key
    (by
      refine MemLp.of_bound ?_ (Real.pi / 2) (ae_of_all _ fun ω => ?_)
      · have h := measurable_pathVec (rwDraws_draws (d := 1) hq) (measurable_rwMove MeasurableSet.univ (V := fun _ => 0) measurable_const 1) 1 key x
        have e : ∀ ω, adaptiveRows defaultRM Set.univ (fun _ => 0) q 1 (1 + 1) x (Fl.fin 1) 0 key ω = List.ofFn (pathVec (rwDraws q 1) Keys.rwNext (rwMove Set.univ (fun _ => 0) 1) 1 key x ω) := fun ω => by
          rw [ofFn_pathVec, adaptive_two tunes_defaultRM _ _ one_pos]; exact rw_run (q := q) Set.univ (fun _ => 0) 1 x (Fl.fin 1) 0 key (n := 1 + 1) (by omega) ω
        simp only [e]
        have h1 : Measurable fun v : Fin 2 → Fin 1 → ℝ => Real.arctan (((List.ofFn v).getLast?.getD 0) 0) :=
          Real.continuous_arctan.measurable.comp (by simp; fun_prop)
        exact (h1.comp h).aestronglyMeasurable
      · rw [Real.norm_eq_abs, abs_le]
        exact ⟨(Real.neg_pi_div_two_lt_arctan _).le, (Real.arctan_lt_pi_div_two _).le⟩)
    (by
      simp only [adaptive_two tunes_defaultRM _ _ one_pos]
      exact flat_not_constant hq key x)

/-- The flat target for `Underdamped`, one leapfrog step of size 1, friction 1: every proposal is accepted. -/
theorem flat_step (z : (Fin 1 → ℝ) × (Fin 1 → ℝ)) (w : (Fin 1 → ℝ) × ℝ) (hw : w.2 < 1) :
    (udStep (fun _ => (0, 0)) (fun _ => (0, 0)) 1 1 ⟨1, some 1⟩ z w).1 0 = z.1 0 + (-z.2 0 * decay 1 ⟨1, some 1⟩ + Real.sqrt (1 - decay 2 ⟨1, some 1⟩) * w.1 0) := by
  have e : energy (fun _ => (0, 0)) (fun _ => (0, 0)) 1 (hmcMap 1 (gradField (fun _ : Fin 1 → ℝ => (0, 0)) (fun _ => (0, 0)) 1) 1 (z.1, refreshMomenta ⟨1, some 1⟩ z.2 w.1))
      = energy (fun _ => (0, 0)) (fun _ => (0, 0)) 1 (z.1, refreshMomenta ⟨1, some 1⟩ z.2 w.1) := by
    have h : (Gaussian.gaussianPotentialDefault : (Fin 1 → ℝ) → ℝ) = fun x => -Real.log (∏ i, gaussianPDFReal 0 1 (x i)) := by
      funext x; rw [← exp_neg_gaussianPotentialDefault, Real.log_exp, neg_neg]
    simp [energy, potAt, hmcMap, Mcmc.flip, lfMap, gradField, h, gaussianPDFReal]
  rw [udStep]
  simp only [e]
  rw [neg_add_cancel, Real.exp_zero, min_self, if_pos hw]
  simp [hmcMap, Mcmc.flip, lfMap, gradField, refreshMomenta]

/-- The position in the second row of a run with friction is not constant. -/
theorem friction_not_constant {q : ℝ → ℝ} (hq : IsNormalDraw q) (key : Keys.Key) (z : (Fin 1 → ℝ) × (Fin 1 → ℝ)) :
    ¬∃ c, ∀ᵐ ω ∂ideal, Real.arctan ((((phaseRows (fun _ => (0, 0)) (fun _ => (0, 0)) 1 q 1 ⟨1, some 1⟩ (Fl.fin 1) 0 key (1 + 1) z ω).getLast?.getD (0, 0)).1) 0) = c := by
  rintro ⟨c, hc⟩
  have e : ∀ ω, (phaseRows (fun _ => (0, 0)) (fun _ => (0, 0)) 1 q 1 ⟨1, some 1⟩ (Fl.fin 1) 0 key (1 + 1) z ω).getLast?.getD (0, 0)
      = udStep (fun _ => (0, 0)) (fun _ => (0, 0)) 1 1 ⟨1, some 1⟩ z (udDrawsAt q 1 key ω) := fun ω => by
    have := ud_run_phase (q := q) (d := 1) (fun _ => (0, 0)) (fun _ => (0, 0)) 1 1 ⟨1, some 1⟩ z (Fl.fin 1) 0 key (n := 1 + 1) (by omega) ω
    rw [phaseRows]
    erw [this]
    rfl
  simp only [e] at hc
  have hd := udDrawsAt_draws (d := 1) hq
  have hst := measurable_udStep (d := 1) (fun _ => (0, 0)) (fun _ => (0, 0)) 1 1 (by unfold gradField; fun_prop) (by unfold potAt; fun_prop) ⟨1, some 1⟩
  have hm : Measurable fun w => Real.arctan ((udStep (fun _ => (0, 0)) (fun _ => (0, 0)) 1 1 ⟨1, some 1⟩ z w).1 0) :=
    Real.continuous_arctan.measurable.comp ((measurable_pi_apply 0).comp (measurable_fst.comp (hst.comp measurable_prodMk_left)))
  have h1 : ∀ᵐ w ∂((stdNormal 1).prod unif), Real.arctan ((udStep (fun _ => (0, 0)) (fun _ => (0, 0)) 1 1 ⟨1, some 1⟩ z w).1 0) = c := by
    rw [← hd.law key]
    exact (ae_map_iff (hd.measurable key).aemeasurable (hm (measurableSet_singleton c))).2 hc
  have h2 : ∀ᵐ w ∂((stdNormal 1).prod unif), w.2 < 1 := by
    have : ∀ᵐ u ∂unif, u < 1 := by
      unfold unif
      filter_upwards [ae_restrict_mem measurableSet_Ico] with u hu using hu.2
    exact Measure.quasiMeasurePreserving_snd.ae this
  have hs : 0 < Real.sqrt (1 - decay 2 ⟨1, some 1⟩) := by
    have : Real.exp (-2) < 1 := by rw [Real.exp_lt_one_iff]; norm_num
    simp only [decay, mul_one]
    exact Real.sqrt_pos.2 (by linarith)
  obtain ⟨v, hv⟩ : ∃ v, v = (Real.tan c - z.1 0 + z.2 0 * decay 1 ⟨1, some 1⟩) / Real.sqrt (1 - decay 2 ⟨1, some 1⟩) := ⟨_, rfl⟩
  have h3 : ∀ᵐ w ∂((stdNormal 1).prod unif), w.1 0 = v := by
    filter_upwards [h1, h2] with w h1 h2
    rw [flat_step z w h2] at h1
    have := congrArg Real.tan h1
    rw [Real.tan_arctan] at this
    rw [hv, eq_div_iff hs.ne']
    linarith
  have h4 : ∀ᵐ y ∂(gaussianReal 0 1), y = v := by
    have hmp : MeasurePreserving (fun z : (Fin 1 → ℝ) × ℝ => z.1 0) ((stdNormal 1).prod unif) (gaussianReal 0 1) :=
      (measurePreserving_eval (fun _ : Fin 1 => gaussianReal 0 1) 0).comp measurePreserving_fst
    rw [← hmp.map_eq]
    exact (ae_map_iff hmp.measurable.aemeasurable (measurableSet_singleton _)).2 h3
  have : NullSingletonClass (gaussianReal 0 1) := nullSingletonClass_gaussianReal one_ne_zero
  have h5 : (gaussianReal 0 1) Set.univ = 0 := by
    have := measure_mono_null (s := Set.univ) (t := {y | y = v} ∪ {y | ¬ y = v}) (μ := gaussianReal 0 1) (fun y _ => em _) (measure_union_null (measure_singleton _) h4)
    exact this
  simp at h5

/-- Error bars across chains with friction on a flat target. -/
example {q : ℝ → ℝ} (hq : IsNormalDraw q) (key : Keys.Key) (z : (Fin 1 → ℝ) × (Fin 1 → ℝ)) :=
  C161_error_bars_friction (prior := fun _ : Fin 1 → ℝ => (0, 0)) (lik := fun _ => (0, 0)) (T := 1) hq (by unfold gradField; fun_prop) (by unfold potAt; fun_prop) 1 ⟨1, some 1⟩ (Fl.fin 1) 0 (fun r => r :: key)
    (split_separate key) 1 z (g := fun l => Real.arctan ((l.getLast?.getD (0, 0)).1 0)) (Real.continuous_arctan.measurable.comp (by simp; fun_prop)) key
    (by
      refine MemLp.of_bound ?_ (Real.pi / 2) (ae_of_all _ fun ω => ?_)
      · have h := measurable_pathVec (udDrawsAt_draws (d := 1) hq)
          (measurable_udStep (d := 1) (fun _ => (0, 0)) (fun _ => (0, 0)) 1 1 (by unfold gradField; fun_prop) (by unfold potAt; fun_prop) ⟨1, some 1⟩) 1 key z
        have e : ∀ ω, phaseRows (fun _ => (0, 0)) (fun _ => (0, 0)) 1 q 1 ⟨1, some 1⟩ (Fl.fin 1) 0 key (1 + 1) z ω
            = List.ofFn (pathVec (udDrawsAt q 1) Keys.udNext (udStep (fun _ => (0, 0)) (fun _ => (0, 0)) 1 1 ⟨1, some 1⟩) 1 key z ω) := fun ω => by
          rw [ofFn_pathVec]; exact ud_run_phase (q := q) _ _ 1 1 ⟨1, some 1⟩ z (Fl.fin 1) 0 key (n := 1 + 1) (by omega) ω
        simp only [e]
        have h1 : Measurable fun v : Fin 2 → (Fin 1 → ℝ) × (Fin 1 → ℝ) => Real.arctan (((List.ofFn v).getLast?.getD (0, 0)).1 0) :=
          Real.continuous_arctan.measurable.comp (by simp; fun_prop)
        exact (h1.comp h).aestronglyMeasurable
      · rw [Real.norm_eq_abs, abs_le]
        exact ⟨(Real.neg_pi_div_two_lt_arctan _).le, (Real.arctan_lt_pi_div_two _).le⟩)
    (friction_not_constant hq key z)

end Mocat.Props
