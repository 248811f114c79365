import Verif.Lemmas.ErgodicLag
import Verif.Props.ChainErgodic
import Verif.Props.Metrics
import Verif.Lemmas.GaussMoments
/-!
# C150: what the diagnostics of a run tell about the chain
-/
namespace Mocat.Props
open Mocat Mocat.Mcmc Mocat.Ideal Mocat.Meas Mocat.Spec Mocat.Ergodic Mocat.Metrics MeasureTheory ProbabilityTheory Filter
open scoped ENNReal Topology

variable {d : ℕ}

/-! ## Specification -/

/-- The rows of a run of `n` samples of `RandomWalk` with `Metropolis`. -/
noncomputable def walkRows (S : Set (Fin d → ℝ)) (V : (Fin d → ℝ) → ℝ) (q : ℝ → ℝ) (step : ℝ) (n : ℕ) (x0 : Fin d → ℝ) (al : Fl) (t : ℝ) (key : Keys.Key) (ω : Tape) : List (Fin d → ℝ) :=
  (runFrom (randomWalk Keys.split3 (normalAt q d ω) fun x _ => potOn S V x) (metropolis Keys.split fun k => ω (k, 0)) n (rwState S V x0 al t) ⟨key, 0, step⟩).map fun s => s.payload.value

/-- The value after `l` updates from `x`. -/
noncomputable def valueAfter (S : Set (Fin d → ℝ)) (V : (Fin d → ℝ) → ℝ) (q : ℝ → ℝ) (step : ℝ) (l : ℕ) (x : Fin d → ℝ) (ω : Tape) : Fin d → ℝ :=
  (bodyIter (rwUpdate S V Keys.split3 (normalAt q d ω) Keys.split fun k => ω (k, 0)) l (rwState S V x (Fl.fin 1) 0, ⟨[], 0, step⟩)).1.payload.value

/-- The mean of `F (x, y)` for `x` from the posterior and `y` the value `l` updates later. -/
noncomputable def stationaryMean (S : Set (Fin d → ℝ)) (V : (Fin d → ℝ) → ℝ) (q : ℝ → ℝ) (step : ℝ) (l : ℕ) (F : (Fin d → ℝ) → (Fin d → ℝ) → ℝ) : ℝ :=
  ∫ z : (Fin d → ℝ) × Tape, F z.1 (valueAfter S V q step l z.1 z.2) ∂((normalised (target S V)).prod ideal)

/-- The covariance of `f` at two states `l` updates apart, started from the posterior. -/
noncomputable def stationaryCov (S : Set (Fin d → ℝ)) (V : (Fin d → ℝ) → ℝ) (q : ℝ → ℝ) (step : ℝ) (f : (Fin d → ℝ) → ℝ) (l : ℕ) : ℝ :=
  stationaryMean S V q step l fun x y => (f x - meanUnder (target S V) f) * (f y - meanUnder (target S V) f)

/-! ## Series -/

theorem getD_range (x : ℕ → ℝ) {n j : ℕ} (h : j < n) : ((List.range n).map x).getD j 0 = x j := by
  rw [List.getD_eq_getElem _ _ (by simpa using h)]
  simp

theorem sum_map_range (x : ℕ → ℝ) (n : ℕ) : ((List.range n).map x).sum = ∑ j ∈ Finset.range n, x j := by
  rw [Finset.sum_range, ← List.sum_ofFn, List.ofFn_eq_map, ← List.map_coe_finRange_eq_range, List.map_map]
  rfl

theorem autocov_range (x : ℕ → ℝ) (m : ℝ) {n : ℕ} (hn : 0 < n) (l : ℕ) :
    autocov ((List.range n).map fun j => x j) l / n
      = (∑ j ∈ Finset.range (n - l), (x j - m) * (x (j + l) - m)) / n - ((∑ j ∈ Finset.range n, (x j - m)) / n) * ((∑ j ∈ Finset.range (n - l), (x j - m)) / n)
        - ((∑ j ∈ Finset.range n, (x j - m)) / n) * ((∑ j ∈ Finset.range (n - l), (x (j + l) - m)) / n)
        + ((∑ j ∈ Finset.range n, (x j - m)) / n) ^ 2 * (((n - l : ℕ) : ℝ) / n) := by
  have hn' : (n : ℝ) ≠ 0 := by positivity
  have hm : ((List.range n).map fun j => x j).sum / ((List.range n).map fun j => x j).length = (∑ j ∈ Finset.range n, (x j - m)) / n + m := by
    rw [sum_map_range, List.length_map, List.length_range, Finset.sum_sub_distrib, Finset.sum_const, Finset.card_range, nsmul_eq_mul]
    field_simp
    ring
  unfold autocov
  rw [hm]
  generalize (∑ j ∈ Finset.range n, (x j - m)) / n = e
  rw [List.length_map, List.length_range]
  have h1 : ∑ j ∈ Finset.range (n - l), (((List.range n).map fun j => x j).getD j 0 - (e + m)) * (((List.range n).map fun j => x j).getD (j + l) 0 - (e + m))
      = (∑ j ∈ Finset.range (n - l), (x j - m) * (x (j + l) - m)) - e * (∑ j ∈ Finset.range (n - l), (x j - m)) - e * (∑ j ∈ Finset.range (n - l), (x (j + l) - m)) + e ^ 2 * ((n - l : ℕ) : ℝ) := by
    have h2 : e ^ 2 * ((n - l : ℕ) : ℝ) = ∑ _j ∈ Finset.range (n - l), e ^ 2 := by rw [Finset.sum_const, Finset.card_range, nsmul_eq_mul, mul_comm]
    rw [h2, Finset.mul_sum, Finset.mul_sum, ← Finset.sum_sub_distrib, ← Finset.sum_sub_distrib, ← Finset.sum_add_distrib]
    refine Finset.sum_congr rfl fun j hj => ?_
    have := Finset.mem_range.1 hj
    rw [getD_range x (by omega), getD_range x (by omega)]
    ring
  rw [h1]
  field_simp

/-! ## Averages over a run -/

section
variable {q : ℝ → ℝ} (hq : IsNormalDraw q) {S : Set (Fin d → ℝ)} (hS : MeasurableSet S) {V : (Fin d → ℝ) → ℝ} (hV : Measurable V)
  (h0 : target S V Set.univ ≠ 0) (hT : target S V Set.univ ≠ ∞) {step : ℝ} (hstep : 0 < step) (x0 : Fin d → ℝ) (al : Fl) (t : ℝ) (key : Keys.Key)

theorem walkRows_eq (q : ℝ → ℝ) (S : Set (Fin d → ℝ)) (V : (Fin d → ℝ) → ℝ) (step : ℝ) (x0 : Fin d → ℝ) (al : Fl) (t : ℝ) (key : Keys.Key) {n : ℕ} (hn : 1 ≤ n) (ω : Tape) :
    walkRows S V q step n x0 al t key ω = (List.range n).map fun j => tapeIter (rwDraws q d) Keys.rwNext (rwMove S V step) j key x0 ω := by
  unfold walkRows
  rw [C12_mcmc _ _ (keepsIter_randomWalk _ _ _) (corrKeepsIter_metropolis _ _), List.map_map]
  have hlen : ((n : ℤ) - 1 - ((0 : ℕ) : ℤ)).toNat + 1 = n := by omega
  simp only [hlen]
  have := fun j => rw_values (q := q) S V step t ω j x0 key al 0
  unfold rwUpdate at this
  simp only [Function.comp_def, this]

theorem valueAfter_eq (l : ℕ) (x : Fin d → ℝ) (ω : Tape) : valueAfter S V q step l x ω = tapeIter (rwDraws q d) Keys.rwNext (rwMove S V step) l [] x ω :=
  rw_values S V step 0 ω l x [] (Fl.fin 1) 0

include hS hV in
theorem measurable_walkMove : Measurable (Function.uncurry (rwMove S V step)) := by
  have mT : Measurable (Function.uncurry fun x z : Fin d → ℝ => rwProp (Real.sqrt step) (x, z)) := measurable_rwProp (d := d) (Real.sqrt step)
  have ma : Measurable (Function.uncurry fun x z : Fin d → ℝ => accOn S V x (rwProp (Real.sqrt step) (x, z))) := (measurable_accOn hS hV).comp (measurable_fst.prodMk mT)
  exact measurable_metro mT ma

include hS hV in
theorem walkMove_inv (f : (Fin d → ℝ) → ℝ≥0∞) (hf : Measurable f) :
    ∫⁻ x, ∫⁻ w, f (rwMove S V step x w) ∂((stdNormal d).prod unif) ∂(normalised (target S V)) = ∫⁻ x, f x ∂(normalised (target S V)) :=
  normalised_invariant (F := fun g x => ∫⁻ w, g (rwMove S V step x w) ∂((stdNormal d).prod unif)) (rwMove_invariant hS hV step f hf)

include hq hS hV h0 hT hstep in
/-- Averages of functions of two states. -/
theorem walkMove_lag (l : ℕ) {F : (Fin d → ℝ) × (Fin d → ℝ) → ℝ} (hF : Measurable F)
    (hi : Integrable (fun z : (Fin d → ℝ) × Tape => F (z.1, tapeIter (rwDraws q d) Keys.rwNext (rwMove S V step) l [] z.1 z.2)) ((normalised (target S V)).prod ideal)) :
    InProb (fun _ => ideal) (fun (n : ℕ) ω => (∑ j ∈ Finset.range (n - l), F (tapeIter (rwDraws q d) Keys.rwNext (rwMove S V step) j key x0 ω, tapeIter (rwDraws q d) Keys.rwNext (rwMove S V step) (j + l) key x0 ω)) / n)
      (stationaryMean S V q step l fun x y => F (x, y)) := by
  have hπ := normalised_prob h0 hT
  have mT : Measurable (Function.uncurry fun x z : Fin d → ℝ => rwProp (Real.sqrt step) (x, z)) := measurable_rwProp (d := d) (Real.sqrt step)
  have ma : Measurable (Function.uncurry fun x z : Fin d → ℝ => accOn S V x (rwProp (Real.sqrt step) (x, z))) := (measurable_accOn hS hV).comp (measurable_fst.prodMk mT)
  have hirr : Irreducible ((stdNormal d).prod unif) (rwMove S V step) (normalised (target S V)) := by
    refine irreducible_of_reach (measurable_metro mT ma) (.of_forall fun x => ?_)
    rw [metro_map mT ma (fun _ _ => accOn_nonneg _ _ _ _) (fun _ _ => accOn_le_one _ _ _ _) x]
    exact (rw_ac hS hV hT hstep x).2.trans (Measure.absolutelyContinuous_of_le (Measure.le_add_left le_rfl))
  have hreg : Regular ((stdNormal d).prod unif) (rwMove S V step) (normalised (target S V)) x0 :=
    regular_of_leaves (measurable_walkMove hS hV) (walkMove_inv hS hV) (reject_lt_one mT ma (fun _ _ => accOn_nonneg _ _ _ _) (fun _ _ => accOn_le_one _ _ _ _) (rw_ac hS hV hT hstep x0).2) (rw_ac hS hV hT hstep x0).1
      (metro_map mT ma (fun _ _ => accOn_nonneg _ _ _ _) (fun _ _ => accOn_le_one _ _ _ _) x0).le
  have h := lag_average (measurable_walkMove hS hV) (walkMove_inv hS hV) hirr hreg (rwDraws_draws hq) l hF [] hi key
  unfold stationaryMean
  simp only [valueAfter_eq]
  exact h

include hq hS hV h0 hT in
/-- A state `l` updates after one from the posterior is from the posterior. -/
theorem walkMove_pres (l : ℕ) : MeasurePreserving (fun z : (Fin d → ℝ) × Tape => tapeIter (rwDraws q d) Keys.rwNext (rwMove S V step) l [] z.1 z.2) ((normalised (target S V)).prod ideal) (normalised (target S V)) := by
  have hπ := normalised_prob h0 hT
  have mi := measurable_tapeIter (rwDraws_draws (d := d) hq) (measurable_walkMove (step := step) hS hV) l []
  refine ⟨mi, Measure.ext_of_lintegral _ fun h hh => ?_⟩
  rw [lintegral_map hh mi, lintegral_prod (fun z : (Fin d → ℝ) × Tape => h (tapeIter (rwDraws q d) Keys.rwNext (rwMove S V step) l [] z.1 z.2)) (hh.comp mi).aemeasurable]
  rw [← stepOp_iterate_inv (walkMove_inv (step := step) hS hV) (measurable_walkMove hS hV) hh l]
  exact lintegral_congr fun x => lintegral_tapeIter (rwDraws_draws hq) (measurable_walkMove hS hV) l [] x hh

theorem mp_integral {α β : Type*} [MeasurableSpace α] [MeasurableSpace β] {μ : Measure α} {ν : Measure β} {p : α → β} (hp : MeasurePreserving p μ ν) {g : β → ℝ} (hg : Measurable g) :
    ∫ x, g (p x) ∂μ = ∫ y, g y ∂ν := by
  rw [← hp.map_eq, integral_map hp.measurable.aemeasurable hg.aestronglyMeasurable]

theorem inProb_total {ι : Type*} (I : Finset ι) {Y : ι → ℕ → Tape → ℝ} {c : ι → ℝ} (h : ∀ i, InProb (fun _ => ideal) (Y i) (c i)) : InProb (fun _ => ideal) (fun n ω => ∑ i ∈ I, Y i n ω) (∑ i ∈ I, c i) := by
  classical
  induction I using Finset.induction_on with
  | empty => simpa using inProb_const (μ := fun _ : ℕ => ideal) (0 : ℝ)
  | insert a I ha ih =>
    simp only [Finset.sum_insert ha]
    exact (h a).add ih

include h0 hT in
theorem memLp_norm {f : (Fin d → ℝ) → ℝ} (hf : Measurable f) (hf2 : Integrable (fun x => f x ^ 2) (target S V)) (m : ℝ) : MemLp (fun x => f x - m) 2 (normalised (target S V)) := by
  have hπ := normalised_prob h0 hT
  have h1 : MemLp f 2 (normalised (target S V)) := (memLp_two_iff_integrable_sq hf.aestronglyMeasurable).2 (hf2.smul_measure (ENNReal.inv_ne_top.mpr h0))
  exact h1.sub (memLp_const m)

include hq hS hV h0 hT hstep in
theorem autocov_run {f : (Fin d → ℝ) → ℝ} (hf : Measurable f) (hf2 : Integrable (fun x => f x ^ 2) (target S V)) (l : ℕ) :
    InProb (fun _ => ideal) (fun (n : ℕ) ω => autocov ((walkRows S V q step n x0 al t key ω).map f) l / n) (stationaryCov S V q step f l) := by
  have hπ := normalised_prob h0 hT
  obtain ⟨m, hm⟩ : ∃ m, m = meanUnder (target S V) f := ⟨_, rfl⟩
  have mg : Measurable fun x => f x - m := hf.sub_const m
  have hL := memLp_norm h0 hT hf hf2 m
  have hI : Integrable (fun x => f x - m) (normalised (target S V)) := hL.integrable (by norm_num)
  have hfst : MeasurePreserving (Prod.fst : (Fin d → ℝ) × Tape → _) ((normalised (target S V)).prod ideal) (normalised (target S V)) := measurePreserving_fst
  have hlst := fun l => walkMove_pres (step := step) hq hS hV h0 hT l
  have hzero : ∫ x, (f x - m) ∂(normalised (target S V)) = 0 := by
    have hIf : Integrable f (normalised (target S V)) := by
      have := hI.add (integrable_const m)
      exact this.congr (.of_forall fun x => by simp)
    rw [integral_sub hIf (integrable_const m), integral_normalised, ← hm]
    simp
  have hprod := walkMove_lag hq hS hV h0 hT hstep x0 key l (F := fun z => (f z.1 - m) * (f z.2 - m)) ((mg.comp measurable_fst).mul (mg.comp measurable_snd))
    ((hL.comp_measurePreserving hfst).integrable_mul (hL.comp_measurePreserving (hlst l)))
  have hall := walkMove_lag hq hS hV h0 hT hstep x0 key 0 (F := fun z => f z.1 - m) (mg.comp measurable_fst) ((hfst.integrable_comp mg.aestronglyMeasurable).2 hI)
  have hone := walkMove_lag hq hS hV h0 hT hstep x0 key l (F := fun z => f z.1 - m) (mg.comp measurable_fst) ((hfst.integrable_comp mg.aestronglyMeasurable).2 hI)
  have htwo := walkMove_lag hq hS hV h0 hT hstep x0 key l (F := fun z => f z.2 - m) (mg.comp measurable_snd) (((hlst l).integrable_comp mg.aestronglyMeasurable).2 hI)
  have e1 : ∀ l, stationaryMean S V q step l (fun x _ => f x - m) = 0 := fun l => by
    unfold stationaryMean
    rw [mp_integral hfst mg, hzero]
  have e2 : stationaryMean S V q step l (fun _ y => f y - m) = 0 := by
    unfold stationaryMean
    simp only [valueAfter_eq]
    rw [mp_integral (hlst l) mg, hzero]
  rw [e1] at hall hone
  rw [e2] at htwo
  have hfrac : Tendsto (fun n : ℕ => ((n - l : ℕ) : ℝ) / n) atTop (𝓝 1) := by
    have h1 : Tendsto (fun n : ℕ => 1 - (l : ℝ) / n) atTop (𝓝 (1 - 0)) := tendsto_const_nhds.sub (tendsto_const_div_atTop_nhds_zero_nat _)
    rw [sub_zero] at h1
    refine h1.congr' ?_
    filter_upwards [eventually_ge_atTop l, eventually_gt_atTop 0] with n hn hn0
    have : (n : ℝ) ≠ 0 := by positivity
    rw [Nat.cast_sub hn]
    field_simp
  have hmain := ((hprod.sub (hall.mul hone)).sub (hall.mul htwo)).add ((hall.mul hall).mul (inProb_of_tendsto hfrac))
  have hlim : (stationaryMean S V q step l fun x y => (f x - m) * (f y - m)) - 0 * 0 - 0 * 0 + 0 * 0 * 1 = stationaryCov S V q step f l := by
    unfold stationaryCov
    rw [← hm]
    ring
  rw [hlim] at hmain
  refine hmain.congr ?_
  filter_upwards [eventually_ge_atTop 1] with n hn ω
  rw [walkRows_eq q S V step x0 al t key hn, List.map_map]
  have := autocov_range (fun j => f (tapeIter (rwDraws q d) Keys.rwNext (rwMove S V step) j key x0 ω)) m hn l
  simp only [Function.comp_def]
  rw [this, Nat.sub_zero, pow_two]

include hq hS hV h0 hT hstep in
/-- C150: as a run of `RandomWalk` with `Metropolis` grows, from any start, with `max_lag_eval` at least the length of the run, the autocorrelation reported at each lag tends in probability to that of the
stationary chain. -/
theorem C150_autocorrelation_partial {f : (Fin d → ℝ) → ℝ} (hf : Measurable f) (hf2 : Integrable (fun x => f x ^ 2) (target S V)) (hvar : stationaryCov S V q step f 0 ≠ 0)
    (maxLag : ℕ → ℕ) (hmax : ∀ n, n ≤ maxLag n) (l : ℕ) :
    InProb (fun _ => ideal) (fun (n : ℕ) ω => (autocorrelation ((walkRows S V q step n x0 al t key ω).map f) (maxLag n)).getD l 0)
      (stationaryCov S V q step f l / stationaryCov S V q step f 0) := by
  have h := ((autocov_run hq hS hV h0 hT hstep x0 al t key hf hf2 l).prod (autocov_run hq hS hV h0 hT hstep x0 al t key hf hf2 0)).comp (φ := fun z : ℝ × ℝ => z.1 / z.2)
    (continuousAt_fst.div continuousAt_snd hvar)
  refine h.congr ?_
  filter_upwards [eventually_gt_atTop l] with n hn ω
  have hlen : ((walkRows S V q step n x0 al t key ω).map f).length = n := by
    rw [walkRows_eq q S V step x0 al t key (by omega)]
    simp
  rw [List.getD_eq_getElem?_getD, C34_short_partial _ _ _ (by rw [hlen]; exact hmax n) (by rw [hlen]; exact hn), Option.getD_some]
  have : (n : ℝ) ≠ 0 := by
    have : 0 < n := by omega
    positivity
  exact div_div_div_cancel_right₀ this _ _

include hq hS hV h0 hT hstep in
/-- C150: so does the integrated autocorrelation time at an explicit `max_lag_iat`, and the effective sample size over the number of samples tends to its inverse. -/
theorem C150_time_partial {f : (Fin d → ℝ) → ℝ} (hf : Measurable f) (hf2 : Integrable (fun x => f x ^ 2) (target S V)) (hvar : stationaryCov S V q step f 0 ≠ 0)
    (maxLag : ℕ → ℕ) (hmax : ∀ n, n ≤ maxLag n) (M : ℕ) :
    InProb (fun _ => ideal) (fun (n : ℕ) ω => (iatFrom (autocorrelation ((walkRows S V q step n x0 al t key ω).map f) (maxLag n)) (some M)).getD 0)
      (1 + 2 * ∑ k ∈ Finset.Icc 1 (M + 1), stationaryCov S V q step f k / stationaryCov S V q step f 0) ∧
    (1 + 2 * ∑ k ∈ Finset.Icc 1 (M + 1), stationaryCov S V q step f k / stationaryCov S V q step f 0 ≠ 0 →
      InProb (fun _ => ideal) (fun (n : ℕ) ω => (essAutocorrelation ((walkRows S V q step n x0 al t key ω).map f) (some M) (maxLag n)).getD 0 / n)
        (1 + 2 * ∑ k ∈ Finset.Icc 1 (M + 1), stationaryCov S V q step f k / stationaryCov S V q step f 0)⁻¹) := by
  have hlen : ∀ n, 1 ≤ n → ∀ ω, ((walkRows S V q step n x0 al t key ω).map f).length = n := fun n hn ω => by
    rw [walkRows_eq q S V step x0 al t key hn]
    simp
  have hsum : InProb (fun _ => ideal) (fun (n : ℕ) ω => tau (autocorrelation ((walkRows S V q step n x0 al t key ω).map f) (maxLag n)) (M + 1))
      (1 + 2 * ∑ k ∈ Finset.Icc 1 (M + 1), stationaryCov S V q step f k / stationaryCov S V q step f 0) :=
    (inProb_const (1 : ℝ)).add ((inProb_const (2 : ℝ)).mul (inProb_total _ fun k => C150_autocorrelation_partial hq hS hV h0 hT hstep x0 al t key hf hf2 hvar maxLag hmax k))
  have hval : ∀ᶠ n : ℕ in atTop, ∀ ω, iatFrom (autocorrelation ((walkRows S V q step n x0 al t key ω).map f) (maxLag n)) (some M)
      = some (tau (autocorrelation ((walkRows S V q step n x0 al t key ω).map f) (maxLag n)) (M + 1)) := by
    filter_upwards [eventually_gt_atTop (M + 1)] with n hn ω
    refine C35_explicit_lag _ _ ?_
    rw [C34_length, hlen n (by omega), min_eq_right (hmax n)]
    exact hn
  refine ⟨hsum.congr ?_, fun hne => ?_⟩
  · filter_upwards [hval] with n hn ω
    rw [hn, Option.getD_some]
  · refine (hsum.comp (φ := fun x : ℝ => x⁻¹) (continuousAt_inv₀ hne)).congr ?_
    filter_upwards [hval, eventually_ge_atTop 1] with n hn h1 ω
    rw [C35_ess _ _ _ _ (hn ω), Option.getD_some, hlen n h1]
    have : (n : ℝ) ≠ 0 := by positivity
    field_simp

include hq hS hV h0 hT hstep in
/-- C150: the squared jumping distance of a run tends in probability to the mean squared change of one update of the stationary chain. -/
theorem C150_jumps {f : (Fin d → ℝ) → ℝ} (hf : Measurable f) (hf2 : Integrable (fun x => f x ^ 2) (target S V)) :
    InProb (fun _ => ideal) (fun (n : ℕ) ω => squaredJumpingDistance ((walkRows S V q step n x0 al t key ω).map f)) (stationaryMean S V q step 1 fun x y => (f y - f x) ^ 2) := by
  have hπ := normalised_prob h0 hT
  have hL := memLp_norm h0 hT hf hf2 0
  have hfst : MeasurePreserving (Prod.fst : (Fin d → ℝ) × Tape → _) ((normalised (target S V)).prod ideal) (normalised (target S V)) := measurePreserving_fst
  have hd : MemLp (fun z : (Fin d → ℝ) × Tape => f (tapeIter (rwDraws q d) Keys.rwNext (rwMove S V step) 1 [] z.1 z.2) - f z.1) 2 ((normalised (target S V)).prod ideal) := by
    have := (hL.comp_measurePreserving (walkMove_pres (step := step) hq hS hV h0 hT 1)).sub (hL.comp_measurePreserving hfst)
    exact this.ae_eq (.of_forall fun z => by simp [Function.comp_def])
  have h := walkMove_lag hq hS hV h0 hT hstep x0 key 1 (F := fun z => (f z.2 - f z.1) ^ 2) (((hf.comp measurable_snd).sub (hf.comp measurable_fst)).pow_const 2) hd.integrable_sq
  have hfrac : Tendsto (fun n : ℕ => (n : ℝ) / ((n - 1 : ℕ) : ℝ)) atTop (𝓝 1) := by
    have h1 : Tendsto (fun n : ℕ => ((n + 1 : ℕ) : ℝ) / ((n + 1 - 1 : ℕ) : ℝ)) atTop (𝓝 1) := by
      have h2 : Tendsto (fun n : ℕ => 1 + (1 : ℝ) / n) atTop (𝓝 (1 + 0)) := tendsto_const_nhds.add (tendsto_const_div_atTop_nhds_zero_nat _)
      rw [add_zero] at h2
      refine h2.congr' ?_
      filter_upwards [eventually_gt_atTop 0] with n hn0
      have : (n : ℝ) ≠ 0 := by positivity
      rw [Nat.add_sub_cancel]
      push_cast
      field_simp
    exact (tendsto_add_atTop_iff_nat 1).1 h1
  have hmain := h.mul (inProb_of_tendsto hfrac)
  rw [mul_one] at hmain
  refine hmain.congr ?_
  filter_upwards [eventually_gt_atTop 1] with n hn ω
  rw [walkRows_eq q S V step x0 al t key (by omega), List.map_map]
  obtain ⟨p, rfl⟩ : ∃ p, n = p + 1 := ⟨n - 1, by omega⟩
  have e : (List.range (p + 1)).map (f ∘ fun j => tapeIter (rwDraws q d) Keys.rwNext (rwMove S V step) j key x0 ω) = series (fun j => f (tapeIter (rwDraws q d) Keys.rwNext (rwMove S V step) j key x0 ω)) p := by
    unfold series
    rw [List.ofFn_eq_map, ← List.map_coe_finRange_eq_range, List.map_map]
    rfl
  rw [e, C90_value, Nat.add_sub_cancel]
  have h1 : ((p + 1 : ℕ) : ℝ) ≠ 0 := by positivity
  field_simp

include hS hV h0 hT hstep in
theorem walk_irreducible : Irreducible ((stdNormal d).prod unif) (rwMove S V step) (normalised (target S V)) := by
  have hπ := normalised_prob h0 hT
  have mT : Measurable (Function.uncurry fun x z : Fin d → ℝ => rwProp (Real.sqrt step) (x, z)) := measurable_rwProp (d := d) (Real.sqrt step)
  have ma : Measurable (Function.uncurry fun x z : Fin d → ℝ => accOn S V x (rwProp (Real.sqrt step) (x, z))) := (measurable_accOn hS hV).comp (measurable_fst.prodMk mT)
  refine irreducible_of_reach (measurable_metro mT ma) (.of_forall fun x => ?_)
  rw [metro_map mT ma (fun _ _ => accOn_nonneg _ _ _ _) (fun _ _ => accOn_le_one _ _ _ _) x]
  exact (rw_ac hS hV hT hstep x).2.trans (Measure.absolutelyContinuous_of_le (Measure.le_add_left le_rfl))

theorem stationaryCov_zero (hf : Measurable f) (h0 : target S V Set.univ ≠ 0) (hT : target S V Set.univ ≠ ∞) :
    stationaryCov S V q step f 0 = ∫ x, (f x - meanUnder (target S V) f) ^ 2 ∂(normalised (target S V)) := by
  have hπ := normalised_prob h0 hT
  have hfst : MeasurePreserving (Prod.fst : (Fin d → ℝ) × Tape → _) ((normalised (target S V)).prod ideal) (normalised (target S V)) := measurePreserving_fst
  rw [← mp_integral hfst ((hf.sub_const _).pow_const 2)]
  unfold stationaryCov stationaryMean
  refine integral_congr_ae (.of_forall fun z => ?_)
  simp only [valueAfter_eq, tapeIter, pow_two]

include hq hS hV h0 hT hstep in
/-- A quantity that is not constant under the posterior is not perfectly correlated from one update to the next. -/
theorem cov_one_ne {f : (Fin d → ℝ) → ℝ} (hf : Measurable f) (hf2 : Integrable (fun x => f x ^ 2) (target S V)) (hvar : stationaryCov S V q step f 0 ≠ 0) :
    stationaryCov S V q step f 1 ≠ stationaryCov S V q step f 0 := by
  have hπ := normalised_prob h0 hT
  intro heq
  obtain ⟨m, hm⟩ : ∃ m, m = meanUnder (target S V) f := ⟨_, rfl⟩
  have mg : Measurable fun x => f x - m := hf.sub_const m
  have hL := memLp_norm h0 hT hf hf2 m
  have hfst : MeasurePreserving (Prod.fst : (Fin d → ℝ) × Tape → _) ((normalised (target S V)).prod ideal) (normalised (target S V)) := measurePreserving_fst
  have hlst := walkMove_pres (step := step) hq hS hV h0 hT 1
  have L1 := hL.comp_measurePreserving hfst
  have L2 := hL.comp_measurePreserving hlst
  have hz : ∫ z : (Fin d → ℝ) × Tape, (f (tapeIter (rwDraws q d) Keys.rwNext (rwMove S V step) 1 [] z.1 z.2) - f z.1) ^ 2 ∂((normalised (target S V)).prod ideal) = 0 := by
    have e : ∀ z : (Fin d → ℝ) × Tape, (f (tapeIter (rwDraws q d) Keys.rwNext (rwMove S V step) 1 [] z.1 z.2) - f z.1) ^ 2
        = ((f (tapeIter (rwDraws q d) Keys.rwNext (rwMove S V step) 1 [] z.1 z.2) - m) ^ 2 + (f z.1 - m) ^ 2) - 2 * ((f z.1 - m) * (f (tapeIter (rwDraws q d) Keys.rwNext (rwMove S V step) 1 [] z.1 z.2) - m)) :=
      fun z => by ring
    simp only [e]
    have i2 : Integrable (fun z : (Fin d → ℝ) × Tape => (f (tapeIter (rwDraws q d) Keys.rwNext (rwMove S V step) 1 [] z.1 z.2) - m) ^ 2) ((normalised (target S V)).prod ideal) := L2.integrable_sq
    have i1 : Integrable (fun z : (Fin d → ℝ) × Tape => (f z.1 - m) ^ 2) ((normalised (target S V)).prod ideal) := L1.integrable_sq
    have i12 : Integrable (fun z : (Fin d → ℝ) × Tape => (f z.1 - m) * (f (tapeIter (rwDraws q d) Keys.rwNext (rwMove S V step) 1 [] z.1 z.2) - m)) ((normalised (target S V)).prod ideal) := L1.integrable_mul L2
    have i3 : Integrable (fun z : (Fin d → ℝ) × Tape => (f (tapeIter (rwDraws q d) Keys.rwNext (rwMove S V step) 1 [] z.1 z.2) - m) ^ 2 + (f z.1 - m) ^ 2) ((normalised (target S V)).prod ideal) := i2.add i1
    rw [integral_sub i3 (i12.const_mul 2), integral_add i2 i1, integral_const_mul, mp_integral hlst (mg.pow_const 2), mp_integral hfst (mg.pow_const 2)]
    have e1 : stationaryCov S V q step f 1 = ∫ z : (Fin d → ℝ) × Tape, (f z.1 - m) * (f (tapeIter (rwDraws q d) Keys.rwNext (rwMove S V step) 1 [] z.1 z.2) - m) ∂((normalised (target S V)).prod ideal) := by
      unfold stationaryCov stationaryMean
      rw [← hm]
      simp only [valueAfter_eq]
    rw [← e1, heq, stationaryCov_zero hf h0 hT, ← hm]
    ring
  have hmove : ∀ᵐ z ∂((normalised (target S V)).prod ((stdNormal d).prod unif)), f z.1 = f (rwMove S V step z.1 z.2) := by
    have mH : Measurable fun z : (Fin d → ℝ) × (Fin d → ℝ) => ENNReal.ofReal ((f z.2 - f z.1) ^ 2) := ENNReal.measurable_ofReal.comp (((hf.comp measurable_snd).sub (hf.comp measurable_fst)).pow_const 2)
    have mi : Measurable fun z : (Fin d → ℝ) × Tape => (z.1, tapeIter (rwDraws q d) Keys.rwNext (rwMove S V step) 1 [] z.1 z.2) := measurable_fst.prodMk hlst.measurable
    have ms : Measurable fun z : (Fin d → ℝ) × ((Fin d → ℝ) × ℝ) => (z.1, rwMove S V step z.1 z.2) := measurable_fst.prodMk (measurable_walkMove hS hV)
    have l1 : ∫⁻ z : (Fin d → ℝ) × Tape, ENNReal.ofReal ((f (tapeIter (rwDraws q d) Keys.rwNext (rwMove S V step) 1 [] z.1 z.2) - f z.1) ^ 2) ∂((normalised (target S V)).prod ideal) = 0 := by
      rw [← ofReal_integral_eq_lintegral_ofReal ?_ (.of_forall fun z => sq_nonneg _), hz, ENNReal.ofReal_zero]
      have := (L2.sub L1).integrable_sq
      exact this.congr (.of_forall fun z => by simp [Function.comp_def])
    have l2 : ∫⁻ z, ENNReal.ofReal ((f (rwMove S V step z.1 z.2) - f z.1) ^ 2) ∂((normalised (target S V)).prod ((stdNormal d).prod unif)) = 0 := by
      rw [← l1]
      refine (lintegral_prod _ (mH.comp ms).aemeasurable).trans (Eq.trans ?_ (lintegral_prod _ (mH.comp mi).aemeasurable).symm)
      refine lintegral_congr fun x => ?_
      exact (lintegral_tapeIter (rwDraws_draws hq) (measurable_walkMove hS hV) 1 [] x (h := fun y => ENNReal.ofReal ((f y - f x) ^ 2)) (mH.comp measurable_prodMk_left)).symm
    have l3 := (lintegral_eq_zero_iff (mH.comp ms)).1 l2
    filter_upwards [l3] with z hz
    have h1 : (f (rwMove S V step z.1 z.2) - f z.1) ^ 2 ≤ 0 := by simpa using hz
    have h2 := (pow_eq_zero_iff two_ne_zero).1 (le_antisymm h1 (sq_nonneg _))
    linarith
  obtain ⟨c, hc⟩ := walk_irreducible hS hV h0 hT hstep f hf hmove
  apply hvar
  have hmc : meanUnder (target S V) f = c := by
    rw [← integral_normalised, integral_congr_ae hc]
    simp
  rw [stationaryCov_zero hf h0 hT, hmc]
  have : ∫ x, (f x - c) ^ 2 ∂(normalised (target S V)) = ∫ _x, (0 : ℝ) ∂(normalised (target S V)) := integral_congr_ae (by
    filter_upwards [hc] with x hx
    rw [hx]
    simp)
  rw [this, integral_zero]

/-- Only the first rows matter: with a bounded number of lags `K`, a series that starts with `2 * nextPowTwo K` equal values, different from its mean, is reported as perfectly correlated at every lag, whatever
follows. -/
theorem C150_start_decides (vals : List ℝ) (K : ℕ) (c : ℝ) (hlen : 2 * nextPowTwo K ≤ vals.length) (hK : K ≤ vals.length) (hc : ∀ j < 2 * nextPowTwo K, vals.getD j 0 = c) (hmean : vals.sum / vals.length ≠ c) :
    autocorrelation vals K = List.replicate K 1 := by
  have hN : 0 < 2 * nextPowTwo K := Nat.pos_of_ne_zero (NeZero.ne _)
  have hraw : ∀ k, acfRaw vals K k = (2 * nextPowTwo K : ℕ) * (c - vals.sum / vals.length) ^ 2 := by
    intro k
    rw [C34_circular]
    simp only [min_eq_left hK]
    have : ∀ j < 2 * nextPowTwo K, (vals.map fun x => x - vals.sum / vals.length).getD j 0 = c - vals.sum / vals.length := fun j hj => by
      have h1 := hc j hj
      rw [List.getD_eq_getElem _ _ (by omega)] at h1
      rw [List.getD_eq_getElem _ _ (by rw [List.length_map]; omega), List.getElem_map, h1]
    rw [Finset.sum_congr rfl fun j hj => by rw [this j (Finset.mem_range.1 hj), this _ (Nat.mod_lt _ hN)], Finset.sum_const, Finset.card_range, nsmul_eq_mul, pow_two]
  have hne : ((2 * nextPowTwo K : ℕ) : ℝ) * (c - vals.sum / vals.length) ^ 2 ≠ 0 := mul_ne_zero (by positivity) (pow_ne_zero _ (sub_ne_zero.2 hmean.symm))
  unfold autocorrelation lagCount
  rw [min_eq_left hK]
  refine List.ext_getElem (by simp) fun j h1 h2 => ?_
  have hj : j < K := by simpa using h2
  have hhead : ((List.range K).map (acfRaw vals K)).headD 0 = (2 * nextPowTwo K : ℕ) * (c - vals.sum / vals.length) ^ 2 := by
    obtain ⟨p, rfl⟩ : ∃ p, K = p + 1 := ⟨K - 1, by omega⟩
    rw [List.range_succ_eq_map, List.map_cons, List.headD_cons, hraw]
  simp only [hhead, List.getElem_map, List.getElem_range, List.getElem_replicate, hraw]
  exact div_self hne

include hq hS hV in
theorem stay_prob : ideal {ω | valueAfter S V q step 1 x0 ω = x0} = ((stdNormal d).prod unif) {w | rwMove S V step x0 w = x0} := by
  have mI : Measurable (({x0} : Set (Fin d → ℝ)).indicator (1 : (Fin d → ℝ) → ℝ≥0∞)) := measurable_one.indicator (measurableSet_singleton x0)
  have h1 := lintegral_tapeIter (rwDraws_draws hq) (measurable_walkMove (step := step) hS hV) 1 [] x0 mI
  have mv : Measurable fun ω => tapeIter (rwDraws q d) Keys.rwNext (rwMove S V step) 1 [] x0 ω := (measurable_tapeIter (rwDraws_draws hq) (measurable_walkMove hS hV) 1 []).comp measurable_prodMk_left
  have e1 : ∫⁻ ω, ({x0} : Set (Fin d → ℝ)).indicator (1 : (Fin d → ℝ) → ℝ≥0∞) (tapeIter (rwDraws q d) Keys.rwNext (rwMove S V step) 1 [] x0 ω) ∂ideal = ideal {ω | valueAfter S V q step 1 x0 ω = x0} := by
    simp only [valueAfter_eq]
    exact lintegral_indicator_one (mv (measurableSet_singleton x0))
  have e2 : (stepOp ((stdNormal d).prod unif) (rwMove S V step))^[1] (({x0} : Set (Fin d → ℝ)).indicator 1) x0 = ((stdNormal d).prod unif) {w | rwMove S V step x0 w = x0} :=
    lintegral_indicator_one (((measurable_walkMove hS hV).comp measurable_prodMk_left : Measurable (rwMove S V step x0)) (measurableSet_singleton x0))
  rw [e1, e2] at h1
  exact h1

include hq hS hV h0 hT hstep in
/-- C150, what fails: with a fixed number of lags (the default is 1000) the reported autocorrelation at lag 1 does not tend to that of the chain, as soon as a first update may stay at the start. -/
theorem C150_fixed_lags_fails {f : (Fin d → ℝ) → ℝ} (hf : Measurable f) (hf2 : Integrable (fun x => f x ^ 2) (target S V)) (hvar : stationaryCov S V q step f 0 ≠ 0)
    (hstay : ideal {ω | valueAfter S V q step 1 x0 ω = x0} ≠ 0) (hx0 : f x0 ≠ meanUnder (target S V) f) (K : ℕ) (hK : 2 ≤ K) :
    ¬ InProb (fun _ => ideal) (fun (n : ℕ) ω => (autocorrelation ((walkRows S V q step n x0 al t key ω).map f) K).getD 1 0) (stationaryCov S V q step f 1 / stationaryCov S V q step f 0) := by
  have hπ := normalised_prob h0 hT
  intro hcon
  have hs1 : ((stdNormal d).prod unif) {w | rwMove S V step x0 w = x0} ≠ 0 := by rwa [← stay_prob hq hS hV x0]
  have hA := stay_pos (measurable_walkMove hS hV) (rwDraws_draws hq) hs1 (2 * nextPowTwo K) key
  have hne : stationaryCov S V q step f 1 / stationaryCov S V q step f 0 ≠ 1 := fun e => cov_one_ne hq hS hV h0 hT hstep hf hf2 hvar ((div_eq_one_iff_eq hvar).1 e)
  have hI : Integrable f (target S V) := by
    have hfin : IsFiniteMeasure (target S V) := ⟨lt_top_iff_ne_top.2 hT⟩
    exact ((memLp_two_iff_integrable_sq hf.aestronglyMeasurable).2 hf2).integrable (by norm_num)
  have hB := inProb_real.1 hcon _ (abs_pos.2 (sub_ne_zero.2 hne.symm))
  have hM := C110_randomWalk hq hS hV h0 hT hstep x0 al t key hf hI (abs_pos.2 (sub_ne_zero.2 hx0))
  have hsum := hB.add hM
  rw [add_zero] at hsum
  refine hA (le_antisymm (ge_of_tendsto hsum ?_) bot_le)
  filter_upwards [eventually_ge_atTop (2 * nextPowTwo K), eventually_ge_atTop K] with n hn hn2
  refine (measure_mono ?_).trans (measure_union_le _ _)
  intro ω hω
  have hrows := walkRows_eq q S V step x0 al t key (n := n) (by omega) ω
  have hlen : ((walkRows S V q step n x0 al t key ω).map f).length = n := by
    rw [hrows]
    simp
  by_cases hm : rowMean f (walkRows S V q step n x0 al t key ω) = f x0
  · refine Or.inr ?_
    show _ ≤ |rowMean f (walkRows S V q step n x0 al t key ω) - meanUnder (target S V) f|
    rw [hm]
  · refine Or.inl ?_
    have hrep := C150_start_decides ((walkRows S V q step n x0 al t key ω).map f) K (f x0) (by rw [hlen]; exact hn) (by rw [hlen]; exact hn2) (fun j hj => ?_) (by
      rw [List.length_map]
      exact hm)
    · show |1 - stationaryCov S V q step f 1 / stationaryCov S V q step f 0|
        ≤ |(autocorrelation ((walkRows S V q step n x0 al t key ω).map f) K).getD 1 0 - stationaryCov S V q step f 1 / stationaryCov S V q step f 0|
      rw [hrep, List.getD_eq_getElem _ _ (by rw [List.length_replicate]; omega), List.getElem_replicate]
    · rw [hrows, List.map_map, getD_range _ (by omega)]
      cases j with
      | zero => rfl
      | succ j => exact congrArg f (hω j (by omega))

end

/-! ## Non-vacuity: a standard normal posterior -/

theorem walkCase_target : target Set.univ (fun x : Fin 1 → ℝ => x 0 ^ 2 / 2) = ENNReal.ofReal (Real.sqrt (2 * Real.pi)) • stdNormal 1 := by
  rw [← stdTarget, target, Set.indicator_univ]

theorem walkCase_pos : ENNReal.ofReal (Real.sqrt (2 * Real.pi)) ≠ 0 := (ENNReal.ofReal_pos.mpr (Real.sqrt_pos.mpr (by positivity))).ne'

theorem walkCase_mass : target Set.univ (fun x : Fin 1 → ℝ => x 0 ^ 2 / 2) Set.univ = ENNReal.ofReal (Real.sqrt (2 * Real.pi)) := by
  rw [walkCase_target, Measure.smul_apply, measure_univ, smul_eq_mul, mul_one]

theorem walkCase_normalised : normalised (target Set.univ fun x : Fin 1 → ℝ => x 0 ^ 2 / 2) = stdNormal 1 := by
  rw [normalised, walkCase_mass, walkCase_target, smul_smul, ENNReal.inv_mul_cancel walkCase_pos ENNReal.ofReal_ne_top, one_smul]

theorem walkCase_mean : meanUnder (target Set.univ fun x : Fin 1 → ℝ => x 0 ^ 2 / 2) (fun x => x 0) = 0 := by
  rw [← integral_normalised, walkCase_normalised, MatGauss.stdNormal_mean]

theorem walkCase_var (q : ℝ → ℝ) (step : ℝ) : stationaryCov Set.univ (fun x : Fin 1 → ℝ => x 0 ^ 2 / 2) q step (fun x => x 0) 0 = 1 := by
  rw [stationaryCov_zero (by fun_prop) (by rw [walkCase_mass]; exact walkCase_pos) (by rw [walkCase_mass]; exact ENNReal.ofReal_ne_top), walkCase_mean, walkCase_normalised]
  have := MatGauss.stdNormal_second (d := 1) 0 0
  simp only [if_true] at this
  simpa [pow_two] using this

theorem walkCase_stay {q : ℝ → ℝ} (hq : IsNormalDraw q) : ideal {ω | valueAfter Set.univ (fun x : Fin 1 → ℝ => x 0 ^ 2 / 2) q 1 1 (fun _ => 1) ω = fun _ => 1} ≠ 0 := by
  rw [stay_prob hq .univ (by fun_prop)]
  intro hz
  have hsub : {z : Fin 1 → ℝ | 1 < z 0} ×ˢ Set.Ici (1 / 2 : ℝ) ⊆ {w : (Fin 1 → ℝ) × ℝ | rwMove Set.univ (fun x : Fin 1 → ℝ => x 0 ^ 2 / 2) 1 (fun _ => 1) w = fun _ => 1} := by
    rintro ⟨z, u⟩ ⟨h1, h2⟩
    have h1 : 1 < z 0 := h1
    have h2 : 1 / 2 ≤ u := h2
    show rwMove _ _ _ _ _ = _
    unfold rwMove
    refine if_neg ?_
    rw [not_lt, accOn, if_pos (Set.mem_univ _), if_pos (Set.mem_univ _)]
    refine (min_le_right _ _).trans (le_trans ?_ h2)
    simp only [rwProp, Real.sqrt_one, one_mul]
    have h3 : -((1 + z 0) ^ 2 / 2) + 1 ^ 2 / 2 ≤ -1 := by nlinarith
    refine (Real.exp_le_exp.2 h3).trans ?_
    rw [Real.exp_neg, inv_eq_one_div]
    refine one_div_le_one_div_of_le (by norm_num) ?_
    have := Real.add_one_le_exp (1 : ℝ)
    linarith
  have h0 := measure_mono_null hsub hz
  rw [Measure.prod_prod, mul_eq_zero, stdNormal_null] at h0
  rcases h0 with h0 | h0
  · have ho : IsOpen {z : Fin 1 → ℝ | 1 < z 0} := isOpen_lt continuous_const (continuous_apply 0)
    exact (ho.measure_pos volume ⟨fun _ => 2, by simp⟩).ne' h0
  · have : unif (Set.Ici (1 / 2 : ℝ)) ≠ 0 := by
      have hI : Set.Ici (1 / 2 : ℝ) ∩ Set.Ico 0 1 = Set.Ico (1 / 2) 1 := by
        ext u
        simp only [Set.mem_inter_iff, Set.mem_Ici, Set.mem_Ico]
        exact ⟨fun h => ⟨h.1, h.2.2⟩, fun h => ⟨h.1, by linarith [h.1], h.2⟩⟩
      rw [unif, Measure.restrict_apply measurableSet_Ici, hI, Real.volume_Ico]
      norm_num
    exact this h0

/-- Non-vacuity of C150: the standard normal, from 1 with stepsize 1. -/
example (key : Keys.Key) : ∃ q, IsNormalDraw q ∧
    (∀ l, InProb (fun _ => ideal) (fun (n : ℕ) ω => (autocorrelation ((walkRows Set.univ (fun x : Fin 1 → ℝ => x 0 ^ 2 / 2) q 1 n (fun _ => 1) (Fl.fin 1) 0 key ω).map fun x => x 0) n).getD l 0)
      (stationaryCov Set.univ (fun x : Fin 1 → ℝ => x 0 ^ 2 / 2) q 1 (fun x => x 0) l / stationaryCov Set.univ (fun x : Fin 1 → ℝ => x 0 ^ 2 / 2) q 1 (fun x => x 0) 0)) ∧
    ¬ InProb (fun _ => ideal) (fun (n : ℕ) ω => (autocorrelation ((walkRows Set.univ (fun x : Fin 1 → ℝ => x 0 ^ 2 / 2) q 1 n (fun _ => 1) (Fl.fin 1) 0 key ω).map fun x => x 0) 1000).getD 1 0)
      (stationaryCov Set.univ (fun x : Fin 1 → ℝ => x 0 ^ 2 / 2) q 1 (fun x => x 0) 1 / stationaryCov Set.univ (fun x : Fin 1 → ℝ => x 0 ^ 2 / 2) q 1 (fun x => x 0) 0) := by
  obtain ⟨q, hq⟩ := exists_isNormalDraw
  have h0 : target Set.univ (fun x : Fin 1 → ℝ => x 0 ^ 2 / 2) Set.univ ≠ 0 := by rw [walkCase_mass]; exact walkCase_pos
  have hT : target Set.univ (fun x : Fin 1 → ℝ => x 0 ^ 2 / 2) Set.univ ≠ ∞ := by rw [walkCase_mass]; exact ENNReal.ofReal_ne_top
  have h2 : Integrable (fun x : Fin 1 → ℝ => x 0 ^ 2) (target Set.univ fun x : Fin 1 → ℝ => x 0 ^ 2 / 2) := by rw [walkCase_target]; exact stdTarget_integrable
  have hv : stationaryCov Set.univ (fun x : Fin 1 → ℝ => x 0 ^ 2 / 2) q 1 (fun x => x 0) 0 ≠ 0 := by rw [walkCase_var]; exact one_ne_zero
  exact ⟨q, hq, fun l => C150_autocorrelation_partial hq .univ (by fun_prop) h0 hT one_pos _ _ _ key (by fun_prop) h2 hv (fun n => n) (fun _ => le_rfl) l,
    C150_fixed_lags_fails hq .univ (by fun_prop) h0 hT one_pos _ _ _ key (by fun_prop) h2 hv (walkCase_stay hq) (by rw [walkCase_mean]; exact one_ne_zero) 1000 (by norm_num)⟩

end Mocat.Props
