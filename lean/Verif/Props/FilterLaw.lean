import Verif.Lemmas.SmcLaw
import Verif.Lemmas.TapeMoves
import Verif.Lemmas.NormalDraw
import Verif.Props.Smc
import Verif.Props.Filtering
/-!
# C86: unbiased estimates of particle filters

The draws come from an ideal generator (`Verif.Spec.Tape`).
-/
namespace Mocat.Props
open Mocat Mocat.Filtering Mocat.Metrics Mocat.Ideal Mocat.Meas MeasureTheory
open Mocat.Smc (Red Q redStep redValue redWeight StepLaw stepSites critLt lse logEss lseMean)
open scoped ENNReal

variable {X : Type} {n dy : ℕ}

/-! ## Specification -/

/-- The weight with a given logarithm. -/
noncomputable def weightOf : Fl → ℝ
  | .fin x => Real.exp x
  | _ => 0

/-- The sum of the weights of an ensemble. -/
noncomputable def totalWeight (lw : Fin n → Fl) : ℝ := ∑ i, weightOf (lw i)

/-- The product of the likelihood increments over consecutive reported ensembles, each given by its log weights and its effective sample size: the new total weight over the old one, which
is `n` where the ensemble was resampled. -/
noncomputable def increments (thr : ℝ) : List ((Fin n → Fl) × Fl) → ℝ
  | a :: b :: l => (open Classical in totalWeight b.1 / if Fl.lt a.2 (.fin (thr * n)) then (n : ℝ) else totalWeight a.1) * increments thr (b :: l)
  | _ => 1

/-- The likelihood estimate formed from what a particle filter reports. -/
noncomputable def likelihoodEstimate (thr : ℝ) (p : Particles X n dy) : ℝ :=
  match p.logWeight with
  | [] => 1
  | lw :: _ => totalWeight lw / n * increments thr (p.logWeight.zip p.ess)

/-- The weighted mean of `h` over the last ensemble. -/
noncomputable def weightedMean (h : X → ℝ≥0∞) (p : Particles X n dy) : ℝ≥0∞ :=
  match p.value.getLast?, p.logWeight.getLast? with
  | some x, some lw => ∑ i, ENNReal.ofReal (weightOf (lw i) / totalWeight lw) * h (x i)
  | _, _ => 0

/-- The expectation of `h` of the last state times the weights of the steps to come, from state `x` at time `t`: `Γ x t y t'` is the law of the next state, weighted. -/
noncomputable def future [MeasurableSpace X] (Γ : X → ℝ → Obs dy → ℝ → Measure X) (h : X → ℝ≥0∞) : ℝ → List (Obs dy × ℝ) → X → ℝ≥0∞
  | _, [], x => h x
  | t, (y, t') :: os, x => ∫⁻ x', future Γ h t' os x' ∂(Γ x t y t')

/-! ## Any filter with properly weighted proposals -/

/-- The library routines of a filter on a tape. -/
def tapeEnv (cat : (Fin n → Fl) → ℝ → Fin n) (ω : Tape) : Filtering.Env Keys.Key n := pathEnv fun k lw i => cat lw (ω (k, i))

/-- What is assumed of a filter whose draws are read from a tape: finite log weights `G0`, `G`; each draw reads the tape under its key only; a proposed state, weighted, has the law `Γ`
(first state: `Γ0`), that is, `∫ exp (G) h` over the proposal is `∫ h` over `Γ`. -/
structure FilterLaw [MeasurableSpace X] (f : Tape → Filter X Keys.Key dy) (G0 : X → Obs dy → ℝ → ℝ) (G : X → ℝ → X → Obs dy → ℝ → ℝ) (Γ0 : Obs dy → ℝ → Measure X)
    (Γ : X → ℝ → Obs dy → ℝ → Measure X) : Prop where
  initialLogWeight : ∀ ω x y t, (f ω).initialLogWeight x y t = .fin (G0 x y t)
  logWeight : ∀ ω x t x' y t', (f ω).intermediateLogWeight x t x' y t' = .fin (G x t x' y t')
  measurable_initialLogWeight : ∀ y t, Measurable fun x => G0 x y t
  measurable_logWeight : ∀ t y t', Measurable fun z : X × X => G z.1 t z.2 y t'
  measurable_initial : ∀ y t k, Measurable fun ω => (f ω).initialSample y t k
  measurable_proposal : ∀ t y t' k, Measurable fun z : X × Tape => (f z.2).proposalSample z.1 t y t' k
  reads_initial : ∀ y t k, DependsOn (fun ω => (f ω).initialSample y t k) (below k)
  reads_proposal : ∀ x t y t' k, DependsOn (fun ω => (f ω).proposalSample x t y t' k) (below k)
  law_initial : ∀ y t k {h : X → ℝ≥0∞}, Measurable h →
    ∫⁻ ω, ENNReal.ofReal (Real.exp (G0 ((f ω).initialSample y t k) y t)) * h ((f ω).initialSample y t k) ∂ideal = ∫⁻ x, h x ∂(Γ0 y t)
  law_proposal : ∀ x t y t' k {h : X → ℝ≥0∞}, Measurable h →
    ∫⁻ ω, ENNReal.ofReal (Real.exp (G x t ((f ω).proposalSample x t y t' k) y t')) * h ((f ω).proposalSample x t y t' k) ∂ideal = ∫⁻ x', h x' ∂(Γ x t y t')
  kernel : ∀ t y t' {h : X → ℝ≥0∞}, Measurable h → Measurable fun x => ∫⁻ x', h x' ∂(Γ x t y t')

/-- The slice with given positions and finite log weights. -/
noncomputable def sliceOf (R : Red n X) (t : ℝ) (y : Obs dy) : Slice X n dy :=
  { value := R.1, logWeight := fun i => .fin (R.2.1 i), t := t, y := y, ess := essLogWeight fun i => .fin (R.2.1 i) }

theorem essLogWeight_fin (v : Fin n → ℝ) [NeZero n] : essLogWeight (fun i => Fl.fin (v i)) = .fin (Real.exp (logEss v)) := by
  unfold essLogWeight
  rw [logEss_metrics]
  rfl

theorem ess_crit [NeZero n] (R : Red n X) (t : ℝ) (y : Obs dy) (thr : ℝ) : Fl.lt (sliceOf R t y).ess (.fin (thr * n)) ↔ R.2.1 ∈ critLt n thr := by
  unfold sliceOf
  simp only
  rw [essLogWeight_fin]
  rfl

/-- One step of the filter on the reduced state. -/
noncomputable def filterStep (cat : (Fin n → Fl) → ℝ → Fin n) (f : Tape → Filter X Keys.Key dy) (G : X → ℝ → X → Obs dy → ℝ → ℝ) (thr t : ℝ) (o : Obs dy × ℝ × Keys.Key)
    (R : Red n X) (ω : Tape) : Red n X :=
  redStep (fun w => cat fun i => .fin (w i)) (critLt n thr) (fun i => (o.2.2, (i : ℕ))) (fun x x' => G x t x' o.1 o.2.1)
    (fun i x ω => (f ω).proposalSample x t o.1 o.2.1 ((i : ℕ) :: o.2.2)) R ω

section
variable [MeasurableSpace X] [NeZero n] {cat : (Fin n → Fl) → ℝ → Fin n} {f : Tape → Filter X Keys.Key dy} {G0 : X → Obs dy → ℝ → ℝ} {G : X → ℝ → X → Obs dy → ℝ → ℝ}
  {Γ0 : Obs dy → ℝ → Measure X} {Γ : X → ℝ → Obs dy → ℝ → Measure X} (hF : FilterLaw f G0 G Γ0 Γ)

include hF in
theorem body_red (thr t : ℝ) (y : Obs dy) (o : Obs dy × ℝ × Keys.Key) (R : Red n X) (ω : Tape) :
    body (tapeEnv cat ω) (f ω) thr (sliceOf R t y) o = sliceOf (filterStep cat f G thr t o R ω) o.2.1 o.1 := by
  obtain ⟨y', t', κ⟩ := o
  have hadd : ∀ a b, Fl.add (.fin a) (.fin b) = .fin (a + b) := fun _ _ => rfl
  by_cases hc : R.2.1 ∈ critLt n thr
  · have h2 : Fl.lt (sliceOf R t y).ess (.fin (thr * n)) := by
      rw [ess_crit]; exact hc
    simp only [body, if_pos h2]
    simp only [sliceOf, filterStep, redStep, redValue, redWeight, if_pos hc, hF.logWeight, hadd, tapeEnv, pathEnv, Function.comp_apply]
  · have h2 : ¬ Fl.lt (sliceOf R t y).ess (.fin (thr * n)) := by
      rw [ess_crit]; exact hc
    simp only [body, if_neg h2]
    simp only [sliceOf, filterStep, redStep, redValue, redWeight, if_neg hc, hF.logWeight, hadd, tapeEnv, pathEnv]

omit [NeZero n] in
include hF in
theorem filterStep_law (thr t : ℝ) (o : Obs dy × ℝ × Keys.Key) :
    StepLaw (n := n) (critLt n thr) (fun i => (o.2.2, (i : ℕ))) (fun x x' => G x t x' o.1 o.2.1) (fun i x ω => (f ω).proposalSample x t o.1 o.2.1 ((i : ℕ) :: o.2.2))
      (fun i => below ((i : ℕ) :: o.2.2)) (fun h x => ∫⁻ x', h x' ∂(Γ x t o.1 o.2.1)) := by
  refine ⟨Smc.measurableSet_critLt thr, hF.measurable_logWeight t _ _, fun i => hF.measurable_proposal _ _ _ _, fun i x => hF.reads_proposal _ _ _ _ _, fun i => ?_,
    fun i x h hh => hF.law_proposal _ _ _ _ _ hh, fun hh => hF.kernel _ _ _ hh⟩
  rintro ⟨p, hp⟩
  have := congrArg List.length hp
  simp at this
  omega

omit [MeasurableSpace X] [NeZero n] in
theorem filterSites (κ : Keys.Key) : stepSites (n := n) (fun i => (κ, (i : ℕ))) (fun i => below ((i : ℕ) :: κ)) ⊆ below κ := by
  rintro s ⟨i, rfl | hs⟩
  · exact ⟨[], rfl⟩
  · exact mem_below_cons hs

include hF in
theorem measurable_future {h : X → ℝ≥0∞} (hh : Measurable h) (os : List (Obs dy × ℝ)) (t : ℝ) : Measurable (future Γ h t os) := by
  induction os generalizing t with
  | nil => exact hh
  | cons o os ih => exact hF.kernel _ _ _ (ih o.2)

/-- The estimate from the reported slices, the first of which is `s`. -/
noncomputable def sliceEstimate (thr : ℝ) (h : X → ℝ≥0∞) : Slice X n dy → List (Slice X n dy) → ℝ≥0∞
  | s, [] => ∑ i, ENNReal.ofReal (weightOf (s.logWeight i) / totalWeight s.logWeight) * h (s.value i)
  | s, s' :: l => ENNReal.ofReal (open Classical in totalWeight s'.logWeight / if Fl.lt s.ess (.fin (thr * n)) then (n : ℝ) else totalWeight s.logWeight) * sliceEstimate thr h s' l

omit [NeZero n] in
theorem totalWeight_fin (w : Fin n → ℝ) : totalWeight (fun i => Fl.fin (w i)) = ∑ i, Real.exp (w i) := rfl

theorem sumExp_pos (w : Fin n → ℝ) : 0 < ∑ i, Real.exp (w i) := Finset.sum_pos (fun _ _ => Real.exp_pos _) ⟨0, Finset.mem_univ _⟩

omit [MeasurableSpace X] [NeZero n] in
theorem sliceEstimate_nil (thr : ℝ) (h : X → ℝ≥0∞) (R : Red n X) (t : ℝ) (y : Obs dy) :
    ENNReal.ofReal (Real.exp R.2.2) * sliceEstimate thr h (sliceOf R t y) [] = Q h R := by
  unfold sliceEstimate Q
  rw [Finset.mul_sum]
  refine Finset.sum_congr rfl fun i _ => ?_
  rw [← mul_assoc, ← ENNReal.ofReal_mul (Real.exp_pos _).le]
  rfl

omit [MeasurableSpace X] in
theorem sliceEstimate_cons (thr : ℝ) (h : X → ℝ≥0∞) (R : Red n X) (t : ℝ) (y : Obs dy) (o : Obs dy × ℝ × Keys.Key) (ω : Tape) (l : List (Slice X n dy)) :
    ENNReal.ofReal (Real.exp R.2.2) * sliceEstimate thr h (sliceOf R t y) (sliceOf (filterStep cat f G thr t o R ω) o.2.1 o.1 :: l)
      = ENNReal.ofReal (Real.exp (filterStep cat f G thr t o R ω).2.2) * sliceEstimate thr h (sliceOf (filterStep cat f G thr t o R ω) o.2.1 o.1) l := by
  rw [sliceEstimate, ← mul_assoc, ← ENNReal.ofReal_mul (Real.exp_pos _).le]
  congr 2
  have e : (filterStep cat f G thr t o R ω).2.2 = R.2.2 + lse (filterStep cat f G thr t o R ω).2.1 - lse (redWeight (critLt n thr) R) := rfl
  rw [e, Real.exp_sub, Real.exp_add, Smc.lse_exp, Smc.lse_exp, mul_div_assoc]
  congr 2
  by_cases hc : R.2.1 ∈ critLt n thr
  · have h2 : Fl.lt (sliceOf R t y).ess (.fin (thr * n)) := by
      rw [ess_crit]; exact hc
    rw [redWeight, if_pos hc, if_pos h2]
    simp only [Real.exp_zero, Finset.sum_const, Finset.card_univ, Fintype.card_fin, nsmul_eq_mul, mul_one]
  · have h2 : ¬ Fl.lt (sliceOf R t y).ess (.fin (thr * n)) := by
      rw [ess_crit]; exact hc
    rw [redWeight, if_neg hc, if_neg h2]
    rfl

include hF in
/-- From a random weighted ensemble: the expected estimate after the remaining observations. -/
theorem filter_unbiased (hcat : IsCategoricalReal fun (w : Fin n → ℝ) u => cat (fun i => .fin (w i)) u) (thr : ℝ) {h : X → ℝ≥0∞} (hh : Measurable h) (os : List (Obs dy × ℝ × Keys.Key))
    (hos : os.Pairwise fun a b => Disjoint (below a.2.2) (below b.2.2)) (t : ℝ) (y : Obs dy) {R : Tape → Red n X} (hR : Measurable R) {S : Set Site} (hRS : DependsOn R S)
    (hS : ∀ o ∈ os, Disjoint S (below o.2.2)) :
    ∫⁻ ω, ENNReal.ofReal (Real.exp (R ω).2.2) * sliceEstimate thr h (sliceOf (R ω) t y)
        (scan (fun s o => (body (tapeEnv cat ω) (f ω) thr s o, body (tapeEnv cat ω) (f ω) thr s o)) (sliceOf (R ω) t y) os).2 ∂ideal
      = ∫⁻ ω, Q (future Γ h t (os.map fun o => (o.1, o.2.1))) (R ω) ∂ideal := by
  induction os generalizing t y R S with
  | nil => exact lintegral_congr fun ω => sliceEstimate_nil thr h _ _ _
  | cons o os ih =>
    rw [List.pairwise_cons] at hos
    have hL := filterStep_law (n := n) hF thr t o
    have hd := Set.disjoint_of_subset_right (filterSites (n := n) o.2.2) (hS o List.mem_cons_self)
    have hR' : Measurable fun ω => filterStep cat f G thr t o (R ω) ω := Smc.measurable_next hcat hL hR
    have hRS' : DependsOn (fun ω => filterStep cat f G thr t o (R ω) ω) (S ∪ below o.2.2) := fun ω ω' hω =>
      Smc.next_dependsOn hL hRS fun s hs => hω s (hs.imp id fun hs => filterSites _ hs)
    have h1 := ih hos.2 o.2.1 o.1 hR' hRS' fun o' ho' =>
      Set.disjoint_union_left.mpr ⟨hS o' (List.mem_cons_of_mem _ ho'), hos.1 o' ho'⟩
    have h2 := Smc.lintegral_Q_next hcat hL (measurable_future hF hh (os.map fun o => (o.1, o.2.1)) o.2.1) hR hRS hd
    refine Eq.trans (lintegral_congr fun ω => ?_) (h1.trans h2)
    rw [scan]
    simp only
    rw [body_red hF, sliceEstimate_cons]

/-- The arrays made of given slices. -/
def ofSlices (s0 : Slice X n dy) (l : List (Slice X n dy)) : Particles X n dy :=
  { value := (s0 :: l).map Slice.value, logWeight := (s0 :: l).map Slice.logWeight, t := (s0 :: l).map Slice.t, y := .rows ((s0 :: l).map Slice.y), ess := (s0 :: l).map Slice.ess }

omit [MeasurableSpace X] [NeZero n] in
/-- The estimate from the arrays is the estimate from the slices. -/
theorem estimate_slices (thr : ℝ) (h : X → ℝ≥0∞) (s0 : Slice X n dy) (slices : List (Slice X n dy)) (c : ℝ) (hc : 0 ≤ c) (h0 : ∀ s ∈ s0 :: slices, 0 ≤ totalWeight s.logWeight) :
    ENNReal.ofReal (c * increments thr (((s0 :: slices).map Slice.logWeight).zip ((s0 :: slices).map Slice.ess)))
        * weightedMean h (ofSlices s0 slices)
      = ENNReal.ofReal c * sliceEstimate thr h s0 slices := by
  induction slices generalizing s0 c with
  | nil => simp [increments, weightedMean, sliceEstimate, ofSlices]
  | cons s1 l ih =>
    have hpos : 0 ≤ (open Classical in totalWeight s1.logWeight / if Fl.lt s0.ess (.fin (thr * n)) then (n : ℝ) else totalWeight s0.logWeight) := by
      refine div_nonneg (h0 s1 (by simp)) ?_
      split
      · positivity
      · exact h0 s0 (by simp)
    rw [sliceEstimate, ← mul_assoc, ← ENNReal.ofReal_mul hc, ← ih s1 _ (mul_nonneg hc hpos) (fun s hs => h0 s (List.mem_cons_of_mem _ hs))]
    congr 1
    simp only [List.map_cons, List.zip_cons_cons, increments, mul_assoc]

omit [NeZero n] in
theorem totalWeight_nonneg (lw : Fin n → Fl) : 0 ≤ totalWeight lw := by
  refine Finset.sum_nonneg fun i _ => ?_
  unfold weightOf
  split
  · exact (Real.exp_pos _).le
  · exact le_rfl

include hF in
theorem weightedMean_one (thr t : ℝ) (y : Obs dy) (R : Red n X) (ω : Tape) (os : List (Obs dy × ℝ × Keys.Key)) :
    weightedMean (fun _ => 1) (ofSlices (sliceOf R t y) (scan (fun s o => (body (tapeEnv cat ω) (f ω) thr s o, body (tapeEnv cat ω) (f ω) thr s o)) (sliceOf R t y) os).2) = 1 := by
  induction os generalizing R t y with
  | nil =>
    simp only [scan, ofSlices, weightedMean, List.map_cons, List.map_nil, List.getLast?_singleton, mul_one]
    rw [← ENNReal.ofReal_sum_of_nonneg fun i _ => div_nonneg (by unfold sliceOf weightOf; positivity) (totalWeight_nonneg _), ← Finset.sum_div]
    have hp := sumExp_pos R.2.1
    have : (∑ i, weightOf ((sliceOf R t y).logWeight i)) / totalWeight (sliceOf R t y).logWeight = 1 := div_self hp.ne'
    rw [this, ENNReal.ofReal_one]
  | cons o os ih =>
    have h := ih o.2.1 o.1 (filterStep cat f G thr t o R ω)
    rw [scan]
    simp only
    rw [body_red hF]
    refine Eq.trans ?_ h
    simp only [ofSlices, weightedMean, List.map_cons, List.getLast?_cons_cons]

omit [NeZero n] in
theorem zip_keys (ys : List (Obs dy)) (ts : List ℝ) (hlen : ts.length = ys.length) (key : Keys.Key) (env : Filtering.Env Keys.Key n) (henv : ∀ m k i, env.splitN m k i = (i : ℕ) :: k) :
    (withKeys env ys ts key).map (fun o => (o.1, o.2.1)) = ys.zip ts ∧ (withKeys env ys ts key).Pairwise (fun a b => Disjoint (below a.2.2) (below b.2.2)) ∧
      ∀ o ∈ withKeys env ys ts key, ∃ i : ℕ, o.2.2 = i :: key := by
  have hget : ∀ i (hi : i < (withKeys env ys ts key).length) (h1 : i < ys.length) (h2 : i < ts.length), (withKeys env ys ts key)[i] = (ys[i], ts[i], i :: key) := by
    intro i hi h1 h2
    simp [withKeys, henv]
  have hl : (withKeys env ys ts key).length = ys.length := by simp [withKeys, hlen]
  refine ⟨?_, ?_, ?_⟩
  · refine List.ext_getElem (by simp [hl, hlen]) fun i h1 h2 => ?_
    rw [List.getElem_map, hget i (by simpa using h1) (by simpa [hl] using h1) (by simpa [hl, hlen] using h1), List.getElem_zip]
  · rw [List.pairwise_iff_getElem]
    intro i j hi hj hij
    rw [hget i hi (hl ▸ hi) (hlen ▸ hl ▸ hi), hget j hj (hl ▸ hj) (hlen ▸ hl ▸ hj)]
    exact below_disjoint hij.ne
  · intro o ho
    obtain ⟨i, hi, rfl⟩ := List.getElem_of_mem ho
    exact ⟨i, by rw [hget i hi (hl ▸ hi) (hlen ▸ hl ▸ hi)]⟩

/-- The weighted ensemble that starts the filter, with the logarithm of its mean weight. -/
noncomputable def startRed (f : Tape → Filter X Keys.Key dy) (G0 : X → Obs dy → ℝ → ℝ) (y0 : Obs dy) (t0 : ℝ) (key : Keys.Key) (ω : Tape) : Red n X :=
  (fun i => (f ω).initialSample y0 t0 ((i : ℕ) :: key), fun i => G0 ((f ω).initialSample y0 t0 ((i : ℕ) :: key)) y0 t0,
    lseMean fun i : Fin n => G0 ((f ω).initialSample y0 t0 ((i : ℕ) :: key)) y0 t0)

include hF

omit [NeZero n] in
theorem measurable_start_value (y0 : Obs dy) (t0 : ℝ) (key : Keys.Key) : Measurable fun ω => fun i : Fin n => (f ω).initialSample y0 t0 ((i : ℕ) :: key) :=
  measurable_pi_lambda _ fun _ => hF.measurable_initial _ _ _

omit [NeZero n] in
theorem measurable_start_weight (y0 : Obs dy) (t0 : ℝ) (key : Keys.Key) : Measurable fun ω => fun i : Fin n => G0 ((f ω).initialSample y0 t0 ((i : ℕ) :: key)) y0 t0 :=
  measurable_pi_lambda _ fun _ => (hF.measurable_initialLogWeight y0 t0).comp (hF.measurable_initial _ _ _)

omit [NeZero n] in
theorem measurable_startRed (y0 : Obs dy) (t0 : ℝ) (key : Keys.Key) : Measurable (startRed (n := n) f G0 y0 t0 key) := by
  have hlm : Measurable (lseMean : (Fin n → ℝ) → ℝ) := by
    unfold lseMean
    exact Real.measurable_log.comp (Finset.measurable_sum _ fun i _ => measurable_const.mul (Real.measurable_exp.comp (measurable_pi_apply i)))
  have hwm := measurable_start_weight (n := n) hF y0 t0 key
  exact (measurable_start_value (n := n) hF y0 t0 key).prodMk (hwm.prodMk (hlm.comp hwm))

omit [NeZero n] in
theorem startRed_dependsOn (y0 : Obs dy) (t0 : ℝ) (key : Keys.Key) : DependsOn (startRed (n := n) f G0 y0 t0 key) (below key) := fun ω ω' hω => by
  have h : ∀ i : Fin n, (f ω).initialSample y0 t0 ((i : ℕ) :: key) = (f ω').initialSample y0 t0 ((i : ℕ) :: key) := fun i =>
    hF.reads_initial y0 t0 _ fun s hs => hω s (mem_below_cons hs)
  simp only [startRed, h]

omit [NeZero n] in
/-- A run reports the slices of the scan. -/
theorem run_slices (thr : ℝ) (y0 : Obs dy) (ys : List (Obs dy)) (t0 : ℝ) (ts : List ℝ) (key : Keys.Key) (ω : Tape) :
    run (tapeEnv cat ω) (f ω) thr (y0 :: ys) (t0 :: ts) key = some (ofSlices (sliceOf (startRed (n := n) f G0 y0 t0 (1 :: key) ω) t0 y0)
      (scan (fun s o => (body (tapeEnv cat ω) (f ω) thr s o, body (tapeEnv cat ω) (f ω) thr s o)) (sliceOf (startRed (n := n) f G0 y0 t0 (1 :: key) ω) t0 y0) (withKeys (tapeEnv cat ω) ys ts (0 :: key))).2) := by
  have hinit : initiateParticles (tapeEnv cat ω) (f ω) (1 :: key) y0 t0
      = { value := [(sliceOf (startRed (n := n) f G0 y0 t0 (1 :: key) ω) t0 y0).value], logWeight := [(sliceOf (startRed (n := n) f G0 y0 t0 (1 :: key) ω) t0 y0).logWeight], t := [t0], y := .rows [y0],
          ess := [(sliceOf (startRed (n := n) f G0 y0 t0 (1 :: key) ω) t0 y0).ess] } := by
    simp only [initiateParticles, hF.initialLogWeight]
    rfl
  have e : run (tapeEnv cat ω) (f ω) thr (y0 :: ys) (t0 :: ts) key = runFrom (tapeEnv cat ω) (f ω) thr (initiateParticles (tapeEnv cat ω) (f ω) (1 :: key) y0 t0) ys ts (0 :: key) := rfl
  rw [e, hinit]
  rfl

omit [MeasurableSpace X] hF in
/-- The likelihood estimate and the last weighted mean of reported slices. -/
theorem likelihood_slices (thr : ℝ) (h : X → ℝ≥0∞) (y0 : Obs dy) (t0 : ℝ) (key : Keys.Key) (ω : Tape) (slices : List (Slice X n dy)) :
    ENNReal.ofReal (likelihoodEstimate thr (ofSlices (sliceOf (startRed f G0 y0 t0 key ω) t0 y0) slices)) * weightedMean h (ofSlices (sliceOf (startRed f G0 y0 t0 key ω) t0 y0) slices)
      = ENNReal.ofReal (Real.exp (startRed (n := n) f G0 y0 t0 key ω).2.2) * sliceEstimate thr h (sliceOf (startRed f G0 y0 t0 key ω) t0 y0) slices := by
  have hz : Real.exp (startRed (n := n) f G0 y0 t0 key ω).2.2 = totalWeight (sliceOf (startRed (n := n) f G0 y0 t0 key ω) t0 y0).logWeight / n := by
    simp only [startRed, lseMean, ← Finset.mul_sum]
    rw [Real.exp_log (mul_pos (by have := NeZero.pos n; positivity) (sumExp_pos _)), sliceOf, totalWeight_fin]
    ring
  rw [hz, ← estimate_slices thr h _ slices _ (div_nonneg (totalWeight_nonneg _) (by positivity)) fun s _ => totalWeight_nonneg _]
  rfl

/-- The expected estimate of the starting ensemble. -/
theorem lintegral_startRed (y0 : Obs dy) (t0 : ℝ) (key : Keys.Key) {g : X → ℝ≥0∞} (hg : Measurable g) :
    ∫⁻ ω, Q g (startRed (n := n) f G0 y0 t0 key ω) ∂ideal = ∫⁻ x, g x ∂(Γ0 y0 t0) := by
  set x0 : Tape → Fin n → X := fun ω i => (f ω).initialSample y0 t0 ((i : ℕ) :: key) with hx0
  have hx0m : Measurable x0 := measurable_start_value hF y0 t0 key
  have hwm : Measurable fun ω => fun i => G0 (x0 ω i) y0 t0 := measurable_start_weight hF y0 t0 key
  have e2 : ∀ ω, Q g (startRed (n := n) f G0 y0 t0 key ω) = ∑ i, ENNReal.ofReal (1 / n) * (ENNReal.ofReal (Real.exp (G0 (x0 ω i) y0 t0)) * g (x0 ω i)) := by
    intro ω
    unfold Q
    refine Finset.sum_congr rfl fun i _ => ?_
    rw [← mul_assoc, ← ENNReal.ofReal_mul (by positivity)]
    congr 2
    simp only [startRed, lseMean, ← Finset.mul_sum]
    have hp := sumExp_pos fun i => G0 (x0 ω i) y0 t0
    have hn := NeZero.pos n
    rw [Real.exp_log (mul_pos (by positivity) hp)]
    field_simp
    rfl
  have hgm : ∀ i, Measurable fun ω => ENNReal.ofReal (Real.exp (G0 (x0 ω i) y0 t0)) * g (x0 ω i) := fun i =>
    (ENNReal.measurable_ofReal.comp (Real.measurable_exp.comp ((measurable_pi_apply i).comp hwm))).mul (hg.comp ((measurable_pi_apply i).comp hx0m))
  rw [lintegral_congr e2, lintegral_finsetSum _ fun i _ => (hgm i).const_mul _]
  have e3 : ∀ i, ∫⁻ ω, ENNReal.ofReal (1 / n) * (ENNReal.ofReal (Real.exp (G0 (x0 ω i) y0 t0)) * g (x0 ω i)) ∂ideal
      = ENNReal.ofReal (1 / n) * ∫⁻ x, g x ∂(Γ0 y0 t0) := fun i => by
    rw [lintegral_const_mul _ (hgm i)]
    congr 1
    exact hF.law_initial y0 t0 _ hg
  rw [Finset.sum_congr rfl fun i _ => e3 i, Finset.sum_const, Finset.card_univ, Fintype.card_fin, nsmul_eq_mul, ← mul_assoc, ← ENNReal.ofReal_natCast, ← ENNReal.ofReal_mul (by positivity)]
  have hn : (n : ℝ) ≠ 0 := by exact_mod_cast NeZero.ne n
  rw [mul_one_div, div_self hn, ENNReal.ofReal_one, one_mul]

/-- C86 for any filter with properly weighted proposals: a run from the first observation succeeds, and the expectation of (likelihood estimate × weighted mean of `h` at the last time) is the integral of `h`
over the weighted path law. -/
theorem C86_proper (hcat : IsCategoricalReal fun (w : Fin n → ℝ) u => cat (fun i => .fin (w i)) u) (thr : ℝ) (y0 : Obs dy) (ys : List (Obs dy)) (t0 : ℝ) (ts : List ℝ) (hlen : ts.length = ys.length)
    (key : Keys.Key) {h : X → ℝ≥0∞} (hh : Measurable h) :
    ∃ out : Tape → Particles X n dy, (∀ ω, run (tapeEnv cat ω) (f ω) thr (y0 :: ys) (t0 :: ts) key = some (out ω)) ∧ (∀ ω, weightedMean (fun _ => 1) (out ω) = 1) ∧
      ∫⁻ ω, ENNReal.ofReal (likelihoodEstimate thr (out ω)) * weightedMean h (out ω) ∂ideal = ∫⁻ x, future Γ h t0 (ys.zip ts) x ∂(Γ0 y0 t0) := by
  obtain ⟨hk1, hk2, hk3⟩ := zip_keys ys ts hlen (0 :: key) (tapeEnv cat (fun _ => 0)) (fun _ _ _ => rfl)
  set os := withKeys (tapeEnv cat (fun _ => 0)) ys ts (0 :: key) with hos
  have main := filter_unbiased hF hcat thr hh os hk2 t0 y0 (measurable_startRed hF y0 t0 (1 :: key)) (startRed_dependsOn hF y0 t0 (1 :: key)) (fun o ho => by
    obtain ⟨i, hi⟩ := hk3 o ho
    rw [hi]
    exact Set.disjoint_of_subset_right (fun s hs => mem_below_cons hs) (below_disjoint (by omega)))
  refine ⟨_, fun ω => run_slices hF thr y0 ys t0 ts key ω, fun ω => weightedMean_one hF thr t0 y0 _ ω os, ?_⟩
  rw [lintegral_congr fun ω => likelihood_slices thr h y0 t0 (1 :: key) ω _]
  refine main.trans ?_
  rw [hk1]
  exact lintegral_startRed hF y0 t0 (1 :: key) (measurable_future hF hh (ys.zip ts) t0)

end

/-! ## The bootstrap filter -/

/-- A state-space model simulated on a tape: each draw reads the tape under its key only; the first state has law `μ0 t`, a transition from `x` the law `M x t t'`, and `lik` is the likelihood potential. -/
structure ModelLaw [MeasurableSpace X] (m : Tape → Ssm.Model X (Obs dy) Keys.Key) (μ0 : ℝ → Measure X) (M : X → ℝ → ℝ → Measure X) (lik : X → Obs dy → ℝ → ℝ) : Prop where
  likelihood : ∀ ω, (m ω).likelihoodPotential = lik
  measurable_lik : ∀ y t, Measurable fun x => lik x y t
  measurable_initial : ∀ t k, Measurable fun ω => (m ω).initialSample t k
  measurable_transition : ∀ t t' k, Measurable fun z : X × Tape => (m z.2).transitionSample z.1 t t' k
  reads_initial : ∀ t k, DependsOn (fun ω => (m ω).initialSample t k) (below k)
  reads_transition : ∀ x t t' k, DependsOn (fun ω => (m ω).transitionSample x t t' k) (below k)
  law_initial : ∀ t k, ideal.map (fun ω => (m ω).initialSample t k) = μ0 t
  law_transition : ∀ x t t' k, ideal.map (fun ω => (m ω).transitionSample x t t' k) = M x t t'

/-- Specification: from state `x` at time `t`, the expectation under the model of `h` of the last state times the likelihoods of the observations to come. -/
noncomputable def pathExpectation [MeasurableSpace X] (M : X → ℝ → ℝ → Measure X) (lik : X → Obs dy → ℝ → ℝ) (h : X → ℝ≥0∞) : ℝ → List (Obs dy × ℝ) → X → ℝ≥0∞
  | _, [], x => h x
  | t, (y, t') :: os, x => ∫⁻ x', ENNReal.ofReal (Real.exp (-lik x' y t')) * pathExpectation M lik h t' os x' ∂(M x t t')

section
variable [MeasurableSpace X] {m : Tape → Ssm.Model X (Obs dy) Keys.Key} {μ0 : ℝ → Measure X} {M : X → ℝ → ℝ → Measure X} {lik : X → Obs dy → ℝ → ℝ} (hm : ModelLaw m μ0 M lik)
include hm

theorem measurable_likDensity (y : Obs dy) (t : ℝ) : Measurable fun x => ENNReal.ofReal (Real.exp (-lik x y t)) :=
  ENNReal.measurable_ofReal.comp (Real.measurable_exp.comp (hm.measurable_lik y t).neg)

theorem bootstrap_law : FilterLaw (fun ω => bootstrap (m ω)) (fun x y t => -lik x y t) (fun _ _ x' y t' => -lik x' y t')
    (fun y t => (μ0 t).withDensity fun x => ENNReal.ofReal (Real.exp (-lik x y t))) (fun x t y t' => (M x t t').withDensity fun x' => ENNReal.ofReal (Real.exp (-lik x' y t'))) := by
  have htr : ∀ x t t' k, Measurable fun ω => (m ω).transitionSample x t t' k := fun x t t' k => by
    have h := (hm.measurable_transition t t' k).comp (measurable_prodMk_left (x := x))
    exact h
  have hlaw : ∀ x t y t' k {h : X → ℝ≥0∞}, Measurable h →
      ∫⁻ ω, ENNReal.ofReal (Real.exp (-lik ((m ω).transitionSample x t t' k) y t')) * h ((m ω).transitionSample x t t' k) ∂ideal
        = ∫⁻ x', h x' ∂((M x t t').withDensity fun x' => ENNReal.ofReal (Real.exp (-lik x' y t'))) := fun x t y t' k h hh => by
    rw [lintegral_withDensity_eq_lintegral_mul _ (measurable_likDensity hm y t') hh, ← hm.law_transition x t t' k, lintegral_map ((measurable_likDensity hm y t').mul hh) (htr x t t' k)]
    rfl
  refine ⟨fun ω x y t => ?_, fun ω x t x' y t' => ?_, fun y t => (hm.measurable_lik y t).neg, fun t y t' => ((hm.measurable_lik y t').comp measurable_snd).neg,
    fun y t k => hm.measurable_initial t k, fun t y t' k => hm.measurable_transition t t' k, fun y t k => hm.reads_initial t k, fun x t y t' k => hm.reads_transition x t t' k,
    fun y t k h hh => ?_, fun x t y t' k h hh => hlaw x t y t' k hh, fun t y t' h hh => ?_⟩
  · simp only [bootstrap, hm.likelihood]
  · simp only [bootstrap, bootstrapLogWeight, hm.likelihood]
  · rw [lintegral_withDensity_eq_lintegral_mul _ (measurable_likDensity hm y t) hh, ← hm.law_initial t k, lintegral_map ((measurable_likDensity hm y t).mul hh) (hm.measurable_initial t k)]
    rfl
  · have e : (fun x => ∫⁻ x', h x' ∂((M x t t').withDensity fun x' => ENNReal.ofReal (Real.exp (-lik x' y t'))))
        = fun x => ∫⁻ ω, ENNReal.ofReal (Real.exp (-lik ((m ω).transitionSample x t t' []) y t')) * h ((m ω).transitionSample x t t' []) ∂ideal :=
      funext fun x => (hlaw x t y t' [] hh).symm
    rw [e]
    have hg : Measurable fun z : X × Tape => ENNReal.ofReal (Real.exp (-lik ((m z.2).transitionSample z.1 t t' []) y t')) * h ((m z.2).transitionSample z.1 t t' []) :=
      ((measurable_likDensity hm y t').mul hh).comp (hm.measurable_transition t t' [])
    exact Measurable.lintegral_prod_right' hg

theorem future_bootstrap {h : X → ℝ≥0∞} (hh : Measurable h) (os : List (Obs dy × ℝ)) (t : ℝ) :
    future (fun x t y t' => (M x t t').withDensity fun x' => ENNReal.ofReal (Real.exp (-lik x' y t'))) h t os = pathExpectation M lik h t os := by
  induction os generalizing t with
  | nil => rfl
  | cons o os ih =>
    funext x
    rw [future, pathExpectation, lintegral_withDensity_eq_lintegral_mul _ (measurable_likDensity hm o.1 o.2) (measurable_future (bootstrap_law hm) hh os o.2), ih]
    rfl

variable [NeZero n] {cat : (Fin n → Fl) → ℝ → Fin n} (hcat : IsCategoricalReal fun (w : Fin n → ℝ) u => cat (fun i => .fin (w i)) u)
include hcat

/-- C86: a bootstrap filter estimates unnormalised filtering expectations without bias: the expectation of (likelihood estimate × weighted mean of `h` at the last time) is the expectation under the model of
`h` of the last state times the likelihoods of all observations. For every number of particles, threshold and data. -/
theorem C86_bootstrap (thr : ℝ) (y0 : Obs dy) (ys : List (Obs dy)) (t0 : ℝ) (ts : List ℝ) (hlen : ts.length = ys.length) (key : Keys.Key) {h : X → ℝ≥0∞} (hh : Measurable h) :
    ∃ out : Tape → Particles X n dy, (∀ ω, run (tapeEnv cat ω) (bootstrap (m ω)) thr (y0 :: ys) (t0 :: ts) key = some (out ω)) ∧
      ∫⁻ ω, ENNReal.ofReal (likelihoodEstimate thr (out ω)) * weightedMean h (out ω) ∂ideal
        = ∫⁻ x, ENNReal.ofReal (Real.exp (-lik x y0 t0)) * pathExpectation M lik h t0 (ys.zip ts) x ∂(μ0 t0) := by
  obtain ⟨out, h1, -, h2⟩ := C86_proper (n := n) (bootstrap_law hm) hcat thr y0 ys t0 ts hlen key hh
  refine ⟨out, h1, h2.trans ?_⟩
  rw [lintegral_withDensity_eq_lintegral_mul _ (measurable_likDensity hm y0 t0) (measurable_future (bootstrap_law hm) hh _ t0), future_bootstrap hm hh]
  rfl

/-- C86: the likelihood estimate itself is unbiased. -/
theorem C86_likelihood (thr : ℝ) (y0 : Obs dy) (ys : List (Obs dy)) (t0 : ℝ) (ts : List ℝ) (hlen : ts.length = ys.length) (key : Keys.Key) :
    ∃ out : Tape → Particles X n dy, (∀ ω, run (tapeEnv cat ω) (bootstrap (m ω)) thr (y0 :: ys) (t0 :: ts) key = some (out ω)) ∧
      ∫⁻ ω, ENNReal.ofReal (likelihoodEstimate thr (out ω)) ∂ideal = ∫⁻ x, ENNReal.ofReal (Real.exp (-lik x y0 t0)) * pathExpectation M lik (fun _ => 1) t0 (ys.zip ts) x ∂(μ0 t0) := by
  obtain ⟨out, h1, h3, h2⟩ := C86_proper (n := n) (bootstrap_law hm) hcat thr y0 ys t0 ts hlen key (h := fun _ => 1) measurable_const
  refine ⟨out, h1, ?_⟩
  rw [lintegral_withDensity_eq_lintegral_mul _ (measurable_likDensity hm y0 t0) (measurable_future (bootstrap_law hm) measurable_const _ t0), future_bootstrap hm measurable_const] at h2
  rw [lintegral_congr fun ω => by rw [h3 ω, mul_one]] at h2
  exact h2

end

end Mocat.Props
