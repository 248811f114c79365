import Verif.Props.SmcConsistency
import Verif.Props.FilterLawGauss
/-!
# C109: particle filters converge as the ensemble grows

The draws come from an ideal generator (`Verif.Spec.Tape`).
-/
namespace Mocat.Props
open Mocat Mocat.Filtering Mocat.Metrics Mocat.Ideal Mocat.Meas MeasureTheory
open Mocat.Smc (Red Q redStep redValue redWeight StepLaw stepSites critLt lse logEss lseMean Spread Apart share)
open scoped ENNReal

variable {X : Type} {n dy : ℕ}

/-! ## Specification -/

/-- The weighted mean of `f` over the last ensemble. -/
noncomputable def filterMean (f : X → ℝ) (p : Particles X n dy) : ℝ :=
  match p.value.getLast?, p.logWeight.getLast? with
  | some x, some lw => (∑ i, weightOf (lw i) * f (x i)) / totalWeight lw
  | _, _ => 0

/-- The unnormalised filtering law, by prediction and update: from the law `μ` at time `t` move by the transition law, then weight by the likelihood of the observation, in turn for each observation. -/
noncomputable def filteringLaw [MeasurableSpace X] (M : X → ℝ → ℝ → Measure X) (lik : X → Obs dy → ℝ → ℝ) : Measure X → ℝ → List (Obs dy × ℝ) → Measure X
  | μ, _, [] => μ
  | μ, t, (y, t') :: os => filteringLaw M lik ((μ.bind fun x => M x t t').withDensity fun x => ENNReal.ofReal (Real.exp (-lik x y t'))) t' os

/-! ## Any filter with properly weighted proposals -/

/-- The law of the last state under the weighted transitions `Γ`. -/
noncomputable def terminal [MeasurableSpace X] (Γ : X → ℝ → Obs dy → ℝ → Measure X) : Measure X → ℝ → List (Obs dy × ℝ) → Measure X
  | μ, _, [] => μ
  | μ, t, (y, t') :: os => terminal Γ (μ.bind fun x => Γ x t y t') t' os

theorem increments_nonneg (thr : ℝ) : ∀ l : List ((Fin n → Fl) × Fl), 0 ≤ increments thr l
  | [] => zero_le_one
  | [_] => zero_le_one
  | a :: b :: l => by
    rw [increments]
    refine mul_nonneg (div_nonneg (totalWeight_nonneg _) ?_) (increments_nonneg thr (b :: l))
    split
    · positivity
    · exact totalWeight_nonneg _

theorem likelihoodEstimate_nonneg (thr : ℝ) (p : Particles X n dy) : 0 ≤ likelihoodEstimate thr p := by
  unfold likelihoodEstimate
  split
  · exact zero_le_one
  · exact mul_nonneg (div_nonneg (totalWeight_nonneg _) (by positivity)) (increments_nonneg _ _)

/-- The reduced state after the remaining observations. -/
noncomputable def finalRed (cat : (Fin n → Fl) → ℝ → Fin n) (f : Tape → Filter X Keys.Key dy) (G : X → ℝ → X → Obs dy → ℝ → ℝ) (thr : ℝ) :
    ℝ → List (Obs dy × ℝ × Keys.Key) → Red n X → Tape → Red n X
  | _, [], R, _ => R
  | t, o :: os, R, ω => finalRed cat f G thr o.2.1 os (filterStep cat f G thr t o R ω) ω

theorem filterApart (κ : Keys.Key) : Apart (n := n) (fun i => (κ, (i : ℕ))) (fun i => below ((i : ℕ) :: κ)) := by
  have hnot : ∀ i j : ℕ, ((κ, i) : Site) ∉ below (j :: κ) := by
    rintro i j ⟨p, hp⟩
    have := congrArg List.length hp
    simp at this
    omega
  intro i j hij
  have hne : (i : ℕ) ≠ j := fun h => hij (Fin.ext h)
  rw [Set.disjoint_insert_left, Set.disjoint_insert_right]
  refine ⟨?_, hnot _ _, below_disjoint hne⟩
  rw [Set.mem_insert_iff, not_or]
  exact ⟨fun h => hne (congrArg Prod.snd h), hnot _ _⟩

section
variable [MeasurableSpace X] [NeZero n] {cat : (Fin n → Fl) → ℝ → Fin n} {f : Tape → Filter X Keys.Key dy} {G0 : X → Obs dy → ℝ → ℝ} {G : X → ℝ → X → Obs dy → ℝ → ℝ}
  {Γ0 : Obs dy → ℝ → Measure X} {Γ : X → ℝ → Obs dy → ℝ → Measure X} (hF : FilterLaw f G0 G Γ0 Γ)
include hF

omit [NeZero n] in
theorem measurable_kernel (t : ℝ) (y : Obs dy) (t' : ℝ) : Measurable fun x => Γ x t y t' := by
  refine Measure.measurable_of_measurable_coe _ fun s hs => ?_
  have h := hF.kernel t y t' (h := s.indicator 1) (measurable_one.indicator hs)
  simp only [lintegral_indicator_one hs] at h
  exact h

omit [NeZero n] in
theorem lintegral_terminal {h : X → ℝ≥0∞} (hh : Measurable h) (os : List (Obs dy × ℝ)) (μ : Measure X) (t : ℝ) : ∫⁻ x, h x ∂(terminal Γ μ t os) = ∫⁻ x, future Γ h t os x ∂μ := by
  induction os generalizing μ t with
  | nil => rfl
  | cons o os ih =>
    rw [terminal, ih, Measure.lintegral_bind (measurable_kernel hF t o.1 o.2).aemeasurable (measurable_future hF hh os o.2).aemeasurable]
    rfl

/-- What a run reports, in terms of the reduced state. -/
theorem estimate_final (thr : ℝ) (h : X → ℝ≥0∞) (os : List (Obs dy × ℝ × Keys.Key)) (t : ℝ) (y : Obs dy) (R : Red n X) (ω : Tape) :
    ENNReal.ofReal (Real.exp R.2.2) * sliceEstimate thr h (sliceOf R t y)
        (scan (fun s o => (body (tapeEnv cat ω) (f ω) thr s o, body (tapeEnv cat ω) (f ω) thr s o)) (sliceOf R t y) os).2
      = Q h (finalRed cat f G thr t os R ω) := by
  induction os generalizing t y R with
  | nil => exact sliceEstimate_nil thr h _ _ _
  | cons o os ih =>
    rw [scan]
    simp only
    rw [body_red hF, sliceEstimate_cons, ih]
    rfl

theorem filterMean_final (thr : ℝ) (g : X → ℝ) (os : List (Obs dy × ℝ × Keys.Key)) (t : ℝ) (y : Obs dy) (R : Red n X) (ω : Tape) :
    filterMean g (ofSlices (sliceOf R t y) (scan (fun s o => (body (tapeEnv cat ω) (f ω) thr s o, body (tapeEnv cat ω) (f ω) thr s o)) (sliceOf R t y) os).2)
      = (∑ i, Real.exp ((finalRed cat f G thr t os R ω).2.1 i) * g ((finalRed cat f G thr t os R ω).1 i)) / ∑ i, Real.exp ((finalRed cat f G thr t os R ω).2.1 i) := by
  induction os generalizing t y R with
  | nil =>
    simp only [scan, ofSlices, filterMean, List.map_cons, List.map_nil, List.getLast?_singleton]
    rfl
  | cons o os ih =>
    rw [scan]
    simp only
    rw [body_red hF]
    refine Eq.trans ?_ (ih o.2.1 o.1 (filterStep cat f G thr t o R ω))
    simp only [ofSlices, filterMean, List.map_cons, List.getLast?_cons_cons]

omit [NeZero n] in
theorem measurable_final (hcat : IsCategoricalReal fun (w : Fin n → ℝ) u => cat (fun i => .fin (w i)) u) (thr : ℝ) (os : List (Obs dy × ℝ × Keys.Key)) (t : ℝ) {R : Tape → Red n X}
    (hR : Measurable R) : Measurable fun ω => finalRed cat f G thr t os (R ω) ω := by
  induction os generalizing t R with
  | nil => exact hR
  | cons o os ih => exact ih o.2.1 (Smc.measurable_next hcat (filterStep_law (n := n) hF thr t o) hR)

theorem future_le {W : ℝ} (os : List (Obs dy × ℝ)) (hW : ∀ o ∈ os, ∀ t x x', Real.exp (G x t x' o.1 o.2) ≤ W) (hW0 : 0 ≤ W) {h : X → ℝ≥0∞} (hh : Measurable h) {B : ℝ≥0∞} (hB : ∀ x, h x ≤ B)
    (t : ℝ) (x : X) : future Γ h t os x ≤ ENNReal.ofReal (W ^ os.length) * B := by
  induction os generalizing t x with
  | nil => simpa [future] using hB x
  | cons o os ih =>
    have h1 := Smc.op_le (n := 1) (filterStep_law (n := 1) hF 0 t (o.1, o.2, [])) (fun x x' => hW o List.mem_cons_self t x x') (measurable_future hF hh os o.2)
      (fun x => ih (fun o' ho' => hW o' (List.mem_cons_of_mem _ ho')) o.2 x) x
    refine h1.trans (le_of_eq ?_)
    rw [← mul_assoc, ← ENNReal.ofReal_mul hW0, List.length_cons, pow_succ']

/-- From a random weighted ensemble: the second moment of the estimate after the remaining observations. -/
theorem filter_second_moment (hcat : IsCategoricalReal fun (w : Fin n → ℝ) u => cat (fun i => .fin (w i)) u) (thr : ℝ) {h : X → ℝ≥0∞} (hh : Measurable h) {B : ℝ≥0∞} (hB : ∀ x, h x ≤ B)
    {W : ℝ} (hW0 : 0 ≤ W) (os : List (Obs dy × ℝ × Keys.Key)) (hW : ∀ o ∈ os, ∀ t x x', Real.exp (G x t x' o.1 o.2.1) ≤ W)
    (hos : os.Pairwise fun a b => Disjoint (below a.2.2) (below b.2.2)) (t : ℝ) {R : Tape → Red n X} (hR : Measurable R) {S : Set Site} (hRS : DependsOn R S)
    (hS : ∀ o ∈ os, Disjoint S (below o.2.2)) {A : ℝ} (hA : 0 ≤ A) (hsp : ∀ ω, Spread A (R ω)) :
    ∫⁻ ω, Q h (finalRed cat f G thr t os (R ω) ω) ^ 2 ∂ideal
      ≤ ∫⁻ ω, Q (future Γ h t (os.map fun o => (o.1, o.2.1))) (R ω) ^ 2 ∂ideal + os.length * (ENNReal.ofReal (A * W ^ os.length) * B) ^ 2 / n := by
  induction os generalizing t R S A with
  | nil => simp [finalRed, future]
  | cons o os ih =>
    rw [List.pairwise_cons] at hos
    have hL := filterStep_law (n := n) hF thr t o
    have hd := Set.disjoint_of_subset_right (filterSites (n := n) o.2.2) (hS o List.mem_cons_self)
    have hR' : Measurable fun ω => filterStep cat f G thr t o (R ω) ω := Smc.measurable_next hcat hL hR
    have hRS' : DependsOn (fun ω => filterStep cat f G thr t o (R ω) ω) (S ∪ below o.2.2) := fun ω ω' hω =>
      Smc.next_dependsOn hL hRS fun s hs => hω s (hs.imp id fun hs => filterSites _ hs)
    have hWo : ∀ x x', Real.exp (G x t x' o.1 o.2.1) ≤ W := fun x x' => hW o List.mem_cons_self t x x'
    have h1 := ih (fun o' ho' => hW o' (List.mem_cons_of_mem _ ho')) hos.2 o.2.1 hR' hRS' (fun o' ho' =>
      Set.disjoint_union_left.mpr ⟨hS o' (List.mem_cons_of_mem _ ho'), hos.1 o' ho'⟩) (mul_nonneg hA hW0) (fun ω => Smc.spread_redStep hA (hsp ω) hWo ω)
    have h2 := Smc.lintegral_sq_next hcat hL (filterApart _) (measurable_future hF hh (os.map fun o => (o.1, o.2.1)) o.2.1)
      (fun x => future_le hF (W := W) (os.map fun o => (o.1, o.2.1)) (fun o' ho' => by
        obtain ⟨o'', ho'', rfl⟩ := List.mem_map.mp ho'
        exact hW o'' (List.mem_cons_of_mem _ ho'')) hW0 hh hB o.2.1 x) hWo hR hRS hd hsp
    refine h1.trans ((add_le_add_left h2 _).trans (le_of_eq ?_))
    rw [add_assoc]
    congr 1
    rw [List.length_map, List.length_cons, ENNReal.div_eq_inv_mul, ENNReal.div_eq_inv_mul, ENNReal.div_eq_inv_mul, ← mul_add]
    congr 1
    have e1 : A * W * W ^ os.length = A * W ^ (os.length + 1) := by ring
    have e2 : ENNReal.ofReal A * ENNReal.ofReal W * (ENNReal.ofReal (W ^ os.length) * B) = ENNReal.ofReal (A * W ^ (os.length + 1)) * B := by
      rw [← mul_assoc, ← ENNReal.ofReal_mul hA, ← ENNReal.ofReal_mul (mul_nonneg hA hW0), e1]
    rw [e1, e2]
    push_cast
    ring

/-- The second moment of the starting ensemble. -/
theorem start_second_moment (y0 : Obs dy) (t0 : ℝ) (key : Keys.Key) {W : ℝ} (hW : ∀ x, Real.exp (G0 x y0 t0) ≤ W) {g : X → ℝ≥0∞} (hg : Measurable g) {B : ℝ≥0∞} (hB : ∀ x, g x ≤ B) :
    ∫⁻ ω, Q g (startRed (n := n) f G0 y0 t0 key ω) ^ 2 ∂ideal ≤ (∫⁻ x, g x ∂(Γ0 y0 t0)) ^ 2 + (ENNReal.ofReal W * B) ^ 2 / n := by
  refine Smc.lintegral_sq_start (n := n) ideal (x := fun ω (i : Fin n) => (f ω).initialSample y0 t0 ((i : ℕ) :: key)) (fun i => hF.measurable_initial _ _ _) (fun {h} hh i j hij => ?_)
    (g := fun x => G0 x y0 t0) (hF.measurable_initialLogWeight y0 t0) hW hg hB (fun i => hF.law_initial y0 t0 _ hg)
  have hne : (i : ℕ) ≠ j := fun h => hij (Fin.ext h)
  have hm : ∀ i : Fin n, Measurable fun ω => h ((f ω).initialSample y0 t0 ((i : ℕ) :: key)) := fun i => hh.comp (hF.measurable_initial _ _ _)
  have hdep : ∀ i : Fin n, DependsOn (fun ω => h ((f ω).initialSample y0 t0 ((i : ℕ) :: key))) (below ((i : ℕ) :: key)) := fun i ω ω' hω =>
    congrArg h (hF.reads_initial y0 t0 _ hω)
  have e := fresh (below_disjoint (k := key) hne) (f := fun ω => h ((f ω).initialSample y0 t0 ((i : ℕ) :: key)))
    (g := fun a ω => a * h ((f ω).initialSample y0 t0 ((j : ℕ) :: key))) (hm i) (hdep i) (measurable_fst.mul ((hm j).comp measurable_snd))
    (fun a ω ω' hω => by
      have := hdep j hω
      simp only at this ⊢
      rw [this])
  rw [e, ← lintegral_mul_const _ (hm i)]
  exact lintegral_congr fun ω => lintegral_const_mul _ (hm j)

theorem red_first_moment (hcat : IsCategoricalReal fun (w : Fin n → ℝ) u => cat (fun i => .fin (w i)) u) (thr : ℝ) (y0 : Obs dy) (t0 : ℝ) (κ : Keys.Key) (os : List (Obs dy × ℝ × Keys.Key))
    (hk2 : os.Pairwise fun a b => Disjoint (below a.2.2) (below b.2.2)) (hdis : ∀ o ∈ os, Disjoint (below κ) (below o.2.2)) {h : X → ℝ≥0∞} (hh : Measurable h) :
    ∫⁻ ω, Q h (finalRed cat f G thr t0 os (startRed (n := n) f G0 y0 t0 κ ω) ω) ∂ideal = ∫⁻ x, h x ∂(terminal Γ (Γ0 y0 t0) t0 (os.map fun o => (o.1, o.2.1))) := by
  have h1 := filter_unbiased hF hcat thr hh os hk2 t0 y0 (measurable_startRed (n := n) hF y0 t0 κ) (startRed_dependsOn hF y0 t0 κ) hdis
  rw [lintegral_startRed hF y0 t0 κ (measurable_future hF hh (os.map fun o => (o.1, o.2.1)) t0)] at h1
  rw [lintegral_terminal hF hh, ← h1]
  exact lintegral_congr fun ω => (estimate_final hF thr h os t0 y0 _ ω).symm

theorem red_second_moment (hcat : IsCategoricalReal fun (w : Fin n → ℝ) u => cat (fun i => .fin (w i)) u) (thr : ℝ) (y0 : Obs dy) (t0 : ℝ) (κ : Keys.Key) (os : List (Obs dy × ℝ × Keys.Key))
    (hk2 : os.Pairwise fun a b => Disjoint (below a.2.2) (below b.2.2)) (hdis : ∀ o ∈ os, Disjoint (below κ) (below o.2.2)) {W : ℝ} (hW0 : ∀ x, Real.exp (G0 x y0 t0) ≤ W)
    (hW : ∀ o ∈ os.map (fun o => (o.1, o.2.1)), ∀ t x x', Real.exp (G x t x' o.1 o.2) ≤ W) (hW1 : 0 ≤ W) {h : X → ℝ≥0∞} (hh : Measurable h) {b : ℝ≥0∞} (hb : ∀ x, h x ≤ b) :
    ∫⁻ ω, Q h (finalRed cat f G thr t0 os (startRed (n := n) f G0 y0 t0 κ ω) ω) ^ 2 ∂ideal
      ≤ (∫⁻ x, h x ∂(terminal Γ (Γ0 y0 t0) t0 (os.map fun o => (o.1, o.2.1)))) ^ 2 + (os.length + 1) * (ENNReal.ofReal (W ^ (os.length + 1)) * b) ^ 2 / n := by
  have hWos : ∀ o ∈ os, ∀ t x x', Real.exp (G x t x' o.1 o.2.1) ≤ W := fun o ho => hW (o.1, o.2.1) (List.mem_map.mpr ⟨o, ho, rfl⟩)
  have hspread : ∀ ω, Spread W (startRed (n := n) f G0 y0 t0 κ ω) := fun ω =>
    Smc.spread_startAt (g := fun x => G0 x y0 t0) hW0 (fun i : Fin n => (f ω).initialSample y0 t0 ((i : ℕ) :: κ))
  have h1 := filter_second_moment hF hcat thr hh hb hW1 os hWos hk2 t0 (measurable_startRed (n := n) hF y0 t0 κ) (startRed_dependsOn hF y0 t0 κ) hdis hW1 hspread
  have h2 := start_second_moment (n := n) hF y0 t0 κ hW0 (measurable_future hF hh (os.map fun o => (o.1, o.2.1)) t0) (fun x => future_le hF (os.map fun o => (o.1, o.2.1)) hW hW1 hh hb t0 x)
  rw [lintegral_terminal hF hh]
  refine h1.trans ((add_le_add_left h2 _).trans (le_of_eq ?_))
  rw [add_assoc]
  congr 1
  rw [List.length_map, ENNReal.div_eq_inv_mul, ENNReal.div_eq_inv_mul, ENNReal.div_eq_inv_mul, ← mul_add]
  congr 1
  rw [← mul_assoc (ENNReal.ofReal W), ← ENNReal.ofReal_mul hW1, ← pow_succ']
  ring

omit [NeZero n] in
theorem terminal_finite (y0 : Obs dy) (t0 : ℝ) (os : List (Obs dy × ℝ)) {W : ℝ} (hW0 : ∀ x, Real.exp (G0 x y0 t0) ≤ W) (hW : ∀ o ∈ os, ∀ t x x', Real.exp (G x t x' o.1 o.2) ≤ W) (hW1 : 0 ≤ W) :
    IsFiniteMeasure (terminal Γ (Γ0 y0 t0) t0 os) := by
  have hΓ0 : Γ0 y0 t0 Set.univ ≠ ∞ := by
    have h1 := hF.law_initial y0 t0 [] (h := fun _ => 1) measurable_const
    rw [lintegral_const, one_mul] at h1
    rw [← h1]
    refine ne_top_of_le_ne_top (b := ENNReal.ofReal W) ENNReal.ofReal_ne_top ((lintegral_mono fun ω => ?_).trans (by rw [lintegral_const, measure_univ, mul_one] : ∫⁻ _, ENNReal.ofReal W ∂ideal = _).le)
    rw [mul_one]
    exact ENNReal.ofReal_le_ofReal (hW0 _)
  refine ⟨?_⟩
  have h1 := lintegral_terminal hF (h := fun _ => 1) measurable_const os (Γ0 y0 t0) t0
  rw [lintegral_const, one_mul] at h1
  rw [h1]
  refine (lintegral_mono fun x => future_le hF os hW hW1 measurable_const (B := 1) (fun _ => le_rfl) t0 x).trans_lt ?_
  rw [lintegral_const]
  exact ENNReal.mul_lt_top (ENNReal.mul_lt_top ENNReal.ofReal_lt_top ENNReal.one_lt_top) (lt_top_iff_ne_top.mpr hΓ0)

/-- Concentration of the last ensemble of any filter with properly weighted proposals and bounded weights, for any unrelated keys. -/
theorem red_concentrates (hcat : IsCategoricalReal fun (w : Fin n → ℝ) u => cat (fun i => .fin (w i)) u) (thr : ℝ) (y0 : Obs dy) (t0 : ℝ) (κ : Keys.Key) (os : List (Obs dy × ℝ × Keys.Key))
    (hk2 : os.Pairwise fun a b => Disjoint (below a.2.2) (below b.2.2)) (hdis : ∀ o ∈ os, Disjoint (below κ) (below o.2.2)) {W : ℝ} (hW0 : ∀ x, Real.exp (G0 x y0 t0) ≤ W)
    (hW : ∀ o ∈ os.map (fun o => (o.1, o.2.1)), ∀ t x x', Real.exp (G x t x' o.1 o.2) ≤ W) (hW1 : 0 ≤ W) {g : X → ℝ} (hg : Measurable g) {B : ℝ} (hB0 : 0 ≤ B) (hB : ∀ x, |g x| ≤ B) {ε : ℝ} (hε : 0 < ε)
    {R : Tape → Red n X} (hR : R = fun ω => finalRed cat f G thr t0 os (startRed f G0 y0 t0 κ ω) ω) {Φ : Measure X} (hΦ : Φ = terminal Γ (Γ0 y0 t0) t0 (os.map fun o => (o.1, o.2.1))) :
    ideal {ω | ε ≤ |(∑ i, Real.exp ((R ω).2.1 i) * g ((R ω).1 i)) / (∑ i, Real.exp ((R ω).2.1 i)) - (∫ x, g x ∂Φ) / Φ.real Set.univ|}
        ≤ ENNReal.ofReal (spreadConst os.length W B (Φ.real Set.univ) ε / n) ∧
      ideal {ω | ε ≤ |Real.exp (R ω).2.2 - Φ.real Set.univ|} ≤ ENNReal.ofReal ((os.length + 1) * (W ^ (os.length + 1)) ^ 2 / ε ^ 2 / n) := by
  have hRm : Measurable R := by
    rw [hR]
    exact measurable_final hF hcat thr os t0 (measurable_startRed hF y0 t0 κ)
  have hfin : IsFiniteMeasure Φ := by
    rw [hΦ]
    exact terminal_finite hF y0 t0 _ hW0 hW hW1
  refine mean_concentrates ideal hRm Φ os.length hW1 (fun h hh => ?_) (fun h hh b hb => ?_) hg hB0 hB hε
  · rw [hR, hΦ]
    exact red_first_moment hF hcat thr y0 t0 κ os hk2 hdis hh
  · rw [hR, hΦ]
    exact red_second_moment hF hcat thr y0 t0 κ os hk2 hdis hW0 hW hW1 hh hb

/-- Convergence of any filter with properly weighted proposals and bounded weights. -/
theorem filter_consistent (hcat : IsCategoricalReal fun (w : Fin n → ℝ) u => cat (fun i => .fin (w i)) u) (thr : ℝ) (y0 : Obs dy) (ys : List (Obs dy)) (t0 : ℝ) (ts : List ℝ) (hlen : ts.length = ys.length)
    (key : Keys.Key) {W : ℝ} (hW0 : ∀ x, Real.exp (G0 x y0 t0) ≤ W) (hW : ∀ o ∈ ys.zip ts, ∀ t x x', Real.exp (G x t x' o.1 o.2) ≤ W) (hW1 : 0 ≤ W)
    {g : X → ℝ} (hg : Measurable g) {B : ℝ} (hB0 : 0 ≤ B) (hB : ∀ x, |g x| ≤ B) {ε : ℝ} (hε : 0 < ε) :
    ∃ out : Tape → Particles X n dy, (∀ ω, run (tapeEnv cat ω) (f ω) thr (y0 :: ys) (t0 :: ts) key = some (out ω)) ∧
      ideal {ω | ε ≤ |filterMean g (out ω) - (∫ x, g x ∂(terminal Γ (Γ0 y0 t0) t0 (ys.zip ts))) / (terminal Γ (Γ0 y0 t0) t0 (ys.zip ts)).real Set.univ|}
        ≤ ENNReal.ofReal (spreadConst ys.length W B ((terminal Γ (Γ0 y0 t0) t0 (ys.zip ts)).real Set.univ) ε / n) ∧
      ideal {ω | ε ≤ |likelihoodEstimate thr (out ω) - (terminal Γ (Γ0 y0 t0) t0 (ys.zip ts)).real Set.univ|}
        ≤ ENNReal.ofReal ((ys.length + 1) * (W ^ (ys.length + 1)) ^ 2 / ε ^ 2 / n) := by
  obtain ⟨hk1, hk2, hk3⟩ := zip_keys ys ts hlen (0 :: key) (tapeEnv cat (fun _ => 0)) (fun _ _ _ => rfl)
  set os := withKeys (tapeEnv cat (fun _ => 0)) ys ts (0 :: key) with hos
  have hlen' : os.length = ys.length := by
    have := congrArg List.length hk1
    simpa [hlen] using this
  have hdis : ∀ o ∈ os, Disjoint (below (1 :: key)) (below o.2.2) := fun o ho => by
    obtain ⟨i, hi⟩ := hk3 o ho
    rw [hi]
    exact Set.disjoint_of_subset_right (fun s hs => mem_below_cons hs) (below_disjoint (by omega))
  set R : Tape → Red n X := fun ω => finalRed cat f G thr t0 os (startRed f G0 y0 t0 (1 :: key) ω) ω with hR
  have main := red_concentrates hF hcat thr y0 t0 (1 :: key) os hk2 hdis hW0 (hk1 ▸ hW) hW1 hg hB0 hB hε hR rfl
  rw [hk1, hlen'] at main
  refine ⟨_, fun ω => run_slices hF thr y0 ys t0 ts key ω, ?_, ?_⟩
  · refine le_trans (le_of_eq ?_) main.1
    congr 1
    ext ω
    simp only [Set.mem_ofPred_eq]
    rw [← filterMean_final hF thr g os t0 y0]
    rfl
  · refine le_trans (le_of_eq ?_) main.2
    congr 1
    ext ω
    simp only [Set.mem_ofPred_eq]
    have hl := likelihood_slices (G0 := G0) (f := f) thr (fun _ => 1) y0 t0 (1 :: key) ω
      (scan (fun s o => (body (tapeEnv cat ω) (f ω) thr s o, body (tapeEnv cat ω) (f ω) thr s o)) (sliceOf (startRed (n := n) f G0 y0 t0 (1 :: key) ω) t0 y0) os).2
    rw [weightedMean_one hF thr t0 y0 _ ω os, mul_one, estimate_final hF thr _ os t0 y0] at hl
    have hq : Q (fun _ => 1) (R ω) = ENNReal.ofReal (Real.exp (R ω).2.2) := by
      rw [← Smc.share_sum (R ω), ENNReal.ofReal_sum_of_nonneg fun i _ => by unfold share; positivity, Smc.Q_eq_share]
      simp
    have hl2 := (ENNReal.ofReal_eq_ofReal_iff (likelihoodEstimate_nonneg thr _) (Real.exp_pos _).le).mp (hl.trans hq)
    rw [← hl2]
    rfl

end

/-! ## The bootstrap filter -/

theorem terminal_eq [MeasurableSpace X] {M : X → ℝ → ℝ → Measure X} {lik : X → Obs dy → ℝ → ℝ} (hM : ∀ t t', Measurable fun x => M x t t')
    (hk : ∀ t y t', Measurable fun x => (M x t t').withDensity fun x' => ENNReal.ofReal (Real.exp (-lik x' y t'))) (hd : ∀ y t, Measurable fun x => ENNReal.ofReal (Real.exp (-lik x y t)))
    (os : List (Obs dy × ℝ)) (μ : Measure X) (t : ℝ) :
    terminal (fun x t y t' => (M x t t').withDensity fun x' => ENNReal.ofReal (Real.exp (-lik x' y t'))) μ t os = filteringLaw M lik μ t os := by
  induction os generalizing μ t with
  | nil => rfl
  | cons o os ih =>
    rw [terminal, filteringLaw, ih]
    congr 1
    refine Measure.ext fun s hs => ?_
    rw [Measure.bind_apply hs (hk _ _ _).aemeasurable, withDensity_apply _ hs, ← lintegral_indicator hs, Measure.lintegral_bind (hM _ _).aemeasurable ((hd _ _).indicator hs).aemeasurable]
    refine lintegral_congr fun x => ?_
    rw [withDensity_apply _ hs, lintegral_indicator hs]

section
variable [MeasurableSpace X] {m : Tape → Ssm.Model X (Obs dy) Keys.Key} {μ0 : ℝ → Measure X} {M : X → ℝ → ℝ → Measure X} {lik : X → Obs dy → ℝ → ℝ} (hm : ModelLaw m μ0 M lik)
include hm

theorem measurable_transitionLaw (t t' : ℝ) : Measurable fun x => M x t t' := by
  refine Measure.measurable_of_measurable_coe _ fun s hs => ?_
  have htr : ∀ x, Measurable fun ω => (m ω).transitionSample x t t' [] := fun x => by
    have h := (hm.measurable_transition t t' []).comp (measurable_prodMk_left (x := x))
    exact h
  have e : (fun x => M x t t' s) = fun x => ideal (Prod.mk x ⁻¹' {z : X × Tape | (m z.2).transitionSample z.1 t t' [] ∈ s}) := funext fun x => by
    rw [← hm.law_transition x t t' [], Measure.map_apply (htr x) hs]
    rfl
  rw [e]
  exact measurable_measure_prodMk_left ((hm.measurable_transition t t' []) hs)

theorem terminal_bootstrap (os : List (Obs dy × ℝ)) (μ : Measure X) (t : ℝ) :
    terminal (fun x t y t' => (M x t t').withDensity fun x' => ENNReal.ofReal (Real.exp (-lik x' y t'))) μ t os = filteringLaw M lik μ t os :=
  terminal_eq (measurable_transitionLaw hm) (fun t y t' => measurable_kernel (bootstrap_law hm) t y t') (measurable_likDensity hm) os μ t

/-- C109: fix a state-space model, times, observations, and a bound below on the likelihood potentials of those observations; fix a bounded measurable `g` and a tolerance `ε`. There is a constant `C` such that for every number
of particles `n`, resampling threshold and key, the probability that the bootstrap filter's weighted mean of `g` at the last time is `ε` or more away from the filtering expectation is at most `C / n`, and likewise for the
likelihood estimate. -/
theorem C109_bootstrap (y0 : Obs dy) (ys : List (Obs dy)) (t0 : ℝ) (ts : List ℝ) (hlen : ts.length = ys.length) (b : ℝ) (hb : ∀ o ∈ (y0, t0) :: ys.zip ts, ∀ x, b ≤ lik x o.1 o.2)
    (g : X → ℝ) (hg : Measurable g) (B : ℝ) (hB : ∀ x, |g x| ≤ B) (ε : ℝ) (hε : 0 < ε) :
    ∃ C : ℝ, ∀ (n : ℕ) [NeZero n] (cat : (Fin n → Fl) → ℝ → Fin n), (IsCategoricalReal fun (w : Fin n → ℝ) u => cat (fun i => .fin (w i)) u) → ∀ (thr : ℝ) (key : Keys.Key),
      ∃ out : Tape → Particles X n dy, (∀ ω, run (tapeEnv cat ω) (bootstrap (m ω)) thr (y0 :: ys) (t0 :: ts) key = some (out ω)) ∧
        let Φ := filteringLaw M lik ((μ0 t0).withDensity fun x => ENNReal.ofReal (Real.exp (-lik x y0 t0))) t0 (ys.zip ts)
        ideal {ω | ε ≤ |filterMean g (out ω) - (∫ x, g x ∂Φ) / Φ.real Set.univ|} ≤ ENNReal.ofReal (C / n) ∧
        ideal {ω | ε ≤ |likelihoodEstimate thr (out ω) - Φ.real Set.univ|} ≤ ENNReal.ofReal (C / n) := by
  have hB0 : 0 ≤ |B| := abs_nonneg B
  refine ⟨max (spreadConst ys.length (Real.exp (-b)) |B| ((filteringLaw M lik ((μ0 t0).withDensity fun x => ENNReal.ofReal (Real.exp (-lik x y0 t0))) t0 (ys.zip ts)).real Set.univ) ε)
    ((ys.length + 1) * (Real.exp (-b) ^ (ys.length + 1)) ^ 2 / ε ^ 2), fun n _ cat hcat thr key => ?_⟩
  obtain ⟨out, h1, h2, h3⟩ := filter_consistent (n := n) (bootstrap_law hm) hcat thr y0 ys t0 ts hlen key (W := Real.exp (-b)) (fun x => Real.exp_le_exp.mpr (neg_le_neg (hb (y0, t0) List.mem_cons_self x)))
    (fun o ho t x x' => Real.exp_le_exp.mpr (neg_le_neg (hb o (List.mem_cons_of_mem _ ho) x'))) (Real.exp_pos _).le hg hB0 (fun x => (hB x).trans (le_abs_self B)) hε
  rw [terminal_bootstrap hm] at h2 h3
  exact ⟨out, h1, h2.trans (ENNReal.ofReal_le_ofReal (div_le_div_of_nonneg_right (le_max_left _ _) (by positivity))),
    h3.trans (ENNReal.ofReal_le_ofReal (div_le_div_of_nonneg_right (le_max_right _ _) (by positivity)))⟩

end

/-! ## Nonlinear Gaussian models -/

section
open Matrix Mocat.NonlinearGaussian Mocat.Spec Mocat.Covariance Mocat.MatGauss
variable {d e : ℕ}

theorem neg_potential_le (x mean : Fin d → ℝ) (s : Matrix (Fin d) (Fin d) ℝ) (c : ℝ) :
    Gaussian.negLogZ d (some c) ≤ Gaussian.gaussianPotential x mean .none (.mat s) (some c) := by
  have h : Gaussian.gaussianPotential x mean .none (.mat s) (some c) = Gaussian.vectorisedGaussianPotential x mean s + Gaussian.negLogZ d (some c) := rfl
  rw [h]
  have : 0 ≤ Gaussian.vectorisedGaussianPotential x mean s := by
    unfold Gaussian.vectorisedGaussianPotential
    positivity
  linarith

theorem measurable_gauss {Y : Type} [MeasurableSpace Y] (C : Matrix (Fin d) (Fin d) ℝ) {f : Y → Fin d → ℝ} (hf : Measurable f) : Measurable fun y => gauss (f y) C := by
  refine Measure.measurable_of_measurable_coe _ fun s hs => ?_
  have h0 : ∀ v x : Fin d → ℝ, gaussDensity v C x = gaussDensity 0 C (x - v) := fun v x => by simp only [gaussDensity, sub_zero]
  have hd : Measurable fun z : Y × (Fin d → ℝ) => z.2 - f z.1 := measurable_snd.sub (hf.comp measurable_fst)
  have hz : Measurable fun z : Y × (Fin d → ℝ) => ENNReal.ofReal (gaussDensity 0 C (z.2 - f z.1)) := ENNReal.measurable_ofReal.comp ((continuous_gaussDensity 0 C).measurable.comp hd)
  have e : (fun y => gauss (f y) C s) = fun y => ∫⁻ x in s, ENNReal.ofReal (gaussDensity 0 C (x - f y)) := funext fun y => by
    rw [gauss, withDensity_apply _ hs]
    exact lintegral_congr fun x => by rw [h0]
  rw [e]
  exact Measurable.lintegral_prod_right' hz

variable {chol : Chol} (hchol : IsCholeskyAll chol) {m : NLG d e} (hm : ProperNLG m) (htr : ∀ t t', Measurable fun x => m.transFun x t t') {q : ℝ → ℝ} (hq : IsNormalDraw q)
include hchol hm htr hq

/-- C109 for the bootstrap filter on a nonlinear Gaussian model: no bound needs to be assumed. -/
theorem C109_nonlinear_gaussian (y0 : Obs e) (ys : List (Obs e)) (t0 : ℝ) (ts : List ℝ) (hlen : ts.length = ys.length) (g : (Fin d → ℝ) → ℝ) (hg : Measurable g) (B : ℝ) (hB : ∀ x, |g x| ≤ B) (ε : ℝ)
    (hε : 0 < ε) :
    ∃ C : ℝ, ∀ (n : ℕ) [NeZero n] (cat : (Fin n → Fl) → ℝ → Fin n), (IsCategoricalReal fun (w : Fin n → ℝ) u => cat (fun i => .fin (w i)) u) → ∀ (thr : ℝ) (key : Keys.Key),
      ∃ out : Tape → Particles (Fin d → ℝ) n e, (∀ ω, run (tapeEnv cat ω) (bootstrap (reKeyModel (normalsAt q ω) (m.model chol))) thr (y0 :: ys) (t0 :: ts) key = some (out ω)) ∧
        let Φ := filteringLaw (fun x t t' => gauss (m.transFun x t t') ((chol d m.transCov)ᵀ * chol d m.transCov)) (fun x y _ => covPotential chol m.likCov (x ᵥ* m.likMatᵀ) y)
          ((gauss m.initialMean m.initialCov).withDensity fun x => ENNReal.ofReal (Real.exp (-covPotential chol m.likCov (x ᵥ* m.likMatᵀ) y0))) t0 (ys.zip ts)
        ideal {ω | ε ≤ |filterMean g (out ω) - (∫ x, g x ∂Φ) / Φ.real Set.univ|} ≤ ENNReal.ofReal (C / n) ∧
        ideal {ω | ε ≤ |likelihoodEstimate thr (out ω) - Φ.real Set.univ|} ≤ ENNReal.ofReal (C / n) :=
  C109_bootstrap (nlg_modelLaw hchol hm htr hq) y0 ys t0 ts hlen (Gaussian.negLogZ e (some (1 / m.likCov.det))) (fun o _ x => neg_potential_le o.1 (x ᵥ* m.likMatᵀ) _ _) g hg B hB ε hε

omit hchol hq in
theorem optimal_terminal (os : List (Obs e × ℝ)) (μ : Measure (Fin d → ℝ)) (t : ℝ)
    (hk : ∀ t y t', Measurable fun x => (gauss (m.transFun x t t') m.transCov).withDensity fun x' => ENNReal.ofReal (gaussDensity (m.likMat *ᵥ x') m.likCov y)) :
    terminal (fun x t y t' => (gauss (m.transFun x t t') m.transCov).withDensity fun x' => ENNReal.ofReal (gaussDensity (m.likMat *ᵥ x') m.likCov y)) μ t os
      = filteringLaw (fun x t t' => gauss (m.transFun x t t') m.transCov) (fun x y _ => -Real.log (gaussDensity (m.likMat *ᵥ x) m.likCov y)) μ t os := by
  have hexp : ∀ y : Fin e → ℝ, (fun x' => ENNReal.ofReal (gaussDensity (m.likMat *ᵥ x') m.likCov y))
      = fun x' => ENNReal.ofReal (Real.exp (-(-Real.log (gaussDensity (m.likMat *ᵥ x') m.likCov y)))) := by
    intro y
    funext x'
    rw [neg_neg, Real.exp_log (gaussDensity_pos _ hm.lik _)]
  have hlm : ∀ y, Measurable fun x : Fin d → ℝ => gaussDensity (m.likMat *ᵥ x) m.likCov y := fun y => by
    have hc : Continuous fun v : Fin e → ℝ => gaussDensity v m.likCov y := by
      unfold gaussDensity
      have : Continuous fun v : Fin e → ℝ => (y - v) ⬝ᵥ (m.likCov⁻¹ *ᵥ (y - v)) := by
        simp only [dotProduct, mulVec]
        fun_prop
      fun_prop
    exact hc.measurable.comp (measurable_mulVec m.likMat)
  have hM : ∀ t t', Measurable fun x => gauss (m.transFun x t t') m.transCov := fun t t' => measurable_gauss m.transCov (htr t t')
  have hd : ∀ (y : Fin e → ℝ) (_ : ℝ), Measurable fun x : Fin d → ℝ => ENNReal.ofReal (Real.exp (-(-Real.log (gaussDensity (m.likMat *ᵥ x) m.likCov y)))) := fun y _ =>
    ENNReal.measurable_ofReal.comp (Real.measurable_exp.comp (hlm y).log.neg.neg)
  simp only [hexp] at hk ⊢
  exact terminal_eq (lik := fun x y _ => -Real.log (gaussDensity (m.likMat *ᵥ x) m.likCov y)) hM hk
    hd os μ t

/-- C109 for the optimal filter of a nonlinear Gaussian model, with the distribution of its first draws as the law of the first state. -/
theorem C109_optimal (y0 : Obs e) (ys : List (Obs e)) (t0 : ℝ) (ts : List ℝ) (hlen : ts.length = ys.length) (g : (Fin d → ℝ) → ℝ) (hg : Measurable g) (B : ℝ) (hB : ∀ x, |g x| ≤ B) (ε : ℝ)
    (hε : 0 < ε) :
    ∃ C : ℝ, ∀ (n : ℕ) [NeZero n] (cat : (Fin n → Fl) → ℝ → Fin n), (IsCategoricalReal fun (w : Fin n → ℝ) u => cat (fun i => .fin (w i)) u) → ∀ (thr : ℝ) (key : Keys.Key),
      ∃ out : Tape → Particles (Fin d → ℝ) n e, (∀ ω, run (tapeEnv cat ω) (reKey (normalsAt q ω) (optimalFilter chol m)) thr (y0 :: ys) (t0 :: ts) key = some (out ω)) ∧
        let Φ := filteringLaw (fun x t t' => gauss (m.transFun x t t') m.transCov) (fun x y _ => -Real.log (gaussDensity (m.likMat *ᵥ x) m.likCov y))
          ((stdNormal d).map (initialSample chol m y0)) t0 (ys.zip ts)
        ideal {ω | ε ≤ |filterMean g (out ω) - (∫ x, g x ∂Φ) / Φ.real Set.univ|} ≤ ENNReal.ofReal (C / n) ∧
        ideal {ω | ε ≤ |likelihoodEstimate thr (out ω) - Φ.real Set.univ|} ≤ ENNReal.ofReal (C / n) := by
  have hL := optimal_law hchol hm htr hq
  have hterm := optimal_terminal hm htr (ys.zip ts) ((stdNormal d).map (initialSample chol m y0)) t0 (fun t y t' => measurable_kernel hL t y t')
  set W := max 1 (Real.exp (-Gaussian.negLogZ e (some (weightPrec chol m).det))) with hW
  have hB0 : 0 ≤ |B| := abs_nonneg B
  refine ⟨max (spreadConst ys.length W |B| ((filteringLaw (fun x t t' => gauss (m.transFun x t t') m.transCov) (fun x y _ => -Real.log (gaussDensity (m.likMat *ᵥ x) m.likCov y))
      ((stdNormal d).map (initialSample chol m y0)) t0 (ys.zip ts)).real Set.univ) ε) ((ys.length + 1) * (W ^ (ys.length + 1)) ^ 2 / ε ^ 2), fun n _ cat hcat thr key => ?_⟩
  obtain ⟨out, h1, h2, h3⟩ := filter_consistent (n := n) hL hcat thr y0 ys t0 ts hlen key (W := W) (fun x => by rw [Real.exp_zero]; exact le_max_left _ _)
    (fun o ho t x x' => (Real.exp_le_exp.mpr (neg_le_neg (neg_potential_le _ _ _ _))).trans (le_max_right _ _)) (zero_le_one.trans (le_max_left _ _)) hg hB0 (fun x => (hB x).trans (le_abs_self B)) hε
  rw [hterm] at h2 h3
  exact ⟨out, h1, h2.trans (ENNReal.ofReal_le_ofReal (div_le_div_of_nonneg_right (le_max_left _ _) (by positivity))),
    h3.trans (ENNReal.ofReal_le_ofReal (div_le_div_of_nonneg_right (le_max_right _ _) (by positivity)))⟩

/-- An optimal filter for a nonlinear model in dimension 2 with correlated observation noise, estimating the probability of a half-plane. -/
example (y0 y1 y2 : Obs 2) : ∃ (chol : Chol) (q : ℝ → ℝ), ∀ ε > 0, ∃ C : ℝ, ∀ (n : ℕ) [NeZero n], ∃ cat : (Fin n → Fl) → ℝ → Fin n, ∃ out : Tape → Particles (Fin 2 → ℝ) n 2,
    (∀ ω, run (tapeEnv cat ω) (reKey (normalsAt q ω) (optimalFilter chol ⟨0, 1, fun x t t' i => Real.sin (x i) + (t' - t), 1, 1, covEx⟩)) (1 / 2) [y0, y1, y2] [0, 1, 3] [] = some (out ω)) ∧
      let Φ := filteringLaw (fun x t t' => gauss (fun i => Real.sin (x i) + (t' - t)) 1) (fun x y _ => -Real.log (gaussDensity ((1 : Matrix (Fin 2) (Fin 2) ℝ) *ᵥ x) covEx y))
        ((stdNormal 2).map (initialSample chol ⟨0, 1, fun x t t' i => Real.sin (x i) + (t' - t), 1, 1, covEx⟩ y0)) 0 [(y1, 1), (y2, 3)]
      ideal {ω | ε ≤ |filterMean (Set.indicator {x | x 0 < x 1} 1) (out ω) - (∫ x, Set.indicator {x | x 0 < x 1} 1 x ∂Φ) / Φ.real Set.univ|} ≤ ENNReal.ofReal (C / n) := by
  obtain ⟨chol, hchol⟩ := exists_isCholeskyAll
  obtain ⟨q, hq⟩ := exists_isNormalDraw
  refine ⟨chol, q, fun ε hε => ?_⟩
  have hS : MeasurableSet {x : Fin 2 → ℝ | x 0 < x 1} := measurableSet_lt (measurable_pi_apply 0) (measurable_pi_apply 1)
  obtain ⟨C, hC⟩ := C109_optimal hchol (m := ⟨0, 1, fun x t t' i => Real.sin (x i) + (t' - t), 1, 1, covEx⟩) ⟨PosDef.one, PosDef.one, covEx_posDef⟩ (fun t t' => by fun_prop) hq
    y0 [y1, y2] 0 [1, 3] rfl (Set.indicator {x | x 0 < x 1} 1) (measurable_one.indicator hS) 1 (fun x => by
      by_cases hx : x ∈ {x : Fin 2 → ℝ | x 0 < x 1}
      · rw [Set.indicator_of_mem hx]; simp
      · rw [Set.indicator_of_notMem hx]; simp) ε hε
  refine ⟨C, fun n _ => ⟨fun lw u => invCdfReal (fun i => match lw i with | .fin x => x | _ => 0) u, ?_⟩⟩
  obtain ⟨out, h1, h2, -⟩ := hC n (fun lw u => invCdfReal (fun i => match lw i with | .fin x => x | _ => 0) u) isCategoricalReal_invCdfReal (1 / 2) []
  exact ⟨out, h1, h2⟩

end

end Mocat.Props
