import Verif.Props.FilterConsistency
import Verif.Props.FfbsLawGauss
/-!
# C132: forward filtering backward simulation converges to the smoothing distribution

The draws come from an ideal generator (`Verif.Spec.Tape`).
-/
namespace Mocat.Props
open Mocat Mocat.Filtering Mocat.Backward Mocat.Metrics Mocat.Ideal Mocat.Meas MeasureTheory
open Mocat.Smc (Red Q redStep redValue redWeight StepLaw stepSites critLt lse logEss lseMean Spread Apart share)
open scoped ENNReal

variable {X : Type} {n m dy : ℕ}

/-! ## Mean squared errors -/

/-- The mean squared distance of a non-negative variable from `t`, from its first two moments. -/
theorem mse_of_moments {Ω : Type*} [MeasurableSpace Ω] (μ : Measure Ω) [IsProbabilityMeasure μ] {Y : Ω → ℝ≥0∞} (hY : Measurable Y) {c v : ℝ≥0∞} (hc : c ≠ ∞) (hv : v ≠ ∞)
    (h1 : ∫⁻ ω, Y ω ∂μ = c) (h2 : ∫⁻ ω, Y ω ^ 2 ∂μ ≤ c ^ 2 + v) (t : ℝ) :
    ∫⁻ ω, ENNReal.ofReal (((Y ω).toReal - t) ^ 2) ∂μ ≤ v + ENNReal.ofReal ((c.toReal - t) ^ 2) := by
  have hfin : ∀ᵐ ω ∂μ, Y ω < ∞ := ae_lt_top hY (by rw [h1]; exact hc)
  have hmean : ∫ ω, (Y ω).toReal ∂μ = c.toReal := by rw [integral_toReal hY.aemeasurable hfin, h1]
  have hsq : ∫⁻ ω, Y ω ^ 2 ∂μ ≠ ∞ := ne_top_of_le_ne_top (by simp [hc, hv]) h2
  have hint2 : Integrable (fun ω => (Y ω).toReal ^ 2) μ := by
    have : (fun ω => (Y ω).toReal ^ 2) = fun ω => (Y ω ^ 2).toReal := funext fun ω => by simp
    rw [this]
    exact integrable_toReal_of_lintegral_ne_top (hY.pow_const 2).aemeasurable hsq
  have hint1 : Integrable (fun ω => (Y ω).toReal) μ := integrable_toReal_of_lintegral_ne_top hY.aemeasurable (by rw [h1]; exact hc)
  have e2 : ∫ ω, (Y ω).toReal ^ 2 ∂μ ≤ c.toReal ^ 2 + v.toReal := by
    have : (fun ω => (Y ω).toReal ^ 2) = fun ω => (Y ω ^ 2).toReal := funext fun ω => by simp
    rw [this, integral_toReal (hY.pow_const 2).aemeasurable (by filter_upwards [hfin] with ω h using ENNReal.pow_lt_top h)]
    have := (ENNReal.toReal_le_toReal hsq (by simp [hc, hv])).2 h2
    rwa [ENNReal.toReal_add (by simp [hc]) hv, ENNReal.toReal_pow] at this
  have hexp : ∀ ω, ((Y ω).toReal - t) ^ 2 = (Y ω).toReal ^ 2 - 2 * t * (Y ω).toReal + t ^ 2 := fun ω => by ring
  have hint : Integrable (fun ω => ((Y ω).toReal - t) ^ 2) μ := by
    simp only [hexp]
    exact (hint2.sub (hint1.const_mul (2 * t))).add (integrable_const _)
  rw [← ofReal_integral_eq_lintegral_ofReal hint (Filter.Eventually.of_forall fun ω => sq_nonneg _)]
  have e : ∫ ω, ((Y ω).toReal - t) ^ 2 ∂μ = ∫ ω, (Y ω).toReal ^ 2 ∂μ - 2 * t * c.toReal + t ^ 2 := by
    simp only [hexp]
    have h3 : Integrable (fun ω => (Y ω).toReal ^ 2 - 2 * t * (Y ω).toReal) μ := hint2.sub (hint1.const_mul (2 * t))
    rw [integral_add h3 (integrable_const _), integral_sub hint2 (hint1.const_mul (2 * t)), integral_const_mul, hmean]
    simp
  rw [e, ← ENNReal.ofReal_toReal hv, ← ENNReal.ofReal_add ENNReal.toReal_nonneg (sq_nonneg _)]
  refine ENNReal.ofReal_le_ofReal ?_
  nlinarith [e2]

/-- The mean squared error of a ratio of estimates, when the ratio cannot leave `[0, B]`. -/
theorem mse_ratio {Ω : Type*} [MeasurableSpace Ω] (μ : Measure Ω) [IsProbabilityMeasure μ] {Y Z : Ω → ℝ≥0∞} (hY : Measurable Y) (hZ : Measurable Z) {a z v w : ℝ≥0∞} (ha : a ≠ ∞) (hz : z ≠ ∞) (hz0 : z ≠ 0)
    (hv : v ≠ ∞) (hw : w ≠ ∞) (hY1 : ∫⁻ ω, Y ω ∂μ = a) (hY2 : ∫⁻ ω, Y ω ^ 2 ∂μ ≤ a ^ 2 + v) (hZ1 : ∫⁻ ω, Z ω ∂μ = z) (hZ2 : ∫⁻ ω, Z ω ^ 2 ∂μ ≤ z ^ 2 + w)
    {B : ℝ} {r : Ω → ℝ} (hr0 : ∀ ω, 0 ≤ r ω) (hrB : ∀ ω, r ω ≤ B) (hr : ∀ ω, (Y ω).toReal = r ω * (Z ω).toReal) :
    ∫⁻ ω, ENNReal.ofReal ((r ω - a.toReal / z.toReal) ^ 2) ∂μ ≤ ENNReal.ofReal (2 / z.toReal ^ 2 * (B ^ 2 * w.toReal + v.toReal)) := by
  have hzr : 0 < z.toReal := ENNReal.toReal_pos hz0 hz
  have k1 := mse_of_moments μ hY ha hv hY1 hY2 a.toReal
  have k2 := mse_of_moments μ hZ hz hw hZ1 hZ2 z.toReal
  simp only [sub_self, ne_eq, OfNat.ofNat_ne_zero, not_false_eq_true, zero_pow, ENNReal.ofReal_zero, add_zero] at k1 k2
  have hpt : ∀ ω, ENNReal.ofReal ((r ω - a.toReal / z.toReal) ^ 2)
      ≤ ENNReal.ofReal (2 / z.toReal ^ 2 * B ^ 2) * ENNReal.ofReal (((Z ω).toReal - z.toReal) ^ 2) + ENNReal.ofReal (2 / z.toReal ^ 2) * ENNReal.ofReal (((Y ω).toReal - a.toReal) ^ 2) := fun ω => by
    rw [← ENNReal.ofReal_mul (by positivity), ← ENNReal.ofReal_mul (by positivity), ← ENNReal.ofReal_add (by positivity) (by positivity)]
    refine ENNReal.ofReal_le_ofReal ?_
    have e : r ω - a.toReal / z.toReal = (((Y ω).toReal - a.toReal) - r ω * ((Z ω).toReal - z.toReal)) / z.toReal := by
      rw [hr ω]; field_simp; ring
    rw [e, div_pow]
    set p := (Y ω).toReal - a.toReal
    set q := (Z ω).toReal - z.toReal
    have h1 : (p - r ω * q) ^ 2 ≤ 2 * (B ^ 2 * q ^ 2 + p ^ 2) := by
      have h2 : (r ω * q) ^ 2 ≤ B ^ 2 * q ^ 2 := by
        rw [mul_pow]
        exact mul_le_mul_of_nonneg_right (pow_le_pow_left₀ (hr0 ω) (hrB ω) 2) (sq_nonneg _)
      nlinarith [sq_nonneg (p + r ω * q)]
    calc (p - r ω * q) ^ 2 / z.toReal ^ 2 ≤ 2 * (B ^ 2 * q ^ 2 + p ^ 2) / z.toReal ^ 2 := div_le_div_of_nonneg_right h1 (by positivity)
      _ = 2 / z.toReal ^ 2 * B ^ 2 * q ^ 2 + 2 / z.toReal ^ 2 * p ^ 2 := by ring
  have mZ : Measurable fun ω => ENNReal.ofReal (((Z ω).toReal - z.toReal) ^ 2) := ENNReal.measurable_ofReal.comp ((hZ.ennreal_toReal.sub_const _).pow_const 2)
  have mY : Measurable fun ω => ENNReal.ofReal (((Y ω).toReal - a.toReal) ^ 2) := ENNReal.measurable_ofReal.comp ((hY.ennreal_toReal.sub_const _).pow_const 2)
  refine (lintegral_mono hpt).trans ?_
  rw [lintegral_add_left (mZ.const_mul _), lintegral_const_mul _ mZ, lintegral_const_mul _ mY]
  refine (add_le_add (mul_le_mul_right k2 _) (mul_le_mul_right k1 _)).trans (le_of_eq ?_)
  rw [mul_add, ENNReal.ofReal_add (by positivity) (by positivity), ← mul_assoc, ENNReal.ofReal_mul (q := w.toReal) (by positivity), ENNReal.ofReal_mul (q := v.toReal) (by positivity),
    ENNReal.ofReal_toReal hv, ENNReal.ofReal_toReal hw]

/-! ## The backward average over a growing filter -/

theorem backwardProb_sum [NeZero n] (lw pot : Fin n → ℝ) : ∑ j, ENNReal.ofReal (backwardProb (fun j => Real.exp (lw j)) pot j) = 1 := by
  have hZ : 0 < ∑ l, Real.exp (lw l) * Real.exp (-pot l) := Finset.sum_pos (fun l _ => by positivity) ⟨0, Finset.mem_univ _⟩
  rw [← ENNReal.ofReal_sum_of_nonneg fun j _ => by unfold backwardProb; positivity]
  unfold backwardProb
  rw [← Finset.sum_div, div_self hZ.ne', ENNReal.ofReal_one]

theorem back_le [NeZero n] (trans : X → ℝ → X → ℝ → ℝ) (τ : ℕ → ℝ) {φ : (ℕ → X) → ℝ≥0∞} {B : ℝ≥0∞} (hB : ∀ p, φ p ≤ B) (W : Hist n X) (k : ℕ) (p : ℕ → X) : back trans τ φ W k p ≤ B := by
  induction k generalizing p with
  | zero => exact hB p
  | succ k ih =>
    refine (Finset.sum_le_sum fun j _ => mul_le_mul_right (ih _) _).trans (le_of_eq ?_)
    rw [← Finset.sum_mul, backwardProb_sum, one_mul]

theorem back_one [NeZero n] (trans : X → ℝ → X → ℝ → ℝ) (τ : ℕ → ℝ) (W : Hist n X) (k : ℕ) (p : ℕ → X) : back trans τ (fun _ => 1) W k p = 1 := by
  induction k generalizing p with
  | zero => rfl
  | succ k ih =>
    simp only [back, ih, mul_one]
    exact backwardProb_sum _ _

section
variable [MeasurableSpace X] [NeZero n] {cat : (Fin n → Fl) → ℝ → Fin n} {f : Tape → Filter X Keys.Key dy} {G0 : X → Obs dy → ℝ → ℝ} {G : X → ℝ → X → Obs dy → ℝ → ℝ}
  {Γ0 : Obs dy → ℝ → Measure X} {Γ : X → ℝ → Obs dy → ℝ → Measure X} (hF : FilterLaw f G0 G Γ0 Γ)
include hF

omit [NeZero n] in
theorem futurePath_le {W : ℝ} (os : List (Obs dy × ℝ)) (hW : ∀ o ∈ os, ∀ t x x', Real.exp (G x t x' o.1 o.2) ≤ W) (hW0 : 0 ≤ W) {h : (ℕ → X) → ℝ≥0∞} (hh : Measurable h) {B : ℝ≥0∞} (hB : ∀ p, h p ≤ B)
    (k : ℕ) (t : ℝ) (p : ℕ → X) : futurePath Γ h k t os p ≤ ENNReal.ofReal (W ^ os.length) * B := by
  induction os generalizing k t p with
  | nil => simpa [futurePath] using hB p
  | cons o os ih =>
    have hu : Measurable fun x : X => Function.update p (k + 1) x := measurable_update p
    have hm : Measurable fun x' => futurePath Γ h (k + 1) o.2 os (Function.update p (k + 1) x') := (measurable_futurePath hF hh os (k + 1) o.2).comp hu
    have h1 := Smc.op_le (n := 1) (filterStep_law (n := 1) hF 0 t (o.1, o.2, [])) (fun x x' => hW o List.mem_cons_self t x x') hm
      (fun x => ih (fun o' ho' => hW o' (List.mem_cons_of_mem _ ho')) (k + 1) o.2 _) (p k)
    refine h1.trans (le_of_eq ?_)
    rw [← mul_assoc, ← ENNReal.ofReal_mul hW0, List.length_cons, pow_succ']

/-- One step of the filter: the second moment of the backward average. -/
theorem ffbs_step_sq (hcat : IsCategoricalReal fun (w : Fin n → ℝ) u => cat (fun i => .fin (w i)) u) {trans : X → ℝ → X → ℝ → ℝ}
    (htr : ∀ t t', Measurable fun z : X × X => trans z.1 t z.2 t') {ρ : ℝ → Obs dy → ℝ → Measure X}
    (hΓ : ∀ x t y t', Γ x t y t' = (ρ t y t').withDensity fun x' => ENNReal.ofReal (Real.exp (-trans x t x' t'))) (thr : ℝ)
    (τ : ℕ → ℝ) (p0 : ℕ → X) (o : Obs dy × ℝ × Keys.Key) (k : ℕ) (t : ℝ) (ht : τ k = t)
    (hτ1 : τ (k + 1) = o.2.1) {W : Tape → Hist n X} (hW : Measurable W) {S : Set Site} (hWS : DependsOn W S)
    (hd : Disjoint S (stepSites (n := n) (fun i => (o.2.2, (i : ℕ))) (fun i => below ((i : ℕ) :: o.2.2)))) {φ : (ℕ → X) → ℝ≥0∞} (hφ : Measurable φ) {B : ℝ≥0∞} (hB : ∀ p, φ p ≤ B)
    {A w : ℝ} (hw : ∀ x x', Real.exp (G x t x' o.1 o.2.1) ≤ w) (hsp : ∀ ω, Spread A (W ω k)) :
    ∫⁻ ω, Q (fun x => back trans τ φ (W ω) (k + 1) (Function.update p0 (k + 1) x)) (filterStep cat f G thr t o (W ω k) ω) ^ 2 ∂ideal
      ≤ ∫⁻ ω, Q (fun x => back trans τ (fun q => ∫⁻ x', φ (Function.update q (k + 1) x') ∂(Γ (q k) t o.1 o.2.1)) (W ω) k (Function.update p0 k x)) (W ω k) ^ 2 ∂ideal
        + (ENNReal.ofReal A * ENNReal.ofReal w * B) ^ 2 / n := by
  have hL := filterStep_law (n := n) hF thr t o
  have hm : Measurable (Function.uncurry fun (a : Hist n X) (ω : Tape) => Q (fun x => back trans τ φ a (k + 1) (Function.update p0 (k + 1) x)) (filterStep cat f G thr t o (a k) ω) ^ 2) :=
    (measurable_Qstep hF hcat htr thr τ p0 o k t hφ).pow_const 2
  have h0 := fresh hd (f := W) (g := fun a ω => Q (fun x => back trans τ φ a (k + 1) (Function.update p0 (k + 1) x)) (filterStep cat f G thr t o (a k) ω) ^ 2) hW hWS hm
    (fun a ω ω' hω => congrArg (fun R => Q (fun x => back trans τ φ a (k + 1) (Function.update p0 (k + 1) x)) R ^ 2) (Smc.redStep_dependsOn hL (a k) hω))
  refine (le_of_eq h0).trans ?_
  have h1 : ∀ ω, ∫⁻ ω', Q (fun x => back trans τ φ (W ω) (k + 1) (Function.update p0 (k + 1) x)) (filterStep cat f G thr t o (W ω k) ω') ^ 2 ∂ideal
      ≤ Q (fun x => back trans τ (fun q => ∫⁻ x', φ (Function.update q (k + 1) x') ∂(Γ (q k) t o.1 o.2.1)) (W ω) k (Function.update p0 k x)) (W ω k) ^ 2 + (ENNReal.ofReal A * ENNReal.ofReal w * B) ^ 2 / n := fun ω => by
    have h7 := Smc.lintegral_sq_redStep hcat hL (filterApart _) (f := fun x => back trans τ φ (W ω) (k + 1) (Function.update p0 (k + 1) x)) (measurable_back_at htr τ hφ _ _ _ _)
      (fun x => back_le trans τ hB (W ω) (k + 1) _) hw (W ω k) (hsp ω)
    have h8 := Q_back htr τ hφ (W ω) k p0 (ρ t o.1 o.2.1) (Γ := fun x => Γ x t o.1 o.2.1) fun x => by rw [hΓ, ht, hτ1]
    rw [h8] at h7
    exact h7
  refine (lintegral_mono h1).trans (le_of_eq ?_)
  rw [lintegral_add_right _ measurable_const, lintegral_const, measure_univ, mul_one]

/-- From a random history: the second moment of the backward average after the remaining observations. -/
theorem ffbs_second_moment (hcat : IsCategoricalReal fun (w : Fin n → ℝ) u => cat (fun i => .fin (w i)) u) {trans : X → ℝ → X → ℝ → ℝ}
    (htr : ∀ t t', Measurable fun z : X × X => trans z.1 t z.2 t') {ρ : ℝ → Obs dy → ℝ → Measure X}
    (hΓ : ∀ x t y t', Γ x t y t' = (ρ t y t').withDensity fun x' => ENNReal.ofReal (Real.exp (-trans x t x' t'))) (thr : ℝ) {h : (ℕ → X) → ℝ≥0∞} (hh : Measurable h) {B : ℝ≥0∞} (hB : ∀ p, h p ≤ B)
    {w : ℝ} (hw0 : 0 ≤ w) (τ : ℕ → ℝ) (p0 : ℕ → X) (os : List (Obs dy × ℝ × Keys.Key)) (hw : ∀ o ∈ os, ∀ t x x', Real.exp (G x t x' o.1 o.2.1) ≤ w)
    (hos : os.Pairwise fun a b => Disjoint (below a.2.2) (below b.2.2)) (k : ℕ) (t : ℝ) (ht : τ k = t)
    (hτ : ∀ j (hj : j < os.length), τ (k + 1 + j) = os[j].2.1) {W : Tape → Hist n X} (hW : Measurable W) {S : Set Site} (hWS : DependsOn W S)
    (hS : ∀ o ∈ os, Disjoint S (below o.2.2)) {A : ℝ} (hA : 0 ≤ A) (hsp : ∀ ω, Spread A (W ω k)) :
    ∫⁻ ω, Q (fun x => back trans τ h (histRun cat f G thr k t os (W ω) ω) (k + os.length) (Function.update p0 (k + os.length) x)) (histRun cat f G thr k t os (W ω) ω (k + os.length)) ^ 2 ∂ideal
      ≤ ∫⁻ ω, Q (fun x => back trans τ (futurePath Γ h k t (os.map fun o => (o.1, o.2.1))) (W ω) k (Function.update p0 k x)) (W ω k) ^ 2 ∂ideal
        + os.length * (ENNReal.ofReal (A * w ^ os.length) * B) ^ 2 / n := by
  induction os generalizing k t W S A with
  | nil => simp [histRun, futurePath]
  | cons o os ih =>
    rw [List.pairwise_cons] at hos
    have hL := filterStep_law (n := n) hF thr t o
    have hd := Set.disjoint_of_subset_right (filterSites (n := n) o.2.2) (hS o List.mem_cons_self)
    have hWk : Measurable fun ω => W ω k := (measurable_pi_apply k).comp hW
    have hst : Measurable fun ω => filterStep cat f G thr t o (W ω k) ω := Smc.measurable_next hcat hL hWk
    have hW' : Measurable fun ω => Function.update (W ω) (k + 1) (filterStep cat f G thr t o (W ω k) ω) :=
      (measurable_update' (a := k + 1)).comp (hW.prodMk hst)
    have hWS' : DependsOn (fun ω => Function.update (W ω) (k + 1) (filterStep cat f G thr t o (W ω k) ω)) (S ∪ below o.2.2) := fun ω ω' hω => by
      have e1 := hWS fun s hs => hω s (Or.inl hs)
      have e2 := Smc.redStep_dependsOn (cat := fun w => cat fun i => .fin (w i)) hL (W ω' k) fun s hs => hω s (Or.inr (filterSites _ hs))
      simp only
      rw [e1]
      congr 1
    have hτ1 : τ (k + 1) = o.2.1 := hτ 0 (by simp)
    have hwo : ∀ x x', Real.exp (G x t x' o.1 o.2.1) ≤ w := fun x x' => hw o List.mem_cons_self t x x'
    have h1 := ih (fun o' ho' => hw o' (List.mem_cons_of_mem _ ho')) hos.2 (k + 1) o.2.1 hτ1 (fun j hj => by
      have := hτ (j + 1) (by simpa using hj)
      rw [show k + 1 + (j + 1) = k + 1 + 1 + j by omega] at this
      simpa using this) hW' hWS' (fun o' ho' =>
      Set.disjoint_union_left.mpr ⟨hS o' (List.mem_cons_of_mem _ ho'), hos.1 o' ho'⟩) (mul_nonneg hA hw0) (fun ω => by
        rw [Function.update_self]
        exact Smc.spread_redStep hA (hsp ω) hwo ω)
    have hlen : k + 1 + os.length = k + (o :: os).length := by simp; omega
    rw [hlen] at h1
    set φ := futurePath Γ h (k + 1) o.2.1 (os.map fun o => (o.1, o.2.1)) with hφd
    have hφ : Measurable φ := measurable_futurePath hF hh _ _ _
    have hφB : ∀ p, φ p ≤ ENNReal.ofReal (w ^ os.length) * B := fun p => by
      have := futurePath_le hF (W := w) (os.map fun o => (o.1, o.2.1)) (fun o' ho' => by
        obtain ⟨o'', ho'', rfl⟩ := List.mem_map.mp ho'
        exact hw o'' (List.mem_cons_of_mem _ ho'')) hw0 hh hB (k + 1) o.2.1 p
      rwa [List.length_map] at this
    have e1 : ∀ ω, Q (fun x => back trans τ φ (Function.update (W ω) (k + 1) (filterStep cat f G thr t o (W ω k) ω)) (k + 1) (Function.update p0 (k + 1) x))
          (Function.update (W ω) (k + 1) (filterStep cat f G thr t o (W ω k) ω) (k + 1)) ^ 2
        = Q (fun x => back trans τ φ (W ω) (k + 1) (Function.update p0 (k + 1) x)) (filterStep cat f G thr t o (W ω k) ω) ^ 2 := fun ω => congrArg (· ^ 2) (Qback_update trans τ φ (W ω) k _ p0)
    rw [lintegral_congr e1] at h1
    have h2 := ffbs_step_sq hF hcat htr hΓ thr τ p0 o k t ht hτ1 hW hWS hd hφ hφB hwo hsp
    refine h1.trans ((add_le_add_left h2 _).trans (le_of_eq ?_))
    rw [add_assoc]
    congr 1
    rw [List.length_cons, ENNReal.div_eq_inv_mul, ENNReal.div_eq_inv_mul, ENNReal.div_eq_inv_mul, ← mul_add]
    congr 1
    have e1 : A * w * w ^ os.length = A * w ^ (os.length + 1) := by ring
    have e2 : ENNReal.ofReal A * ENNReal.ofReal w * (ENNReal.ofReal (w ^ os.length) * B) = ENNReal.ofReal (A * w ^ (os.length + 1)) * B := by
      rw [← mul_assoc, ← ENNReal.ofReal_mul hA, ← ENNReal.ofReal_mul (mul_nonneg hA hw0), e1]
    rw [e1, e2]
    push_cast
    ring

end

/-! ## The trajectories given the filter -/

/-- What one pick of trajectory `i` reads. -/
def pickSites (maxRej : ℤ) (key : Keys.Key) (i : Fin m) : Set Site := if 0 < maxRej then particleSites key i else {((i : ℕ) :: key, 0)}

/-- What trajectory `i` reads. -/
def trajSites (maxRej : ℤ) (key : Keys.Key) (L : ℕ) (i : Fin m) : Set Site := {s | s = (L :: key, (i : ℕ)) ∨ ∃ ind < L, s ∈ pickSites maxRej (ind :: key) i}

theorem pickSites_below (maxRej : ℤ) (key : Keys.Key) (i : Fin m) : pickSites maxRej key i ⊆ below key := by
  unfold pickSites
  split
  · exact particleSites_below key i
  · rintro s rfl
    exact ⟨[(i : ℕ)], rfl⟩

theorem pickSites_disjoint (maxRej : ℤ) (key : Keys.Key) {i j : Fin m} (h : i ≠ j) : Disjoint (pickSites maxRej key i) (pickSites maxRej key j) := by
  unfold pickSites
  split
  · exact particleSites_disjoint key h
  · simpa using fun e => h (Fin.ext e)

theorem trajSites_disjoint (maxRej : ℤ) (key : Keys.Key) (L : ℕ) {i j : Fin m} (h : i ≠ j) : Disjoint (trajSites maxRej key L i) (trajSites maxRej key L j) := by
  have hself : ∀ x : ℕ, ((L :: key, x) : Site) ∈ below (L :: key) := fun x => ⟨[], rfl⟩
  rw [Set.disjoint_left]
  rintro s (rfl | ⟨a, ha, h1⟩) (h2 | ⟨b, hb, h2⟩)
  · exact h (Fin.ext (congrArg Prod.snd h2))
  · exact Set.disjoint_left.mp (below_disjoint (k := key) (show L ≠ b by omega)) (hself _) (pickSites_below _ _ _ h2)
  · subst h2
    exact Set.disjoint_left.mp (below_disjoint (k := key) (show L ≠ a by omega)) (hself _) (pickSites_below _ _ _ h1)
  · by_cases hab : a = b
    · subst hab
      exact Set.disjoint_left.mp (pickSites_disjoint maxRej (a :: key) h) h1 h2
    · exact Set.disjoint_left.mp (below_disjoint (k := key) hab) (pickSites_below _ _ _ h1) (pickSites_below _ _ _ h2)

theorem trajSites_below (maxRej : ℤ) (key : Keys.Key) (L : ℕ) (i : Fin m) : trajSites maxRej key L i ⊆ below key := by
  rintro s (rfl | ⟨a, ha, h1⟩)
  · exact ⟨[L], rfl⟩
  · exact mem_below_cons (pickSites_below _ _ _ h1)

section
variable [NeZero m] {cat : (Fin n → Fl) → ℝ → Fin n} {trans : X → ℝ → X → ℝ → ℝ} (τ : ℕ → ℝ) {maxRej : ℤ} {bound : ℝ} (inflation : ℝ)
  (hb : 0 < maxRej → ∀ x t x' t', Real.exp (-trans x t x' t') ≤ bound) (key : Keys.Key)

include hb in
theorem pick_reads (i : Fin m) (ind : ℕ) (W : Hist n X) (x' : X) : DependsOn (pick cat trans τ maxRej bound inflation key i ind W x') (pickSites maxRej (ind :: key) i) := by
  intro ω ω' h
  unfold pick stepIdx
  dsimp only
  by_cases hR : 0 < maxRej
  · rw [if_pos hR, if_pos hR]
    exact rejection_dependsOn (cat := cat) (fun j => Fl.fin ((W ind).2.1 j)) (fun (_ : Fin m) j => trans ((W ind).1 j) (τ ind) x' (τ (ind + 1))) (pos_bound hb hR x')
      (fun i j => hb hR _ _ _ _) inflation maxRej (ind :: key) i fun s hs => h s (by unfold pickSites; rwa [if_pos hR])
  · rw [if_neg hR, if_neg hR]
    simp only [full, tapeRand]
    rw [h ((i : ℕ) :: ind :: key, 0) (by unfold pickSites; rw [if_neg hR]; rfl)]

include hb in
theorem pathFrom_reads (i : Fin m) (L : ℕ) (p0 : ℕ → X) (W : Hist n X) (k : ℕ) (hk : k ≤ L) :
    DependsOn (fun ω => pathFrom cat trans τ maxRej bound inflation key i L p0 W ω k) (trajSites maxRej key L i) := by
  induction k with
  | zero =>
    intro ω ω' h
    simp only [pathFrom]
    rw [h (L :: key, (i : ℕ)) (Or.inl rfl)]
  | succ k ih =>
    intro ω ω' h
    have e1 := ih (by omega) h
    simp only [pathFrom] at e1 ⊢
    rw [e1, pick_reads τ inflation hb key i (L - (k + 1)) W _ fun s hs => h s (Or.inr ⟨L - (k + 1), by omega, hs⟩)]

/-- The average of `φ` over the backward chain started from the weighted particles at the last time. -/
noncomputable def backwardMean (trans : X → ℝ → X → ℝ → ℝ) (τ : ℕ → ℝ) (φ : (ℕ → X) → ℝ≥0∞) (L : ℕ) (p0 : ℕ → X) (W : Hist n X) : ℝ≥0∞ :=
  ∑ j, ENNReal.ofReal (Real.exp ((W L).2.1 j) / ∑ l, Real.exp ((W L).2.1 l)) * back trans τ φ W L (Function.update p0 L ((W L).1 j))

theorem Q_backwardMean (trans : X → ℝ → X → ℝ → ℝ) (τ : ℕ → ℝ) (φ : (ℕ → X) → ℝ≥0∞) (L : ℕ) (p0 : ℕ → X) (W : Hist n X) :
    Q (fun x => back trans τ φ W L (Function.update p0 L x)) (W L) = ENNReal.ofReal (Real.exp (W L).2.2) * backwardMean trans τ φ L p0 W := by
  unfold Q backwardMean
  rw [Finset.mul_sum]
  refine Finset.sum_congr rfl fun j _ => ?_
  rw [← mul_assoc, ← ENNReal.ofReal_mul (Real.exp_pos _).le]

theorem backwardMean_le [NeZero n] (trans : X → ℝ → X → ℝ → ℝ) (τ : ℕ → ℝ) {φ : (ℕ → X) → ℝ≥0∞} {B : ℝ≥0∞} (hB : ∀ p, φ p ≤ B) (L : ℕ) (p0 : ℕ → X) (W : Hist n X) : backwardMean trans τ φ L p0 W ≤ B := by
  unfold backwardMean
  refine (Finset.sum_le_sum fun j _ => mul_le_mul_right (back_le trans τ hB W L _) _).trans (le_of_eq ?_)
  have hp := sumExp_pos (W L).2.1
  rw [← Finset.sum_mul, ← ENNReal.ofReal_sum_of_nonneg fun j _ => by positivity, ← Finset.sum_div, div_self hp.ne', ENNReal.ofReal_one, one_mul]

variable [MeasurableSpace X]

include hb in
/-- Given the filter: the mean squared distance from `t` of the average over the trajectories. -/
theorem mse_given [NeZero n] (hcat : IsCategorical cat) (hcatR : IsCategoricalReal fun (w : Fin n → ℝ) u => cat (fun i => .fin (w i)) u)
    (htr : ∀ t t', Measurable fun z : X × X => trans z.1 t z.2 t') {φ : (ℕ → X) → ℝ≥0∞} (hφ : Measurable φ) {B : ℝ} (hB0 : 0 ≤ B) (hB : ∀ p, φ p ≤ ENNReal.ofReal B) (L : ℕ) (p0 : ℕ → X) (W : Hist n X) (t : ℝ) :
    ∫⁻ ω, ENNReal.ofReal (((∑ i : Fin m, (φ (pathFrom cat trans τ maxRej bound inflation key i L p0 W ω L)).toReal) / m - t) ^ 2) ∂ideal
      ≤ ENNReal.ofReal (B ^ 2 / m) + ENNReal.ofReal (((backwardMean trans τ φ L p0 W).toReal - t) ^ 2) := by
  have hm0 : (m : ℝ≥0∞) ≠ 0 := by exact_mod_cast NeZero.ne m
  have hmr : (0 : ℝ) < m := by exact_mod_cast Nat.pos_of_ne_zero (NeZero.ne m)
  have hmt : (m : ℝ≥0∞) ≠ ∞ := ENNReal.natCast_ne_top m
  set H : Fin m → Tape → ℝ≥0∞ := fun i ω => φ (pathFrom cat trans τ maxRej bound inflation key i L p0 W ω L) with hH
  have hHm : ∀ i, Measurable (H i) := fun i => by
    have h1 : Measurable fun ω' : Tape => (W, ω') := measurable_prodMk_left
    exact hφ.comp ((measurable_pathFrom τ inflation hb key i hcatR htr L p0 L).comp h1)
  have hH1 : ∀ i, ∫⁻ ω, H i ω ∂ideal = backwardMean trans τ φ L p0 W := fun i => by
    have h2 := lintegral_pathFrom τ inflation hb key i hcat hcatR htr hφ L p0 W L le_rfl
    rw [Nat.sub_self] at h2
    exact h2
  have hHd : ∀ i, DependsOn (H i) (trajSites maxRej key L i) := fun i ω ω' h => congrArg φ (pathFrom_reads τ inflation hb key i L p0 W L le_rfl h)
  have hind : ∀ i j, i ≠ j → ∫⁻ ω, H i ω * H j ω ∂ideal = (∫⁻ ω, H i ω ∂ideal) * ∫⁻ ω, H j ω ∂ideal := fun i j hij => by
    have e := fresh (trajSites_disjoint maxRej key L hij) (f := H i) (g := fun a ω => a * H j ω) (hHm i) (hHd i) (measurable_fst.mul ((hHm j).comp measurable_snd))
      (fun a ω ω' hω => by
        have := hHd j hω
        simp only at this ⊢
        rw [this])
    rw [e, ← lintegral_mul_const _ (hHm i)]
    exact lintegral_congr fun ω => lintegral_const_mul _ (hHm j)
  have hsum : ∑ _i : Fin m, (m : ℝ≥0∞)⁻¹ = 1 := by
    rw [Finset.sum_const, Finset.card_univ, Fintype.card_fin, nsmul_eq_mul, ENNReal.mul_inv_cancel hm0 hmt]
  set Y : Tape → ℝ≥0∞ := fun ω => ∑ i, (m : ℝ≥0∞)⁻¹ * H i ω with hYd
  have hY : Measurable Y := Finset.measurable_sum _ fun i _ => (hHm i).const_mul _
  have hY1 : ∫⁻ ω, Y ω ∂ideal = backwardMean trans τ φ L p0 W := by
    simp only [hYd]
    rw [lintegral_finsetSum _ fun i _ => (hHm i).const_mul _]
    simp only [lintegral_const_mul _ (hHm _), hH1]
    rw [← Finset.sum_mul, hsum, one_mul]
  have hY2 : ∫⁻ ω, Y ω ^ 2 ∂ideal ≤ backwardMean trans τ φ L p0 W ^ 2 + ENNReal.ofReal (B ^ 2 / m) := by
    refine (Smc.lintegral_sq_sum ideal hHm hind fun _ => (m : ℝ≥0∞)⁻¹).trans ?_
    simp only [hH1]
    rw [← Finset.sum_mul, hsum, one_mul]
    refine add_le_add_right ?_ _
    have h3 : ∀ i, ∫⁻ ω, H i ω ^ 2 ∂ideal ≤ ENNReal.ofReal B ^ 2 := fun i => by
      refine (lintegral_mono fun ω => pow_le_pow_left' (hB _) 2).trans (le_of_eq ?_)
      rw [lintegral_const, measure_univ, mul_one]
    refine (Finset.sum_le_sum fun i _ => mul_le_mul_right (h3 i) _).trans (le_of_eq ?_)
    rw [Finset.sum_const, Finset.card_univ, Fintype.card_fin, nsmul_eq_mul, ENNReal.ofReal_div_of_pos hmr, ENNReal.ofReal_pow hB0, ENNReal.ofReal_natCast, sq (m : ℝ≥0∞)⁻¹, ← mul_assoc, ← mul_assoc,
      ENNReal.mul_inv_cancel hm0 hmt, one_mul, ENNReal.div_eq_inv_mul]
  have hfin : backwardMean trans τ φ L p0 W ≠ ∞ := ne_top_of_le_ne_top ENNReal.ofReal_ne_top (backwardMean_le trans τ hB L p0 W)
  have main := mse_of_moments ideal hY hfin ENNReal.ofReal_ne_top hY1 hY2 t
  refine le_trans (le_of_eq (lintegral_congr fun ω => ?_)) main
  congr 3
  simp only [hYd]
  rw [ENNReal.toReal_sum fun i _ => ENNReal.mul_ne_top (ENNReal.inv_ne_top.mpr hm0) (ne_top_of_le_ne_top ENNReal.ofReal_ne_top (hB _)), Finset.sum_div]
  refine Finset.sum_congr rfl fun i _ => ?_
  rw [ENNReal.toReal_mul, ENNReal.toReal_inv, ENNReal.toReal_natCast, div_eq_inv_mul]

end

/-! ## The whole algorithm -/

theorem abs_mean_le {Ω : Type*} [MeasurableSpace Ω] (μ : Measure Ω) [IsProbabilityMeasure μ] {r : Ω → ℝ} (hr : Measurable r) {B : ℝ} (hrB : ∀ ω, |r ω| ≤ B) (t : ℝ) {c : ℝ} (hc : 0 ≤ c)
    (h : ∫⁻ ω, ENNReal.ofReal ((r ω - t) ^ 2) ∂μ ≤ ENNReal.ofReal (c ^ 2)) : |∫ ω, r ω ∂μ - t| ≤ c := by
  have hint : Integrable r μ := Integrable.of_bound hr.aestronglyMeasurable B (Filter.Eventually.of_forall hrB)
  have hL2 : MemLp (fun ω => r ω - t) 2 μ := MemLp.of_bound (hr.sub_const t).aestronglyMeasurable (B + |t|) (Filter.Eventually.of_forall fun ω => by
    rw [Real.norm_eq_abs]
    exact (abs_sub _ _).trans (add_le_add_left (hrB ω) _))
  have h1 := ProbabilityTheory.variance_nonneg (fun ω => r ω - t) μ
  rw [ProbabilityTheory.variance_eq_sub hL2] at h1
  have h2 : ∫ ω, (r ω - t) ^ 2 ∂μ ≤ c ^ 2 := by
    rw [← ofReal_integral_eq_lintegral_ofReal hL2.integrable_sq (Filter.Eventually.of_forall fun ω => sq_nonneg _)] at h
    exact (ENNReal.ofReal_le_ofReal_iff (by positivity)).mp h
  have h3 : ∫ ω, (r ω - t) ∂μ = ∫ ω, r ω ∂μ - t := by
    rw [integral_sub hint (integrable_const _)]
    simp
  have h4 : (∫ ω, r ω ∂μ - t) ^ 2 ≤ c ^ 2 := by
    rw [← h3]
    have : ∫ ω, ((fun ω => r ω - t) ^ 2) ω ∂μ = ∫ ω, (r ω - t) ^ 2 ∂μ := rfl
    rw [this] at h1
    linarith
  exact abs_le_of_sq_le_sq h4 hc

section
variable [MeasurableSpace X] [NeZero n] [NeZero m] {cat : (Fin n → Fl) → ℝ → Fin n} {trans : X → ℝ → X → ℝ → ℝ} (τ : ℕ → ℝ) {maxRej : ℤ} {bound : ℝ} (inflation : ℝ)
  (hb : 0 < maxRej → ∀ x t x' t', Real.exp (-trans x t x' t') ≤ bound) (key : Keys.Key)

omit [NeZero n] in
theorem measurable_Qhist (htr : ∀ t t', Measurable fun z : X × X => trans z.1 t z.2 t') {ψ : (ℕ → X) → ℝ≥0∞} (hψ : Measurable ψ) (L : ℕ) (p0 : ℕ → X) {WL : Tape → Hist n X} (hWm : Measurable WL) :
    Measurable fun ω => Q (fun x => back trans τ ψ (WL ω) L (Function.update p0 L x)) (WL ω L) := by
  have h1 : Measurable fun ω => (WL ω, WL ω L) := hWm.prodMk ((measurable_pi_apply L).comp hWm)
  have h2 := (measurable_Qback (n := n) htr τ hψ L p0).comp h1
  simpa only [Function.comp_def] using h2

omit [NeZero n] in
theorem measurable_backwardMean (htr : ∀ t t', Measurable fun z : X × X => trans z.1 t z.2 t') {ψ : (ℕ → X) → ℝ≥0∞} (hψ : Measurable ψ) (L : ℕ) (p0 : ℕ → X) {WL : Tape → Hist n X} (hWm : Measurable WL) :
    Measurable fun ω => backwardMean trans τ ψ L p0 (WL ω) := by
  have e : (fun ω => backwardMean trans τ ψ L p0 (WL ω)) = fun ω => ENNReal.ofReal (Real.exp (-(WL ω L).2.2)) * Q (fun x => back trans τ ψ (WL ω) L (Function.update p0 L x)) (WL ω L) := funext fun ω => by
    rw [Q_backwardMean, ← mul_assoc, ← ENNReal.ofReal_mul (Real.exp_pos _).le, ← Real.exp_add, neg_add_cancel, Real.exp_zero, ENNReal.ofReal_one, one_mul]
  rw [e]
  have h2 : Measurable fun ω => (WL ω L).2.2 := measurable_snd.comp (measurable_snd.comp ((measurable_pi_apply L).comp hWm))
  exact (ENNReal.measurable_ofReal.comp (Real.measurable_exp.comp h2.neg)).mul (measurable_Qhist τ htr hψ L p0 hWm)

omit [MeasurableSpace X] in
theorem Q_back_one (L : ℕ) (p0 : ℕ → X) (W : Hist n X) : Q (fun x => back trans τ (fun _ => 1) W L (Function.update p0 L x)) (W L) = ENNReal.ofReal (Real.exp (W L).2.2) := by
  simp only [back_one]
  rw [← Smc.share_sum (W L), ENNReal.ofReal_sum_of_nonneg fun i _ => by unfold share; positivity, Smc.Q_eq_share]
  simp

include hb in
/-- From the first two moments of the backward averages of `φ` and of `1` to the trajectories. -/
theorem mse_core (hcat : IsCategorical cat) (hcatR : IsCategoricalReal fun (w : Fin n → ℝ) u => cat (fun i => .fin (w i)) u)
    (htr : ∀ t t', Measurable fun z : X × X => trans z.1 t z.2 t') {φ : (ℕ → X) → ℝ≥0∞} (hφ : Measurable φ) {B : ℝ} (hB0 : 0 ≤ B) (hφB : ∀ p, φ p ≤ ENNReal.ofReal B) (L : ℕ) (p0 : ℕ → X)
    {WL : Tape → Hist n X} (hWm : Measurable WL) {S : Set Site} (hWd : DependsOn WL S) (hdis : Disjoint S (below key)) {a z : ℝ≥0∞} {v : ℝ} (hv : 0 ≤ v) (ha : a ≠ ∞) (hzt : z ≠ ∞)
    (Y1 : ∫⁻ ω, Q (fun x => back trans τ φ (WL ω) L (Function.update p0 L x)) (WL ω L) ∂ideal = a)
    (Y2 : ∫⁻ ω, Q (fun x => back trans τ φ (WL ω) L (Function.update p0 L x)) (WL ω L) ^ 2 ∂ideal ≤ a ^ 2 + ENNReal.ofReal (B ^ 2 * v))
    (Z1 : ∫⁻ ω, Q (fun x => back trans τ (fun _ => 1) (WL ω) L (Function.update p0 L x)) (WL ω L) ∂ideal = z)
    (Z2 : ∫⁻ ω, Q (fun x => back trans τ (fun _ => 1) (WL ω) L (Function.update p0 L x)) (WL ω L) ^ 2 ∂ideal ≤ z ^ 2 + ENNReal.ofReal v) :
    0 < z.toReal ∧
    ∫⁻ ω, ENNReal.ofReal (((∑ i : Fin m, (φ (pathFrom cat trans τ maxRej bound inflation key i L p0 (WL ω) ω L)).toReal) / m - a.toReal / z.toReal) ^ 2) ∂ideal
      ≤ ENNReal.ofReal (B ^ 2 / m + 4 * B ^ 2 * v / z.toReal ^ 2) ∧
    ∀ i : Fin m, |∫ ω, (φ (pathFrom cat trans τ maxRej bound inflation key i L p0 (WL ω) ω L)).toReal ∂ideal - a.toReal / z.toReal| ≤ 2 * Real.sqrt v * (B / z.toReal) := by
  have hz0 : z ≠ 0 := by
    rw [← Z1, lintegral_congr fun ω => Q_back_one τ L p0 (WL ω)]
    have hm1 : Measurable fun ω => ENNReal.ofReal (Real.exp (WL ω L).2.2) :=
      ENNReal.measurable_ofReal.comp (Real.measurable_exp.comp (measurable_snd.comp (measurable_snd.comp ((measurable_pi_apply L).comp hWm))))
    rw [← bot_eq_zero, ← bot_lt_iff_ne_bot, bot_eq_zero, lintegral_pos_iff_support hm1]
    have e2 : (Function.support fun ω => ENNReal.ofReal (Real.exp (WL ω L).2.2)) = Set.univ := Set.eq_univ_of_forall fun ω => (ENNReal.ofReal_pos.mpr (Real.exp_pos _)).ne'
    rw [e2, measure_univ]
    exact one_pos
  have hzpos : 0 < z.toReal := ENNReal.toReal_pos hz0 hzt
  set s := a.toReal / z.toReal with hs
  set r : Tape → ℝ := fun ω => (backwardMean trans τ φ L p0 (WL ω)).toReal with hr
  have hbm : ∀ ω, backwardMean trans τ φ L p0 (WL ω) ≤ ENNReal.ofReal B := fun ω => backwardMean_le trans τ hφB L p0 (WL ω)
  have hrB : ∀ ω, r ω ≤ B := fun ω => ENNReal.toReal_le_of_le_ofReal hB0 (hbm ω)
  have hr0 : ∀ ω, 0 ≤ r ω := fun ω => ENNReal.toReal_nonneg
  have hfwd := mse_ratio ideal (measurable_Qhist τ htr hφ L p0 hWm) (measurable_Qhist τ htr measurable_const L p0 hWm) ha hzt hz0 ENNReal.ofReal_ne_top ENNReal.ofReal_ne_top Y1 Y2 Z1 Z2 hr0 hrB
    (fun ω => by rw [Q_back_one, Q_backwardMean, ENNReal.toReal_mul, mul_comm])
  rw [← hs, ENNReal.toReal_ofReal (by positivity), ENNReal.toReal_ofReal (by positivity)] at hfwd
  have hconst : 2 / z.toReal ^ 2 * (B ^ 2 * v + B ^ 2 * v) = 4 * B ^ 2 * v / z.toReal ^ 2 := by ring
  rw [hconst] at hfwd
  have hpm : ∀ i : Fin m, Measurable (Function.uncurry fun (W : Hist n X) (ω : Tape) => φ (pathFrom cat trans τ maxRej bound inflation key i L p0 W ω L)) := fun i =>
    hφ.comp (measurable_pathFrom τ inflation hb key i hcatR htr L p0 L)
  have hpd : ∀ (i : Fin m) W, DependsOn (fun ω => pathFrom cat trans τ maxRej bound inflation key i L p0 W ω L) (below key) := fun i W ω ω' hω =>
    pathFrom_reads τ inflation hb key i L p0 W L le_rfl fun s hs => hω s (trajSites_below _ _ _ _ hs)
  refine ⟨hzpos, ?_, fun i => ?_⟩
  · have hgm : Measurable (Function.uncurry fun (W : Hist n X) (ω : Tape) =>
        ENNReal.ofReal (((∑ i : Fin m, (φ (pathFrom cat trans τ maxRej bound inflation key i L p0 W ω L)).toReal) / m - s) ^ 2)) :=
      ENNReal.measurable_ofReal.comp ((((Finset.measurable_sum _ fun i _ => (hpm i).ennreal_toReal).div_const _).sub_const s).pow_const 2)
    have e2 := fresh hdis (f := WL)
      (g := fun W ω => ENNReal.ofReal (((∑ i : Fin m, (φ (pathFrom cat trans τ maxRej bound inflation key i L p0 W ω L)).toReal) / m - s) ^ 2)) hWm hWd hgm fun W ω ω' hω => by
        have : ∀ i : Fin m, pathFrom cat trans τ maxRej bound inflation key i L p0 W ω L = pathFrom cat trans τ maxRej bound inflation key i L p0 W ω' L := fun i => hpd i W hω
        simp only [this]
    rw [e2]
    refine (lintegral_mono fun ω => mse_given τ inflation hb key hcat hcatR htr hφ hB0 hφB L p0 (WL ω) s).trans ?_
    rw [lintegral_add_left measurable_const, lintegral_const, measure_univ, mul_one, ENNReal.ofReal_add (by positivity) (by positivity)]
    exact add_le_add_right hfwd _
  · have hm2 := measurable_backwardMean τ htr hφ L p0 hWm
    have hcond : ∫ ω, (φ (pathFrom cat trans τ maxRej bound inflation key i L p0 (WL ω) ω L)).toReal ∂ideal = ∫ ω, r ω ∂ideal := by
      have hfe : ∫⁻ ω, φ (pathFrom cat trans τ maxRej bound inflation key i L p0 (WL ω) ω L) ∂ideal = ∫⁻ ω, backwardMean trans τ φ L p0 (WL ω) ∂ideal := by
        have e2 := fresh hdis (f := WL)
          (g := fun W ω => φ (pathFrom cat trans τ maxRej bound inflation key i L p0 W ω L)) hWm hWd (hpm i) fun W ω ω' hω => congrArg φ (hpd i W hω)
        rw [e2]
        refine lintegral_congr fun ω => ?_
        have h2 := lintegral_pathFrom τ inflation hb key i hcat hcatR htr hφ L p0 (WL ω) L le_rfl
        rw [Nat.sub_self] at h2
        exact h2
      have hm1 : Measurable fun ω => φ (pathFrom cat trans τ maxRej bound inflation key i L p0 (WL ω) ω L) := by
        have h1 : Measurable fun ω => (WL ω, ω) := hWm.prodMk measurable_id
        exact (hpm i).comp h1
      rw [integral_toReal hm1.aemeasurable (Filter.Eventually.of_forall fun ω => (hφB _).trans_lt ENNReal.ofReal_lt_top),
        integral_toReal hm2.aemeasurable (Filter.Eventually.of_forall fun ω => (hbm ω).trans_lt ENNReal.ofReal_lt_top), hfe]
    rw [hcond]
    refine abs_mean_le ideal hm2.ennreal_toReal (fun ω => by rw [abs_of_nonneg (hr0 ω)]; exact hrB ω) s (by positivity) (hfwd.trans (le_of_eq ?_))
    congr 1
    rw [mul_pow, mul_pow, Real.sq_sqrt hv]
    ring

end

section
variable [MeasurableSpace X] [NeZero n] [NeZero m] {cat : (Fin n → Fl) → ℝ → Fin n} {f : Tape → Filter X Keys.Key dy} {G0 : X → Obs dy → ℝ → ℝ} {G : X → ℝ → X → Obs dy → ℝ → ℝ}
  {Γ0 : Obs dy → ℝ → Measure X} {Γ : X → ℝ → Obs dy → ℝ → Measure X} (hF : FilterLaw f G0 G Γ0 Γ)

include hF in
theorem Γ0_finite {y0 : Obs dy} {t0 w : ℝ} (hw : ∀ x, Real.exp (G0 x y0 t0) ≤ w) : Γ0 y0 t0 Set.univ ≠ ∞ := by
  have h1 := hF.law_initial y0 t0 [] (h := fun _ => 1) measurable_const
  rw [lintegral_const, one_mul] at h1
  rw [← h1]
  refine ne_top_of_le_ne_top (b := ENNReal.ofReal w) ENNReal.ofReal_ne_top ((lintegral_mono fun ω => ?_).trans (by rw [lintegral_const, measure_univ, mul_one] : ∫⁻ _, ENNReal.ofReal w ∂ideal = _).le)
  rw [mul_one]
  exact ENNReal.ofReal_le_ofReal (hw _)

include hF in
theorem pathIntegral_finite {y0 : Obs dy} {os : List (Obs dy × ℝ)} {t0 w : ℝ} (hw0 : 0 ≤ w) (hw : ∀ x, Real.exp (G0 x y0 t0) ≤ w) (hw' : ∀ o ∈ os, ∀ t x x', Real.exp (G x t x' o.1 o.2) ≤ w)
    {h : List X → ℝ≥0∞} {b : ℝ} (hh : PathMeasurable h) (hhb : ∀ l, h l ≤ ENNReal.ofReal b) : ∫⁻ x, pathIntegral Γ h t0 os [] x ∂(Γ0 y0 t0) ≠ ∞ := by
  have hφ : Measurable (onPath h os.length) := measurable_onPath hh os.length
  have hfe : ∀ x, pathIntegral Γ h t0 os [] x ≤ ENNReal.ofReal (w ^ os.length) * ENNReal.ofReal b := fun x => by
    have h1 := futurePath_le hF os hw' hw0 hφ (fun p => hhb _) 0 t0 (fun _ => x)
    rw [futurePath_eq Γ h os.length os 0 (by simp) t0] at h1
    simpa using h1
  refine ((lintegral_mono hfe).trans_lt ?_).ne
  rw [lintegral_const]
  exact ENNReal.mul_lt_top (ENNReal.mul_lt_top ENNReal.ofReal_lt_top ENNReal.ofReal_lt_top) (lt_top_iff_ne_top.mpr (Γ0_finite hF hw))

include hF in
/-- The first two moments, over the run of the filter, of the backward average of a bounded function of the path. -/
theorem ffbs_moments (hcatR : IsCategoricalReal fun (w : Fin n → ℝ) u => cat (fun i => .fin (w i)) u) {trans : X → ℝ → X → ℝ → ℝ}
    (htr : ∀ t t', Measurable fun z : X × X => trans z.1 t z.2 t') {ρ : ℝ → Obs dy → ℝ → Measure X}
    (hΓ : ∀ x t y t', Γ x t y t' = (ρ t y t').withDensity fun x' => ENNReal.ofReal (Real.exp (-trans x t x' t')))
    (thr : ℝ) (y0 : Obs dy) (t0 : ℝ) (key : Keys.Key) (os : List (Obs dy × ℝ × Keys.Key)) (hk2 : os.Pairwise fun o o' => Disjoint (below o.2.2) (below o'.2.2)) (hS : ∀ o ∈ os, Disjoint (below (1 :: 0 :: key)) (below o.2.2))
    (τ : ℕ → ℝ) (hτ0 : τ 0 = t0) (hτk : ∀ j (hj : j < os.length), τ (0 + 1 + j) = os[j].2.1) (p0 : ℕ → X)
    {w : ℝ} (hw0 : 0 ≤ w) (hw : ∀ x, Real.exp (G0 x y0 t0) ≤ w) (hw' : ∀ o ∈ os.map (fun o => (o.1, o.2.1)), ∀ t x x', Real.exp (G x t x' o.1 o.2) ≤ w)
    {h : List X → ℝ≥0∞} {b : ℝ} (hh : PathMeasurable h) (hb0 : 0 ≤ b) (hhb : ∀ l, h l ≤ ENNReal.ofReal b)
    {WL : Tape → Hist n X} (hWL : WL = fun ω => histRun cat f G thr 0 t0 os (fun _ => startRed f G0 y0 t0 (1 :: 0 :: key) ω) ω) :
    ∫⁻ ω, Q (fun x => back trans τ (onPath h os.length) (WL ω) os.length (Function.update p0 os.length x)) (WL ω os.length) ∂ideal = ∫⁻ x, pathIntegral Γ h t0 (os.map fun o => (o.1, o.2.1)) [] x ∂(Γ0 y0 t0) ∧
    ∫⁻ ω, Q (fun x => back trans τ (onPath h os.length) (WL ω) os.length (Function.update p0 os.length x)) (WL ω os.length) ^ 2 ∂ideal
      ≤ (∫⁻ x, pathIntegral Γ h t0 (os.map fun o => (o.1, o.2.1)) [] x ∂(Γ0 y0 t0)) ^ 2 + ENNReal.ofReal (b ^ 2 * ((os.length + 1) * (w ^ (os.length + 1)) ^ 2 / n)) := by
  subst hWL
  have hn : (0 : ℝ) < n := by exact_mod_cast Nat.pos_of_ne_zero (NeZero.ne n)
  have hW0m : Measurable fun ω => (fun _ => startRed f G0 y0 t0 (1 :: 0 :: key) ω : Hist n X) := measurable_pi_lambda _ fun _ => measurable_startRed hF y0 t0 (1 :: 0 :: key)
  have hW0d : DependsOn (fun ω => (fun _ => startRed f G0 y0 t0 (1 :: 0 :: key) ω : Hist n X)) (below (1 :: 0 :: key)) := fun ω ω' hω => funext fun _ => startRed_dependsOn hF y0 t0 (1 :: 0 :: key) hω
  have hwos : ∀ o ∈ os, ∀ t x x', Real.exp (G x t x' o.1 o.2.1) ≤ w := fun o ho => hw' (o.1, o.2.1) (List.mem_map.mpr ⟨o, ho, rfl⟩)
  have hspread : ∀ ω, Spread w (startRed (n := n) f G0 y0 t0 (1 :: 0 :: key) ω) := fun ω => Smc.spread_startAt (g := fun x => G0 x y0 t0) hw (fun i : Fin n => (f ω).initialSample y0 t0 ((i : ℕ) :: 1 :: 0 :: key))
  have hu : Measurable fun x : X => Function.update p0 0 x := measurable_update p0
  have hφ : Measurable (onPath h os.length) := measurable_onPath hh os.length
  have hfm : Measurable fun x => futurePath Γ (onPath h os.length) 0 t0 (os.map fun o => (o.1, o.2.1)) (Function.update p0 0 x) := (measurable_futurePath hF hφ _ 0 t0).comp hu
  have hfe : ∀ x, futurePath Γ (onPath h os.length) 0 t0 (os.map fun o => (o.1, o.2.1)) (Function.update p0 0 x) = pathIntegral Γ h t0 (os.map fun o => (o.1, o.2.1)) [] x := fun x => by
    rw [futurePath_eq Γ h os.length _ 0 (by simp) t0]
    simp
  have e4 := ffbs_forward hF hcatR htr hΓ thr hφ τ p0 os hk2 0 t0 hτ0 hτk hW0m hW0d hS
  rw [Nat.zero_add] at e4
  have e5 := ffbs_second_moment hF hcatR htr hΓ thr hφ (fun p => hhb _) hw0 τ p0 os hwos hk2 0 t0 hτ0 hτk hW0m hW0d hS hw0 hspread
  rw [Nat.zero_add] at e5
  have e6 := start_second_moment (n := n) hF y0 t0 (1 :: 0 :: key) hw hfm (fun x => futurePath_le hF (os.map fun o => (o.1, o.2.1)) hw' hw0 hφ (fun p => hhb _) 0 t0 _)
  refine ⟨e4.trans ((lintegral_startRed hF y0 t0 (1 :: 0 :: key) hfm).trans (lintegral_congr hfe)), e5.trans ((add_le_add_left e6 _).trans (le_of_eq ?_))⟩
  rw [lintegral_congr hfe, add_assoc]
  congr 1
  rw [List.length_map]
  rw [show b ^ 2 * ((os.length + 1) * (w ^ (os.length + 1)) ^ 2 / n) = (os.length + 1) * (w ^ (os.length + 1) * b) ^ 2 / n by ring]
  rw [← mul_assoc (ENNReal.ofReal w), ← ENNReal.ofReal_mul hw0, ← pow_succ', ← ENNReal.ofReal_mul (by positivity), ← ENNReal.ofReal_pow (by positivity), ENNReal.ofReal_div_of_pos hn,
    ENNReal.ofReal_natCast, ENNReal.ofReal_mul (by positivity), ENNReal.ofReal_add (by positivity) zero_le_one, ENNReal.ofReal_natCast, ENNReal.ofReal_one, ENNReal.div_eq_inv_mul, ENNReal.div_eq_inv_mul,
    ENNReal.div_eq_inv_mul, ← mul_add]
  congr 1
  ring

include hF in
/-- The trajectories returned by the smoother, in terms of the run of the filter. -/
theorem ffbsi_eq {trans : X → ℝ → X → ℝ → ℝ} (thr : ℝ) (y0 : Obs dy) (ys : List (Obs dy)) (t0 : ℝ) (ts : List ℝ) (hlen : ts.length = ys.length) (maxRej : ℤ) (bound inflation : ℝ)
    (hb : 0 < maxRej → ∀ x t x' t', Real.exp (-trans x t x' t') ≤ bound) (key : Keys.Key) (ω : Tape) {os : List (Obs dy × ℝ × Keys.Key)} (hos : os = withKeys (tapeEnv cat (fun _ => 0)) ys ts (0 :: 0 :: key))
    {WL : Hist n X} (hWL : WL = histRun cat f G thr 0 t0 os (fun _ => startRed f G0 y0 t0 (1 :: 0 :: key) ω) ω) (p0 : ℕ → X) :
    (ffbsi (m := m) (fun k => (0 :: k, 1 :: k)) (fun k s => s :: k) (tapeEnv cat ω) (f ω) (tapeRand cat ω) trans thr (y0 :: ys) (t0 :: ts) maxRej bound inflation key).map Prod.fst
      = some ((List.range (os.length + 1)).map fun s i => pathFrom cat trans (fun s => (t0 :: ts).getD s t0) maxRej bound inflation (1 :: key) i os.length p0 WL ω os.length s) := by
  obtain ⟨hk1, hk2, hk3⟩ := zip_keys ys ts hlen (0 :: 0 :: key) (tapeEnv cat (fun _ => 0)) (fun _ _ _ => rfl)
  rw [← hos] at hk1
  have hts : os.map (fun o => o.2.1) = ts := by
    have := congrArg (List.map Prod.snd) hk1
    rw [List.map_map, List.map_snd_zip (by omega)] at this
    exact this
  subst hWL
  obtain ⟨yy, hy⟩ := histRun_slices (cat := cat) hF thr os 0 t0 y0 (fun _ => startRed (n := n) f G0 y0 t0 (1 :: 0 :: key) ω) ω
  have hrun : run (tapeEnv cat ω) (f ω) thr (y0 :: ys) (t0 :: ts) (0 :: key) = some (ofSlices (sliceOf (startRed (n := n) f G0 y0 t0 (1 :: 0 :: key) ω) t0 y0)
      (scan (fun s o => (body (tapeEnv cat ω) (f ω) thr s o, body (tapeEnv cat ω) (f ω) thr s o)) (sliceOf (startRed (n := n) f G0 y0 t0 (1 :: 0 :: key) ω) t0 y0) os).2) := by
    rw [hos]
    exact run_slices hF thr y0 ys t0 ts (0 :: key) ω
  have hmarg := marginalsOf_hist (cat := cat) (f := f) (G := G) thr os t0 y0 (startRed (n := n) f G0 y0 t0 (1 :: 0 :: key) ω) ω yy ts hts
  have hl : (scan (fun s o => (body (tapeEnv cat ω) (f ω) thr s o, body (tapeEnv cat ω) (f ω) thr s o)) (sliceOf (startRed (n := n) f G0 y0 t0 (1 :: 0 :: key) ω) t0 y0) os).2.length = os.length :=
    (congrArg List.length hy).trans (by simp)
  rw [← hy] at hmarg
  generalize (scan (fun s o => (body (tapeEnv cat ω) (f ω) thr s o, body (tapeEnv cat ω) (f ω) thr s o)) (sliceOf (startRed (n := n) f G0 y0 t0 (1 :: 0 :: key) ω) t0 y0) os).2 = sl at hrun hmarg hl
  unfold ffbsi
  simp only [hrun, hmarg, Option.bind_eq_bind, Option.bind_some, Option.map_some]
  congr 1
  have hTl : (ofSlices (sliceOf (startRed (n := n) f G0 y0 t0 (1 :: 0 :: key) ω) t0 y0) sl).value.length = os.length + 1 := by simp [ofSlices, hl]
  rw [hTl, returned_pathBack _ _ _ _ (by omega)]
  refine List.map_congr_left fun s hs => funext fun i => ?_
  rw [List.mem_range] at hs
  exact (pathFrom_eq (fun s => (t0 :: ts).getD s t0) inflation hb (1 :: key) i os.length p0 _ ω os.length le_rfl s (by omega) (by omega)).symm

include hF in
/-- C132 for any filter whose proposals are properly weighted for the kernels `Γ` (with density `exp (-trans)`) and whose weights are at most `w`: the mean squared error of the average of `g` over the
returned trajectories, and the bias of one trajectory. -/
theorem C132_proper (hcat : IsCategorical cat) (hcatR : IsCategoricalReal fun (w : Fin n → ℝ) u => cat (fun i => .fin (w i)) u) {trans : X → ℝ → X → ℝ → ℝ}
    (htr : ∀ t t', Measurable fun z : X × X => trans z.1 t z.2 t') {ρ : ℝ → Obs dy → ℝ → Measure X}
    (hΓ : ∀ x t y t', Γ x t y t' = (ρ t y t').withDensity fun x' => ENNReal.ofReal (Real.exp (-trans x t x' t')))
    (thr : ℝ) (y0 : Obs dy) (ys : List (Obs dy)) (t0 : ℝ) (ts : List ℝ) (hlen : ts.length = ys.length) (maxRej : ℤ) (bound inflation : ℝ)
    (hb : 0 < maxRej → ∀ x t x' t', Real.exp (-trans x t x' t') ≤ bound) (key : Keys.Key)
    {w : ℝ} (hw0 : 0 ≤ w) (hw : ∀ x, Real.exp (G0 x y0 t0) ≤ w) (hw' : ∀ o ∈ ys.zip ts, ∀ t x x', Real.exp (G x t x' o.1 o.2) ≤ w) :
    ∃ paths : Tape → List (Fin m → X),
      (∀ ω, (ffbsi (fun k => (0 :: k, 1 :: k)) (fun k s => s :: k) (tapeEnv cat ω) (f ω) (tapeRand cat ω) trans thr (y0 :: ys) (t0 :: ts) maxRej bound inflation key).map Prod.fst = some (paths ω)) ∧
      (∀ ω, (paths ω).length = ys.length + 1) ∧
      ∀ (g : List X → ℝ) (B : ℝ), PathMeasurable (fun l => ENNReal.ofReal (g l)) → (∀ l, 0 ≤ g l) → (∀ l, g l ≤ B) →
        ∀ z, z = (∫⁻ x, pathIntegral Γ (fun _ => 1) t0 (ys.zip ts) [] x ∂(Γ0 y0 t0)).toReal → ∀ s, s = (∫⁻ x, pathIntegral Γ (fun l => ENNReal.ofReal (g l)) t0 (ys.zip ts) [] x ∂(Γ0 y0 t0)).toReal / z →
        0 < z ∧ ∫⁻ ω, ENNReal.ofReal (((∑ i, g ((paths ω).map fun x => x i)) / m - s) ^ 2) ∂ideal
            ≤ ENNReal.ofReal (B ^ 2 / m + 4 * (ys.length + 1) * (w ^ (ys.length + 1) * B / z) ^ 2 / n) ∧
          ∀ i, |∫ ω, g ((paths ω).map fun x => x i) ∂ideal - s| ≤ 2 * Real.sqrt ((ys.length + 1) / n) * (w ^ (ys.length + 1) * B / z) := by
  obtain ⟨hk1, hk2, hk3⟩ := zip_keys ys ts hlen (0 :: 0 :: key) (tapeEnv cat (fun _ => 0)) (fun _ _ _ => rfl)
  obtain ⟨os, hos⟩ : ∃ os, os = withKeys (tapeEnv cat (fun _ => 0)) ys ts (0 :: 0 :: key) := ⟨_, rfl⟩
  rw [← hos] at hk1 hk2 hk3
  have hLy : os.length = ys.length := by
    have := congrArg List.length hk1
    simpa [hlen] using this
  have hts : os.map (fun o => o.2.1) = ts := by
    have := congrArg (List.map Prod.snd) hk1
    rw [List.map_map, List.map_snd_zip (by omega)] at this
    exact this
  obtain ⟨τ, hτ⟩ : ∃ τ : ℕ → ℝ, τ = fun s => (t0 :: ts).getD s t0 := ⟨_, rfl⟩
  obtain ⟨WL, hWL⟩ : ∃ WL : Tape → Hist n X, WL = fun ω => histRun cat f G thr 0 t0 os (fun _ => startRed f G0 y0 t0 (1 :: 0 :: key) ω) ω := ⟨_, rfl⟩
  obtain ⟨p0, -⟩ : ∃ p0 : ℕ → X, p0 = fun _ => (f fun _ => 0).initialSample y0 t0 [] := ⟨_, rfl⟩
  have hpaths : ∀ ω, (ffbsi (m := m) (fun k => (0 :: k, 1 :: k)) (fun k s => s :: k) (tapeEnv cat ω) (f ω) (tapeRand cat ω) trans thr (y0 :: ys) (t0 :: ts) maxRej bound inflation key).map Prod.fst
      = some ((List.range (os.length + 1)).map fun s i => pathFrom cat trans τ maxRej bound inflation (1 :: key) i os.length p0 (WL ω) ω os.length s) := fun ω => by
    rw [hτ]
    exact ffbsi_eq hF thr y0 ys t0 ts hlen maxRej bound inflation hb key ω hos (congrFun hWL ω) p0
  have hWm : Measurable WL := by
    rw [hWL]
    exact measurable_histRun hF hcatR thr os 0 t0 (measurable_pi_lambda _ fun _ => measurable_startRed hF y0 t0 (1 :: 0 :: key))
  have hWd : DependsOn WL (below (0 :: key)) := by
    rw [hWL]
    refine histRun_dependsOn hF thr os 0 t0 (fun ω ω' hω => funext fun _ => startRed_dependsOn hF y0 t0 (1 :: 0 :: key) fun s hs => hω s (mem_below_cons hs)) fun o ho s hs => ?_
    obtain ⟨i, hi⟩ := hk3 o ho
    rw [hi] at hs
    exact mem_below_cons (mem_below_cons hs)
  have hτk : ∀ j (hj : j < os.length), τ (0 + 1 + j) = os[j].2.1 := fun j hj => by
    have hj' : j < ts.length := by rw [← hts]; simpa using hj
    rw [show 0 + 1 + j = j + 1 by omega]
    simp only [hτ, List.getD_cons_succ]
    rw [List.getD_eq_getElem _ _ hj']
    simp only [← hts, List.getElem_map]
  have hS : ∀ o ∈ os, Disjoint (below (1 :: 0 :: key)) (below o.2.2) := fun o ho => by
    obtain ⟨i, hi⟩ := hk3 o ho
    rw [hi]
    exact Set.disjoint_of_subset_right (fun s hs => mem_below_cons hs) (below_disjoint (by omega))
  rw [← hk1] at hw' ⊢
  refine ⟨_, hpaths, fun ω => by simp [hLy], fun g B hg hg0 hgB z hz s hs => ?_⟩
  have hB0 : 0 ≤ B := (hg0 []).trans (hgB [])
  have h1m : PathMeasurable fun _ : List X => (1 : ℝ≥0∞) := fun k => measurable_const
  have hgB' : ∀ l, ENNReal.ofReal (g l) ≤ ENNReal.ofReal B := fun l => ENNReal.ofReal_le_ofReal (hgB l)
  have h11 : ∀ _ : List X, (1 : ℝ≥0∞) ≤ ENNReal.ofReal 1 := fun _ => by rw [ENNReal.ofReal_one]
  obtain ⟨Z1, Z2⟩ := ffbs_moments hF hcatR htr hΓ thr y0 t0 key os hk2 hS τ (by simp [hτ]) hτk p0 hw0 hw hw' h1m zero_le_one h11 hWL
  obtain ⟨Y1, Y2⟩ := ffbs_moments hF hcatR htr hΓ thr y0 t0 key os hk2 hS τ (by simp [hτ]) hτk p0 hw0 hw hw' hg hB0 hgB' hWL
  have ha := pathIntegral_finite hF hw0 hw hw' hg hgB'
  have hzt := pathIntegral_finite hF hw0 hw hw' h1m h11
  rw [one_pow, one_mul] at Z2
  have hge : ∀ i ω, g (((List.range (os.length + 1)).map fun s i => pathFrom cat trans τ maxRej bound inflation (1 :: key) i os.length p0 (WL ω) ω os.length s).map fun x : Fin m → X => x i)
      = (onPath (fun l => ENNReal.ofReal (g l)) os.length (pathFrom cat trans τ maxRej bound inflation (1 :: key) i os.length p0 (WL ω) ω os.length)).toReal := fun i ω => by
    rw [onPath, ENNReal.toReal_ofReal (hg0 _), List.map_map]
    rfl
  obtain ⟨hz0, hmse, hbias⟩ := mse_core (m := m) τ inflation hb (1 :: key) hcat hcatR htr (measurable_onPath hg os.length) hB0 (fun p => hgB' _) os.length p0 hWm hWd (below_disjoint (k := key) (show (0 : ℕ) ≠ 1 by omega)) (by positivity) ha hzt Y1 Y2 Z1 Z2
  rw [← hz] at hz0 hmse
  rw [← hs] at hmse
  simp only [hge]
  refine ⟨hz0, hmse.trans (ENNReal.ofReal_le_ofReal (le_of_eq ?_)), fun i => ?_⟩
  · rw [← hLy]
    field_simp
  · have h3 := hbias i
    rw [← hz, ← hs] at h3
    refine h3.trans (le_of_eq ?_)
    rw [mul_div_right_comm, Real.sqrt_mul (by positivity), Real.sqrt_sq (by positivity), ← hLy]
    ring

end

/-! ## The bootstrap filter -/

/-- C132 for the bootstrap filter: with `m` trajectories and `n` particles, the average of `g` over the trajectories has a mean squared distance of order `1/m + 1/n` from the smoothing expectation of `g` (the
expectation under the model of `g` of the hidden path, weighted by the likelihoods of all observations), and one trajectory has bias of order `1/√n`. `hw`: the likelihoods of the observations are at most `w`. -/
theorem C132_bootstrap [MeasurableSpace X] [NeZero n] [NeZero m] {cat : (Fin n → Fl) → ℝ → Fin n} {mo : Tape → Ssm.Model X (Obs dy) Keys.Key} {μ0 : ℝ → Measure X} {M : X → ℝ → ℝ → Measure X} {lik : X → Obs dy → ℝ → ℝ}
    (hm : ModelLaw mo μ0 M lik) (hcat : IsCategorical cat) (hcatR : IsCategoricalReal fun (w : Fin n → ℝ) u => cat (fun i => .fin (w i)) u) {trans : X → ℝ → X → ℝ → ℝ}
    (htp : ∀ ω, (mo ω).transitionPotential = trans) (htr : ∀ t t', Measurable fun z : X × X => trans z.1 t z.2 t') {ρ : ℝ → ℝ → Measure X}
    (hM : ∀ x t t', M x t t' = (ρ t t').withDensity fun x' => ENNReal.ofReal (Real.exp (-trans x t x' t')))
    (thr : ℝ) (y0 : Obs dy) (ys : List (Obs dy)) (t0 : ℝ) (ts : List ℝ) (hlen : ts.length = ys.length) (maxRej : ℤ) (bound inflation : ℝ)
    (hb : 0 < maxRej → ∀ x t x' t', Real.exp (-trans x t x' t') ≤ bound) (key : Keys.Key) {w : ℝ} (hw : ∀ o ∈ (y0, t0) :: ys.zip ts, ∀ x, Real.exp (-lik x o.1 o.2) ≤ w) :
    ∃ paths : Tape → List (Fin m → X),
      (∀ ω, (ffbsi (fun k => (0 :: k, 1 :: k)) (fun k s => s :: k) (tapeEnv cat ω) (bootstrap (mo ω)) (tapeRand cat ω) (mo ω).transitionPotential thr (y0 :: ys) (t0 :: ts) maxRej bound inflation key).map Prod.fst
        = some (paths ω)) ∧
      (∀ ω, (paths ω).length = ys.length + 1) ∧
      ∀ (g : List X → ℝ) (B : ℝ), PathMeasurable (fun l => ENNReal.ofReal (g l)) → (∀ l, 0 ≤ g l) → (∀ l, g l ≤ B) →
        ∀ z, z = (∫⁻ x, ENNReal.ofReal (Real.exp (-lik x y0 t0)) * smoothingExpectation M lik (fun _ => 1) t0 (ys.zip ts) [] x ∂(μ0 t0)).toReal →
        ∀ s, s = (∫⁻ x, ENNReal.ofReal (Real.exp (-lik x y0 t0)) * smoothingExpectation M lik (fun l => ENNReal.ofReal (g l)) t0 (ys.zip ts) [] x ∂(μ0 t0)).toReal / z →
        0 < z ∧ ∫⁻ ω, ENNReal.ofReal (((∑ i, g ((paths ω).map fun x => x i)) / m - s) ^ 2) ∂ideal
            ≤ ENNReal.ofReal (B ^ 2 / m + 4 * (ys.length + 1) * (w ^ (ys.length + 1) * B / z) ^ 2 / n) ∧
          ∀ i, |∫ ω, g ((paths ω).map fun x => x i) ∂ideal - s| ≤ 2 * Real.sqrt ((ys.length + 1) / n) * (w ^ (ys.length + 1) * B / z) := by
  have hΓ : ∀ x t y t', (M x t t').withDensity (fun x' => ENNReal.ofReal (Real.exp (-lik x' y t')))
      = ((ρ t t').withDensity fun x' => ENNReal.ofReal (Real.exp (-lik x' y t'))).withDensity fun x' => ENNReal.ofReal (Real.exp (-trans x t x' t')) := fun x t y t' => by
    have h1 := measurable_likDensity hm y t'
    have h2 : Measurable fun x' => ENNReal.ofReal (Real.exp (-trans x t x' t')) := by
      have h3 : Measurable fun x' : X => trans x t x' t' := (htr t t').comp measurable_prodMk_left
      exact ENNReal.measurable_ofReal.comp (Real.measurable_exp.comp h3.neg)
    rw [hM, ← withDensity_mul _ h2 h1, ← withDensity_mul _ h1 h2, mul_comm]
  have hw0 : 0 ≤ w := (Real.exp_pos _).le.trans (hw _ List.mem_cons_self ((mo fun _ => 0).initialSample t0 []))
  obtain ⟨paths, h1, h2, h3⟩ := C132_proper (m := m) (bootstrap_law hm) hcat hcatR htr (ρ := fun t y t' => (ρ t t').withDensity fun x' => ENNReal.ofReal (Real.exp (-lik x' y t'))) hΓ
    thr y0 ys t0 ts hlen maxRej bound inflation hb key hw0 (hw _ List.mem_cons_self) (fun o ho _ _ x' => hw o (List.mem_cons_of_mem _ ho) x')
  have he : ∀ {h : List X → ℝ≥0∞}, PathMeasurable h → ∫⁻ x, pathIntegral (fun x t y t' => (M x t t').withDensity fun x' => ENNReal.ofReal (Real.exp (-lik x' y t'))) h t0 (ys.zip ts) [] x
      ∂((μ0 t0).withDensity fun x => ENNReal.ofReal (Real.exp (-lik x y0 t0)))
      = ∫⁻ x, ENNReal.ofReal (Real.exp (-lik x y0 t0)) * smoothingExpectation M lik h t0 (ys.zip ts) [] x ∂(μ0 t0) := fun {h} hh => by
    rw [lintegral_withDensity_eq_lintegral_mul _ (measurable_likDensity hm y0 t0) (measurable_pathIntegral (bootstrap_law hm) hh t0 _ [])]
    refine lintegral_congr fun x => ?_
    rw [Pi.mul_apply, pathIntegral_bootstrap hm hh]
  refine ⟨paths, fun ω => by rw [htp ω]; exact h1 ω, h2, fun g B hg hg0 hgB z hz s hs => ?_⟩
  exact h3 g B hg hg0 hgB z (hz.trans (by rw [he fun k => measurable_const])) s (hs.trans (by rw [he hg]))

/-! ## Nonlinear Gaussian models -/

section
open Matrix Mocat.NonlinearGaussian Mocat.Spec Mocat.Covariance Mocat.MatGauss
variable {d e : ℕ} {chol : Chol} (hchol : IsCholeskyAll chol) {mo : NLG d e} (hm : ProperNLG mo) (htr : ∀ t t', Measurable fun x => mo.transFun x t t') {q : ℝ → ℝ} (hq : IsNormalDraw q)
include hchol hm htr hq

/-- C132 for nonlinear Gaussian models with the bootstrap filter: for every bounded function of the path there is a constant, fixed before the numbers of particles and trajectories. -/
theorem C132_nonlinear_gaussian (y0 : Obs e) (ys : List (Obs e)) (t0 : ℝ) (ts : List ℝ) (hlen : ts.length = ys.length) (g : List (Fin d → ℝ) → ℝ) (B : ℝ)
    (hg : PathMeasurable fun l => ENNReal.ofReal (g l)) (hg0 : ∀ l, 0 ≤ g l) (hgB : ∀ l, g l ≤ B) :
    ∃ C : ℝ, ∀ (n m : ℕ) [NeZero n] [NeZero m] (cat : (Fin n → Fl) → ℝ → Fin n), IsCategorical cat → (IsCategoricalReal fun (w : Fin n → ℝ) u => cat (fun i => .fin (w i)) u) →
      ∀ (thr : ℝ) (maxRej : ℤ) (bound inflation : ℝ) (_ : 0 < maxRej → Real.sqrt (((chol d mo.transCov)ᵀ * chol d mo.transCov).det⁻¹ / (2 * Real.pi) ^ d) ≤ bound) (key : Keys.Key),
      ∃ paths : Tape → List (Fin m → Fin d → ℝ),
        (∀ ω, (ffbsi (fun k => (0 :: k, 1 :: k)) (fun k s => s :: k) (tapeEnv cat ω) (bootstrap (reKeyModel (normalsAt q ω) (mo.model chol))) (tapeRand cat ω)
          (mo.model chol).transitionPotential thr (y0 :: ys) (t0 :: ts) maxRej bound inflation key).map Prod.fst = some (paths ω)) ∧
        (∀ ω, (paths ω).length = ys.length + 1) ∧
        let S := fun h : List (Fin d → ℝ) → ℝ≥0∞ => ∫⁻ x, ENNReal.ofReal (Real.exp (-covPotential chol mo.likCov (x ᵥ* mo.likMatᵀ) y0))
          * smoothingExpectation (fun x t t' => gauss (mo.transFun x t t') ((chol d mo.transCov)ᵀ * chol d mo.transCov)) (fun x y _ => covPotential chol mo.likCov (x ᵥ* mo.likMatᵀ) y) h t0 (ys.zip ts) [] x
          ∂(gauss mo.initialMean mo.initialCov)
        let s := (S fun l => ENNReal.ofReal (g l)).toReal / (S fun _ => 1).toReal
        0 < (S fun _ => 1).toReal ∧
        ∫⁻ ω, ENNReal.ofReal (((∑ i, g ((paths ω).map fun x => x i)) / m - s) ^ 2) ∂ideal ≤ ENNReal.ofReal (B ^ 2 / m + C / n) ∧
        ∀ i, |∫ ω, g ((paths ω).map fun x => x i) ∂ideal - s| ≤ Real.sqrt (C / n) := by
  set S := fun h : List (Fin d → ℝ) → ℝ≥0∞ => ∫⁻ x, ENNReal.ofReal (Real.exp (-covPotential chol mo.likCov (x ᵥ* mo.likMatᵀ) y0))
    * smoothingExpectation (fun x t t' => gauss (mo.transFun x t t') ((chol d mo.transCov)ᵀ * chol d mo.transCov)) (fun x y _ => covPotential chol mo.likCov (x ᵥ* mo.likMatᵀ) y) h t0 (ys.zip ts) [] x
    ∂(gauss mo.initialMean mo.initialCov) with hS
  set w := Real.exp (-Gaussian.negLogZ e (some (1 / mo.likCov.det))) with hw
  have hB0 : 0 ≤ B := (hg0 []).trans (hgB [])
  refine ⟨4 * (ys.length + 1) * (w ^ (ys.length + 1) * B / (S fun _ => 1).toReal) ^ 2, fun n m _ _ cat hcat hcatR thr maxRej bound inflation hb key => ?_⟩
  have hdens := fun x t t' x' => covPotential_density hchol hm.trans (mo.transFun x t t') x'
  obtain ⟨paths, h1, h2, h3⟩ := C132_bootstrap (n := n) (m := m) (nlg_modelLaw hchol hm htr hq) hcat hcatR (trans := (mo.model chol).transitionPotential) (fun _ => rfl) (fun t t' => by
      have h1 := (measurable_gaussianPotential_mat (chol d mo.transCov)⁻¹ (1 / mo.transCov.det)).comp (measurable_snd.prodMk ((htr t t').comp (measurable_fst (β := Fin d → ℝ))))
      exact h1) (ρ := fun _ _ => volume) (fun x t t' => by
      unfold gauss
      congr 1
      funext x'
      rw [← hdens]
      rfl)
    thr y0 ys t0 ts hlen maxRej bound inflation (fun h0 x t x' t' => by
      refine (le_of_eq (hdens x t t' x')).trans (le_trans ?_ (hb h0))
      unfold gaussDensity
      refine mul_le_of_le_one_right (Real.sqrt_nonneg _) (Real.exp_le_one_iff.2 ?_)
      have hP : ((chol d mo.transCov)ᵀ * chol d mo.transCov).PosSemidef := by
        have := posSemidef_conjTranspose_mul_self (chol d mo.transCov)
        rwa [conjTranspose_eq_transpose_of_trivial] at this
      have := hP.inv.dotProduct_mulVec_nonneg (x' - mo.transFun x t t')
      simp only [star_trivial] at this
      linarith) key (w := w) (fun o _ x => Real.exp_le_exp.mpr (neg_le_neg (neg_potential_le o.1 (x ᵥ* mo.likMatᵀ) _ _)))
  obtain ⟨hz, hmse, hbias⟩ := h3 g B hg hg0 hgB _ rfl _ rfl
  refine ⟨paths, h1, h2, hz, hmse, fun i => (hbias i).trans (le_of_eq ?_)⟩
  have hw0 : 0 ≤ w := (Real.exp_pos _).le
  have hn : (0 : ℝ) ≤ n := Nat.cast_nonneg n
  rw [show 4 * ((ys.length : ℝ) + 1) * (w ^ (ys.length + 1) * B / (S fun _ => 1).toReal) ^ 2 / n = (2 * (w ^ (ys.length + 1) * B / (S fun _ => 1).toReal)) ^ 2 * ((ys.length + 1) / n) by ring,
    Real.sqrt_mul (by positivity), Real.sqrt_sq (by positivity)]
  ring

end

/-! ## A case that meets the hypotheses -/

section
open Matrix Mocat.NonlinearGaussian Mocat.Spec Mocat.Covariance Mocat.MatGauss

theorem pathMeasurable_indicator {A : Set (X × X)} [MeasurableSpace X] (hA : MeasurableSet A) (x0 : X) (a b : ℕ) :
    PathMeasurable fun l : List X => ENNReal.ofReal (A.indicator (fun _ => (1 : ℝ)) (l.getD a x0, l.getD b x0)) := fun k => by
  have h1 : ∀ s, Measurable fun v : Fin k → X => (List.ofFn v).getD s x0 := fun s => by
    by_cases hs : s < k
    · have e : (fun v : Fin k → X => (List.ofFn v).getD s x0) = fun v => v ⟨s, hs⟩ := by
        funext v
        rw [List.getD_eq_getElem _ _ (by simpa using hs), List.getElem_ofFn]
      rw [e]
      exact measurable_pi_apply _
    · have e : (fun v : Fin k → X => (List.ofFn v).getD s x0) = fun _ => x0 := by
        funext v
        exact List.getD_eq_default _ _ (by simpa using hs)
      rw [e]
      exact measurable_const
  exact ENNReal.measurable_ofReal.comp ((measurable_const.indicator hA).comp ((h1 a).prodMk (h1 b)))

/-- A nonlinear model in dimension 2 with three observations: the smoothing probability that the first coordinate rises from the first time to the last, from `n` particles and `n` trajectories with up to 7
rejections. The mean squared error is at most `C / n`. -/
example (y0 y1 y2 : Obs 2) : ∃ (chol : Chol) (q : ℝ → ℝ) (bound C : ℝ), ∀ (n : ℕ) [NeZero n], ∃ (cat : (Fin n → Fl) → ℝ → Fin n) (paths : Tape → List (Fin n → Fin 2 → ℝ)),
    (∀ ω, (ffbsi (fun k => (0 :: k, 1 :: k)) (fun k s => s :: k) (tapeEnv cat ω) (bootstrap (reKeyModel (normalsAt q ω) ((⟨0, 1, fun x t t' i => Real.sin (x i) + (t' - t), covEx, 1, 1⟩ : NLG 2 2).model chol)))
      (tapeRand cat ω) ((⟨0, 1, fun x t t' i => Real.sin (x i) + (t' - t), covEx, 1, 1⟩ : NLG 2 2).model chol).transitionPotential (1 / 2) [y0, y1, y2] [0, 1, 3] 7 bound 2 []).map Prod.fst = some (paths ω)) ∧
    let S := fun h : List (Fin 2 → ℝ) → ℝ≥0∞ => ∫⁻ x, ENNReal.ofReal (Real.exp (-covPotential chol 1 (x ᵥ* (1 : Matrix (Fin 2) (Fin 2) ℝ)ᵀ) y0))
      * smoothingExpectation (fun x t t' => gauss (fun i => Real.sin (x i) + (t' - t)) ((chol 2 covEx)ᵀ * chol 2 covEx)) (fun x y _ => covPotential chol 1 (x ᵥ* (1 : Matrix (Fin 2) (Fin 2) ℝ)ᵀ) y) h 0
        [(y1, 1), (y2, 3)] [] x ∂(gauss 0 1)
    ∫⁻ ω, ENNReal.ofReal (((∑ i, {z : (Fin 2 → ℝ) × (Fin 2 → ℝ) | z.1 0 < z.2 0}.indicator (fun _ => (1 : ℝ)) (((paths ω).map fun x => x i).getD 0 0, ((paths ω).map fun x => x i).getD 2 0)) / n
      - (S fun l => ENNReal.ofReal ({z : (Fin 2 → ℝ) × (Fin 2 → ℝ) | z.1 0 < z.2 0}.indicator (fun _ => (1 : ℝ)) (l.getD 0 0, l.getD 2 0))).toReal / (S fun _ => 1).toReal) ^ 2) ∂ideal
      ≤ ENNReal.ofReal (C / n) := by
  obtain ⟨chol, hchol⟩ := exists_isCholeskyAll
  obtain ⟨q, hq⟩ := exists_isNormalDraw
  have hA : MeasurableSet {z : (Fin 2 → ℝ) × (Fin 2 → ℝ) | z.1 0 < z.2 0} := measurableSet_lt ((measurable_pi_apply 0).comp measurable_fst) ((measurable_pi_apply 0).comp measurable_snd)
  obtain ⟨C, hC⟩ := C132_nonlinear_gaussian hchol (mo := ⟨0, 1, fun x t t' i => Real.sin (x i) + (t' - t), covEx, 1, 1⟩) ⟨PosDef.one, covEx_posDef, PosDef.one⟩ (fun t t' => by fun_prop) hq
    y0 [y1, y2] 0 [1, 3] rfl _ 1 (pathMeasurable_indicator hA 0 0 2) (fun l => Set.indicator_nonneg (fun _ _ => zero_le_one) _) (fun l => Set.indicator_le_self' (fun _ _ => zero_le_one) _)
  refine ⟨chol, q, Real.sqrt (((chol 2 covEx)ᵀ * chol 2 covEx).det⁻¹ / (2 * Real.pi) ^ 2), 1 + C, fun n _ => ?_⟩
  obtain ⟨paths, h1, -, -, h4, -⟩ := hC n n invCdf isCategorical_invCdf isCategoricalReal_invCdfReal (1 / 2) 7 _ 2 (fun _ => le_rfl) []
  refine ⟨invCdf, paths, h1, h4.trans (le_of_eq ?_)⟩
  rw [one_pow, add_div]

end

end Mocat.Props
