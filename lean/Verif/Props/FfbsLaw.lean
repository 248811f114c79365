import Verif.Props.BackwardLaw
import Verif.Props.FilterLaw
/-!
# C91: forward filtering backward simulation

The draws come from an ideal generator (`Verif.Spec.Tape`).
-/
namespace Mocat.Props
open Mocat Mocat.Filtering Mocat.Backward Mocat.Metrics Mocat.Ideal Mocat.Meas MeasureTheory
open Mocat.Smc (Red Q redStep redValue redWeight StepLaw stepSites critLt lse logEss lseMean)
open scoped ENNReal

variable {X : Type} {n m dy : ℕ}

/-! ## Averaging over the backward chain -/

/-- A history of weighted ensembles: the one at each time. -/
abbrev Hist (n : ℕ) (X : Type) := ℕ → Red n X

/-- The transition potentials from the particles at time index `k` to a state at index `k + 1`. -/
def potTo (trans : X → ℝ → X → ℝ → ℝ) (τ : ℕ → ℝ) (W : Hist n X) (k : ℕ) (x' : X) : Fin n → ℝ := fun j => trans ((W k).1 j) (τ k) x' (τ (k + 1))

/-- The average of `φ` over the backward chain that fills the path `p` before time index `k`. -/
noncomputable def back (trans : X → ℝ → X → ℝ → ℝ) (τ : ℕ → ℝ) (φ : (ℕ → X) → ℝ≥0∞) (W : Hist n X) : ℕ → (ℕ → X) → ℝ≥0∞
  | 0, p => φ p
  | k + 1, p => ∑ j, ENNReal.ofReal (backwardProb (fun j => Real.exp ((W k).2.1 j)) (potTo trans τ W k (p (k + 1))) j) * back trans τ φ W k (Function.update p k ((W k).1 j))

theorem back_congr (trans : X → ℝ → X → ℝ → ℝ) (τ : ℕ → ℝ) {φ ψ : (ℕ → X) → ℝ≥0∞} (W : Hist n X) (k : ℕ) (p : ℕ → X) (h : ∀ q : ℕ → X, (∀ l, k ≤ l → q l = p l) → φ q = ψ q) :
    back trans τ φ W k p = back trans τ ψ W k p := by
  induction k generalizing p with
  | zero => exact h p fun _ _ => rfl
  | succ k ih =>
    refine Finset.sum_congr rfl fun j _ => ?_
    rw [ih _ fun q hq => h q fun l hl => ?_]
    rw [hq l (by omega), Function.update_of_ne (by omega)]

theorem back_hist (trans : X → ℝ → X → ℝ → ℝ) (τ : ℕ → ℝ) (φ : (ℕ → X) → ℝ≥0∞) {W W' : Hist n X} (k : ℕ) (h : ∀ l < k, W l = W' l) (p : ℕ → X) :
    back trans τ φ W k p = back trans τ φ W' k p := by
  induction k generalizing p with
  | zero => rfl
  | succ k ih =>
    have hk := h k (by omega)
    refine Finset.sum_congr rfl fun j _ => ?_
    have hp : potTo trans τ W k (p (k + 1)) = potTo trans τ W' k (p (k + 1)) := by unfold potTo; rw [hk]
    rw [ih fun l hl => h l (by omega), hp, hk]

section
variable [MeasurableSpace X]

theorem measurable_potTo {trans : X → ℝ → X → ℝ → ℝ} (htr : ∀ t t', Measurable fun z : X × X => trans z.1 t z.2 t') (τ : ℕ → ℝ) (k : ℕ) :
    Measurable fun z : Hist n X × X => potTo trans τ z.1 k z.2 := by
  refine measurable_pi_lambda _ fun j => ?_
  have h1 : Measurable fun z : Hist n X × X => ((z.1 k).1 j, z.2) :=
    ((measurable_pi_apply j).comp (measurable_fst.comp ((measurable_pi_apply k).comp measurable_fst))).prodMk measurable_snd
  exact (htr (τ k) (τ (k + 1))).comp h1

theorem measurable_backwardProb (j : Fin n) : Measurable fun z : (Fin n → ℝ) × (Fin n → ℝ) => backwardProb (fun j => Real.exp (z.1 j)) z.2 j := by
  unfold backwardProb
  have h : ∀ j : Fin n, Measurable fun z : (Fin n → ℝ) × (Fin n → ℝ) => Real.exp (z.1 j) * Real.exp (-z.2 j) := fun j =>
    (Real.measurable_exp.comp ((measurable_pi_apply j).comp measurable_fst)).mul (Real.measurable_exp.comp ((measurable_pi_apply j).comp measurable_snd).neg)
  exact (h j).div (Finset.measurable_sum _ fun k _ => h k)

theorem measurable_back {trans : X → ℝ → X → ℝ → ℝ} (htr : ∀ t t', Measurable fun z : X × X => trans z.1 t z.2 t') (τ : ℕ → ℝ) {φ : (ℕ → X) → ℝ≥0∞} (hφ : Measurable φ) (k : ℕ) :
    Measurable fun z : Hist n X × (ℕ → X) => back trans τ φ z.1 k z.2 := by
  induction k with
  | zero => exact hφ.comp measurable_snd
  | succ k ih =>
    refine Finset.measurable_sum _ fun j _ => ?_
    have hk : Measurable fun z : Hist n X × (ℕ → X) => z.1 k := (measurable_pi_apply k).comp measurable_fst
    have h1 : Measurable fun z : Hist n X × (ℕ → X) => potTo trans τ z.1 k (z.2 (k + 1)) :=
      (measurable_potTo htr τ k).comp (measurable_fst.prodMk ((measurable_pi_apply (k + 1)).comp measurable_snd))
    have h2 : Measurable fun z : Hist n X × (ℕ → X) => Function.update z.2 k ((z.1 k).1 j) :=
      (measurable_update' (a := k)).comp (measurable_snd.prodMk ((measurable_pi_apply j).comp (measurable_fst.comp hk)))
    exact (ENNReal.measurable_ofReal.comp ((measurable_backwardProb j).comp ((measurable_fst.comp (measurable_snd.comp hk)).prodMk h1))).mul (ih.comp (measurable_fst.prodMk h2))

theorem measurable_back_at {trans : X → ℝ → X → ℝ → ℝ} (htr : ∀ t t', Measurable fun z : X × X => trans z.1 t z.2 t') (τ : ℕ → ℝ) {φ : (ℕ → X) → ℝ≥0∞} (hφ : Measurable φ) (W : Hist n X) (k : ℕ)
    (p : ℕ → X) (c : ℕ) : Measurable fun x => back trans τ φ W k (Function.update p c x) := by
  have h : Measurable fun x : X => (W, Function.update p c x) := measurable_const.prodMk (measurable_update p)
  exact (measurable_back htr τ hφ k).comp h

/-- Averaging over the backward chain and integrating out a later state commute. -/
theorem lintegral_back {trans : X → ℝ → X → ℝ → ℝ} (htr : ∀ t t', Measurable fun z : X × X => trans z.1 t z.2 t') (τ : ℕ → ℝ) {φ : (ℕ → X) → ℝ≥0∞} (hφ : Measurable φ) (W : Hist n X) (μ : Measure X)
    (k c : ℕ) (hc : k < c) (p : ℕ → X) :
    ∫⁻ x, back trans τ φ W k (Function.update p c x) ∂μ = back trans τ (fun q => ∫⁻ x, φ (Function.update q c x) ∂μ) W k p := by
  induction k generalizing p with
  | zero => rfl
  | succ k ih =>
    simp only [back]
    have e : ∀ x j, ENNReal.ofReal (backwardProb (fun j => Real.exp ((W k).2.1 j)) (potTo trans τ W k (Function.update p c x (k + 1))) j)
        * back trans τ φ W k (Function.update (Function.update p c x) k ((W k).1 j))
        = ENNReal.ofReal (backwardProb (fun j => Real.exp ((W k).2.1 j)) (potTo trans τ W k (p (k + 1))) j)
        * back trans τ φ W k (Function.update (Function.update p k ((W k).1 j)) c x) := fun x j => by
      rw [Function.update_of_ne (by omega), Function.update_comm (by omega)]
    simp only [e]
    rw [lintegral_finsetSum _ fun j _ => (measurable_back_at htr τ hφ W k _ c).const_mul _]
    refine Finset.sum_congr rfl fun j _ => ?_
    rw [lintegral_const_mul _ (measurable_back_at htr τ hφ W k _ c), ih (by omega)]

/-- The weights of the filter and of the backward chain cancel: integrating out the state after the particles at `k`, then averaging backwards from there, is averaging backwards from the particles at `k`. -/
theorem Q_back [NeZero n] {trans : X → ℝ → X → ℝ → ℝ} (htr : ∀ t t', Measurable fun z : X × X => trans z.1 t z.2 t') (τ : ℕ → ℝ) {φ : (ℕ → X) → ℝ≥0∞} (hφ : Measurable φ) (W : Hist n X)
    (k : ℕ) (p : ℕ → X) (ρ : Measure X) {Γ : X → Measure X} (hΓ : ∀ x, Γ x = ρ.withDensity fun x' => ENNReal.ofReal (Real.exp (-trans x (τ k) x' (τ (k + 1))))) :
    Q (fun x => ∫⁻ x', back trans τ φ W (k + 1) (Function.update p (k + 1) x') ∂Γ x) (W k)
      = Q (fun x => back trans τ (fun q => ∫⁻ x', φ (Function.update q (k + 1) x') ∂Γ (q k)) W k (Function.update p k x)) (W k) := by
  set a : Fin n → ℝ := fun i => Real.exp (W k).2.2 * (Real.exp ((W k).2.1 i) / ∑ j, Real.exp ((W k).2.1 j)) with ha
  set E : Fin n → X → ℝ := fun i x' => Real.exp (-trans ((W k).1 i) (τ k) x' (τ (k + 1))) with hE
  set β : Fin n → X → ℝ≥0∞ := fun j x' => back trans τ φ W k (Function.update (Function.update p (k + 1) x') k ((W k).1 j)) with hβ
  have hpos : (0 : ℝ) < ∑ j, Real.exp ((W k).2.1 j) := sumExp_pos _
  have ha0 : ∀ i, 0 ≤ a i := fun i => by simp only [ha]; positivity
  have hEm : ∀ i, Measurable fun x' => ENNReal.ofReal (E i x') := fun i =>
    ENNReal.measurable_ofReal.comp (Real.measurable_exp.comp ((htr (τ k) (τ (k + 1))).comp (measurable_const.prodMk measurable_id)).neg)
  have hβm : ∀ j, Measurable (β j) := fun j => by
    have e : β j = fun x' => back trans τ φ W k (Function.update (Function.update p k ((W k).1 j)) (k + 1) x') := by
      funext x'; simp only [hβ]; rw [Function.update_comm (by omega)]
    rw [e]; exact measurable_back_at htr τ hφ W k _ _
  have hbm := measurable_back_at (n := n) htr τ hφ W (k + 1) p (k + 1)
  have e1 : ∀ i, ∫⁻ x', back trans τ φ W (k + 1) (Function.update p (k + 1) x') ∂Γ ((W k).1 i)
      = ∫⁻ x', ENNReal.ofReal (E i x') * back trans τ φ W (k + 1) (Function.update p (k + 1) x') ∂ρ := fun i => by
    rw [hΓ, lintegral_withDensity_eq_lintegral_mul _ (hEm i) hbm]
    rfl
  have e2 : ∀ x', ∑ i, ENNReal.ofReal (a i) * (ENNReal.ofReal (E i x') * back trans τ φ W (k + 1) (Function.update p (k + 1) x'))
      = ∑ j, ENNReal.ofReal (a j) * (ENNReal.ofReal (E j x') * β j x') := fun x' => by
    have hZ : 0 < ∑ l, Real.exp ((W k).2.1 l) * E l x' := Finset.sum_pos (fun l _ => by simp only [hE]; positivity) ⟨0, Finset.mem_univ _⟩
    have hE0 : ∀ i, 0 ≤ E i x' := fun i => (Real.exp_pos _).le
    have e3 : ∑ i, ENNReal.ofReal (a i) * ENNReal.ofReal (E i x') = ENNReal.ofReal (Real.exp (W k).2.2 / (∑ j, Real.exp ((W k).2.1 j)) * ∑ l, Real.exp ((W k).2.1 l) * E l x') := by
      simp only [← ENNReal.ofReal_mul (ha0 _)]
      rw [← ENNReal.ofReal_sum_of_nonneg fun i _ => mul_nonneg (ha0 i) (hE0 i), Finset.mul_sum]
      congr 1
      refine Finset.sum_congr rfl fun i _ => ?_
      simp only [ha]; ring
    simp only [← mul_assoc]
    rw [← Finset.sum_mul, e3]
    simp only [back]
    rw [Finset.mul_sum]
    refine Finset.sum_congr rfl fun j _ => ?_
    rw [← mul_assoc, ← ENNReal.ofReal_mul (by positivity), ← ENNReal.ofReal_mul (ha0 j)]
    congr 2
    have e4 : backwardProb (fun j => Real.exp ((W k).2.1 j)) (potTo trans τ W k (Function.update p (k + 1) x' (k + 1))) j
        = Real.exp ((W k).2.1 j) * E j x' / ∑ l, Real.exp ((W k).2.1 l) * E l x' := by
      rw [Function.update_self]; rfl
    rw [e4]
    simp only [ha]
    field_simp
  have e5 : ∀ j, ∫⁻ x', ENNReal.ofReal (E j x') * β j x' ∂ρ
      = back trans τ (fun q => ∫⁻ x', φ (Function.update q (k + 1) x') ∂Γ (q k)) W k (Function.update p k ((W k).1 j)) := fun j => by
    have e6 : ∫⁻ x', ENNReal.ofReal (E j x') * β j x' ∂ρ = ∫⁻ x', back trans τ φ W k (Function.update (Function.update p k ((W k).1 j)) (k + 1) x') ∂Γ ((W k).1 j) := by
      rw [hΓ, lintegral_withDensity_eq_lintegral_mul _ (hEm j) (measurable_back_at htr τ hφ W k _ _)]
      refine lintegral_congr fun x' => ?_
      simp only [hβ, Pi.mul_apply]
      rw [Function.update_comm (by omega)]
    rw [e6, lintegral_back htr τ hφ W _ k (k + 1) (by omega)]
    refine back_congr trans τ W k _ fun q hq => ?_
    rw [hq k le_rfl, Function.update_self]
  unfold Q
  simp only [e1]
  have e7 : ∀ i, ENNReal.ofReal (a i) * ∫⁻ x', ENNReal.ofReal (E i x') * back trans τ φ W (k + 1) (Function.update p (k + 1) x') ∂ρ
      = ∫⁻ x', ENNReal.ofReal (a i) * (ENNReal.ofReal (E i x') * back trans τ φ W (k + 1) (Function.update p (k + 1) x')) ∂ρ := fun i =>
    (lintegral_const_mul _ ((hEm i).mul hbm)).symm
  have e8 : ∀ j, ENNReal.ofReal (a j) * back trans τ (fun q => ∫⁻ x', φ (Function.update q (k + 1) x') ∂Γ (q k)) W k (Function.update p k ((W k).1 j))
      = ∫⁻ x', ENNReal.ofReal (a j) * (ENNReal.ofReal (E j x') * β j x') ∂ρ := fun j => by
    rw [← e5]; exact (lintegral_const_mul _ ((hEm j).mul (hβm j))).symm
  refine (Finset.sum_congr rfl fun i _ => e7 i).trans (Eq.trans ?_ (Finset.sum_congr rfl fun j _ => e8 j).symm)
  have m1 : ∀ i, Measurable fun x' => ENNReal.ofReal (a i) * (ENNReal.ofReal (E i x') * back trans τ φ W (k + 1) (Function.update p (k + 1) x')) := fun i => ((hEm i).mul hbm).const_mul _
  have m2 : ∀ j, Measurable fun x' => ENNReal.ofReal (a j) * (ENNReal.ofReal (E j x') * β j x') := fun j => ((hEm j).mul (hβm j)).const_mul _
  rw [← lintegral_finsetSum _ fun i _ => m1 i, ← lintegral_finsetSum _ fun j _ => m2 j]
  exact lintegral_congr e2

theorem measurable_Qback {trans : X → ℝ → X → ℝ → ℝ} (htr : ∀ t t', Measurable fun z : X × X => trans z.1 t z.2 t') (τ : ℕ → ℝ) {φ : (ℕ → X) → ℝ≥0∞} (hφ : Measurable φ) (k : ℕ) (p0 : ℕ → X) :
    Measurable fun z : Hist n X × Red n X => Q (fun x => back trans τ φ z.1 k (Function.update p0 k x)) z.2 := by
  have hbx : Measurable fun z : Hist n X × X => back trans τ φ z.1 k (Function.update p0 k z.2) := by
    have hu : Measurable fun x : X => Function.update p0 k x := measurable_update p0
    have h2 : Measurable fun z : Hist n X × X => (z.1, Function.update p0 k z.2) := measurable_fst.prodMk (hu.comp measurable_snd)
    exact (measurable_back htr τ hφ k).comp h2
  unfold Q
  refine Finset.measurable_sum _ fun i _ => ?_
  have hw : Measurable fun z : Hist n X × Red n X => z.2.2.1 := measurable_fst.comp (measurable_snd.comp measurable_snd)
  refine (ENNReal.measurable_ofReal.comp ((Real.measurable_exp.comp (measurable_snd.comp (measurable_snd.comp measurable_snd))).mul
    ((Real.measurable_exp.comp ((measurable_pi_apply i).comp hw)).div
      (Finset.measurable_sum _ fun j _ => Real.measurable_exp.comp ((measurable_pi_apply j).comp hw))))).mul ?_
  have h3 : Measurable fun z : Hist n X × Red n X => (z.1, z.2.1 i) := measurable_fst.prodMk ((measurable_pi_apply i).comp (measurable_fst.comp measurable_snd))
  exact hbx.comp h3

theorem measurable_Qback_comp {trans : X → ℝ → X → ℝ → ℝ} (htr : ∀ t t', Measurable fun z : X × X => trans z.1 t z.2 t') (τ : ℕ → ℝ) {φ : (ℕ → X) → ℝ≥0∞} (hφ : Measurable φ) (k : ℕ) (p0 : ℕ → X)
    {Z : Type*} [MeasurableSpace Z] {st : Hist n X × Z → Red n X} (hst : Measurable st) : Measurable fun z : Hist n X × Z => Q (fun x => back trans τ φ z.1 k (Function.update p0 k x)) (st z) := by
  have h1 : Measurable fun z : Hist n X × Z => (z.1, st z) := measurable_fst.prodMk hst
  have h2 := (measurable_Qback (n := n) htr τ hφ k p0).comp h1
  simpa only [Function.comp_def] using h2

omit [MeasurableSpace X] in
theorem Qback_update (trans : X → ℝ → X → ℝ → ℝ) (τ : ℕ → ℝ) (φ : (ℕ → X) → ℝ≥0∞) (W : Hist n X) (k : ℕ) (R : Red n X) (p0 : ℕ → X) :
    Q (fun x => back trans τ φ (Function.update W (k + 1) R) (k + 1) (Function.update p0 (k + 1) x)) (Function.update W (k + 1) R (k + 1))
      = Q (fun x => back trans τ φ W (k + 1) (Function.update p0 (k + 1) x)) R := by
  have e : ∀ l < k + 1, Function.update W (k + 1) R l = W l := fun l hl => Function.update_of_ne (by omega) _ _
  rw [Function.update_self]
  simp only [back_hist trans τ φ (k + 1) e]

/-! ## Forward: the filter -/

/-- The expectation of `h` of the path times the weights of the steps to come, for a path filled up to time index `k`: `Γ x t y t'` is the law of the next state, weighted. -/
noncomputable def futurePath (Γ : X → ℝ → Obs dy → ℝ → Measure X) (h : (ℕ → X) → ℝ≥0∞) : ℕ → ℝ → List (Obs dy × ℝ) → (ℕ → X) → ℝ≥0∞
  | _, _, [], p => h p
  | k, t, (y, t') :: os, p => ∫⁻ x', futurePath Γ h (k + 1) t' os (Function.update p (k + 1) x') ∂(Γ (p k) t y t')

/-- The history after the remaining steps of the filter. -/
noncomputable def histRun (cat : (Fin n → Fl) → ℝ → Fin n) (f : Tape → Filter X Keys.Key dy) (G : X → ℝ → X → Obs dy → ℝ → ℝ) (thr : ℝ) :
    ℕ → ℝ → List (Obs dy × ℝ × Keys.Key) → Hist n X → Tape → Hist n X
  | _, _, [], W, _ => W
  | k, t, o :: os, W, ω => histRun cat f G thr (k + 1) o.2.1 os (Function.update W (k + 1) (filterStep cat f G thr t o (W k) ω)) ω

section
variable {f : Tape → Filter X Keys.Key dy} {G0 : X → Obs dy → ℝ → ℝ} {G : X → ℝ → X → Obs dy → ℝ → ℝ}
  {Γ0 : Obs dy → ℝ → Measure X} {Γ : X → ℝ → Obs dy → ℝ → Measure X} (hF : FilterLaw f G0 G Γ0 Γ)

include hF in
theorem measurable_kernel_prod {Z : Type*} [MeasurableSpace Z] (t : ℝ) (y : Obs dy) (t' : ℝ) {g : Z × X → ℝ≥0∞} (hg : Measurable g) : Measurable fun z : Z × X => ∫⁻ x', g (z.1, x') ∂(Γ z.2 t y t') := by
  have e : (fun z : Z × X => ∫⁻ x', g (z.1, x') ∂(Γ z.2 t y t')) = fun z => ∫⁻ ω, ENNReal.ofReal (Real.exp (G z.2 t ((f ω).proposalSample z.2 t y t' []) y t')) * g (z.1, (f ω).proposalSample z.2 t y t' []) ∂ideal :=
    funext fun z => (hF.law_proposal z.2 t y t' [] (h := fun x' => g (z.1, x')) (hg.comp measurable_prodMk_left)).symm
  rw [e]
  have hp : Measurable fun w : (Z × X) × Tape => (f w.2).proposalSample w.1.2 t y t' [] := (hF.measurable_proposal t y t' []).comp ((measurable_snd.comp measurable_fst).prodMk measurable_snd)
  have hG : Measurable fun w : (Z × X) × Tape => G w.1.2 t ((f w.2).proposalSample w.1.2 t y t' []) y t' := (hF.measurable_logWeight t y t').comp ((measurable_snd.comp measurable_fst).prodMk hp)
  have hm : Measurable fun w : (Z × X) × Tape => ENNReal.ofReal (Real.exp (G w.1.2 t ((f w.2).proposalSample w.1.2 t y t' []) y t')) * g (w.1.1, (f w.2).proposalSample w.1.2 t y t' []) :=
    (ENNReal.measurable_ofReal.comp (Real.measurable_exp.comp hG)).mul (hg.comp ((measurable_fst.comp measurable_fst).prodMk hp))
  exact Measurable.lintegral_prod_right' hm

include hF in
theorem measurable_futurePath {h : (ℕ → X) → ℝ≥0∞} (hh : Measurable h) (os : List (Obs dy × ℝ)) (k : ℕ) (t : ℝ) : Measurable (futurePath Γ h k t os) := by
  induction os generalizing k t with
  | nil => exact hh
  | cons o os ih =>
    have hg : Measurable fun z : (ℕ → X) × X => futurePath Γ h (k + 1) o.2 os (Function.update z.1 (k + 1) z.2) := (ih (k + 1) o.2).comp (measurable_update' (a := k + 1))
    have h1 : Measurable fun p : ℕ → X => (p, p k) := measurable_id.prodMk (measurable_pi_apply k)
    exact (measurable_kernel_prod hF t o.1 o.2 hg).comp h1

include hF in
theorem measurable_Qstep [NeZero n] {cat : (Fin n → Fl) → ℝ → Fin n} (hcat : IsCategoricalReal fun (w : Fin n → ℝ) u => cat (fun i => .fin (w i)) u) {trans : X → ℝ → X → ℝ → ℝ}
    (htr : ∀ t t', Measurable fun z : X × X => trans z.1 t z.2 t') (thr : ℝ) (τ : ℕ → ℝ) (p0 : ℕ → X) (o : Obs dy × ℝ × Keys.Key) (k : ℕ) (t : ℝ) {φ : (ℕ → X) → ℝ≥0∞} (hφ : Measurable φ) :
    Measurable fun z : Hist n X × Tape => Q (fun x => back trans τ φ z.1 (k + 1) (Function.update p0 (k + 1) x)) (filterStep cat f G thr t o (z.1 k) z.2) := by
  have hL := filterStep_law (n := n) hF thr t o
  have h5 : Measurable fun z : Hist n X × Tape => (z.1 k, z.2) := ((measurable_pi_apply k).comp measurable_fst).prodMk measurable_snd
  have h6 := (Smc.measurable_redStep hcat hL).comp h5
  have h4 : Measurable fun z : Hist n X × Tape => filterStep cat f G thr t o (z.1 k) z.2 := h6
  exact measurable_Qback_comp htr τ hφ (k + 1) p0 h4

include hF in
theorem ffbs_step [NeZero n] {cat : (Fin n → Fl) → ℝ → Fin n} (hcat : IsCategoricalReal fun (w : Fin n → ℝ) u => cat (fun i => .fin (w i)) u) {trans : X → ℝ → X → ℝ → ℝ}
    (htr : ∀ t t', Measurable fun z : X × X => trans z.1 t z.2 t') {ρ : ℝ → Obs dy → ℝ → Measure X}
    (hΓ : ∀ x t y t', Γ x t y t' = (ρ t y t').withDensity fun x' => ENNReal.ofReal (Real.exp (-trans x t x' t'))) (thr : ℝ)
    (τ : ℕ → ℝ) (p0 : ℕ → X) (o : Obs dy × ℝ × Keys.Key) (k : ℕ) (t : ℝ) (ht : τ k = t)
    (hτ1 : τ (k + 1) = o.2.1) {W : Tape → Hist n X} (hW : Measurable W) {S : Set Site} (hWS : DependsOn W S)
    (hd : Disjoint S (stepSites (n := n) (fun i => (o.2.2, (i : ℕ))) (fun i => below ((i : ℕ) :: o.2.2)))) {φ : (ℕ → X) → ℝ≥0∞} (hφ : Measurable φ) :
    ∫⁻ ω, Q (fun x => back trans τ φ (W ω) (k + 1) (Function.update p0 (k + 1) x)) (filterStep cat f G thr t o (W ω k) ω) ∂ideal
      = ∫⁻ ω, Q (fun x => back trans τ (fun q => ∫⁻ x', φ (Function.update q (k + 1) x') ∂(Γ (q k) t o.1 o.2.1)) (W ω) k (Function.update p0 k x)) (W ω k) ∂ideal := by
  have hL := filterStep_law (n := n) hF thr t o
  have h0 := fresh hd (f := W) (g := fun a ω => Q (fun x => back trans τ φ a (k + 1) (Function.update p0 (k + 1) x)) (filterStep cat f G thr t o (a k) ω)) hW hWS
    (measurable_Qstep hF hcat htr thr τ p0 o k t hφ)
    (fun a ω ω' hω => congrArg (Q fun x => back trans τ φ a (k + 1) (Function.update p0 (k + 1) x)) (Smc.redStep_dependsOn hL (a k) hω))
  refine h0.trans (lintegral_congr fun ω => ?_)
  have h7 := Smc.lintegral_Q_redStep hcat hL (f := fun x => back trans τ φ (W ω) (k + 1) (Function.update p0 (k + 1) x)) (measurable_back_at htr τ hφ _ _ _ _) (W ω k)
  refine Eq.trans h7 ?_
  exact Q_back htr τ hφ (W ω) k p0 (ρ t o.1 o.2.1) (Γ := fun x => Γ x t o.1 o.2.1) fun x => by rw [hΓ, ht, hτ1]

include hF in
/-- From a random history: the expected backward average after the remaining observations. -/
theorem ffbs_forward [NeZero n] {cat : (Fin n → Fl) → ℝ → Fin n} (hcat : IsCategoricalReal fun (w : Fin n → ℝ) u => cat (fun i => .fin (w i)) u) {trans : X → ℝ → X → ℝ → ℝ}
    (htr : ∀ t t', Measurable fun z : X × X => trans z.1 t z.2 t') {ρ : ℝ → Obs dy → ℝ → Measure X}
    (hΓ : ∀ x t y t', Γ x t y t' = (ρ t y t').withDensity fun x' => ENNReal.ofReal (Real.exp (-trans x t x' t'))) (thr : ℝ) {h : (ℕ → X) → ℝ≥0∞} (hh : Measurable h)
    (τ : ℕ → ℝ) (p0 : ℕ → X) (os : List (Obs dy × ℝ × Keys.Key)) (hos : os.Pairwise fun a b => Disjoint (below a.2.2) (below b.2.2)) (k : ℕ) (t : ℝ) (ht : τ k = t)
    (hτ : ∀ j (hj : j < os.length), τ (k + 1 + j) = os[j].2.1) {W : Tape → Hist n X} (hW : Measurable W) {S : Set Site} (hWS : DependsOn W S)
    (hS : ∀ o ∈ os, Disjoint S (below o.2.2)) :
    ∫⁻ ω, Q (fun x => back trans τ h (histRun cat f G thr k t os (W ω) ω) (k + os.length) (Function.update p0 (k + os.length) x)) (histRun cat f G thr k t os (W ω) ω (k + os.length)) ∂ideal
      = ∫⁻ ω, Q (fun x => back trans τ (futurePath Γ h k t (os.map fun o => (o.1, o.2.1))) (W ω) k (Function.update p0 k x)) (W ω k) ∂ideal := by
  induction os generalizing k t W S with
  | nil => rfl
  | cons o os ih =>
    rw [List.pairwise_cons] at hos
    have hL := filterStep_law (n := n) hF thr t o
    have hd := Set.disjoint_of_subset_right (filterSites (n := n) o.2.2) (hS o List.mem_cons_self)
    have hWk : Measurable fun ω => W ω k := (measurable_pi_apply k).comp hW
    have hst : Measurable fun ω => filterStep cat f G thr t o (W ω k) ω := Smc.measurable_next hcat hL hWk
    have hW' : Measurable fun ω => Function.update (W ω) (k + 1) (filterStep cat f G thr t o (W ω k) ω) :=
      (measurable_update' (a := k + 1)).comp (hW.prodMk hst)
    have hWS' : DependsOn (fun ω => Function.update (W ω) (k + 1) (filterStep cat f G thr t o (W ω k) ω)) (S ∪ below o.2.2) := fun ω ω' hω => by
      have e1 := hWS fun s hs => hω s (Or.inl hs)
      have e2 := Smc.redStep_dependsOn (cat := fun w => cat fun i => .fin (w i)) hL (W ω' k) fun s hs => hω s (Or.inr (filterSites _ hs))
      simp only
      rw [e1]
      congr 1
    have hτ1 : τ (k + 1) = o.2.1 := hτ 0 (by simp)
    have h1 := ih hos.2 (k + 1) o.2.1 hτ1 (fun j hj => by
      have := hτ (j + 1) (by simpa using hj)
      rw [show k + 1 + (j + 1) = k + 1 + 1 + j by omega] at this
      simpa using this) hW' hWS' fun o' ho' =>
      Set.disjoint_union_left.mpr ⟨hS o' (List.mem_cons_of_mem _ ho'), hos.1 o' ho'⟩
    have hlen : k + 1 + os.length = k + (o :: os).length := by simp; omega
    rw [hlen] at h1
    refine Eq.trans h1 ?_
    set φ := futurePath Γ h (k + 1) o.2.1 (os.map fun o => (o.1, o.2.1)) with hφd
    have hφ : Measurable φ := measurable_futurePath hF hh _ _ _
    have e1 : ∀ ω, Q (fun x => back trans τ φ (Function.update (W ω) (k + 1) (filterStep cat f G thr t o (W ω k) ω)) (k + 1) (Function.update p0 (k + 1) x))
          (Function.update (W ω) (k + 1) (filterStep cat f G thr t o (W ω k) ω) (k + 1))
        = Q (fun x => back trans τ φ (W ω) (k + 1) (Function.update p0 (k + 1) x)) (filterStep cat f G thr t o (W ω k) ω) := fun ω => Qback_update trans τ φ (W ω) k _ p0
    rw [lintegral_congr e1]
    exact ffbs_step hF hcat htr hΓ thr τ p0 o k t ht hτ1 hW hWS hd hφ

end

/-! ## Backward: one trajectory -/

/-- The filter output that a history stands for. -/
def margOf (τ : ℕ → ℝ) (W : Hist n X) : Marginals X n where
  value s := (W s).1
  t := τ
  logWeight s j := .fin ((W s).2.1 j)

/-- The index drawn for trajectory `i` at time index `ind` when its next state is `x'`. -/
noncomputable def pick [NeZero m] (cat : (Fin n → Fl) → ℝ → Fin n) (trans : X → ℝ → X → ℝ → ℝ) (τ : ℕ → ℝ) (maxRej : ℤ) (bound inflation : ℝ) (key : Keys.Key) (i : Fin m) (ind : ℕ)
    (W : Hist n X) (x' : X) (ω : Tape) : Fin n :=
  stepIdx (tapeRand cat ω) trans (margOf τ W) maxRej bound inflation (· :: key) (fun _ => x') ind i

section
variable [NeZero m] {cat : (Fin n → Fl) → ℝ → Fin n} {trans : X → ℝ → X → ℝ → ℝ} (τ : ℕ → ℝ) {maxRej : ℤ} {bound : ℝ} (inflation : ℝ)
  (hb : 0 < maxRej → ∀ x t x' t', Real.exp (-trans x t x' t') ≤ bound) (key : Keys.Key) (i : Fin m)

omit [MeasurableSpace X] in
include hb in
theorem pos_bound (hR : 0 < maxRej) (x : X) : 0 < bound := (Real.exp_pos _).trans_le (hb hR x 0 x 0)

omit [MeasurableSpace X] in
include hb in
theorem stepIdx_pick (ind : ℕ) (W : Hist n X) (xNext : Fin m → X) (ω : Tape) :
    stepIdx (tapeRand cat ω) trans (margOf τ W) maxRej bound inflation (· :: key) xNext ind i = pick cat trans τ maxRej bound inflation key i ind W (xNext i) ω := by
  unfold pick stepIdx
  dsimp only
  by_cases hR : 0 < maxRej
  · rw [if_pos hR, if_pos hR]
    have h1 := congrFun (rejection_site (cat := cat) (fun j => Fl.fin ((W ind).2.1 j)) (fun i j => trans ((W ind).1 j) (τ ind) (xNext i) (τ (ind + 1))) (pos_bound hb hR (xNext i))
      (fun i j => hb hR _ _ _ _) inflation maxRej (ind :: key) i) ω
    have h2 := congrFun (rejection_site (cat := cat) (fun j => Fl.fin ((W ind).2.1 j)) (fun (_ : Fin m) j => trans ((W ind).1 j) (τ ind) (xNext i) (τ (ind + 1))) (pos_bound hb hR (xNext i))
      (fun i j => hb hR _ _ _ _) inflation maxRej (ind :: key) i) ω
    exact h1.trans h2.symm
  · rw [if_neg hR, if_neg hR]
    rfl

omit [MeasurableSpace X] in
include hb in
theorem pick_prob [NeZero n] (hcat : IsCategorical cat) (ind : ℕ) (W : Hist n X) (x' : X) (j : Fin n) :
    ideal.real {ω | pick cat trans τ maxRej bound inflation key i ind W x' ω = j} = backwardProb (fun j => Real.exp ((W ind).2.1 j)) (potTo trans τ W ind x') j ∧
    MeasurableSet {ω | pick cat trans τ maxRej bound inflation key i ind W x' ω = j} := by
  have hw : ∀ j, Fl.exp (Fl.fin ((W ind).2.1 j)) = .fin (Real.exp ((W ind).2.1 j)) := fun _ => rfl
  have hw0 := sumExp_pos (W ind).2.1
  unfold pick stepIdx
  dsimp only
  by_cases hR : 0 < maxRej
  · simp only [if_pos hR]
    exact rejection_law hcat (fun j => Fl.fin ((W ind).2.1 j)) (fun (_ : Fin m) j => trans ((W ind).1 j) (τ ind) x' (τ (ind + 1))) hw hw0 (pos_bound hb hR x')
      (fun i j => hb hR _ _ _ _) inflation maxRej (ind :: key) i j
  · simp only [if_neg hR]
    exact full_law hcat (fun j => Fl.fin ((W ind).2.1 j)) (fun j => trans ((W ind).1 j) (τ ind) x' (τ (ind + 1))) hw hw0 ((i : ℕ) :: ind :: key, 0) j

omit [MeasurableSpace X] in
include hb in
theorem pick_dependsOn (ind : ℕ) (W : Hist n X) (x' : X) : DependsOn (pick cat trans τ maxRej bound inflation key i ind W x') (below (ind :: key)) := by
  intro ω ω' h
  unfold pick stepIdx
  dsimp only
  by_cases hR : 0 < maxRej
  · rw [if_pos hR, if_pos hR]
    exact rejection_dependsOn (cat := cat) (fun j => Fl.fin ((W ind).2.1 j)) (fun (_ : Fin m) j => trans ((W ind).1 j) (τ ind) x' (τ (ind + 1))) (pos_bound hb hR x')
      (fun i j => hb hR _ _ _ _) inflation maxRej (ind :: key) i fun s hs => h s (particleSites_below _ _ hs)
  · rw [if_neg hR, if_neg hR]
    simp only [full, tapeRand]
    rw [h _ ⟨[(i : ℕ)], rfl⟩]

omit [MeasurableSpace X] in
include hb in
theorem lintegral_pick [NeZero n] (hcat : IsCategorical cat) (ind : ℕ) (W : Hist n X) (x' : X) (ψ : Fin n → ℝ≥0∞) :
    ∫⁻ ω, ψ (pick cat trans τ maxRej bound inflation key i ind W x' ω) ∂ideal
      = ∑ j, ENNReal.ofReal (backwardProb (fun j => Real.exp ((W ind).2.1 j)) (potTo trans τ W ind x') j) * ψ j := by
  have hm : Measurable (pick cat trans τ maxRej bound inflation key i ind W x') := measurable_to_countable' fun j => (pick_prob τ inflation hb key i hcat ind W x' j).2
  rw [← lintegral_map (f := ψ) (measurable_of_finite _) hm, lintegral_fintype]
  refine Finset.sum_congr rfl fun j _ => ?_
  rw [Measure.map_apply hm (measurableSet_singleton j), mul_comm]
  congr 1
  rw [← (pick_prob τ inflation hb key i hcat ind W x' j).1, Measure.real, ENNReal.ofReal_toReal (measure_ne_top _ _)]
  rfl

omit [NeZero m] in
theorem measurable_catAt (hcat : IsCategoricalReal fun (w : Fin n → ℝ) u => cat (fun i => .fin (w i)) u) {Z : Type*} [MeasurableSpace Z] {w : Z → Fin n → ℝ} (hw : Measurable w) {u : Z → ℝ} (hu : Measurable u) :
    Measurable fun z => cat (fun j => .fin (w z j)) (u z) :=
  hcat.measurable.comp (hw.prodMk hu)

omit [NeZero m] in
theorem measurable_rejects_ite {Z : Type*} [MeasurableSpace Z] {B : ℝ} (hB : 0 < B) {u d : Z → ℝ} (hu : Measurable u) (hd : Measurable d) {a b : Z → Fin n} (ha : Measurable a) (hb : Measurable b) :
    Measurable fun z => (open Classical in if Rejects (u z) (d z) B then a z else b z) := by
  classical
  have e : {z | Rejects (u z) (d z) B} = {z | d z / B < u z} := by ext z; simp [Rejects, hB.ne']
  refine Measurable.ite ?_ ha hb
  rw [e]
  exact measurableSet_lt (hd.div_const B) hu

omit [NeZero m] in
theorem measurable_attempts (hcat : IsCategoricalReal fun (w : Fin n → ℝ) u => cat (fun i => .fin (w i)) u) {B : ℝ} (hB : 0 < B) {Z : Type*} [MeasurableSpace Z] {w pot : Z → Fin n → ℝ}
    (hw : Measurable w) (hp : Measurable pot) {T : Z → Tape} (hT : Measurable T) (N : ℕ) (k : Keys.Key) :
    Measurable fun z => attempts (tapeRand (m := m) cat (T z)) (fun j => .fin (w z j)) (pot z) B N k := by
  have hs : ∀ s : Site, Measurable fun z => T z s := fun s => (measurable_pi_apply s).comp hT
  induction N generalizing k with
  | zero =>
    have h1 : Measurable fun z => fun j => w z j + -pot z j := measurable_pi_lambda _ fun j => ((measurable_pi_apply j).comp hw).add ((measurable_pi_apply j).comp hp).neg
    exact measurable_catAt hcat h1 (hs (k, 0))
  | succ N ih =>
    have h1 : Measurable fun z => cat (fun j => .fin (w z j)) (T z (1 :: k, 0)) := measurable_catAt hcat hw (hs _)
    have h2 : Measurable fun z => Real.exp (-pot z (cat (fun j => .fin (w z j)) (T z (1 :: k, 0)))) := Real.measurable_exp.comp (Smc.measurable_apply_fin hp h1).neg
    exact measurable_rejects_ite hB (hs (2 :: k, 0)) h2 (ih (0 :: k)) h1

include hb in
theorem measurable_pick (hcat : IsCategoricalReal fun (w : Fin n → ℝ) u => cat (fun i => .fin (w i)) u) (htr : ∀ t t', Measurable fun z : X × X => trans z.1 t z.2 t') (x0 : X) (ind : ℕ)
    {Z : Type*} [MeasurableSpace Z] {W : Z → Hist n X} (hW : Measurable W) {x' : Z → X} (hx : Measurable x') {T : Z → Tape} (hT : Measurable T) :
    Measurable fun z => pick cat trans τ maxRej bound inflation key i ind (W z) (x' z) (T z) := by
  have hs : ∀ s : Site, Measurable fun z => T z s := fun s => (measurable_pi_apply s).comp hT
  have hw : Measurable fun z => (W z ind).2.1 := measurable_fst.comp (measurable_snd.comp ((measurable_pi_apply ind).comp hW))
  have hp : Measurable fun z => potTo trans τ (W z) ind (x' z) := (measurable_potTo htr τ ind).comp (hW.prodMk hx)
  by_cases hR : 0 < maxRej
  · have e : (fun z => pick cat trans τ maxRej bound inflation key i ind (W z) (x' z) (T z)) = fun z => (open Classical in
        if Rejects (T z (1 :: ind :: key, (i : ℕ))) (Real.exp (-potTo trans τ (W z) ind (x' z) (cat (fun j => .fin ((W z ind).2.1 j)) (T z (0 :: ind :: key, (i : ℕ)))))) bound then
          attempts (tapeRand (m := m) cat (T z)) (fun j => .fin ((W z ind).2.1 j)) (potTo trans τ (W z) ind (x' z)) bound (maxRej - 1).toNat ((i : ℕ) :: 2 :: ind :: key)
        else cat (fun j => .fin ((W z ind).2.1 j)) (T z (0 :: ind :: key, (i : ℕ)))) := by
      funext z
      unfold pick stepIdx
      dsimp only
      rw [if_pos hR]
      exact congrFun (rejection_site (cat := cat) (fun j => Fl.fin ((W z ind).2.1 j)) (fun (_ : Fin m) => potTo trans τ (W z) ind (x' z)) (pos_bound hb hR x0)
        (fun i j => hb hR _ _ _ _) inflation maxRej (ind :: key) i) (T z)
    rw [e]
    have h1 : Measurable fun z => cat (fun j => .fin ((W z ind).2.1 j)) (T z (0 :: ind :: key, (i : ℕ))) := measurable_catAt hcat hw (hs _)
    have h2 : Measurable fun z => Real.exp (-potTo trans τ (W z) ind (x' z) (cat (fun j => .fin ((W z ind).2.1 j)) (T z (0 :: ind :: key, (i : ℕ))))) :=
      Real.measurable_exp.comp (Smc.measurable_apply_fin hp h1).neg
    exact measurable_rejects_ite (pos_bound hb hR x0) (hs _) h2 (measurable_attempts hcat (pos_bound hb hR x0) hw hp hT _ _) h1
  · have e : (fun z => pick cat trans τ maxRej bound inflation key i ind (W z) (x' z) (T z)) = fun z =>
        cat (fun j => .fin ((W z ind).2.1 j + -potTo trans τ (W z) ind (x' z) j)) (T z ((i : ℕ) :: ind :: key, 0)) := by
      funext z
      unfold pick stepIdx
      dsimp only
      rw [if_neg hR]
      rfl
    rw [e]
    have h1 : Measurable fun z => fun j => (W z ind).2.1 j + -potTo trans τ (W z) ind (x' z) j :=
      measurable_pi_lambda _ fun j => ((measurable_pi_apply j).comp hw).add ((measurable_pi_apply j).comp hp).neg
    exact measurable_catAt hcat h1 (hs _)

/-- The path of trajectory `i`, filled `k` steps back from the last time index `L`. -/
noncomputable def pathFrom (cat : (Fin n → Fl) → ℝ → Fin n) (trans : X → ℝ → X → ℝ → ℝ) (τ : ℕ → ℝ) (maxRej : ℤ) (bound inflation : ℝ) (key : Keys.Key) (i : Fin m) (L : ℕ) (p0 : ℕ → X)
    (W : Hist n X) (ω : Tape) : ℕ → ℕ → X
  | 0 => Function.update p0 L ((W L).1 (cat (fun j => .fin ((W L).2.1 j)) (ω (L :: key, (i : ℕ)))))
  | k + 1 => Function.update (pathFrom cat trans τ maxRej bound inflation key i L p0 W ω k) (L - (k + 1))
      ((W (L - (k + 1))).1 (pick cat trans τ maxRej bound inflation key i (L - (k + 1)) W (pathFrom cat trans τ maxRej bound inflation key i L p0 W ω k (L - k)) ω))

omit [MeasurableSpace X] in
include hb in
theorem pathFrom_eq (L : ℕ) (p0 : ℕ → X) (W : Hist n X) (ω : Tape) (k : ℕ) (hk : k ≤ L) (s : ℕ) (hs : L - k ≤ s) (hsL : s ≤ L) :
    pathFrom cat trans τ maxRej bound inflation key i L p0 W ω k s
      = (W s).1 (pathBack (tapeRand cat ω) trans (margOf τ W) (L + 1) maxRej bound inflation (· :: key) (L - s) i) := by
  induction k generalizing s with
  | zero =>
    obtain rfl : s = L := by omega
    rw [pathFrom, Function.update_self, Nat.sub_self]
    rfl
  | succ k ih =>
    rw [pathFrom]
    by_cases h : s = L - (k + 1)
    · subst h
      rw [Function.update_self, show L - (L - (k + 1)) = k + 1 by omega, pathBack, Nat.add_sub_cancel, stepIdx_pick τ inflation hb key i, ih (by omega) (L - k) le_rfl (by omega),
        show L - (L - k) = k by omega]
      rfl
    · rw [Function.update_of_ne h]
      exact ih (by omega) s (by omega) hsL

include hb in
theorem measurable_pathFrom (hcat : IsCategoricalReal fun (w : Fin n → ℝ) u => cat (fun i => .fin (w i)) u) (htr : ∀ t t', Measurable fun z : X × X => trans z.1 t z.2 t')
    (L : ℕ) (p0 : ℕ → X) (k : ℕ) : Measurable fun z : Hist n X × Tape => pathFrom cat trans τ maxRej bound inflation key i L p0 z.1 z.2 k := by
  have hWs : ∀ s, Measurable fun z : Hist n X × Tape => (z.1 s).1 := fun s => measurable_fst.comp ((measurable_pi_apply s).comp measurable_fst)
  induction k with
  | zero =>
    have hw : Measurable fun z : Hist n X × Tape => (z.1 L).2.1 := measurable_fst.comp (measurable_snd.comp ((measurable_pi_apply L).comp measurable_fst))
    have h1 : Measurable fun z : Hist n X × Tape => cat (fun j => .fin ((z.1 L).2.1 j)) (z.2 (L :: key, (i : ℕ))) := measurable_catAt hcat hw ((measurable_pi_apply _).comp measurable_snd)
    have hu : Measurable fun x : X => Function.update p0 L x := measurable_update p0
    exact hu.comp (Smc.measurable_apply_fin (hWs L) h1)
  | succ k ih =>
    have h1 : Measurable fun z : Hist n X × Tape =>
        pick cat trans τ maxRej bound inflation key i (L - (k + 1)) z.1 (pathFrom cat trans τ maxRej bound inflation key i L p0 z.1 z.2 k (L - k)) z.2 :=
      measurable_pick τ inflation hb key i hcat htr (p0 0) (L - (k + 1)) measurable_fst ((measurable_pi_apply (L - k)).comp ih) measurable_snd
    exact (measurable_update' (a := L - (k + 1))).comp (ih.prodMk (Smc.measurable_apply_fin (hWs (L - (k + 1))) h1))

omit [MeasurableSpace X] in
include hb in
theorem pathFrom_dependsOn (L : ℕ) (p0 : ℕ → X) (W : Hist n X) (k : ℕ) :
    DependsOn (fun ω => pathFrom cat trans τ maxRej bound inflation key i L p0 W ω k) {s | ∃ j ≤ k, s ∈ below ((L - j) :: key)} := by
  induction k with
  | zero =>
    intro ω ω' h
    simp only [pathFrom]
    rw [h (L :: key, (i : ℕ)) ⟨0, le_rfl, [], rfl⟩]
  | succ k ih =>
    intro ω ω' h
    have e1 := ih fun s hs => h s (by obtain ⟨j, hj, hs⟩ := hs; exact ⟨j, by omega, hs⟩)
    simp only [pathFrom] at e1 ⊢
    rw [e1, pick_dependsOn τ inflation hb key i (L - (k + 1)) W _ fun s hs => h s ⟨k + 1, le_rfl, hs⟩]

include hb in
/-- Averaged over its draws, the trajectory gives the average over the backward chain from the particles at the last time. -/
theorem lintegral_pathFrom [NeZero n] (hcat : IsCategorical cat) (hcatR : IsCategoricalReal fun (w : Fin n → ℝ) u => cat (fun i => .fin (w i)) u)
    (htr : ∀ t t', Measurable fun z : X × X => trans z.1 t z.2 t') {φ : (ℕ → X) → ℝ≥0∞} (hφ : Measurable φ) (L : ℕ) (p0 : ℕ → X) (W : Hist n X) (k : ℕ) (hk : k ≤ L) :
    ∫⁻ ω, back trans τ φ W (L - k) (pathFrom cat trans τ maxRej bound inflation key i L p0 W ω k) ∂ideal
      = ∑ j, ENNReal.ofReal (Real.exp ((W L).2.1 j) / ∑ l, Real.exp ((W L).2.1 l)) * back trans τ φ W L (Function.update p0 L ((W L).1 j)) := by
  induction k with
  | zero =>
    have hcm : Measurable fun ω : Tape => cat (fun j => .fin ((W L).2.1 j)) (ω (L :: key, (i : ℕ))) := measurable_catAt hcatR measurable_const (measurable_pi_apply _)
    simp only [pathFrom, Nat.sub_zero]
    rw [← lintegral_map (f := fun j => back trans τ φ W L (Function.update p0 L ((W L).1 j))) (measurable_of_finite _) hcm, lintegral_fintype]
    refine Finset.sum_congr rfl fun j _ => ?_
    rw [Measure.map_apply hcm (measurableSet_singleton j), mul_comm]
    congr 1
    rw [← hcatR.prob (W L).2.1 j]
    exact site (L :: key, (i : ℕ)) ((hcat.measurable _) (measurableSet_singleton j))
  | succ k ih =>
    rw [← ih (by omega)]
    set ind := L - (k + 1) with hind
    have hi1 : L - k = ind + 1 := by omega
    have hWm : Measurable fun ω : Tape => (W, ω) := measurable_prodMk_left
    have hpm : Measurable fun ω => pathFrom cat trans τ maxRej bound inflation key i L p0 W ω k := (measurable_pathFrom τ inflation hb key i hcatR htr L p0 k).comp hWm
    have hdis : Disjoint {s : Site | ∃ j ≤ k, s ∈ below ((L - j) :: key)} (below (ind :: key)) := by
      rw [Set.disjoint_left]
      rintro s ⟨j, hj, h1⟩ h2
      exact Set.disjoint_left.mp (below_disjoint (by omega)) h1 h2
    have hgm : Measurable (Function.uncurry fun (p : ℕ → X) (ω : Tape) => back trans τ φ W ind (Function.update p ind ((W ind).1 (pick cat trans τ maxRej bound inflation key i ind W (p (ind + 1)) ω)))) := by
      have h1 : Measurable fun z : (ℕ → X) × Tape => pick cat trans τ maxRej bound inflation key i ind W (z.1 (ind + 1)) z.2 :=
        measurable_pick τ inflation hb key i hcatR htr (p0 0) ind (W := fun _ => W) measurable_const ((measurable_pi_apply (ind + 1)).comp measurable_fst) measurable_snd
      have h2 : Measurable fun z : (ℕ → X) × Tape => Function.update z.1 ind ((W ind).1 (pick cat trans τ maxRej bound inflation key i ind W (z.1 (ind + 1)) z.2)) :=
        (measurable_update' (a := ind)).comp (measurable_fst.prodMk (Smc.measurable_apply_fin (f := fun _ => (W ind).1) measurable_const h1))
      have h3 : Measurable fun z : (ℕ → X) × Tape => (W, Function.update z.1 ind ((W ind).1 (pick cat trans τ maxRej bound inflation key i ind W (z.1 (ind + 1)) z.2))) := measurable_const.prodMk h2
      have h4 := (measurable_back htr τ hφ ind).comp h3
      exact h4
    have hf := fresh hdis (f := fun ω => pathFrom cat trans τ maxRej bound inflation key i L p0 W ω k)
      (g := fun (p : ℕ → X) (ω : Tape) => back trans τ φ W ind (Function.update p ind ((W ind).1 (pick cat trans τ maxRej bound inflation key i ind W (p (ind + 1)) ω))))
      hpm (pathFrom_dependsOn τ inflation hb key i L p0 W k) hgm
      (fun p ω ω' h => congrArg (fun j => back trans τ φ W ind (Function.update p ind ((W ind).1 j))) (pick_dependsOn τ inflation hb key i ind W (p (ind + 1)) h))
    simp only [pathFrom, ← hind, hi1]
    refine hf.trans (lintegral_congr fun ω => ?_)
    exact lintegral_pick τ inflation hb key i hcat ind W _ fun j => back trans τ φ W ind (Function.update _ ind ((W ind).1 j))

end

/-! ## The whole algorithm -/

/-- A function of paths of any length, measurable at each length. -/
def PathMeasurable (h : List X → ℝ≥0∞) : Prop := ∀ k, Measurable fun v : Fin k → X => h (List.ofFn v)

/-- From state `x` at time `t`, after the states `l`: the integral of `h` of the whole path over the weighted law of the states to come. -/
noncomputable def pathIntegral (Γ : X → ℝ → Obs dy → ℝ → Measure X) (h : List X → ℝ≥0∞) : ℝ → List (Obs dy × ℝ) → List X → X → ℝ≥0∞
  | _, [], l, x => h (l ++ [x])
  | t, (y, t') :: os, l, x => ∫⁻ x', pathIntegral Γ h t' os (l ++ [x]) x' ∂(Γ x t y t')

/-- `h` of the first `L + 1` states of a sequence. -/
def onPath (h : List X → ℝ≥0∞) (L : ℕ) (p : ℕ → X) : ℝ≥0∞ := h ((List.range (L + 1)).map p)

theorem measurable_onPath {h : List X → ℝ≥0∞} (hh : PathMeasurable h) (L : ℕ) : Measurable (onPath h L) := by
  have e : onPath h L = fun p : ℕ → X => h (List.ofFn fun s : Fin (L + 1) => p s) := by
    funext p
    unfold onPath
    congr 1
    refine List.ext_getElem (by simp) fun i h1 h2 => ?_
    rw [List.getElem_map, List.getElem_range, List.getElem_ofFn]
  rw [e]
  have h1 : Measurable fun p : ℕ → X => fun s : Fin (L + 1) => p s := measurable_pi_lambda _ fun s => measurable_pi_apply (s : ℕ)
  exact (hh (L + 1)).comp h1

theorem futurePath_eq (Γ : X → ℝ → Obs dy → ℝ → Measure X) (h : List X → ℝ≥0∞) (L : ℕ) (os : List (Obs dy × ℝ)) (k : ℕ) (hk : k + os.length = L) (t : ℝ) (p : ℕ → X) :
    futurePath Γ (onPath h L) k t os p = pathIntegral Γ h t os ((List.range k).map p) (p k) := by
  induction os generalizing k t p with
  | nil =>
    obtain rfl : k = L := by simpa using hk
    simp only [futurePath, pathIntegral, onPath, List.range_succ, List.map_append, List.map_cons, List.map_nil]
  | cons o os ih =>
    simp only [futurePath, pathIntegral]
    refine lintegral_congr fun x' => ?_
    rw [ih (k + 1) (by simp at hk; omega) o.2, Function.update_self, List.range_succ, List.map_append]
    congr 1
    congr 1
    · refine List.map_congr_left fun s hs => ?_
      rw [List.mem_range] at hs
      exact Function.update_of_ne (by omega) _ _
    · simp

section
variable [NeZero n] {cat : (Fin n → Fl) → ℝ → Fin n} {f : Tape → Filter X Keys.Key dy} {G0 : X → Obs dy → ℝ → ℝ} {G : X → ℝ → X → Obs dy → ℝ → ℝ}
  {Γ0 : Obs dy → ℝ → Measure X} {Γ : X → ℝ → Obs dy → ℝ → Measure X} (hF : FilterLaw f G0 G Γ0 Γ)

omit [MeasurableSpace X] [NeZero n] in
theorem histRun_old (thr : ℝ) (os : List (Obs dy × ℝ × Keys.Key)) (k : ℕ) (t : ℝ) (W : Hist n X) (ω : Tape) (l : ℕ) (hl : l ≤ k) : histRun cat f G thr k t os W ω l = W l := by
  induction os generalizing k t W with
  | nil => rfl
  | cons o os ih => rw [histRun, ih (k + 1) _ _ (by omega), Function.update_of_ne (by omega)]

include hF in
/-- The slices reported by the filter are those of the history. -/
theorem histRun_slices (thr : ℝ) (os : List (Obs dy × ℝ × Keys.Key)) (k : ℕ) (t : ℝ) (y : Obs dy) (W : Hist n X) (ω : Tape) :
    ∃ yy : ℕ → Obs dy, (scan (fun s o => (body (tapeEnv cat ω) (f ω) thr s o, body (tapeEnv cat ω) (f ω) thr s o)) (sliceOf (W k) t y) os).2
      = os.mapIdx fun j o => sliceOf (histRun cat f G thr k t os W ω (k + 1 + j)) o.2.1 (yy j) := by
  induction os generalizing k t y W with
  | nil => exact ⟨fun _ => y, rfl⟩
  | cons o os ih =>
    obtain ⟨yy, h⟩ := ih (k + 1) o.2.1 o.1 (Function.update W (k + 1) (filterStep cat f G thr t o (W k) ω))
    refine ⟨fun j => if j = 0 then o.1 else yy (j - 1), ?_⟩
    rw [scan]
    simp only
    rw [body_red hF, List.mapIdx_cons]
    rw [Function.update_self] at h
    rw [h]
    congr 1
    · rw [histRun, Nat.add_zero, histRun_old _ _ _ _ _ _ _ le_rfl, Function.update_self]
      rfl
    · refine congrArg (fun g => List.mapIdx g os) ?_
      funext j o'
      simp only [histRun, Nat.add_eq_zero_iff, one_ne_zero, and_false, if_false, Nat.add_sub_cancel]
      rw [show k + 1 + 1 + j = k + 1 + (j + 1) by omega]

include hF in
/-- The likelihood estimate of the filter is the normalising constant of the last ensemble. -/
theorem histRun_estimate (thr : ℝ) (os : List (Obs dy × ℝ × Keys.Key)) (k : ℕ) (t : ℝ) (y : Obs dy) (W : Hist n X) (ω : Tape) :
    ENNReal.ofReal (Real.exp (W k).2.2) * sliceEstimate thr (fun _ => 1) (sliceOf (W k) t y)
        (scan (fun s o => (body (tapeEnv cat ω) (f ω) thr s o, body (tapeEnv cat ω) (f ω) thr s o)) (sliceOf (W k) t y) os).2
      = ENNReal.ofReal (Real.exp (histRun cat f G thr k t os W ω (k + os.length)).2.2) := by
  induction os generalizing k t y W with
  | nil =>
    simp only [scan, sliceEstimate, histRun, List.length_nil, Nat.add_zero, mul_one]
    rw [← ENNReal.ofReal_sum_of_nonneg fun i _ => div_nonneg (by unfold sliceOf weightOf; positivity) (totalWeight_nonneg _), ← Finset.sum_div]
    have hp := sumExp_pos (W k).2.1
    have : (∑ i, weightOf ((sliceOf (W k) t y).logWeight i)) / totalWeight (sliceOf (W k) t y).logWeight = 1 := div_self hp.ne'
    rw [this, ENNReal.ofReal_one, mul_one]
  | cons o os ih =>
    have h := ih (k + 1) o.2.1 o.1 (Function.update W (k + 1) (filterStep cat f G thr t o (W k) ω))
    rw [Function.update_self] at h
    rw [scan]
    simp only
    rw [body_red hF, sliceEstimate_cons, h, histRun, List.length_cons, show k + 1 + os.length = k + (os.length + 1) by omega]

omit [NeZero n] in
include hF in
theorem measurable_histRun (hcat : IsCategoricalReal fun (w : Fin n → ℝ) u => cat (fun i => .fin (w i)) u) (thr : ℝ) (os : List (Obs dy × ℝ × Keys.Key)) (k : ℕ) (t : ℝ) {W : Tape → Hist n X}
    (hW : Measurable W) : Measurable fun ω => histRun cat f G thr k t os (W ω) ω := by
  induction os generalizing k t W with
  | nil => exact hW
  | cons o os ih =>
    have hWk : Measurable fun ω => W ω k := (measurable_pi_apply k).comp hW
    have hst : Measurable fun ω => filterStep cat f G thr t o (W ω k) ω := Smc.measurable_next hcat (filterStep_law (n := n) hF thr t o) hWk
    exact ih (k + 1) o.2.1 ((measurable_update' (a := k + 1)).comp (hW.prodMk hst))

omit [NeZero n] in
include hF in
theorem histRun_dependsOn (thr : ℝ) (os : List (Obs dy × ℝ × Keys.Key)) (k : ℕ) (t : ℝ) {W : Tape → Hist n X} {S : Set Site} (hWS : DependsOn W S) (hS : ∀ o ∈ os, below o.2.2 ⊆ S) :
    DependsOn (fun ω => histRun cat f G thr k t os (W ω) ω) S := by
  induction os generalizing k t W with
  | nil => exact hWS
  | cons o os ih =>
    refine ih (k + 1) o.2.1 (W := fun ω => Function.update (W ω) (k + 1) (filterStep cat f G thr t o (W ω k) ω)) (fun ω ω' hω => ?_) fun o' ho' => hS o' (List.mem_cons_of_mem _ ho')
    have e1 := hWS hω
    have e2 := Smc.redStep_dependsOn (cat := fun w => cat fun i => .fin (w i)) (filterStep_law (n := n) hF thr t o) (W ω' k) fun s hs => hω s (hS o List.mem_cons_self (filterSites _ hs))
    simp only
    rw [e1]
    congr 1

omit [MeasurableSpace X] [NeZero n] in
theorem histRun_new (thr : ℝ) (os : List (Obs dy × ℝ × Keys.Key)) (k : ℕ) (t : ℝ) (W : Hist n X) (ω : Tape) (l : ℕ) (hl : k + os.length < l) : histRun cat f G thr k t os W ω l = W l := by
  induction os generalizing k t W with
  | nil => rfl
  | cons o os ih =>
    rw [List.length_cons] at hl
    rw [histRun, ih (k + 1) _ _ (by omega), Function.update_of_ne (by omega)]

omit [MeasurableSpace X] [NeZero n] in
/-- The arrays of the filter's output are those of the history. -/
theorem marginalsOf_hist (thr : ℝ) (os : List (Obs dy × ℝ × Keys.Key)) (t0 : ℝ) (y0 : Obs dy) (R : Red n X) (ω : Tape) (yy : ℕ → Obs dy) (ts : List ℝ) (hts : os.map (fun o => o.2.1) = ts) :
    marginalsOf (ofSlices (sliceOf R t0 y0) (os.mapIdx fun j o => sliceOf (histRun cat f G thr 0 t0 os (fun _ => R) ω (0 + 1 + j)) o.2.1 (yy j)))
      = some (margOf (fun s => (t0 :: ts).getD s t0) (histRun cat f G thr 0 t0 os (fun _ => R) ω)) := by
  set WL := histRun cat f G thr 0 t0 os (fun _ => R) ω with hWL
  have h0 : WL 0 = R := histRun_old _ _ _ _ _ _ _ le_rfl
  have hbig : ∀ j, os.length ≤ j → WL (j + 1) = R := fun j hj => histRun_new _ _ _ _ _ _ _ (by omega)
  have key : ∀ {α : Type} (g : Slice X n dy → α) (g' : Red n X → α), (∀ R t y, g (sliceOf R t y) = g' R) → ∀ s,
      (((sliceOf R t0 y0) :: os.mapIdx fun j o => sliceOf (WL (0 + 1 + j)) o.2.1 (yy j)).map g).getD s (g (sliceOf R t0 y0)) = g' (WL s) := by
    intro α g g' hg s
    cases s with
    | zero => simp [hg, h0]
    | succ j =>
      by_cases hj : j < os.length
      · rw [List.getD_eq_getElem _ _ (by simpa using hj)]
        simp only [List.map_cons, List.getElem_cons_succ, List.getElem_map, List.getElem_mapIdx, hg]
        rw [show 0 + 1 + j = j + 1 by omega]
      · rw [List.getD_eq_default _ _ (by simpa using hj), hg, hbig j (by omega)]
  have ht : (os.mapIdx fun j o => sliceOf (WL (0 + 1 + j)) o.2.1 (yy j)).map Slice.t = ts := by
    rw [← hts]
    refine List.ext_getElem (by simp) fun i h1 h2 => ?_
    rw [List.getElem_map, List.getElem_mapIdx, List.getElem_map]
    rfl
  have hv := key Slice.value (fun R => R.1) fun _ _ _ => rfl
  have hl := key Slice.logWeight (fun R j => .fin (R.2.1 j)) fun _ _ _ => rfl
  unfold marginalsOf ofSlices margOf
  simp only [List.map_cons] at hv hl ⊢
  rw [ht]
  congr 2
  · exact funext hv
  · exact funext hl

include hF in
/-- C91 for any filter with properly weighted proposals: forward filtering backward simulation succeeds, and for each returned trajectory the expectation of (likelihood estimate of its filter × `h` of the
trajectory) is the integral of `h` over the weighted law of the whole path. -/
theorem C91_proper [NeZero m] (hcat : IsCategorical cat) (hcatR : IsCategoricalReal fun (w : Fin n → ℝ) u => cat (fun i => .fin (w i)) u) {trans : X → ℝ → X → ℝ → ℝ}
    (htr : ∀ t t', Measurable fun z : X × X => trans z.1 t z.2 t') {ρ : ℝ → Obs dy → ℝ → Measure X}
    (hΓ : ∀ x t y t', Γ x t y t' = (ρ t y t').withDensity fun x' => ENNReal.ofReal (Real.exp (-trans x t x' t')))
    (thr : ℝ) (y0 : Obs dy) (ys : List (Obs dy)) (t0 : ℝ) (ts : List ℝ) (hlen : ts.length = ys.length) (maxRej : ℤ) (bound inflation : ℝ)
    (hb : 0 < maxRej → ∀ x t x' t', Real.exp (-trans x t x' t') ≤ bound) (key : Keys.Key) {h : List X → ℝ≥0∞} (hh : PathMeasurable h) :
    ∃ (pf : Tape → Particles X n dy) (paths : Tape → List (Fin m → X)),
      (∀ ω, run (tapeEnv cat ω) (f ω) thr (y0 :: ys) (t0 :: ts) (0 :: key) = some (pf ω)) ∧
      (∀ ω, (ffbsi (fun k => (0 :: k, 1 :: k)) (fun k s => s :: k) (tapeEnv cat ω) (f ω) (tapeRand cat ω) trans thr (y0 :: ys) (t0 :: ts) maxRej bound inflation key).map Prod.fst = some (paths ω)) ∧
      (∀ ω, (paths ω).length = ys.length + 1) ∧
      ∀ i, ∫⁻ ω, ENNReal.ofReal (likelihoodEstimate thr (pf ω)) * h ((paths ω).map fun x => x i) ∂ideal = ∫⁻ x, pathIntegral Γ h t0 (ys.zip ts) [] x ∂(Γ0 y0 t0) := by
  obtain ⟨hk1, hk2, hk3⟩ := zip_keys ys ts hlen (0 :: 0 :: key) (tapeEnv cat (fun _ => 0)) (fun _ _ _ => rfl)
  set os := withKeys (tapeEnv cat (fun _ => 0)) ys ts (0 :: 0 :: key) with hos
  set L := os.length with hL
  have hLy : L = ys.length := by
    have := congrArg List.length hk1
    simpa [hlen] using this
  have hts : os.map (fun o => o.2.1) = ts := by
    have := congrArg (List.map Prod.snd) hk1
    rw [List.map_map, List.map_snd_zip (by omega)] at this
    exact this
  set τ : ℕ → ℝ := fun s => (t0 :: ts).getD s t0 with hτ
  set W0 : Tape → Hist n X := fun ω _ => startRed f G0 y0 t0 (1 :: 0 :: key) ω with hW0
  set WL : Tape → Hist n X := fun ω => histRun cat f G thr 0 t0 os (W0 ω) ω with hWL
  set p0 : ℕ → X := fun _ => (f fun _ => 0).initialSample y0 t0 [] with hp0
  set φ := onPath h L with hφd
  have hφ : Measurable φ := measurable_onPath hh L
  set slices : Tape → List (Slice X n dy) := fun ω =>
    (scan (fun s o => (body (tapeEnv cat ω) (f ω) thr s o, body (tapeEnv cat ω) (f ω) thr s o)) (sliceOf (startRed f G0 y0 t0 (1 :: 0 :: key) ω) t0 y0) os).2 with hsl
  set path : Fin m → Tape → ℕ → X := fun i ω => pathFrom cat trans τ maxRej bound inflation (1 :: key) i L p0 (WL ω) ω L with hpath
  have hrun : ∀ ω, run (tapeEnv cat ω) (f ω) thr (y0 :: ys) (t0 :: ts) (0 :: key) = some (ofSlices (sliceOf (startRed f G0 y0 t0 (1 :: 0 :: key) ω) t0 y0) (slices ω)) := fun ω =>
    run_slices hF thr y0 ys t0 ts (0 :: key) ω
  have hslen : ∀ ω, (slices ω).length = L := fun ω => by
    obtain ⟨yy, hy⟩ := histRun_slices (cat := cat) hF thr os 0 t0 y0 (W0 ω) ω
    exact (congrArg List.length hy).trans (by simp [hL])
  have hmarg : ∀ ω, marginalsOf (ofSlices (sliceOf (startRed f G0 y0 t0 (1 :: 0 :: key) ω) t0 y0) (slices ω)) = some (margOf τ (WL ω)) := fun ω => by
    obtain ⟨yy, hy⟩ := histRun_slices (cat := cat) hF thr os 0 t0 y0 (W0 ω) ω
    have e : slices ω = _ := hy
    rw [e]
    exact marginalsOf_hist thr os t0 y0 _ ω yy ts hts
  refine ⟨fun ω => ofSlices (sliceOf (startRed f G0 y0 t0 (1 :: 0 :: key) ω) t0 y0) (slices ω), fun ω => (List.range (L + 1)).map fun s i => path i ω s, hrun, fun ω => ?_, fun ω => by simp [hLy], fun i => ?_⟩
  · unfold ffbsi
    simp only [hrun ω, hmarg ω, Option.bind_eq_bind, Option.bind_some, Option.map_some]
    congr 1
    have hTl : (ofSlices (sliceOf (startRed f G0 y0 t0 (1 :: 0 :: key) ω) t0 y0) (slices ω)).value.length = L + 1 := by simp [ofSlices, hslen]
    rw [hTl, returned_pathBack _ _ _ _ (by omega)]
    refine List.map_congr_left fun s hs => funext fun i => ?_
    rw [List.mem_range] at hs
    exact (pathFrom_eq τ inflation hb (1 :: key) i L p0 (WL ω) ω L le_rfl s (by omega) (by omega)).symm
  · have e1 : ∀ ω, ENNReal.ofReal (likelihoodEstimate thr (ofSlices (sliceOf (startRed f G0 y0 t0 (1 :: 0 :: key) ω) t0 y0) (slices ω))) * h (((List.range (L + 1)).map fun s i => path i ω s).map fun x => x i)
        = ENNReal.ofReal (Real.exp (WL ω L).2.2) * φ (pathFrom cat trans τ maxRej bound inflation (1 :: key) i L p0 (WL ω) ω L) := fun ω => by
      have h1 := likelihood_slices (f := f) (G0 := G0) thr (fun _ => 1) y0 t0 (1 :: 0 :: key) ω (slices ω)
      have h2 := histRun_estimate (cat := cat) hF thr os 0 t0 y0 (W0 ω) ω
      have h3 := weightedMean_one (cat := cat) hF thr t0 y0 (startRed f G0 y0 t0 (1 :: 0 :: key) ω) ω os
      rw [Nat.zero_add] at h2
      have h4 := h1.trans h2
      rw [h3, mul_one] at h4
      rw [h4, List.map_map]
      rfl
    have hWm : Measurable WL := measurable_histRun hF hcatR thr os 0 t0 (measurable_pi_lambda _ fun _ => measurable_startRed hF y0 t0 (1 :: 0 :: key))
    have hW0d : DependsOn W0 (below (1 :: 0 :: key)) := fun ω ω' hω => funext fun _ => startRed_dependsOn hF y0 t0 (1 :: 0 :: key) hω
    have hWd : DependsOn WL (below (0 :: key)) := histRun_dependsOn hF thr os 0 t0 (fun ω ω' hω => hW0d fun s hs => hω s (mem_below_cons hs)) fun o ho s hs => by
      obtain ⟨i, hi⟩ := hk3 o ho
      rw [hi] at hs
      exact mem_below_cons (mem_below_cons hs)
    have hgm : Measurable (Function.uncurry fun (W : Hist n X) (ω : Tape) => ENNReal.ofReal (Real.exp (W L).2.2) * φ (pathFrom cat trans τ maxRej bound inflation (1 :: key) i L p0 W ω L)) := by
      have h1 : Measurable fun z : Hist n X × Tape => (z.1 L).2.2 := measurable_snd.comp (measurable_snd.comp ((measurable_pi_apply L).comp measurable_fst))
      exact (ENNReal.measurable_ofReal.comp (Real.measurable_exp.comp h1)).mul (hφ.comp (measurable_pathFrom τ inflation hb (1 :: key) i hcatR htr L p0 L))
    have e2 := fresh (below_disjoint (k := key) (show (0 : ℕ) ≠ 1 by omega)) (f := WL)
      (g := fun W ω => ENNReal.ofReal (Real.exp (W L).2.2) * φ (pathFrom cat trans τ maxRej bound inflation (1 :: key) i L p0 W ω L)) hWm hWd hgm fun W ω ω' hω => by
        have := pathFrom_dependsOn (cat := cat) τ inflation hb (1 :: key) i L p0 W L (x := ω) (y := ω') fun s hs => by
          obtain ⟨j, -, hs⟩ := hs
          exact hω s (mem_below_cons hs)
        simp only at this ⊢
        rw [this]
    rw [lintegral_congr e1, e2]
    have e3 : ∀ ω, ∫⁻ ω', ENNReal.ofReal (Real.exp (WL ω L).2.2) * φ (pathFrom cat trans τ maxRej bound inflation (1 :: key) i L p0 (WL ω) ω' L) ∂ideal
        = Q (fun x => back trans τ φ (WL ω) L (Function.update p0 L x)) (WL ω L) := fun ω => by
      have hm : Measurable fun ω' => φ (pathFrom cat trans τ maxRej bound inflation (1 :: key) i L p0 (WL ω) ω' L) := by
        have h1 : Measurable fun ω' : Tape => (WL ω, ω') := measurable_prodMk_left
        exact hφ.comp ((measurable_pathFrom τ inflation hb (1 :: key) i hcatR htr L p0 L).comp h1)
      have h2 := lintegral_pathFrom τ inflation hb (1 :: key) i hcat hcatR htr hφ L p0 (WL ω) L le_rfl
      rw [Nat.sub_self] at h2
      rw [lintegral_const_mul _ hm]
      refine (congrArg _ h2).trans ?_
      unfold Q
      rw [Finset.mul_sum]
      refine Finset.sum_congr rfl fun j _ => ?_
      rw [← mul_assoc, ← ENNReal.ofReal_mul (Real.exp_pos _).le]
    rw [lintegral_congr e3]
    have e4 := ffbs_forward hF hcatR htr hΓ thr hφ τ p0 os hk2 0 t0 (by simp [hτ]) (fun j hj => by
        have hj' : j < ts.length := by rw [← hts]; simpa using hj
        rw [show 0 + 1 + j = j + 1 by omega]
        simp only [hτ, List.getD_cons_succ]
        rw [List.getD_eq_getElem _ _ hj']
        simp only [← hts, List.getElem_map]) (W := W0)
      (measurable_pi_lambda _ fun _ => measurable_startRed hF y0 t0 (1 :: 0 :: key)) hW0d (fun o ho => by
        obtain ⟨i, hi⟩ := hk3 o ho
        rw [hi]
        exact Set.disjoint_of_subset_right (fun s hs => mem_below_cons hs) (below_disjoint (by omega)))
    rw [Nat.zero_add] at e4
    refine e4.trans ?_
    rw [hk1]
    have hu : Measurable fun x : X => Function.update p0 0 x := measurable_update p0
    have hfm : Measurable fun x => futurePath Γ φ 0 t0 (ys.zip ts) (Function.update p0 0 x) := (measurable_futurePath hF hφ (ys.zip ts) 0 t0).comp hu
    refine (lintegral_startRed hF y0 t0 (1 :: 0 :: key) hfm).trans (lintegral_congr fun x => ?_)
    rw [futurePath_eq Γ h L (ys.zip ts) 0 (by simp [hlen, hLy]) t0]
    simp

end

end

end Mocat.Props
