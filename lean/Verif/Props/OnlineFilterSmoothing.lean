import Verif.Props.StitchingLaw
/-!
# C140: smoothing one observation at a time with the filter's own trajectories, before the lag

The draws come from an ideal generator (`Verif.Spec.Tape`).
-/
namespace Mocat.Props
open Mocat Mocat.Filtering Mocat.Backward Mocat.Metrics Mocat.Ideal Mocat.Meas MeasureTheory
open Mocat.Smc (Red Q redStep redValue redWeight StepLaw stepSites critLt lse logEss lseMean Spread Apart share)
open scoped ENNReal

variable {X : Type} {n dy : ℕ}

/-! ## One call on reduced states -/

/-- The weights that trigger resampling. -/
def pfCrit (n : ℕ) : Set (Fin n → ℝ) := {w | Real.exp (logEss w) < n - 1e-3}

theorem measurableSet_pfCrit : MeasurableSet (pfCrit n) := measurableSet_lt (Real.measurable_exp.comp Smc.measurable_logEss) measurable_const

/-- The ensemble with equal weights. -/
def flatRed (v : Fin n → X) : Red n X := (v, fun _ => 0, 0)

/-- The same weights, no normalising constant. -/
def plainRed (R : Red n X) : Red n X := (R.1, R.2.1, 0)

/-- The ensemble that is moved. -/
noncomputable def pickRed (cat : (Fin n → Fl) → ℝ → Fin n) (key : Keys.Key) (R : Red n X) (ω : Tape) : Red n X :=
  flatRed fun i => redValue (fun w => cat fun i => .fin (w i)) (pfCrit n) (fun i => (key, (i : ℕ))) R ω i

/-- One call. -/
noncomputable def pfStep (cat : (Fin n → Fl) → ℝ → Fin n) (f : Tape → Filter X Keys.Key dy) (G : X → ℝ → X → Obs dy → ℝ → ℝ) (t : ℝ) (o : Obs dy × ℝ × Keys.Key) (R : Red n X) (ω : Tape) : Red n X :=
  moveRed cat f G t o (pickRed cat o.2.2 R ω) ω

/-- The remaining calls. -/
noncomputable def pfFinal (cat : (Fin n → Fl) → ℝ → Fin n) (f : Tape → Filter X Keys.Key dy) (G : X → ℝ → X → Obs dy → ℝ → ℝ) : ℝ → List (Obs dy × ℝ × Keys.Key) → Red n X → Tape → Red n X
  | _, [], R, _ => R
  | t, o :: os, R, ω => pfFinal cat f G o.2.1 os (pfStep cat f G t o R ω) ω

/-! ## Leaving the weights out when they are nearly equal -/

theorem near_uniform [NeZero n] {w : Fin n → ℝ} (hw : w ∉ pfCrit n) {h : Fin n → ℝ} {b : ℝ} (hb : ∀ i, |h i| ≤ b) :
    ((∑ i, h i) / n - (∑ i, Real.exp (w i) * h i) / ∑ i, Real.exp (w i)) ^ 2 ≤ b ^ 2 / n := by
  have hn : (1 : ℝ) ≤ n := by exact_mod_cast Nat.one_le_iff_ne_zero.mpr (NeZero.ne n)
  have hpos : ∀ v : Fin n → ℝ, 0 < ∑ i, Real.exp (v i) := fun v => Finset.sum_pos (fun _ _ => Real.exp_pos _) ⟨0, Finset.mem_univ _⟩
  set S := ∑ i, Real.exp (w i) with hS
  have hS0 : 0 < S := hpos w
  set p := fun i => Real.exp (w i) / S with hp
  have hp1 : ∑ i, p i = 1 := by rw [hp, ← Finset.sum_div, div_self hS0.ne']
  have hess : Real.exp (logEss w) * ∑ i, p i ^ 2 = 1 := by
    unfold logEss
    rw [Real.exp_sub, two_mul, Real.exp_add, Smc.lse_exp, Smc.lse_exp]
    have e : ∑ i, p i ^ 2 = (∑ i, Real.exp (2 * w i)) / S ^ 2 := by
      rw [Finset.sum_div]
      refine Finset.sum_congr rfl fun i _ => ?_
      rw [hp, div_pow, ← Real.exp_nat_mul]
      norm_cast
    rw [e, ← hS]
    have := (hpos fun i => 2 * w i).ne'
    field_simp
  have hle : (n : ℝ) - 1e-3 ≤ Real.exp (logEss w) := not_lt.mp hw
  have hsq : ∑ i, p i ^ 2 ≤ 1 / n + 1 / n ^ 2 := by
    have h0 : 0 ≤ ∑ i, p i ^ 2 := Finset.sum_nonneg fun i _ => sq_nonneg _
    have h1 : ((n : ℝ) - 1e-3) * ∑ i, p i ^ 2 ≤ 1 := by
      rw [← hess]
      exact mul_le_mul_of_nonneg_right hle h0
    have h2 : (0 : ℝ) < n - 1e-3 := by norm_num; linarith
    have h3 : ∑ i, p i ^ 2 ≤ 1 / ((n : ℝ) - 1e-3) := by
      rw [le_div_iff₀ h2, mul_comm]
      exact h1
    refine h3.trans ?_
    rw [div_add_div _ _ (by positivity) (by positivity), div_le_div_iff₀ h2 (by positivity)]
    norm_num
    nlinarith
  have e1 : (∑ i, h i) / n - (∑ i, Real.exp (w i) * h i) / S = ∑ i, (1 / n - p i) * h i := by
    rw [Finset.sum_div, Finset.sum_div, ← Finset.sum_sub_distrib]
    refine Finset.sum_congr rfl fun i _ => ?_
    rw [hp]
    ring
  rw [e1]
  have hn0 : (n : ℝ) ≠ 0 := by positivity
  have e2 : ∑ i, (1 / (n : ℝ) - p i) ^ 2 = ∑ i, p i ^ 2 - 1 / n := by
    have : ∀ i, (1 / (n : ℝ) - p i) ^ 2 = 1 / n ^ 2 - 2 / n * p i + p i ^ 2 := fun i => by ring
    simp only [this, Finset.sum_add_distrib, Finset.sum_sub_distrib, ← Finset.mul_sum, hp1, Finset.sum_const, Finset.card_univ, Fintype.card_fin, nsmul_eq_mul]
    field_simp
    ring
  have e3 : ∑ i, h i ^ 2 ≤ n * b ^ 2 := by
    refine (Finset.sum_le_sum fun i _ => sq_le_sq' (abs_le.mp (hb i)).1 (abs_le.mp (hb i)).2).trans (le_of_eq ?_)
    rw [Finset.sum_const, Finset.card_univ, Fintype.card_fin, nsmul_eq_mul]
  refine (Finset.sum_mul_sq_le_sq_mul_sq _ _ _).trans ?_
  rw [e2]
  refine (mul_le_mul (by linarith : _ ≤ 1 / (n : ℝ) ^ 2) e3 (Finset.sum_nonneg fun i _ => sq_nonneg _) (by positivity)).trans (le_of_eq ?_)
  field_simp

theorem Q_flat [NeZero n] (h : X → ℝ≥0∞) (v : Fin n → X) : Q h (flatRed v) = ∑ i, (n : ℝ≥0∞)⁻¹ * h (v i) := by
  have hn : (0 : ℝ) < n := by exact_mod_cast Nat.pos_of_ne_zero (NeZero.ne n)
  unfold Q flatRed
  refine Finset.sum_congr rfl fun i _ => ?_
  simp only [Real.exp_zero, Finset.sum_const, Finset.card_univ, Fintype.card_fin, nsmul_eq_mul, mul_one, one_mul, one_div]
  rw [ENNReal.ofReal_inv_of_pos hn, ENNReal.ofReal_natCast]

theorem Q_plain [NeZero n] (h : X → ℝ≥0∞) (R : Red n X) : Q h R = ENNReal.ofReal (Real.exp R.2.2) * Q h (plainRed R) := by
  unfold Q plainRed
  rw [Finset.mul_sum]
  refine Finset.sum_congr rfl fun i _ => ?_
  rw [← mul_assoc, ← ENNReal.ofReal_mul (Real.exp_pos _).le]
  simp

theorem Q_plain_one [NeZero n] (R : Red n X) : Q (fun _ => 1) (plainRed R) = 1 := by
  have hpos : (0 : ℝ) < ∑ j, Real.exp (R.2.1 j) := Finset.sum_pos (fun i _ => Real.exp_pos _) ⟨0, Finset.mem_univ _⟩
  unfold Q plainRed
  simp only [Real.exp_zero, one_mul, mul_one]
  rw [← ENNReal.ofReal_sum_of_nonneg fun i _ => by positivity, ← Finset.sum_div, div_self hpos.ne', ENNReal.ofReal_one]

theorem Q_plain_le [NeZero n] {h : X → ℝ≥0∞} {b : ℝ≥0∞} (hb : ∀ x, h x ≤ b) (R : Red n X) : Q h (plainRed R) ≤ b := by
  have e : Q h (plainRed R) ≤ b * Q (fun _ => 1) (plainRed R) := by
    unfold Q
    rw [Finset.mul_sum]
    refine Finset.sum_le_sum fun i _ => ?_
    rw [mul_one, mul_comm]
    exact mul_le_mul' (hb _) le_rfl
  rwa [Q_plain_one, mul_one] at e

theorem spread_flat [NeZero n] (v : Fin n → X) : Spread 1 (flatRed v) := fun i => by
  unfold share flatRed
  simp

section
variable [MeasurableSpace X] [NeZero n] {cat : (Fin n → Fl) → ℝ → Fin n} (hcat : IsCategoricalReal fun (w : Fin n → ℝ) u => cat (fun i => .fin (w i)) u)

include hcat in
/-- The ensemble that is moved: the average of `h` is near its weighted mean over the particles. -/
theorem pick_mse (key : Keys.Key) {h : X → ℝ≥0∞} (hh : Measurable h) {b : ℝ} (hb0 : 0 ≤ b) (hb : ∀ x, h x ≤ ENNReal.ofReal b) (R : Red n X) (c : ℝ) :
    ∫⁻ ω, ENNReal.ofReal (((Q h (pickRed cat key R ω)).toReal - c) ^ 2) ∂ideal ≤ ENNReal.ofReal (2 * ((Q h (plainRed R)).toReal - c) ^ 2 + 2 * (b ^ 2 / n)) := by
  have hn : (0 : ℝ) < n := by exact_mod_cast Nat.pos_of_ne_zero (NeZero.ne n)
  have hfin : ∀ x, h x ≠ ∞ := fun x => ne_top_of_le_ne_top ENNReal.ofReal_ne_top (hb x)
  by_cases hc : R.2.1 ∈ pfCrit n
  · have hRm : Measurable fun ω : Tape => (R, ω) := measurable_prodMk_left
    set H : Fin n → Tape → ℝ≥0∞ := fun i ω => h (redValue (fun w => cat fun i => .fin (w i)) (pfCrit n) (fun i => (key, (i : ℕ))) R ω i) with hH
    have hHm : ∀ i, Measurable (H i) := fun i => by
      have h1 := (Smc.measurable_redValue hcat measurableSet_pfCrit (fun i : Fin n => (key, (i : ℕ))) i).comp hRm
      exact hh.comp h1
    have hHd : ∀ i : Fin n, DependsOn (H i) {(key, (i : ℕ))} := fun i ω ω' hω => congrArg h (Smc.redValue_dependsOn _ _ _ R i hω)
    have hind : ∀ i j, i ≠ j → ∫⁻ ω, H i ω * H j ω ∂ideal = (∫⁻ ω, H i ω ∂ideal) * ∫⁻ ω, H j ω ∂ideal := by
      intro i j hij
      have hne : (i : ℕ) ≠ j := fun h => hij (Fin.ext h)
      have hd : Disjoint ({(key, (i : ℕ))} : Set Site) {(key, (j : ℕ))} := by simpa using hne
      have e := fresh hd (f := H i) (g := fun a ω => a * H j ω) (hHm i) (hHd i) (measurable_fst.mul ((hHm j).comp measurable_snd)) (fun a ω ω' hω => by simp only; rw [hHd j hω])
      rw [e, ← lintegral_mul_const _ (hHm i)]
      exact lintegral_congr fun ω => lintegral_const_mul _ (hHm j)
    have hEH : ∀ i, ∫⁻ ω, H i ω ∂ideal = Q h (plainRed R) := fun i => by
      have h1 := Smc.lintegral_redValue (σ := fun i : Fin n => (key, (i : ℕ))) hcat h R hc i
      refine h1.trans ?_
      unfold Q plainRed
      simp only [Real.exp_zero, one_mul]
    have hn0 : (n : ℝ≥0∞) ≠ 0 := by exact_mod_cast NeZero.ne n
    have hcst : ∀ a : ℝ≥0∞, ∑ _i : Fin n, (n : ℝ≥0∞)⁻¹ * a = a := fun a => by
      rw [Finset.sum_const, Finset.card_univ, Fintype.card_fin, nsmul_eq_mul, ← mul_assoc, ENNReal.mul_inv_cancel hn0 (ENNReal.natCast_ne_top n), one_mul]
    have e1 : ∀ ω, Q h (pickRed cat key R ω) = ∑ i, (n : ℝ≥0∞)⁻¹ * H i ω := fun ω => Q_flat h _
    have hm : Measurable fun ω => Q h (pickRed cat key R ω) := by
      simp only [e1]
      exact Finset.measurable_sum _ fun i _ => (hHm i).const_mul _
    have hmean : ∫⁻ ω, Q h (pickRed cat key R ω) ∂ideal = Q h (plainRed R) := by
      simp only [e1]
      rw [lintegral_finsetSum _ fun i _ => (hHm i).const_mul _]
      simp only [lintegral_const_mul _ (hHm _), hEH, hcst]
    have hsec : ∫⁻ ω, Q h (pickRed cat key R ω) ^ 2 ∂ideal ≤ Q h (plainRed R) ^ 2 + ENNReal.ofReal (b ^ 2 / n) := by
      have h1 := Smc.lintegral_sq_sum ideal hHm hind fun _ => (n : ℝ≥0∞)⁻¹
      simp only [hEH, hcst, ← e1] at h1
      refine h1.trans (add_le_add le_rfl ?_)
      have h2 : ∀ i, (n : ℝ≥0∞)⁻¹ ^ 2 * ∫⁻ ω, H i ω ^ 2 ∂ideal ≤ (n : ℝ≥0∞)⁻¹ * ((n : ℝ≥0∞)⁻¹ * ENNReal.ofReal b ^ 2) := fun i => by
        rw [sq, mul_assoc]
        refine mul_le_mul' le_rfl (mul_le_mul' le_rfl ((lintegral_mono fun ω => pow_le_pow_left' (hb _) 2).trans (le_of_eq ?_)))
        rw [lintegral_const, measure_univ, mul_one]
      refine (Finset.sum_le_sum fun i _ => h2 i).trans (le_of_eq ?_)
      rw [hcst, ENNReal.ofReal_div_of_pos hn, ENNReal.ofReal_natCast, ENNReal.ofReal_pow hb0, ENNReal.div_eq_inv_mul]
    have hQf : Q h (plainRed R) ≠ ∞ := ne_top_of_le_ne_top ENNReal.ofReal_ne_top (Q_plain_le hb R)
    refine (mse_of_moments ideal hm hQf ENNReal.ofReal_ne_top hmean hsec c).trans ?_
    rw [← ENNReal.ofReal_add (by positivity) (sq_nonneg _)]
    refine ENNReal.ofReal_le_ofReal ?_
    have : 0 ≤ b ^ 2 / (n : ℝ) := by positivity
    nlinarith [sq_nonneg ((Q h (plainRed R)).toReal - c)]
  · have e : ∀ ω, pickRed cat key R ω = flatRed R.1 := fun ω => by
      unfold pickRed redValue
      simp only [if_neg hc]
    simp only [e]
    rw [lintegral_const, measure_univ, mul_one]
    refine ENNReal.ofReal_le_ofReal ?_
    have hu : (Q h (flatRed R.1)).toReal = (∑ i, (h (R.1 i)).toReal) / n := by
      rw [Q_flat, ENNReal.toReal_sum fun i _ => ENNReal.mul_ne_top (by simp [NeZero.ne n]) (hfin _), Finset.sum_div]
      refine Finset.sum_congr rfl fun i _ => ?_
      rw [ENNReal.toReal_mul, ENNReal.toReal_inv, ENNReal.toReal_natCast, div_eq_inv_mul]
    have hN : (Q h (plainRed R)).toReal = (∑ i, Real.exp (R.2.1 i) * (h (R.1 i)).toReal) / ∑ i, Real.exp (R.2.1 i) := by
      unfold Q plainRed
      simp only [Real.exp_zero, one_mul]
      rw [ENNReal.toReal_sum fun i _ => ENNReal.mul_ne_top ENNReal.ofReal_ne_top (hfin _), Finset.sum_div]
      refine Finset.sum_congr rfl fun i _ => ?_
      rw [ENNReal.toReal_mul, ENNReal.toReal_ofReal (div_nonneg (Real.exp_pos _).le (Finset.sum_nonneg fun _ _ => (Real.exp_pos _).le))]
      ring
    have h1 := near_uniform hc (h := fun i => (h (R.1 i)).toReal) (b := b) fun i => by
      rw [abs_of_nonneg ENNReal.toReal_nonneg]
      exact ENNReal.toReal_le_of_le_ofReal hb0 (hb _)
    rw [hu, hN]
    nlinarith [sq_nonneg ((∑ i, (h (R.1 i)).toReal) / n - (∑ i, Real.exp (R.2.1 i) * (h (R.1 i)).toReal) / (∑ i, Real.exp (R.2.1 i))
      - ((∑ i, Real.exp (R.2.1 i) * (h (R.1 i)).toReal) / (∑ i, Real.exp (R.2.1 i)) - c))]


omit hcat [NeZero n] in
theorem measurable_flat : Measurable (flatRed : (Fin n → X) → Red n X) := measurable_id.prodMk measurable_const

omit hcat [NeZero n] in
theorem measurable_plain : Measurable (plainRed : Red n X → Red n X) := measurable_fst.prodMk ((measurable_fst.comp measurable_snd).prodMk measurable_const)

include hcat in
omit [NeZero n] in
theorem measurable_pickRed (key : Keys.Key) : Measurable fun z : Red n X × Tape => pickRed cat key z.1 z.2 := by
  have h1 : Measurable fun z : Red n X × Tape => fun i : Fin n => redValue (fun w => cat fun i => .fin (w i)) (pfCrit n) (fun i => (key, (i : ℕ))) z.1 z.2 i :=
    measurable_pi_lambda _ fun i => Smc.measurable_redValue hcat measurableSet_pfCrit _ i
  have h2 := (measurable_flat (X := X) (n := n)).comp h1
  exact h2

omit hcat [MeasurableSpace X] [NeZero n] in
theorem pickRed_dependsOn (key : Keys.Key) (R : Red n X) : DependsOn (pickRed cat key R) (stepSites (n := n) (fun i => (key, (i : ℕ))) (fun _ => ∅)) := by
  intro ω ω' hω
  unfold pickRed
  congr 1
  funext i
  exact Smc.redValue_dependsOn _ _ _ R i fun s hs => hω s ⟨i, Or.inl hs⟩

variable {f : Tape → Filter X Keys.Key dy} {G0 : X → Obs dy → ℝ → ℝ} {G : X → ℝ → X → Obs dy → ℝ → ℝ} {Γ0 : Obs dy → ℝ → Measure X} {Γ : X → ℝ → Obs dy → ℝ → Measure X} (hF : FilterLaw f G0 G Γ0 Γ)

include hcat hF in
omit [NeZero n] in
theorem measurable_pfStep (t : ℝ) (o : Obs dy × ℝ × Keys.Key) : Measurable fun z : Red n X × Tape => pfStep cat f G t o z.1 z.2 := by
  have h2 := (measurable_moveRed hF hcat t o).comp ((measurable_pickRed hcat o.2.2).prodMk measurable_snd)
  exact h2

include hF in
omit [NeZero n] in
theorem pfStep_dependsOn (t : ℝ) (o : Obs dy × ℝ × Keys.Key) (R : Red n X) : DependsOn (pfStep cat f G t o R) (below o.2.2) := by
  intro ω ω' hω
  unfold pfStep
  rw [pickRed_dependsOn o.2.2 R fun s hs => hω s (resSites _ hs)]
  exact moveRed_dependsOn hF t o _ fun s hs => hω s (moveSites _ hs)

include hcat hF in
/-- One call from a given ensemble: the estimates of `∫ h` over the next kernel. -/
theorem pfStep_mse (t : ℝ) (o : Obs dy × ℝ × Keys.Key) {w : ℝ} (hw0 : 0 ≤ w) (hw : ∀ x x', Real.exp (G x t x' o.1 o.2.1) ≤ w) {h : X → ℝ≥0∞} (hh : Measurable h) {b : ℝ} (hb0 : 0 ≤ b)
    (hb : ∀ x, h x ≤ ENNReal.ofReal b) (R : Red n X) (c : ℝ) :
    ∫⁻ ω, ENNReal.ofReal (((Q h (pfStep cat f G t o R ω)).toReal - c) ^ 2) ∂ideal
      ≤ ENNReal.ofReal (2 * ((Q (fun x => ∫⁻ x', h x' ∂(Γ x t o.1 o.2.1)) (plainRed R)).toReal - c) ^ 2 + 3 * ((w * b) ^ 2 / n)) := by
  have hn : (0 : ℝ) < n := by exact_mod_cast Nat.pos_of_ne_zero (NeZero.ne n)
  have hPm : Measurable fun x => ∫⁻ x', h x' ∂(Γ x t o.1 o.2.1) := hF.kernel t o.1 o.2.1 hh
  have hPb : ∀ x, ∫⁻ x', h x' ∂(Γ x t o.1 o.2.1) ≤ ENNReal.ofReal (w * b) := fun x => by
    rw [ENNReal.ofReal_mul hw0]
    exact Smc.op_le (n := n) (move_law hF t o) hw hh hb x
  have hm : Measurable fun z : Red n X × Tape => ENNReal.ofReal (((Q h (moveRed cat f G t o z.1 z.2)).toReal - c) ^ 2) := by
    have h1 : Measurable fun z : Red n X × Tape => Q h (moveRed cat f G t o z.1 z.2) := (Smc.measurable_Q hh).comp (measurable_moveRed hF hcat t o)
    exact ENNReal.measurable_ofReal.comp ((h1.ennreal_toReal.sub_const c).pow_const 2)
  have hRm : Measurable (pickRed cat o.2.2 R) := by
    have h1 : Measurable fun ω : Tape => (R, ω) := measurable_prodMk_left
    have h2 := (measurable_pickRed (X := X) hcat o.2.2).comp h1
    exact h2
  have e := fresh (halves_disjoint o.2.2) (f := pickRed cat o.2.2 R) (g := fun V ω => ENNReal.ofReal (((Q h (moveRed cat f G t o V ω)).toReal - c) ^ 2)) hRm (pickRed_dependsOn o.2.2 R) hm
    (fun V ω ω' hω => by simp only; rw [moveRed_dependsOn hF t o V hω])
  have e' : ∫⁻ ω, ENNReal.ofReal (((Q h (pfStep cat f G t o R ω)).toReal - c) ^ 2) ∂ideal
      = ∫⁻ ω, ∫⁻ ω', ENNReal.ofReal (((Q h (moveRed cat f G t o (pickRed cat o.2.2 R ω) ω')).toReal - c) ^ 2) ∂ideal ∂ideal := e
  rw [e']
  have hinner : ∀ ω, ∫⁻ ω', ENNReal.ofReal (((Q h (moveRed cat f G t o (pickRed cat o.2.2 R ω) ω')).toReal - c) ^ 2) ∂ideal
      ≤ ENNReal.ofReal ((w * b) ^ 2 / n) + ENNReal.ofReal (((Q (fun x => ∫⁻ x', h x' ∂(Γ x t o.1 o.2.1)) (pickRed cat o.2.2 R ω)).toReal - c) ^ 2) := fun ω => by
    have h1 : Measurable fun ω' => Q h (moveRed cat f G t o (pickRed cat o.2.2 R ω) ω') := by
      have h2 : Measurable fun ω' : Tape => (pickRed cat o.2.2 R ω, ω') := measurable_prodMk_left
      have h3 := (Smc.measurable_Q hh).comp ((measurable_moveRed hF hcat t o).comp h2)
      exact h3
    have hsec := lintegral_sq_moveRed hF hcat t o hh hb hw (pickRed cat o.2.2 R ω) (spread_flat _)
    have hv : (ENNReal.ofReal 1 * ENNReal.ofReal w * ENNReal.ofReal b) ^ 2 / n = ENNReal.ofReal ((w * b) ^ 2 / n) := by
      rw [ENNReal.ofReal_one, one_mul, ← ENNReal.ofReal_mul hw0, ← ENNReal.ofReal_pow (mul_nonneg hw0 hb0), ENNReal.ofReal_div_of_pos hn, ENNReal.ofReal_natCast]
    rw [hv] at hsec
    exact mse_of_moments ideal h1 (ne_top_of_le_ne_top ENNReal.ofReal_ne_top (Q_plain_le hPb (flatRed _))) ENNReal.ofReal_ne_top (lintegral_moveRed hF hcat t o hh _) hsec c
  refine (lintegral_mono hinner).trans ?_
  rw [lintegral_add_left measurable_const, lintegral_const, measure_univ, mul_one]
  refine (add_le_add le_rfl (pick_mse hcat o.2.2 hPm (mul_nonneg hw0 hb0) hPb R c)).trans (le_of_eq ?_)
  rw [← ENNReal.ofReal_add (by positivity) (by positivity)]
  congr 1
  ring

/-- The weighted means of the ensemble are within `√(e/n) W b / z` of the means under `π` (total mass `z`), in mean square. -/
structure PfNear (π : Measure X) (R : Tape → Red n X) (e W : ℝ) : Prop where
  pos : π Set.univ ≠ 0
  le : π Set.univ ≤ ENNReal.ofReal W
  mse : ∀ {h : X → ℝ≥0∞} {b : ℝ}, Measurable h → 0 ≤ b → (∀ x, h x ≤ ENNReal.ofReal b) →
    ∫⁻ ω, ENNReal.ofReal (((Q h (plainRed (R ω))).toReal - (∫⁻ x, h x ∂π).toReal / (π Set.univ).toReal) ^ 2) ∂ideal ≤ ENNReal.ofReal (e * (W * b / (π Set.univ).toReal) ^ 2 / n)

include hF in
omit [NeZero n] in
/-- Weights are positive. -/
theorem kernel_pos (t : ℝ) (y : Obs dy) (t' : ℝ) (x : X) : ∫⁻ _, 1 ∂(Γ x t y t') ≠ 0 := by
  rw [← hF.law_proposal x t y t' [] (h := fun _ => 1) measurable_const]
  intro h0
  have hm : Measurable fun ω => ENNReal.ofReal (Real.exp (G x t ((f ω).proposalSample x t y t' []) y t')) * 1 := by
    have h1 : Measurable fun ω : Tape => (x, (f ω).proposalSample x t y t' []) := by
      have h2 : Measurable fun ω : Tape => (x, ω) := measurable_prodMk_left
      have h3 := (hF.measurable_proposal t y t' []).comp h2
      exact measurable_const.prodMk h3
    have h4 := (hF.measurable_logWeight t y t').comp h1
    exact (ENNReal.measurable_ofReal.comp (Real.measurable_exp.comp h4)).mul_const _
  rw [lintegral_eq_zero_iff hm] at h0
  obtain ⟨ω, hω⟩ := h0.exists
  simp only [mul_one] at hω
  exact absurd (ENNReal.ofReal_eq_zero.mp hω) (not_le.mpr (Real.exp_pos _))

include hcat hF in
theorem pfNear_step {π : Measure X} {R : Tape → Red n X} {e W : ℝ} (he : 0 ≤ e) (hR : Measurable R) {S : Set Site} (hRS : DependsOn R S) (t : ℝ) (o : Obs dy × ℝ × Keys.Key) (hdis : Disjoint S (below o.2.2))
    {w : ℝ} (hw0 : 0 ≤ w) (hw : ∀ x x', Real.exp (G x t x' o.1 o.2.1) ≤ w) (hN : PfNear π R e W) :
    PfNear (π.bind fun x => Γ x t o.1 o.2.1) (fun ω => pfStep cat f G t o (R ω) ω) (8 * e + 12) (W * w) := by
  have hn : (0 : ℝ) < n := by exact_mod_cast Nat.pos_of_ne_zero (NeZero.ne n)
  have hbind : ∀ {h : X → ℝ≥0∞}, Measurable h → ∫⁻ x, h x ∂(π.bind fun x => Γ x t o.1 o.2.1) = ∫⁻ x, ∫⁻ x', h x' ∂(Γ x t o.1 o.2.1) ∂π := fun {h} hh =>
    Measure.lintegral_bind (measurable_kernel hF t o.1 o.2.1).aemeasurable hh.aemeasurable
  have hone : (π.bind fun x => Γ x t o.1 o.2.1) Set.univ = ∫⁻ x, ∫⁻ _, 1 ∂(Γ x t o.1 o.2.1) ∂π := by
    rw [← hbind measurable_const, lintegral_const, one_mul]
  have hPm : ∀ {h : X → ℝ≥0∞}, Measurable h → Measurable fun x => ∫⁻ x', h x' ∂(Γ x t o.1 o.2.1) := fun hh => hF.kernel t o.1 o.2.1 hh
  have hPb : ∀ {h : X → ℝ≥0∞} {b : ℝ}, Measurable h → (∀ x, h x ≤ ENNReal.ofReal b) → ∀ x, ∫⁻ x', h x' ∂(Γ x t o.1 o.2.1) ≤ ENNReal.ofReal (w * b) := fun {h b} hh hb x => by
    rw [ENNReal.ofReal_mul hw0]
    exact Smc.op_le (n := n) (move_law hF t o) hw hh hb x
  have hzt : π Set.univ ≠ ∞ := ne_top_of_le_ne_top ENNReal.ofReal_ne_top hN.le
  obtain ⟨z, hz⟩ : ∃ z, z = (π Set.univ).toReal := ⟨_, rfl⟩
  have hz0 : 0 < z := by rw [hz]; exact ENNReal.toReal_pos hN.pos hzt
  have hW : 0 < W := by
    by_contra hW
    exact hN.pos (le_antisymm (hN.le.trans (le_of_eq (ENNReal.ofReal_of_nonpos (not_lt.mp hW)))) bot_le)
  have hzW : z ≤ W := by rw [hz]; exact ENNReal.toReal_le_of_le_ofReal hW.le hN.le
  have hpos : (π.bind fun x => Γ x t o.1 o.2.1) Set.univ ≠ 0 := by
    rw [hone]
    intro h0
    rw [lintegral_eq_zero_iff (hPm measurable_const)] at h0
    refine hN.pos ?_
    have h1 : ∀ᵐ x ∂π, False := h0.mono fun x hx => kernel_pos hF t o.1 o.2.1 x hx
    simpa [ae_iff] using h1
  have hle : (π.bind fun x => Γ x t o.1 o.2.1) Set.univ ≤ ENNReal.ofReal (W * w) := by
    rw [hone]
    refine (lintegral_mono fun x => hPb (b := 1) measurable_const (fun _ => by rw [ENNReal.ofReal_one]) x).trans ?_
    rw [lintegral_const, mul_one, mul_comm, ENNReal.ofReal_mul hW.le]
    exact mul_le_mul' hN.le le_rfl
  obtain ⟨z', hz'⟩ : ∃ z', z' = ((π.bind fun x => Γ x t o.1 o.2.1) Set.univ).toReal := ⟨_, rfl⟩
  have hz'0 : 0 < z' := by rw [hz']; exact ENNReal.toReal_pos hpos (ne_top_of_le_ne_top ENNReal.ofReal_ne_top hle)
  have hest : ∀ {h : X → ℝ≥0∞} {b : ℝ}, Measurable h → 0 ≤ b → (∀ x, h x ≤ ENNReal.ofReal b) →
      ∫⁻ ω, ENNReal.ofReal (((Q h (pfStep cat f G t o (R ω) ω)).toReal - (∫⁻ x, ∫⁻ x', h x' ∂(Γ x t o.1 o.2.1) ∂π).toReal / z) ^ 2) ∂ideal ≤ ENNReal.ofReal ((2 * e + 3) * (W * (w * b) / z) ^ 2 / n) := fun {h b} hh hb0 hb => by
    obtain ⟨c, hc⟩ : ∃ c, c = (∫⁻ x, ∫⁻ x', h x' ∂(Γ x t o.1 o.2.1) ∂π).toReal / z := ⟨_, rfl⟩
    rw [← hc]
    have hm : Measurable fun q : Red n X × Tape => ENNReal.ofReal (((Q h (pfStep cat f G t o q.1 q.2)).toReal - c) ^ 2) := by
      have h1 : Measurable fun q : Red n X × Tape => Q h (pfStep cat f G t o q.1 q.2) := (Smc.measurable_Q hh).comp (measurable_pfStep hcat hF t o)
      exact ENNReal.measurable_ofReal.comp ((h1.ennreal_toReal.sub_const c).pow_const 2)
    rw [fresh hdis (f := R) (g := fun V ω => ENNReal.ofReal (((Q h (pfStep cat f G t o V ω)).toReal - c) ^ 2)) hR hRS hm (fun V ω ω' hω => by simp only; rw [pfStep_dependsOn hF t o V hω])]
    refine (lintegral_mono fun ω => pfStep_mse hcat hF t o hw0 hw hh hb0 hb (R ω) c).trans ?_
    have hsplit : ∀ ω, ENNReal.ofReal (2 * ((Q (fun x => ∫⁻ x', h x' ∂(Γ x t o.1 o.2.1)) (plainRed (R ω))).toReal - c) ^ 2 + 3 * ((w * b) ^ 2 / n))
        = ENNReal.ofReal 2 * ENNReal.ofReal (((Q (fun x => ∫⁻ x', h x' ∂(Γ x t o.1 o.2.1)) (plainRed (R ω))).toReal - c) ^ 2) + ENNReal.ofReal (3 * ((w * b) ^ 2 / n)) := fun ω => by
      rw [ENNReal.ofReal_add (by positivity) (by positivity), ENNReal.ofReal_mul (by norm_num)]
    simp only [hsplit]
    rw [lintegral_add_right _ measurable_const, lintegral_const, measure_univ, mul_one, lintegral_const_mul' _ _ ENNReal.ofReal_ne_top]
    have h1 := hN.mse (hPm hh) (mul_nonneg hw0 hb0) (hPb hh hb)
    rw [← hz, ← hc] at h1
    refine (add_le_add (mul_le_mul' le_rfl h1) le_rfl).trans ?_
    rw [← ENNReal.ofReal_mul (by norm_num), ← ENNReal.ofReal_add (by positivity) (by positivity)]
    refine ENNReal.ofReal_le_ofReal ?_
    have h2 : (w * b) ^ 2 ≤ (W * (w * b) / z) ^ 2 := by
      refine pow_le_pow_left₀ (mul_nonneg hw0 hb0) ?_ 2
      rw [le_div_iff₀ hz0, mul_comm]
      exact mul_le_mul_of_nonneg_right hzW (mul_nonneg hw0 hb0)
    have h3 : (w * b) ^ 2 / n ≤ (W * (w * b) / z) ^ 2 / n := div_le_div_of_nonneg_right h2 hn.le
    have h4 : (2 * e + 3) * (W * (w * b) / z) ^ 2 / n = 2 * (e * (W * (w * b) / z) ^ 2 / n) + 3 * ((W * (w * b) / z) ^ 2 / n) := by ring
    rw [h4]
    linarith
  refine ⟨hpos, hle, fun {h b} hh hb0 hb => ?_⟩
  have h1 := hest hh hb0 hb
  have h2 := hest (h := fun _ => 1) (b := 1) measurable_const zero_le_one fun _ => by rw [ENNReal.ofReal_one]
  rw [← hone, ← hz'] at h2
  have hA2 : Measurable fun ω => (Q (fun _ => 1) (pfStep cat f G t o (R ω) ω)).toReal := by
    have h3 : Measurable fun ω => Q (fun _ => 1) (pfStep cat f G t o (R ω) ω) := by
      have h4 := (Smc.measurable_Q (f := fun _ => 1) measurable_const).comp ((measurable_pfStep hcat hF t o).comp (hR.prodMk measurable_id))
      exact h4
    exact h3.ennreal_toReal
  have hq := mse_quotient ideal hA2 (a2 := z' / z) (B := b) (div_pos hz'0 hz0) (by positivity) (by positivity) (r := fun ω => (Q h (plainRed (pfStep cat f G t o (R ω) ω))).toReal)
    (fun ω => ENNReal.toReal_nonneg) (fun ω => ENNReal.toReal_le_of_le_ofReal hb0 (Q_plain_le hb _))
    (fun ω => by rw [Q_plain, Q_plain (fun _ => 1), Q_plain_one, mul_one, ENNReal.toReal_mul, mul_comm]) h1 h2
  rw [hbind hh, ← hz']
  have e1 : (∫⁻ x, ∫⁻ x', h x' ∂(Γ x t o.1 o.2.1) ∂π).toReal / z / (z' / z) = (∫⁻ x, ∫⁻ x', h x' ∂(Γ x t o.1 o.2.1) ∂π).toReal / z' := by field_simp
  rw [e1] at hq
  refine hq.trans (ENNReal.ofReal_le_ofReal (le_of_eq ?_))
  field_simp
  ring


omit [NeZero n] in
theorem PfNear.mono {π : Measure X} {R : Tape → Red n X} {e e' W : ℝ} (h : PfNear π R e W) (he : e ≤ e') : PfNear π R e' W :=
  ⟨h.pos, h.le, fun hh hb0 hb => (h.mse hh hb0 hb).trans (ENNReal.ofReal_le_ofReal (div_le_div_of_nonneg_right (mul_le_mul_of_nonneg_right he (sq_nonneg _)) (Nat.cast_nonneg n)))⟩

include hcat hF in
/-- All the calls. -/
theorem pfNear_final (os : List (Obs dy × ℝ × Keys.Key)) (hk2 : os.Pairwise fun a b => Disjoint (below a.2.2) (below b.2.2)) {w : ℝ} (hw0 : 0 ≤ w) (hw : ∀ o ∈ os, ∀ t x x', Real.exp (G x t x' o.1 o.2.1) ≤ w)
    {π : Measure X} {R : Tape → Red n X} {e W : ℝ} (he : 0 ≤ e) (hR : Measurable R) {S : Set Site} (hRS : DependsOn R S) (hdis : ∀ o ∈ os, Disjoint S (below o.2.2)) (t : ℝ) (hN : PfNear π R e W) :
    PfNear (terminal Γ π t (os.map fun o => (o.1, o.2.1))) (fun ω => pfFinal cat f G t os (R ω) ω) (8 ^ os.length * (e + 2) - 2) (W * w ^ os.length) := by
  induction os generalizing π R e W S t with
  | nil =>
    simp only [List.length_nil, pow_zero, one_mul, mul_one, add_sub_cancel_right]
    exact hN
  | cons o os ih =>
    rw [List.pairwise_cons] at hk2
    have h1 := pfNear_step hcat hF he hR hRS t o (hdis o List.mem_cons_self) hw0 (hw o List.mem_cons_self t) hN
    have hm : Measurable fun ω => pfStep cat f G t o (R ω) ω := by
      have h4 := (measurable_pfStep hcat hF t o).comp (hR.prodMk measurable_id)
      exact h4
    have hd : DependsOn (fun ω => pfStep cat f G t o (R ω) ω) (S ∪ below o.2.2) := fun ω ω' hω => by
      have e1 : R ω = R ω' := hRS fun s hs => hω s (Or.inl hs)
      simp only [e1]
      exact pfStep_dependsOn hF t o _ fun s hs => hω s (Or.inr hs)
    have h2 := ih hk2.2 (fun o' ho' => hw o' (List.mem_cons_of_mem _ ho')) (by positivity) hm hd
      (fun o' ho' => Set.disjoint_union_left.mpr ⟨hdis o' (List.mem_cons_of_mem _ ho'), hk2.1 o' ho'⟩) o.2.1 h1
    rw [List.length_cons, show W * w ^ (os.length + 1) = W * w * w ^ os.length by ring]
    refine h2.mono ?_
    have : (0 : ℝ) < 8 ^ os.length := by positivity
    rw [pow_succ]
    nlinarith

include hF in
theorem pfNear_start (y0 : Obs dy) (t0 : ℝ) (κ : Keys.Key) {w : ℝ} (hw0 : 0 ≤ w) (hw : ∀ x, Real.exp (G0 x y0 t0) ≤ w) : PfNear (Γ0 y0 t0) (startRed (n := n) f G0 y0 t0 κ) 4 w := by
  have hn : (0 : ℝ) < n := by exact_mod_cast Nat.pos_of_ne_zero (NeZero.ne n)
  have hRm := measurable_startRed (n := n) hF y0 t0 κ
  have h1 : ∀ {h : X → ℝ≥0∞}, Measurable h → ∫⁻ ω, Q h (startRed (n := n) f G0 y0 t0 κ ω) ∂ideal = ∫⁻ x, h x ∂(Γ0 y0 t0) := fun hh => lintegral_startRed hF y0 t0 κ hh
  have h2 : ∀ {h : X → ℝ≥0∞} {b : ℝ}, Measurable h → 0 ≤ b → (∀ x, h x ≤ ENNReal.ofReal b) →
      ∫⁻ ω, Q h (startRed (n := n) f G0 y0 t0 κ ω) ^ 2 ∂ideal ≤ (∫⁻ x, h x ∂(Γ0 y0 t0)) ^ 2 + ENNReal.ofReal ((w * b) ^ 2 / n) := fun {h b} hh hb0 hb => by
    refine (start_second_moment hF y0 t0 κ hw hh hb).trans (le_of_eq ?_)
    rw [← ENNReal.ofReal_mul hw0, ← ENNReal.ofReal_pow (mul_nonneg hw0 hb0), ENNReal.ofReal_div_of_pos hn, ENNReal.ofReal_natCast]
  have hone : ∀ ω, Q (fun _ => 1) (startRed (n := n) f G0 y0 t0 κ ω) = ENNReal.ofReal (Real.exp (startRed (n := n) f G0 y0 t0 κ ω).2.2) := fun ω => by rw [Q_plain, Q_plain_one, mul_one]
  have hu : ∫⁻ _, 1 ∂(Γ0 y0 t0) = Γ0 y0 t0 Set.univ := by rw [lintegral_const, one_mul]
  have hpos : Γ0 y0 t0 Set.univ ≠ 0 := by
    rw [← hu, ← h1 measurable_const]
    intro h0
    have hm : Measurable fun ω => Q (fun _ => 1) (startRed (n := n) f G0 y0 t0 κ ω) := (Smc.measurable_Q measurable_const).comp hRm
    rw [lintegral_eq_zero_iff hm] at h0
    obtain ⟨ω, hω⟩ := h0.exists
    simp only [hone] at hω
    exact absurd (ENNReal.ofReal_eq_zero.mp hω) (not_le.mpr (Real.exp_pos _))
  have hle : Γ0 y0 t0 Set.univ ≤ ENNReal.ofReal w := by
    rw [← hu, ← hF.law_initial y0 t0 [] measurable_const]
    refine (lintegral_mono fun ω => ?_).trans (by rw [lintegral_const, measure_univ, mul_one] : ∫⁻ _, ENNReal.ofReal w ∂ideal = _).le
    rw [mul_one]
    exact ENNReal.ofReal_le_ofReal (hw _)
  have htop : Γ0 y0 t0 Set.univ ≠ ∞ := ne_top_of_le_ne_top ENNReal.ofReal_ne_top hle
  refine ⟨hpos, hle, fun {h b} hh hb0 hb => ?_⟩
  have hat : ∫⁻ x, h x ∂(Γ0 y0 t0) ≠ ∞ := ne_top_of_le_ne_top (ENNReal.mul_ne_top ENNReal.ofReal_ne_top htop) ((lintegral_mono hb).trans (le_of_eq (lintegral_const _)))
  have hq := mse_ratio ideal ((Smc.measurable_Q hh).comp hRm) ((Smc.measurable_Q (f := fun _ => 1) measurable_const).comp hRm) hat htop hpos ENNReal.ofReal_ne_top ENNReal.ofReal_ne_top
    (h1 hh) (h2 hh hb0 hb) ((h1 measurable_const).trans hu) (by
      have h3 := h2 (h := fun _ => 1) (b := 1) measurable_const zero_le_one fun _ => by rw [ENNReal.ofReal_one]
      rw [hu] at h3
      exact h3) (B := b) (r := fun ω => (Q h (plainRed (startRed (n := n) f G0 y0 t0 κ ω))).toReal) (fun ω => ENNReal.toReal_nonneg)
    (fun ω => ENNReal.toReal_le_of_le_ofReal hb0 (Q_plain_le hb _))
    (fun ω => by simp only [Function.comp_apply]; rw [Q_plain, hone, ENNReal.toReal_mul, mul_comm])
  refine hq.trans (ENNReal.ofReal_le_ofReal (le_of_eq ?_))
  have hz : (Γ0 y0 t0 Set.univ).toReal ≠ 0 := (ENNReal.toReal_pos hpos htop).ne'
  rw [ENNReal.toReal_ofReal (by positivity), ENNReal.toReal_ofReal (by positivity)]
  field_simp
  ring

end

/-! ## What the program computes -/

open Mocat.Online

/-- The weighted mean of a function of the path over the smoother's trajectories. -/
noncomputable def smootherMean (g : List X → ℝ) (s : Smoother X n dy) : ℝ :=
  (∑ i, weightOf (s.logWeight i) * g (s.value.map fun x => x i)) / totalWeight s.logWeight

/-- The smoother's trajectories and weights are those of the reduced state. -/
structure Carries (s : Smoother X n dy) (R : Red n (ℕ → X)) (t : ℝ) : Prop where
  value : ∀ i, s.value.map (fun v => v i) = pathList s.value.length (R.1 i)
  pos : 0 < s.value.length
  logWeight : s.logWeight = fun i => .fin (R.2.1 i)
  t : s.t.getLast? = some t
  len : s.t.length = s.value.length

theorem pathList_last {l : List (Fin n → X)} {p : Fin n → ℕ → X} (h : ∀ i, l.map (fun v => v i) = pathList l.length (p i)) (h0 : 0 < l.length) : l.getLast? = some fun i => p i 0 := by
  obtain ⟨v, hv⟩ : ∃ v, l.getLast? = some v := ⟨_, List.getLast?_eq_some_getLast (List.ne_nil_of_length_pos h0)⟩
  rw [hv]
  congr 1
  funext i
  have h1 := congrArg List.getLast? (h i)
  rw [List.getLast?_map, hv, pathList, List.getLast?_map, List.getLast?_reverse] at h1
  obtain ⟨L, hL⟩ : ∃ L, l.length = L + 1 := ⟨l.length - 1, by omega⟩
  rw [hL] at h1
  simpa [List.range_succ_eq_map] using h1

section
variable [MeasurableSpace X] [NeZero n] {cat : (Fin n → Fl) → ℝ → Fin n} {f : Tape → Filter X Keys.Key dy} {G0 : X → Obs dy → ℝ → ℝ} {G : X → ℝ → X → Obs dy → ℝ → ℝ}
  {Γ0 : Obs dy → ℝ → Measure X} {Γ : X → ℝ → Obs dy → ℝ → Measure X} (hF : FilterLaw f G0 G Γ0 Γ)
include hF

theorem propagatePf_follows (ω : Tape) (rand : Rand Keys.Key n n) (trans : X → ℝ → X → ℝ → ℝ) (lag : ℕ) (thr : ℝ) (maxRej : ℤ) (bound inflation : ℝ) {s : Smoother X n dy} {R : Red n (ℕ → X)} {t : ℝ}
    (h : Carries s R t) (hlag : s.value.length + 1 ≤ lag) (o : Obs dy × ℝ × Keys.Key) :
    ∃ s', propagatePf ⟨tapeEnv cat ω, rand, trans, f ω, lag, thr, maxRej, bound, inflation⟩ s o.1 o.2.1 o.2.2 = some s' ∧
      Carries s' (pfStep cat (fun ω => pathFilter (f ω)) (fun p t p' => G (p 0) t (p' 0)) t o R ω) o.2.1 ∧ s'.value.length = s.value.length + 1 := by
  obtain ⟨y, t', κ⟩ := o
  have hess : Fl.lt (essLogWeight s.logWeight) (.fin (n - 1e-3)) ↔ R.2.1 ∈ pfCrit n := by
    rw [h.logWeight, essLogWeight_fin]
    rfl
  obtain ⟨v, hv⟩ : ∃ v : Fin n → ℕ → X, v = fun i => redValue (fun w => cat fun i => .fin (w i)) (pfCrit n) (fun i : Fin n => (κ, (i : ℕ))) R ω i := ⟨_, rfl⟩
  have hval : ∃ val : List (Fin n → X), (open Classical in if Fl.lt (essLogWeight s.logWeight) (.fin (n - 1e-3)) then s.value.map (fun v => v ∘ (tapeEnv cat ω).categorical κ s.logWeight) else s.value) = val
      ∧ val.length = s.value.length ∧ ∀ i, val.map (fun v => v i) = pathList val.length (v i) := by
    by_cases hc : R.2.1 ∈ pfCrit n
    · refine ⟨_, if_pos (hess.mpr hc), by simp, fun i => ?_⟩
      rw [List.map_map, List.length_map, hv]
      simp only [redValue, if_pos hc]
      rw [← h.value, h.logWeight]
      rfl
    · refine ⟨_, if_neg fun h' => hc (hess.mp h'), rfl, fun i => ?_⟩
      rw [hv]
      simp only [redValue, if_neg hc]
      exact h.value i
  obtain ⟨val, e1, e2, e3⟩ := hval
  have hlast := pathList_last e3 (by rw [e2]; exact h.pos)
  unfold propagatePf
  simp only [e1, hlast, h.t, Option.bind_eq_bind, Option.bind_some, List.length_append, List.length_singleton, h.len]
  rw [if_neg (by omega)]
  refine ⟨_, rfl, ⟨fun i => ?_, by simp, ?_, by simp, by simp [h.len, e2]⟩, by simp [e2]⟩
  · simp only [List.map_append, List.map_cons, List.map_nil, List.length_append, List.length_cons, List.length_nil, Nat.zero_add]
    rw [e3 i]
    simp only [pfStep, moveRed, redStep, redValue, pickRed, flatRed, pathFilter, pathList_cons, Set.mem_empty_iff_false, if_false]
    simp only [hv, redValue]
    rfl
  · funext i
    simp only [hF.logWeight, pfStep, moveRed, redStep, redValue, redWeight, pickRed, flatRed, pathFilter, Set.mem_empty_iff_false, if_false, zero_add]
    simp only [hv, redValue]
    rfl

theorem calls_follows (ω : Tape) (rand : Rand Keys.Key n n) (trans : X → ℝ → X → ℝ → ℝ) (lag : ℕ) (thr : ℝ) (maxRej : ℤ) (bound inflation : ℝ) (os : List (Obs dy × ℝ × Keys.Key))
    {s : Smoother X n dy} {R : Red n (ℕ → X)} {t : ℝ} (h : Carries s R t) (hlag : s.value.length + os.length ≤ lag) :
    ∃ s' t', calls false ⟨tapeEnv cat ω, rand, trans, f ω, lag, thr, maxRej, bound, inflation⟩ s os = some s' ∧
      Carries s' (pfFinal cat (fun ω => pathFilter (f ω)) (fun p t p' => G (p 0) t (p' 0)) t os R ω) t' ∧ s'.value.length = s.value.length + os.length := by
  induction os generalizing s R t with
  | nil => exact ⟨s, t, rfl, h, rfl⟩
  | cons o os ih =>
    rw [List.length_cons] at hlag
    obtain ⟨s1, e1, h1, l1⟩ := propagatePf_follows hF ω rand trans lag thr maxRej bound inflation h (by omega) o
    obtain ⟨s2, t2, e2, h2, l2⟩ := ih h1 (by omega)
    refine ⟨s2, t2, ?_, h2, by rw [l2, l1, List.length_cons]; omega⟩
    obtain ⟨y, t', κ⟩ := o
    rw [calls]
    simp only [propagateSmoother, Bool.false_eq_true, if_false]
    simp only at e1
    rw [e1, Option.bind_some, e2]

/-- C140 for any filter whose proposals are properly weighted for the kernels `Γ`, with weights at most `w`: smoothing one observation at a time with the filter's own trajectories (`backward_sim=False`), before the
lag is reached. Every call succeeds, and the weighted mean of `g` over the `n` trajectories has a mean squared distance of order `1/n` from the smoothing expectation of `g`, for any `0 ≤ g ≤ B`. The weights left out
when they are nearly equal do not matter. -/
theorem C140_proper (hcat : IsCategoricalReal fun (w : Fin n → ℝ) u => cat (fun i => .fin (w i)) u) (rand : Tape → Rand Keys.Key n n) (trans : X → ℝ → X → ℝ → ℝ) (thr : ℝ) (y0 : Obs dy) (t0 : ℝ) (k0 : Keys.Key)
    (os : List (Obs dy × ℝ × Keys.Key)) (hk : (k0 :: os.map fun o => o.2.2).Pairwise Unrelated) (lag : ℕ) (hlag : os.length + 1 ≤ lag) (maxRej : ℤ) (bound inflation : ℝ)
    {w : ℝ} (hw0 : 0 ≤ w) (hw : ∀ x, Real.exp (G0 x y0 t0) ≤ w) (hw' : ∀ o ∈ os, ∀ t x x', Real.exp (G x t x' o.1 o.2.1) ≤ w) :
    ∃ out : Tape → Smoother X n dy,
      (∀ ω, (ofParticles (initiateParticles (tapeEnv cat ω) (f ω) k0 y0 t0)).bind
        (fun s => calls false ⟨tapeEnv cat ω, rand ω, trans, f ω, lag, thr, maxRej, bound, inflation⟩ s os) = some (out ω)) ∧
      (∀ ω, (out ω).value.length = os.length + 1) ∧
      ∀ (g : List X → ℝ) (B : ℝ), PathMeasurable (fun l => ENNReal.ofReal (g l)) → (∀ l, 0 ≤ g l) → (∀ l, g l ≤ B) →
        ∀ z, z = (∫⁻ x, pathIntegral Γ (fun _ => 1) t0 (os.map fun o => (o.1, o.2.1)) [] x ∂(Γ0 y0 t0)).toReal →
        ∀ s, s = (∫⁻ x, pathIntegral Γ (fun l => ENNReal.ofReal (g l)) t0 (os.map fun o => (o.1, o.2.1)) [] x ∂(Γ0 y0 t0)).toReal / z →
        0 < z ∧ ∫⁻ ω, ENNReal.ofReal ((smootherMean g (out ω) - s) ^ 2) ∂ideal ≤ ENNReal.ofReal (6 * 8 ^ os.length * (w ^ (os.length + 1) * B / z) ^ 2 / n) := by
  have hP := pathFilter_law hF
  rw [List.pairwise_cons] at hk
  have hk2 : os.Pairwise fun a b => Disjoint (below a.2.2) (below b.2.2) := (List.pairwise_map.mp hk.2).imp fun h => h.disjoint
  have hdis : ∀ o ∈ os, Disjoint (below k0) (below o.2.2) := fun o ho => (hk.1 _ (List.mem_map.mpr ⟨o, ho, rfl⟩)).disjoint
  have hrun : ∀ ω, ∃ out, (ofParticles (initiateParticles (tapeEnv (n := n) cat ω) (f ω) k0 y0 t0)).bind (fun s => calls false ⟨tapeEnv cat ω, rand ω, trans, f ω, lag, thr, maxRej, bound, inflation⟩ s os) = some out ∧
      ∃ t', Carries out (pfFinal cat (fun ω => pathFilter (f ω)) (fun p t p' => G (p 0) t (p' 0)) t0 os (startRed (n := n) (fun ω => pathFilter (f ω)) (fun p => G0 (p 0)) y0 t0 k0 ω) ω) t' ∧
        out.value.length = os.length + 1 := fun ω => by
    obtain ⟨s0, hs0⟩ : ∃ s0, ofParticles (initiateParticles (tapeEnv (n := n) cat ω) (f ω) k0 y0 t0) = some s0 := ⟨_, rfl⟩
    have hf : Carries s0 (startRed (n := n) (fun ω => pathFilter (f ω)) (fun p => G0 (p 0)) y0 t0 k0 ω) t0 ∧ s0.value.length = 1 := by
      obtain rfl := Option.some.inj hs0
      refine ⟨⟨fun i => rfl, Nat.zero_lt_one, ?_, rfl, rfl⟩, rfl⟩
      funext i
      exact hF.initialLogWeight ω _ y0 t0
    obtain ⟨s', t', e1, e2, e3⟩ := calls_follows (cat := cat) hF ω (rand ω) trans lag thr maxRej bound inflation os hf.1 (by rw [hf.2]; omega)
    exact ⟨s', by rw [hs0, Option.bind_some, e1], t', e2, by rw [e3, hf.2, Nat.add_comm]⟩
  choose out h1 t' h2 h3 using hrun
  have hN := pfNear_final hcat hP os hk2 hw0 (fun o ho t p p' => hw' o ho t (p 0) (p' 0)) (by norm_num) (measurable_startRed hP y0 t0 k0) (startRed_dependsOn hP y0 t0 k0) hdis t0
    (pfNear_start (n := n) hP y0 t0 k0 hw0 fun p => hw (p 0))
  refine ⟨out, h1, h3, fun g B hg hg0 hgB z hz s hs => ?_⟩
  have hB0 : 0 ≤ B := (hg0 []).trans (hgB [])
  have hterm : ∀ {h : List X → ℝ≥0∞}, PathMeasurable h → ∫⁻ p, h (pathList (os.length + 1) p)
      ∂(terminal (fun p t y t' => (Γ (p 0) t y t').map fun x' => consPath x' p) ((Γ0 y0 t0).map fun x _ => x) t0 (os.map fun o => (o.1, o.2.1)))
      = ∫⁻ x, pathIntegral Γ h t0 (os.map fun o => (o.1, o.2.1)) [] x ∂(Γ0 y0 t0) := fun {h} hh => by
    have e := path_terminal hF hh y0 t0 (os.map fun o => (o.1, o.2.1))
    rw [List.length_map] at e
    exact e
  have hu := hterm (h := fun _ => 1) fun k => measurable_const
  rw [lintegral_const, one_mul] at hu
  have hzp : 0 < z := by
    rw [hz, ← hu]
    exact ENNReal.toReal_pos hN.pos (ne_top_of_le_ne_top ENNReal.ofReal_ne_top hN.le)
  have hm := hN.mse (measurable_onPathList hg (os.length + 1)) hB0 fun p => ENNReal.ofReal_le_ofReal (hgB _)
  rw [hterm hg, hu, ← hz, ← hs] at hm
  refine ⟨hzp, ?_⟩
  have e : ∀ ω, smootherMean g (out ω)
      = (Q (fun p => ENNReal.ofReal (g (pathList (os.length + 1) p)))
        (plainRed (pfFinal cat (fun ω => pathFilter (f ω)) (fun p t p' => G (p 0) t (p' 0)) t0 os (startRed (n := n) (fun ω => pathFilter (f ω)) (fun p => G0 (p 0)) y0 t0 k0 ω) ω))).toReal := fun ω => by
    have hpos := sumExp_pos (pfFinal cat (fun ω => pathFilter (f ω)) (fun p t p' => G (p 0) t (p' 0)) t0 os (startRed (n := n) (fun ω => pathFilter (f ω)) (fun p => G0 (p 0)) y0 t0 k0 ω) ω).2.1
    rw [Q_mean (g := fun p => g (pathList (os.length + 1) p)) _ fun p => hg0 _, ENNReal.toReal_ofReal (mul_nonneg (Real.exp_pos _).le (div_nonneg (Finset.sum_nonneg fun i _ => mul_nonneg (Real.exp_pos _).le (hg0 _))
      (Finset.sum_nonneg fun i _ => (Real.exp_pos _).le)))]
    unfold smootherMean plainRed
    rw [(h2 ω).logWeight]
    simp only [(h2 ω).value, h3 ω, Real.exp_zero, one_mul]
    rfl
  simp only [e]
  refine hm.trans (ENNReal.ofReal_le_ofReal ?_)
  rw [show w * w ^ os.length = w ^ (os.length + 1) by ring]
  refine div_le_div_of_nonneg_right (mul_le_mul_of_nonneg_right ?_ (sq_nonneg _)) (Nat.cast_nonneg n)
  linarith

end

/-! ## The bootstrap filter -/

/-- C140 for the bootstrap filter: smoothing one observation at a time with the filter's own trajectories, before the lag is reached. After the last call the weighted mean of `g` over the `n` trajectories has a mean
squared distance of order `1/n` from the smoothing expectation of `g` given all observations so far. `hw`: the likelihoods of the observations are at most `w`. -/
theorem C140_bootstrap [MeasurableSpace X] [NeZero n] {cat : (Fin n → Fl) → ℝ → Fin n} {mo : Tape → Ssm.Model X (Obs dy) Keys.Key} {μ0 : ℝ → Measure X} {M : X → ℝ → ℝ → Measure X} {lik : X → Obs dy → ℝ → ℝ}
    (hm : ModelLaw mo μ0 M lik) (hcat : IsCategoricalReal fun (w : Fin n → ℝ) u => cat (fun i => .fin (w i)) u) (rand : Tape → Rand Keys.Key n n) (trans : X → ℝ → X → ℝ → ℝ)
    (thr : ℝ) (y0 : Obs dy) (t0 : ℝ) (k0 : Keys.Key) (os : List (Obs dy × ℝ × Keys.Key)) (hk : (k0 :: os.map fun o => o.2.2).Pairwise Unrelated) (lag : ℕ) (hlag : os.length + 1 ≤ lag)
    (maxRej : ℤ) (bound inflation : ℝ) {w : ℝ} (hw : ∀ o ∈ (y0, t0) :: os.map (fun o => (o.1, o.2.1)), ∀ x, Real.exp (-lik x o.1 o.2) ≤ w) :
    ∃ out : Tape → Smoother X n dy,
      (∀ ω, (ofParticles (initiateParticles (tapeEnv cat ω) (bootstrap (mo ω)) k0 y0 t0)).bind
        (fun s => calls false ⟨tapeEnv cat ω, rand ω, trans, bootstrap (mo ω), lag, thr, maxRej, bound, inflation⟩ s os) = some (out ω)) ∧
      (∀ ω, (out ω).value.length = os.length + 1) ∧
      ∀ (g : List X → ℝ) (B : ℝ), PathMeasurable (fun l => ENNReal.ofReal (g l)) → (∀ l, 0 ≤ g l) → (∀ l, g l ≤ B) →
        ∀ z, z = (∫⁻ x, ENNReal.ofReal (Real.exp (-lik x y0 t0)) * smoothingExpectation M lik (fun _ => 1) t0 (os.map fun o => (o.1, o.2.1)) [] x ∂(μ0 t0)).toReal →
        ∀ s, s = (∫⁻ x, ENNReal.ofReal (Real.exp (-lik x y0 t0)) * smoothingExpectation M lik (fun l => ENNReal.ofReal (g l)) t0 (os.map fun o => (o.1, o.2.1)) [] x ∂(μ0 t0)).toReal / z →
        0 < z ∧ ∫⁻ ω, ENNReal.ofReal ((smootherMean g (out ω) - s) ^ 2) ∂ideal ≤ ENNReal.ofReal (6 * 8 ^ os.length * (w ^ (os.length + 1) * B / z) ^ 2 / n) := by
  have hw0 : 0 ≤ w := (Real.exp_pos _).le.trans (hw _ List.mem_cons_self ((mo fun _ => 0).initialSample t0 []))
  obtain ⟨out, h1, h2, h3⟩ := C140_proper (bootstrap_law hm) hcat rand trans thr y0 t0 k0 os hk lag hlag maxRej bound inflation hw0 (hw _ List.mem_cons_self)
    (fun o ho _ _ x' => hw (o.1, o.2.1) (List.mem_cons_of_mem _ (List.mem_map.mpr ⟨o, ho, rfl⟩)) x')
  have he : ∀ {h : List X → ℝ≥0∞}, PathMeasurable h → ∫⁻ x, pathIntegral (fun x t y t' => (M x t t').withDensity fun x' => ENNReal.ofReal (Real.exp (-lik x' y t'))) h t0 (os.map fun o => (o.1, o.2.1)) [] x
      ∂((μ0 t0).withDensity fun x => ENNReal.ofReal (Real.exp (-lik x y0 t0)))
      = ∫⁻ x, ENNReal.ofReal (Real.exp (-lik x y0 t0)) * smoothingExpectation M lik h t0 (os.map fun o => (o.1, o.2.1)) [] x ∂(μ0 t0) := fun {h} hh => by
    rw [lintegral_withDensity_eq_lintegral_mul _ (measurable_likDensity hm y0 t0) (measurable_pathIntegral (bootstrap_law hm) hh t0 _ [])]
    refine lintegral_congr fun x => ?_
    rw [Pi.mul_apply, pathIntegral_bootstrap hm hh]
  refine ⟨out, h1, h2, fun g B hg hg0 hgB z hz s hs => ?_⟩
  exact h3 g B hg hg0 hgB z (hz.trans (by rw [he fun k => measurable_const])) s (hs.trans (by rw [he hg]))

/-! ## Nonlinear Gaussian models -/

section
open Matrix Mocat.NonlinearGaussian Mocat.Spec Mocat.Covariance Mocat.MatGauss
variable {d e : ℕ} {chol : Chol} (hchol : IsCholeskyAll chol) {mo : NLG d e} (hm : ProperNLG mo) (htr : ∀ t t', Measurable fun x => mo.transFun x t t') {q : ℝ → ℝ} (hq : IsNormalDraw q)
include hchol hm htr hq

/-- C140 for nonlinear Gaussian models with the bootstrap filter: for every bounded function of the path there is a constant, fixed before the number of particles. -/
theorem C140_nonlinear_gaussian (y0 : Obs e) (t0 : ℝ) (k0 : Keys.Key) (os : List (Obs e × ℝ × Keys.Key)) (hk : (k0 :: os.map fun o => o.2.2).Pairwise Unrelated) (g : List (Fin d → ℝ) → ℝ) (B : ℝ)
    (hg : PathMeasurable fun l => ENNReal.ofReal (g l)) (hg0 : ∀ l, 0 ≤ g l) (hgB : ∀ l, g l ≤ B) :
    ∃ C : ℝ, ∀ (n : ℕ) [NeZero n] (cat : (Fin n → Fl) → ℝ → Fin n), (IsCategoricalReal fun (w : Fin n → ℝ) u => cat (fun i => .fin (w i)) u) →
      ∀ (lag : ℕ) (_ : os.length + 1 ≤ lag) (thr : ℝ) (maxRej : ℤ) (bound inflation : ℝ),
      ∃ out : Tape → Smoother (Fin d → ℝ) n e,
        (∀ ω, (ofParticles (initiateParticles (tapeEnv cat ω) (bootstrap (reKeyModel (normalsAt q ω) (mo.model chol))) k0 y0 t0)).bind
          (fun s => calls false ⟨tapeEnv cat ω, tapeRand cat ω, (mo.model chol).transitionPotential, bootstrap (reKeyModel (normalsAt q ω) (mo.model chol)), lag, thr, maxRej, bound, inflation⟩ s os) = some (out ω)) ∧
        (∀ ω, (out ω).value.length = os.length + 1) ∧
        let S := fun h : List (Fin d → ℝ) → ℝ≥0∞ => ∫⁻ x, ENNReal.ofReal (Real.exp (-covPotential chol mo.likCov (x ᵥ* mo.likMatᵀ) y0))
          * smoothingExpectation (fun x t t' => gauss (mo.transFun x t t') ((chol d mo.transCov)ᵀ * chol d mo.transCov)) (fun x y _ => covPotential chol mo.likCov (x ᵥ* mo.likMatᵀ) y) h t0
            (os.map fun o => (o.1, o.2.1)) [] x
          ∂(gauss mo.initialMean mo.initialCov)
        let s := (S fun l => ENNReal.ofReal (g l)).toReal / (S fun _ => 1).toReal
        0 < (S fun _ => 1).toReal ∧
        ∫⁻ ω, ENNReal.ofReal ((smootherMean g (out ω) - s) ^ 2) ∂ideal ≤ ENNReal.ofReal (C / n) := by
  set S := fun h : List (Fin d → ℝ) → ℝ≥0∞ => ∫⁻ x, ENNReal.ofReal (Real.exp (-covPotential chol mo.likCov (x ᵥ* mo.likMatᵀ) y0))
    * smoothingExpectation (fun x t t' => gauss (mo.transFun x t t') ((chol d mo.transCov)ᵀ * chol d mo.transCov)) (fun x y _ => covPotential chol mo.likCov (x ᵥ* mo.likMatᵀ) y) h t0
      (os.map fun o => (o.1, o.2.1)) [] x
    ∂(gauss mo.initialMean mo.initialCov) with hS
  refine ⟨6 * 8 ^ os.length * (Real.exp (-Gaussian.negLogZ e (some (1 / mo.likCov.det))) ^ (os.length + 1) * B / (S fun _ => 1).toReal) ^ 2, fun n _ cat hcat lag hlag thr maxRej bound inflation => ?_⟩
  obtain ⟨out, h1, h2, h3⟩ := C140_bootstrap (n := n) (nlg_modelLaw hchol hm htr hq) hcat (fun ω => tapeRand cat ω) (mo.model chol).transitionPotential thr y0 t0 k0 os hk lag hlag maxRej bound inflation
    (fun o _ x => Real.exp_le_exp.mpr (neg_le_neg (neg_potential_le o.1 (x ᵥ* mo.likMatᵀ) _ _)))
  obtain ⟨hz, hmse⟩ := h3 g B hg hg0 hgB _ rfl _ rfl
  exact ⟨out, h1, h2, hz, hmse⟩

end

/-! ## A case that meets the hypotheses -/

section
open Matrix Mocat.NonlinearGaussian Mocat.Spec Mocat.Covariance Mocat.MatGauss

/-- A nonlinear model in dimension 2, two calls after the first observation with lag 5: the smoothing probability that the first coordinate rises from the first time to the last. -/
example (y0 y1 y2 : Obs 2) : ∃ (chol : Chol) (q : ℝ → ℝ) (C : ℝ), ∀ (n : ℕ) [NeZero n], ∃ (cat : (Fin n → Fl) → ℝ → Fin n) (out : Tape → Smoother (Fin 2 → ℝ) n 2),
    (∀ ω, (ofParticles (initiateParticles (tapeEnv cat ω) (bootstrap (reKeyModel (normalsAt q ω) ((⟨0, 1, fun x t t' i => Real.sin (x i) + (t' - t), covEx, 1, 1⟩ : NLG 2 2).model chol))) [0] y0 0)).bind
      (fun s => calls false ⟨tapeEnv cat ω, tapeRand cat ω, ((⟨0, 1, fun x t t' i => Real.sin (x i) + (t' - t), covEx, 1, 1⟩ : NLG 2 2).model chol).transitionPotential,
        bootstrap (reKeyModel (normalsAt q ω) ((⟨0, 1, fun x t t' i => Real.sin (x i) + (t' - t), covEx, 1, 1⟩ : NLG 2 2).model chol)), 5, 1 / 2, 7, 1, 2⟩ s [(y1, 1, [1]), (y2, 3, [2])]) = some (out ω)) ∧
    let S := fun h : List (Fin 2 → ℝ) → ℝ≥0∞ => ∫⁻ x, ENNReal.ofReal (Real.exp (-covPotential chol 1 (x ᵥ* (1 : Matrix (Fin 2) (Fin 2) ℝ)ᵀ) y0))
      * smoothingExpectation (fun x t t' => gauss (fun i => Real.sin (x i) + (t' - t)) ((chol 2 covEx)ᵀ * chol 2 covEx)) (fun x y _ => covPotential chol 1 (x ᵥ* (1 : Matrix (Fin 2) (Fin 2) ℝ)ᵀ) y) h 0
        [(y1, 1), (y2, 3)] [] x ∂(gauss 0 1)
    ∫⁻ ω, ENNReal.ofReal ((smootherMean (fun l => {z : (Fin 2 → ℝ) × (Fin 2 → ℝ) | z.1 0 < z.2 0}.indicator (fun _ => (1 : ℝ)) (l.getD 0 0, l.getD 2 0)) (out ω)
      - (S fun l => ENNReal.ofReal ({z : (Fin 2 → ℝ) × (Fin 2 → ℝ) | z.1 0 < z.2 0}.indicator (fun _ => (1 : ℝ)) (l.getD 0 0, l.getD 2 0))).toReal / (S fun _ => 1).toReal) ^ 2) ∂ideal
      ≤ ENNReal.ofReal (C / n) := by
  obtain ⟨chol, hchol⟩ := exists_isCholeskyAll
  obtain ⟨q, hq⟩ := exists_isNormalDraw
  have hA : MeasurableSet {z : (Fin 2 → ℝ) × (Fin 2 → ℝ) | z.1 0 < z.2 0} := measurableSet_lt ((measurable_pi_apply 0).comp measurable_fst) ((measurable_pi_apply 0).comp measurable_snd)
  obtain ⟨C, hC⟩ := C140_nonlinear_gaussian hchol (mo := ⟨0, 1, fun x t t' i => Real.sin (x i) + (t' - t), covEx, 1, 1⟩) ⟨PosDef.one, covEx_posDef, PosDef.one⟩ (fun t t' => by fun_prop) hq
    y0 0 [0] [(y1, 1, [1]), (y2, 3, [2])] (by simp [Unrelated, List.suffix_cons_iff]) _ 1 (pathMeasurable_indicator hA 0 0 2) (fun l => Set.indicator_nonneg (fun _ _ => zero_le_one) _)
    (fun l => Set.indicator_le_self' (fun _ _ => zero_le_one) _)
  refine ⟨chol, q, C, fun n _ => ?_⟩
  obtain ⟨out, h1, -, -, h4⟩ := hC n invCdf isCategoricalReal_invCdfReal 5 (by simp) (1 / 2) 7 1 2
  exact ⟨invCdf, out, h1, h4⟩

end

end Mocat.Props
