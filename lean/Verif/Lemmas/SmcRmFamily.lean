import Verif.Lemmas.SmcAdaptiveMoves
import Verif.Lemmas.GaussScale
/-! Families of functions indexed by temperature and stepsize, and `RandomWalk` moves as such a family. -/
namespace Mocat.Smc
open Mocat Mocat.Ideal Mocat.Meas Mocat.Mcmc Mocat.Spec MeasureTheory Filter Topology
open scoped ENNReal

section
variable {X Θ : Type*} [MeasurableSpace X] {Ω : ℕ → Type*} [∀ n, MeasurableSpace (Ω n)] {μ : ∀ n, Measure (Ω n)}

/-- A family of functions that is totally bounded, on average. -/
structure NetFamily (μ0 : Measure X) (K : Set Θ) (F : Θ → X → ℝ) : Prop where
  measurable : ∀ u, Measurable (F u)
  nonneg : ∀ u x, 0 ≤ F u x
  bounded : ∃ B, ∀ u ∈ K, ∀ x, F u x ≤ B
  modulus : ∃ (D : ℕ → X → ℝ) (B : ℝ), (∀ j, Measurable (D j)) ∧ (∀ j x, 0 ≤ D j x) ∧ (∀ j x, D j x ≤ B) ∧
    (∀ j : ℕ, ∃ I : Finset Θ, (∀ i ∈ I, i ∈ K) ∧ ∀ u ∈ K, ∃ i ∈ I, ∀ x, |F u x - F i x| ≤ D j x) ∧ Tendsto (fun j => ∫ x, D j x ∂μ0) atTop (𝓝 0)

theorem Good.net {μ0 : Measure X} [IsProbabilityMeasure μ0] {lik : X → ℝ} (hlik : Measurable lik) {M W : ℝ} (hW : ∀ T ∈ Set.Icc 0 M, ∀ x, Real.exp (-(T * lik x)) ≤ W)
    {s : ∀ n, Ω n → ℝ × Red (n + 1) X} (hs : Good μ μ0 lik s) (hT : ∀ n z, (s n z).1 ∈ Set.Icc 0 M) {K : Set Θ} {F : Θ → X → ℝ} (hF : NetFamily μ0 K F)
    {u : ∀ n, Ω n → Θ} (hu : ∀ n z, u n z ∈ K) : InProb μ (fun n z => Qr (F (u n z)) (s n z).2 - gam μ0 lik (s n z).1 (F (u n z))) 0 := by
  classical
  obtain ⟨b, hb⟩ := hF.bounded
  obtain ⟨D, B, hDm, hD0, hDB, hD, hlim⟩ := hF.modulus
  refine inProb_of_le fun η hη => ?_
  have hev : ∀ᶠ j in atTop, 2 * (W * ∫ x, D j x ∂μ0) < η := by
    have h1 : Tendsto (fun j => 2 * (W * ∫ x, D j x ∂μ0)) atTop (𝓝 (2 * (W * 0))) := (hlim.const_mul W).const_mul 2
    rw [mul_zero, mul_zero] at h1
    exact h1.eventually_lt_const hη
  obtain ⟨j, hj⟩ := hev.exists
  obtain ⟨I, hIK, hI⟩ := hD j
  set Y : Θ → ∀ n, Ω n → ℝ := fun i n z => if i ∈ K then Qr (F i) (s n z).2 - gam μ0 lik (s n z).1 (F i) else 0 with hY
  have hYp : ∀ i, InProb μ (Y i) 0 := fun i => by
    by_cases hi : i ∈ K
    · simp only [hY, if_pos hi]
      exact hs (F i) b (hF.measurable _) (hF.nonneg _) (hb _ hi)
    · simp only [hY, if_neg hi]
      exact inProb_const _
  refine ⟨fun n z => (∑ i ∈ I, |Y i n z|) + |Qr (D j) (s n z).2 - gam μ0 lik (s n z).1 (D j)|, ?_, fun n z => ?_⟩
  · have := (inProb_sum I hYp).add (inProb_abs (hs (D j) B (hDm j) (hD0 j) (hDB j)))
    rwa [add_zero] at this
  · obtain ⟨i, hi, hd⟩ := hI _ (hu n z)
    have hti := hIK i hi
    have h1 : |Qr (F (u n z)) (s n z).2 - Qr (F i) (s n z).2| ≤ Qr (D j) (s n z).2 := Qr_abs_sub hd _
    have hab : ∀ u ∈ K, ∀ x, |F u x| ≤ max b B := fun u hu x => by
      rw [abs_of_nonneg (hF.nonneg _ _)]; exact (hb u hu x).trans (le_max_left _ _)
    have hab' : ∀ x, |D j x| ≤ max b B := fun x => by
      rw [abs_of_nonneg (hD0 _ _)]; exact (hDB j x).trans (le_max_right _ _)
    have h2 : |gam μ0 lik (s n z).1 (F (u n z)) - gam μ0 lik (s n z).1 (F i)| ≤ gam μ0 lik (s n z).1 (D j) :=
      gam_abs_sub hlik hW (hT n z) (hF.measurable _) (hF.measurable _) (hDm j) (hab _ (hu n z)) (hab _ hti) hab' hd
    have h3 : gam μ0 lik (s n z).1 (D j) ≤ W * ∫ x, D j x ∂μ0 := gam_le hlik hW (hT n z) (hDm j) (hD0 j) (hDB j)
    have h4 : |Y i n z| ≤ ∑ i ∈ I, |Y i n z| := Finset.single_le_sum (f := fun i => |Y i n z|) (fun i _ => abs_nonneg _) hi
    have h5 : Y i n z = Qr (F i) (s n z).2 - gam μ0 lik (s n z).1 (F i) := if_pos hti
    rw [h5] at h4
    have h6 : 0 ≤ ∑ i ∈ I, |Y i n z| := Finset.sum_nonneg fun i _ => abs_nonneg _
    rw [abs_of_nonneg (add_nonneg h6 (abs_nonneg _))]
    have h7 := le_abs_self (Qr (D j) (s n z).2 - gam μ0 lik (s n z).1 (D j))
    have e : Qr (F (u n z)) (s n z).2 - gam μ0 lik (s n z).1 (F (u n z)) = (Qr (F (u n z)) (s n z).2 - Qr (F i) (s n z).2)
        + (Qr (F i) (s n z).2 - gam μ0 lik (s n z).1 (F i)) - (gam μ0 lik (s n z).1 (F (u n z)) - gam μ0 lik (s n z).1 (F i)) := by ring
    rw [e]
    refine (abs_sub _ _).trans ?_
    have := abs_add_le (Qr (F (u n z)) (s n z).2 - Qr (F i) (s n z).2) (Qr (F i) (s n z).2 - gam μ0 lik (s n z).1 (F i))
    linarith

end

variable {d : ℕ}

/-! ## Proposals at two stepsizes -/

/-- The scale of the proposals, from the logarithm of the stepsize. -/
noncomputable def hAt (u : ℝ) : ℝ := Real.sqrt (Real.exp u)

theorem hAt_pos (u : ℝ) : 0 < hAt u := Real.sqrt_pos.2 (Real.exp_pos u)

theorem hAt_mono {u v : ℝ} (h : u ≤ v) : hAt u ≤ hAt v := Real.sqrt_le_sqrt (Real.exp_le_exp.2 h)

theorem hAt_ratio (u v : ℝ) : hAt u / hAt v = Real.exp ((u - v) / 2) := by
  unfold hAt
  rw [← Real.sqrt_div (Real.exp_pos u).le, ← Real.exp_sub, Real.sqrt_eq_iff_mul_self_eq (Real.exp_pos _).le (Real.exp_pos _).le, ← Real.exp_add]
  congr 1
  ring

/-- How much averages of functions up to 1 can differ between stepsizes whose logarithms are `1 / (j + 1)` apart. -/
noncomputable def tvd (d j : ℕ) : ℝ≥0∞ := ENNReal.ofReal (2 * (1 - Real.exp (-(1 / ((j : ℝ) + 1)) / 2) ^ d))

theorem tvd_le (d j : ℕ) : tvd d j ≤ 2 := by
  unfold tvd
  have h : (0 : ℝ) < Real.exp (-(1 / ((j : ℝ) + 1)) / 2) ^ d := by positivity
  refine (ENNReal.ofReal_le_ofReal (show 2 * (1 - Real.exp (-(1 / ((j : ℝ) + 1)) / 2) ^ d) ≤ 2 by linarith)).trans (le_of_eq ?_)
  simp

theorem tvd_tendsto (d : ℕ) : Tendsto (tvd d) atTop (𝓝 0) := by
  have h1 : Tendsto (fun j : ℕ => (1 : ℝ) / ((j : ℝ) + 1)) atTop (𝓝 0) := tendsto_one_div_add_atTop_nhds_zero_nat
  have hc : Continuous fun t : ℝ => ENNReal.ofReal (2 * (1 - Real.exp (-t / 2) ^ d)) := ENNReal.continuous_ofReal.comp (by fun_prop)
  have h2 := (hc.tendsto 0).comp h1
  have e : ENNReal.ofReal (2 * (1 - Real.exp (-(0 : ℝ) / 2) ^ d)) = 0 := by simp
  rw [e] at h2
  exact h2

theorem prOp_eq (h : ℝ) (g : (Fin d → ℝ) → ℝ≥0∞) (x : Fin d → ℝ) : prOp h g x = ∫⁻ ζ, (fun v => g fun i => x i + v i) (fun i => h * ζ i) ∂stdNormal d := rfl

theorem prOp_scale {u v : ℝ} (h : u ≤ v) {g : (Fin d → ℝ) → ℝ≥0∞} (hg : Measurable g) (x : Fin d → ℝ) :
    prOp (hAt u) g x ≤ ENNReal.ofReal (Real.exp ((v - u) / 2) ^ d) * prOp (hAt v) g x := by
  have hm : Measurable fun v : Fin d → ℝ => g fun i => x i + v i := hg.comp (by fun_prop)
  have h1 := scaled_le hm (hAt_pos u) (hAt_mono h)
  rw [← prOp_eq, ← prOp_eq, hAt_ratio] at h1
  calc prOp (hAt u) g x = ENNReal.ofReal (Real.exp ((v - u) / 2) ^ d) * (ENNReal.ofReal (Real.exp ((u - v) / 2) ^ d) * prOp (hAt u) g x) := by
        rw [← mul_assoc, ← ENNReal.ofReal_mul (by positivity), ← mul_pow, ← Real.exp_add, show (v - u) / 2 + (u - v) / 2 = 0 by ring, Real.exp_zero, one_pow, ENNReal.ofReal_one, one_mul]
    _ ≤ _ := mul_le_mul' le_rfl h1

theorem prOp_near {j : ℕ} {u v : ℝ} (huv : |u - v| ≤ 1 / ((j : ℝ) + 1)) {g : (Fin d → ℝ) → ℝ≥0∞} (hg : Measurable g) {b : ℝ≥0∞} (hb : b ≠ ∞) (hgb : ∀ x, g x ≤ b) (x : Fin d → ℝ) :
    prOp (hAt u) g x ≤ prOp (hAt v) g x + b * tvd d j := by
  obtain ⟨H, hH⟩ : ∃ H : (Fin d → ℝ) → ℝ, H = fun v => (g fun i => x i + v i).toReal := ⟨_, rfl⟩
  have hHm : Measurable H := by rw [hH]; exact (hg.comp (by fun_prop)).ennreal_toReal
  have hHb : ∀ v, |H v| ≤ b.toReal := fun v => by
    rw [hH, abs_of_nonneg ENNReal.toReal_nonneg]
    exact ENNReal.toReal_mono hb (hgb _)
  have hH0 : ∀ v, 0 ≤ H v := fun v => by rw [hH]; exact ENNReal.toReal_nonneg
  have hi : ∀ h : ℝ, Integrable (fun ζ : Fin d → ℝ => H fun i => h * ζ i) (stdNormal d) := fun h =>
    Integrable.of_bound (hHm.comp (by fun_prop)).aestronglyMeasurable b.toReal (Filter.Eventually.of_forall fun ζ => hHb _)
  have e : ∀ h : ℝ, prOp h g x = ENNReal.ofReal (∫ ζ, H (fun i => h * ζ i) ∂stdNormal d) := fun h => by
    rw [ofReal_integral_eq_lintegral_ofReal (hi h) (Filter.Eventually.of_forall fun ζ => hH0 _), prOp_eq]
    refine lintegral_congr fun ζ => ?_
    rw [hH]
    exact (ENNReal.ofReal_toReal (ne_top_of_le_ne_top hb (hgb _))).symm
  have key : ∀ {a c : ℝ}, a ≤ c → |a - c| ≤ 1 / ((j : ℝ) + 1) → |∫ ζ, H (fun i => hAt c * ζ i) ∂stdNormal d - ∫ ζ, H (fun i => hAt a * ζ i) ∂stdNormal d|
      ≤ b.toReal * (2 * (1 - Real.exp (-(1 / ((j : ℝ) + 1)) / 2) ^ d)) := fun {a c} hac h => by
    refine (abs_scaled_sub_le hHm hHb (hAt_pos a) (hAt_mono hac)).trans ?_
    rw [hAt_ratio]
    have h1 : Real.exp (-(1 / ((j : ℝ) + 1)) / 2) ^ d ≤ Real.exp ((a - c) / 2) ^ d :=
      pow_le_pow_left₀ (Real.exp_pos _).le (Real.exp_le_exp.2 (by have := (abs_le.1 h).1; linarith)) d
    have h2 : 0 ≤ b.toReal := ENNReal.toReal_nonneg
    nlinarith
  have h3 : ∫ ζ, H (fun i => hAt u * ζ i) ∂stdNormal d ≤ ∫ ζ, H (fun i => hAt v * ζ i) ∂stdNormal d + b.toReal * (2 * (1 - Real.exp (-(1 / ((j : ℝ) + 1)) / 2) ^ d)) := by
    rcases le_total u v with h | h
    · have := (abs_le.1 (key h huv)).1
      linarith
    · have := (abs_le.1 (key h (by rwa [abs_sub_comm]))).2
      linarith
  rw [e, e]
  refine (ENNReal.ofReal_le_ofReal h3).trans (ENNReal.ofReal_add_le.trans (add_le_add le_rfl (le_of_eq ?_)))
  rw [ENNReal.ofReal_mul ENNReal.toReal_nonneg, ENNReal.ofReal_toReal hb]
  rfl

/-! ## Moves at two temperatures and stepsizes -/

/-- The moves of a `RandomWalk` at a temperature, with the exponential of a number as stepsize. -/
noncomputable def rwWith (prior lik : (Fin d → ℝ) → ℝ) (θ : ℝ × ℝ) : (Fin d → ℝ) → (Fin d → ℝ) × ℝ → Fin d → ℝ := rwAt prior lik (Real.exp θ.2) θ.1

/-- How much `m` steps can differ when temperatures and logarithms of stepsizes are `1 / (j + 1)` apart; `C` bounds the ratios of proposal densities. -/
noncomputable def gaps2 (lik : (Fin d → ℝ) → ℝ) (U : ℝ) (C b : ℝ≥0∞) (j : ℕ) : ℕ → (Fin d → ℝ) → ℝ≥0∞
  | 0, _ => 0
  | m + 1, x => C * prOp (hAt U) (gaps2 lik U C b j m) x + gaps2 lik U C b j m x + b * (C * gap lik (hAt U) j x + tvd d j)

section
variable {prior lik : (Fin d → ℝ) → ℝ} (hprior : Measurable prior) (hlik : Measurable lik)

include hlik in
theorem measurable_gaps2 (U : ℝ) (C b : ℝ≥0∞) (j m : ℕ) : Measurable (gaps2 lik U C b j m) := by
  induction m with
  | zero => exact measurable_const
  | succ m ih =>
    have m1 : Measurable (prOp (hAt U) (gaps2 lik U C b j m)) :=
      Measurable.lintegral_prod_right' (f := fun z : (Fin d → ℝ) × (Fin d → ℝ) => gaps2 lik U C b j m (rwProp (hAt U) (z.1, z.2))) (ih.comp (measurable_rwProp _))
    exact ((m1.const_mul C).add ih).add ((((measurable_gap hlik _ j).const_mul C).add measurable_const).const_mul b)

theorem gaps2_bounded (lik : (Fin d → ℝ) → ℝ) (U : ℝ) {C b : ℝ≥0∞} (hC : C ≠ ∞) (hb : b ≠ ∞) (m : ℕ) : ∃ c : ℝ≥0∞, c ≠ ∞ ∧ ∀ j x, gaps2 lik U C b j m x ≤ c := by
  induction m with
  | zero => exact ⟨0, by simp, fun j x => le_rfl⟩
  | succ m ih =>
    obtain ⟨c, hc, h1⟩ := ih
    refine ⟨C * c + c + b * (C * 1 + 2), ?_, fun j x => add_le_add (add_le_add (mul_le_mul' le_rfl ?_) (h1 j x)) (mul_le_mul' le_rfl (add_le_add (mul_le_mul' le_rfl (gap_le_one _ _ _ _)) (tvd_le d j)))⟩
    · exact ENNReal.add_ne_top.2 ⟨ENNReal.add_ne_top.2 ⟨ENNReal.mul_ne_top hC hc, hc⟩, ENNReal.mul_ne_top hb (ENNReal.add_ne_top.2 ⟨ENNReal.mul_ne_top hC ENNReal.one_ne_top, by simp⟩)⟩
    · unfold prOp
      refine (lintegral_mono fun ζ => h1 j _).trans (le_of_eq ?_)
      rw [lintegral_const, measure_univ, mul_one]

include hlik in
theorem gaps2_tendsto (U : ℝ) {C b : ℝ≥0∞} (hC : C ≠ ∞) (hb : b ≠ ∞) (m : ℕ) (x : Fin d → ℝ) : Tendsto (fun j => gaps2 lik U C b j m x) atTop (𝓝 0) := by
  induction m generalizing x with
  | zero => exact tendsto_const_nhds
  | succ m ih =>
    obtain ⟨c, hc, h1⟩ := gaps2_bounded lik U hC hb m
    have h2 := tendsto_lintegral_of_dominated_convergence (μ := stdNormal d) (F := fun (j : ℕ) ζ => gaps2 lik U C b j m (rwProp (hAt U) (x, ζ))) (f := fun _ => 0) (fun _ => c)
      (fun j => (measurable_gaps2 hlik U C b j m).comp ((measurable_rwProp _).comp measurable_prodMk_left)) (fun j => Filter.Eventually.of_forall fun ζ => h1 j _)
      (by rw [lintegral_const, measure_univ, mul_one]; exact hc) (Filter.Eventually.of_forall fun ζ => ih _)
    rw [lintegral_zero] at h2
    have h4 := (ENNReal.Tendsto.const_mul (gap_tendsto hlik (hAt U) x) (Or.inr hC)).add (tvd_tendsto d)
    rw [mul_zero, add_zero] at h4
    have h3 := ((ENNReal.Tendsto.const_mul h2 (Or.inr hC)).add (ih x)).add (ENNReal.Tendsto.const_mul h4 (Or.inr hb))
    rw [mul_zero, mul_zero, add_zero, add_zero] at h3
    exact h3

include hprior hlik in
/-- One step as an average over proposals. -/
theorem stepOp_prOp (T u : ℝ) {g : (Fin d → ℝ) → ℝ≥0∞} (hg : Measurable g) (x : Fin d → ℝ) :
    (Measurable fun y => ∫⁻ w, (if w < accOn Set.univ (fun x => prior x + T * lik x) x y then g y else g x) ∂unif) ∧
    stepOp ((stdNormal d).prod unif) (rwWith prior lik (T, u)) g x
      = prOp (hAt u) (fun y => ∫⁻ w, (if w < accOn Set.univ (fun x => prior x + T * lik x) x y then g y else g x) ∂unif) x := by
  have hV : Measurable fun x => prior x + T * lik x := hprior.add (measurable_const.mul hlik)
  have hacc : Measurable fun y => accOn Set.univ (fun x => prior x + T * lik x) x y := by
    simp only [accOn_univ]
    exact measurable_const.min (Real.measurable_exp.comp (hV.neg.add measurable_const))
  have hm : Measurable fun z : (Fin d → ℝ) × ℝ => if z.2 < accOn Set.univ (fun x => prior x + T * lik x) x z.1 then g z.1 else g x :=
    Measurable.ite (measurableSet_lt measurable_snd (hacc.comp measurable_fst)) (hg.comp measurable_fst) measurable_const
  refine ⟨Measurable.lintegral_prod_right' hm, ?_⟩
  have hm2 : Measurable fun z : (Fin d → ℝ) × ℝ => if z.2 < accOn Set.univ (fun x => prior x + T * lik x) x (rwProp (hAt u) (x, z.1)) then g (rwProp (hAt u) (x, z.1)) else g x :=
    hm.comp (f := fun z : (Fin d → ℝ) × ℝ => (rwProp (hAt u) (x, z.1), z.2)) (((measurable_rwProp _).comp (measurable_const.prodMk measurable_fst)).prodMk measurable_snd)
  have e : stepOp ((stdNormal d).prod unif) (rwWith prior lik (T, u)) g x = ∫⁻ z, (if z.2 < accOn Set.univ (fun x => prior x + T * lik x) x (rwProp (hAt u) (x, z.1))
      then g (rwProp (hAt u) (x, z.1)) else g x) ∂(stdNormal d).prod unif := lintegral_congr fun z => by
    unfold rwWith rwAt rwMove
    exact apply_ite g _ _ _
  rw [e, lintegral_prod _ hm2.aemeasurable]
  rfl

include hprior hlik in
theorem stepOp_diff2 {L U : ℝ} {j : ℕ} {θ θ' : ℝ × ℝ} (hθ : θ.2 ∈ Set.Icc L U) (hθ' : θ'.2 ∈ Set.Icc L U) (h1 : |θ.1 - θ'.1| ≤ 1 / ((j : ℝ) + 1)) (h2 : |θ.2 - θ'.2| ≤ 1 / ((j : ℝ) + 1))
    {g : (Fin d → ℝ) → ℝ≥0∞} (hg : Measurable g) {b : ℝ≥0∞} (hb : b ≠ ∞) (hgb : ∀ x, g x ≤ b) (x : Fin d → ℝ) :
    stepOp ((stdNormal d).prod unif) (rwWith prior lik θ) g x ≤ stepOp ((stdNormal d).prod unif) (rwWith prior lik θ') g x
      + b * (ENNReal.ofReal (Real.exp ((U - L) / 2) ^ d) * gap lik (hAt U) j x + tvd d j) := by
  obtain ⟨T, u⟩ := θ
  obtain ⟨T', u'⟩ := θ'
  simp only at hθ hθ' h1 h2
  have s1 : stepOp ((stdNormal d).prod unif) (rwWith prior lik (T, u)) g x ≤ stepOp ((stdNormal d).prod unif) (rwWith prior lik (T', u)) g x + b * gap lik (hAt u) j x :=
    stepOp_diff hprior hlik (Real.exp u) h1 hg hgb x
  have s2 : stepOp ((stdNormal d).prod unif) (rwWith prior lik (T', u)) g x ≤ stepOp ((stdNormal d).prod unif) (rwWith prior lik (T', u')) g x + b * tvd d j := by
    obtain ⟨hm, e⟩ := stepOp_prOp hprior hlik T' u hg x
    obtain ⟨-, e'⟩ := stepOp_prOp hprior hlik T' u' hg x
    rw [e, e']
    refine prOp_near h2 hm hb (fun y => ?_) x
    refine (lintegral_mono (g := fun _ => b) fun w => ?_).trans (le_of_eq (by rw [lintegral_const, measure_univ, mul_one]))
    split
    · exact hgb _
    · exact hgb _
  have s3 : gap lik (hAt u) j x ≤ ENNReal.ofReal (Real.exp ((U - L) / 2) ^ d) * gap lik (hAt U) j x := by
    have hm : Measurable fun y => ENNReal.ofReal (min 1 (|lik y - lik x| / ((j : ℝ) + 1))) :=
      ENNReal.measurable_ofReal.comp (measurable_const.min (((hlik.sub measurable_const).abs).div_const _))
    refine (prOp_scale hθ.2 hm x).trans (mul_le_mul' (ENNReal.ofReal_le_ofReal (pow_le_pow_left₀ (Real.exp_pos _).le (Real.exp_le_exp.2 ?_) d)) le_rfl)
    have := hθ.1
    linarith
  refine s1.trans ((add_le_add s2 (mul_le_mul' le_rfl s3)).trans (le_of_eq ?_))
  ring

omit hprior hlik in
theorem stepOp_le2 {L U : ℝ} {θ : ℝ × ℝ} (hθ : θ.2 ∈ Set.Icc L U) {g : (Fin d → ℝ) → ℝ≥0∞} (hg : Measurable g) (x : Fin d → ℝ) :
    stepOp ((stdNormal d).prod unif) (rwWith prior lik θ) g x ≤ ENNReal.ofReal (Real.exp ((U - L) / 2) ^ d) * prOp (hAt U) g x + g x := by
  refine (stepOp_le (Real.exp θ.2) θ.1 hg x).trans (add_le_add ?_ le_rfl)
  refine (prOp_scale hθ.2 hg x).trans (mul_le_mul' (ENNReal.ofReal_le_ofReal (pow_le_pow_left₀ (Real.exp_pos _).le (Real.exp_le_exp.2 ?_) d)) le_rfl)
  have := hθ.1
  linarith

include hprior hlik in
theorem measurable_rwWith_uncurry (θ : ℝ × ℝ) : Measurable (Function.uncurry (rwWith prior lik θ)) := measurable_rwMove MeasurableSet.univ (hprior.add (measurable_const.mul hlik)) _

include hprior hlik in
/-- `m` steps. -/
theorem iterate_diff2 {L U : ℝ} {j : ℕ} {θ θ' : ℝ × ℝ} (hθ : θ.2 ∈ Set.Icc L U) (hθ' : θ'.2 ∈ Set.Icc L U) (h1 : |θ.1 - θ'.1| ≤ 1 / ((j : ℝ) + 1)) (h2 : |θ.2 - θ'.2| ≤ 1 / ((j : ℝ) + 1))
    {g : (Fin d → ℝ) → ℝ≥0∞} (hg : Measurable g) {b : ℝ≥0∞} (hb : b ≠ ∞) (hgb : ∀ x, g x ≤ b) (m : ℕ) (x : Fin d → ℝ) :
    (stepOp ((stdNormal d).prod unif) (rwWith prior lik θ))^[m] g x ≤ (stepOp ((stdNormal d).prod unif) (rwWith prior lik θ'))^[m] g x
      + gaps2 lik U (ENNReal.ofReal (Real.exp ((U - L) / 2) ^ d)) b j m x := by
  have hs := measurable_rwWith_uncurry (d := d) hprior hlik
  have hle : ∀ t (m : ℕ) x, (stepOp ((stdNormal d).prod unif) (rwWith prior lik t))^[m] g x ≤ b := by
    intro t m
    induction m with
    | zero => exact hgb
    | succ m ih =>
      intro x
      rw [Function.iterate_succ_apply']
      unfold stepOp at ih ⊢
      refine (lintegral_mono fun z => ih _).trans (le_of_eq ?_)
      rw [lintegral_const, measure_univ, mul_one]
  obtain ⟨C, hC⟩ : ∃ C, C = ENNReal.ofReal (Real.exp ((U - L) / 2) ^ d) := ⟨_, rfl⟩
  induction m generalizing x with
  | zero => exact le_self_add
  | succ m ih =>
    rw [← hC] at ih ⊢
    set G' := (stepOp ((stdNormal d).prod unif) (rwWith prior lik θ'))^[m] g with hG'
    have hG'm : Measurable G' := measurable_stepOp_iterate (hs θ') m hg
    have hgm := measurable_gaps2 hlik U C b j m
    rw [Function.iterate_succ_apply', Function.iterate_succ_apply']
    have h3 : stepOp ((stdNormal d).prod unif) (rwWith prior lik θ) ((stepOp ((stdNormal d).prod unif) (rwWith prior lik θ))^[m] g) x
        ≤ stepOp ((stdNormal d).prod unif) (rwWith prior lik θ) G' x + stepOp ((stdNormal d).prod unif) (rwWith prior lik θ) (gaps2 lik U C b j m) x := by
      have hm : Measurable fun z : (Fin d → ℝ) × ℝ => G' (rwWith prior lik θ x z) := hG'm.comp ((hs θ).comp measurable_prodMk_left)
      refine (lintegral_mono fun z => ih (rwWith prior lik θ x z)).trans (le_of_eq ?_)
      rw [lintegral_add_left hm]
      rfl
    have h4 := stepOp_diff2 hprior hlik hθ hθ' h1 h2 hG'm hb (hle θ' m) x
    have h5 := stepOp_le2 (prior := prior) (lik := lik) hθ hgm x
    rw [← hC] at h4 h5
    refine h3.trans ((add_le_add h4 h5).trans (le_of_eq ?_))
    rw [gaps2]
    ring

end

/-- A finite net of a rectangle. -/
theorem net_rect {M L U : ℝ} (j : ℕ) : ∃ I : Finset (ℝ × ℝ), (∀ i ∈ I, i ∈ Set.Icc 0 M ×ˢ Set.Icc L U) ∧
    ∀ θ ∈ Set.Icc 0 M ×ˢ Set.Icc L U, ∃ i ∈ I, |θ.1 - i.1| ≤ 1 / ((j : ℝ) + 1) ∧ |θ.2 - i.2| ≤ 1 / ((j : ℝ) + 1) := by
  classical
  refine ⟨((Finset.range (⌊M * (j + 1)⌋₊ + 1) ×ˢ Finset.range (⌊(U - L) * (j + 1)⌋₊ + 1)).image fun a => (min M ((a.1 : ℝ) / (j + 1)), L + min (U - L) ((a.2 : ℝ) / (j + 1)))).filter
    fun i => i ∈ Set.Icc 0 M ×ˢ Set.Icc L U, fun i hi => (Finset.mem_filter.1 hi).2, fun θ hθ => ?_⟩
  have h2 : θ.2 - L ∈ Set.Icc 0 (U - L) := ⟨by have := hθ.2.1; linarith, by have := hθ.2.2; linarith⟩
  obtain ⟨a, ha, ha1, ha2⟩ := grid hθ.1 j
  obtain ⟨c, hc, hc1, hc2⟩ := grid h2 j
  refine ⟨(min M ((a : ℝ) / (j + 1)), L + min (U - L) ((c : ℝ) / (j + 1))), Finset.mem_filter.2 ⟨Finset.mem_image.2 ⟨(a, c), Finset.mem_product.2 ⟨ha, hc⟩, rfl⟩, ha1, ?_⟩, ha2, ?_⟩
  · simp only [Set.mem_Icc] at hc1 ⊢
    constructor <;> linarith
  · simp only
    rwa [← sub_sub]

/-- The operator on real functions. -/
noncomputable def PRW (prior lik : (Fin d → ℝ) → ℝ) (m : ℕ) (f : (Fin d → ℝ) → ℝ) (θ : ℝ × ℝ) (x : Fin d → ℝ) : ℝ :=
  ((stepOp ((stdNormal d).prod unif) (rwWith prior lik θ))^[m] (fun x => ENNReal.ofReal (f x)) x).toReal

theorem rw_net {prior lik : (Fin d → ℝ) → ℝ} (hprior : Measurable prior) (hlik : Measurable lik) (μ0 : Measure (Fin d → ℝ)) [IsProbabilityMeasure μ0] (M L U : ℝ) (m : ℕ)
    {f : (Fin d → ℝ) → ℝ} (hf : Measurable f) {B : ℝ} (hB : ∀ x, f x ≤ B) : NetFamily μ0 (Set.Icc 0 M ×ˢ Set.Icc L U) (PRW prior lik m f) := by
  have hs := measurable_rwWith_uncurry (d := d) hprior hlik
  have hg : Measurable fun x => ENNReal.ofReal (f x) := ENNReal.measurable_ofReal.comp hf
  have hgB : ∀ x, ENNReal.ofReal (f x) ≤ ENNReal.ofReal B := fun x => ENNReal.ofReal_le_ofReal (hB x)
  have hP : ∀ θ (m : ℕ) x, (stepOp ((stdNormal d).prod unif) (rwWith prior lik θ))^[m] (fun x => ENNReal.ofReal (f x)) x ≤ ENNReal.ofReal B := by
    intro t m
    induction m with
    | zero => exact hgB
    | succ m ih =>
      intro x
      rw [Function.iterate_succ_apply']
      unfold stepOp at ih ⊢
      refine (lintegral_mono fun z => ih _).trans (le_of_eq ?_)
      rw [lintegral_const, measure_univ, mul_one]
  have hPt := fun θ x => ne_top_of_le_ne_top ENNReal.ofReal_ne_top (hP θ m x)
  obtain ⟨C, hC⟩ : ∃ C, C = ENNReal.ofReal (Real.exp ((U - L) / 2) ^ d) := ⟨_, rfl⟩
  have hCt : C ≠ ∞ := by rw [hC]; exact ENNReal.ofReal_ne_top
  obtain ⟨c, hc, hcb⟩ := gaps2_bounded lik U (b := ENNReal.ofReal B) hCt ENNReal.ofReal_ne_top m
  have hDt : ∀ j x, gaps2 lik U C (ENNReal.ofReal B) j m x ≠ ∞ := fun j x => ne_top_of_le_ne_top hc (hcb j x)
  have hDm : ∀ j, Measurable fun x => (gaps2 lik U C (ENNReal.ofReal B) j m x).toReal := fun j => (measurable_gaps2 hlik _ _ _ j m).ennreal_toReal
  have hDc : ∀ j x, (gaps2 lik U C (ENNReal.ofReal B) j m x).toReal ≤ c.toReal := fun j x => ENNReal.toReal_mono hc (hcb j x)
  refine ⟨fun θ => (measurable_stepOp_iterate (hs θ) m hg).ennreal_toReal, fun u x => ENNReal.toReal_nonneg, ⟨(ENNReal.ofReal B).toReal, fun θ _ x => ENNReal.toReal_mono ENNReal.ofReal_ne_top (hP θ m x)⟩,
    fun j x => (gaps2 lik U C (ENNReal.ofReal B) j m x).toReal, c.toReal, hDm, fun j x => ENNReal.toReal_nonneg, hDc, fun j => ?_, ?_⟩
  · obtain ⟨I, hI, hnet⟩ := net_rect (M := M) (L := L) (U := U) j
    refine ⟨I, hI, fun θ hθ => ?_⟩
    obtain ⟨i, hi, h1, h2⟩ := hnet θ hθ
    refine ⟨i, hi, fun x => ?_⟩
    have key : ∀ {θ θ' : ℝ × ℝ}, θ.2 ∈ Set.Icc L U → θ'.2 ∈ Set.Icc L U → |θ.1 - θ'.1| ≤ 1 / ((j : ℝ) + 1) → |θ.2 - θ'.2| ≤ 1 / ((j : ℝ) + 1) →
        PRW prior lik m f θ x ≤ PRW prior lik m f θ' x + (gaps2 lik U C (ENNReal.ofReal B) j m x).toReal := by
      intro θ θ' a1 a2 a3 a4
      unfold PRW
      rw [← ENNReal.toReal_add (hPt θ' x) (hDt j x)]
      refine ENNReal.toReal_mono (ENNReal.add_ne_top.2 ⟨hPt θ' x, hDt j x⟩) ?_
      rw [hC]
      exact iterate_diff2 hprior hlik a1 a2 a3 a4 hg ENNReal.ofReal_ne_top hgB m x
    have k1 := key hθ.2 (hI i hi).2 h1 h2
    have k2 := key (hI i hi).2 hθ.2 (by rwa [abs_sub_comm]) (by rwa [abs_sub_comm])
    rw [abs_le]
    constructor <;> linarith
  · have h := tendsto_integral_of_dominated_convergence (μ := μ0) (F := fun (j : ℕ) x => (gaps2 lik U C (ENNReal.ofReal B) j m x).toReal) (f := fun _ => 0) (fun _ => c.toReal)
      (fun j => (hDm j).aestronglyMeasurable) (integrable_const _) (fun j => Filter.Eventually.of_forall fun x => by
        rw [Real.norm_eq_abs, abs_of_nonneg ENNReal.toReal_nonneg]; exact hDc j x) (Filter.Eventually.of_forall fun x => by
        have h1 := (ENNReal.tendsto_toReal (ENNReal.zero_ne_top)).comp (gaps2_tendsto hlik U hCt (b := ENNReal.ofReal B) ENNReal.ofReal_ne_top m x)
        exact h1)
    rwa [integral_zero] at h

end Mocat.Smc
