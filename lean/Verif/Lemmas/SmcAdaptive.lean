import Verif.Lemmas.InProb
import Verif.Props.SmcConsistency
/-! Weighted particles whose temperatures are chosen from the particles: convergence of the weighted estimates, uniformly in the temperature. -/
namespace Mocat.Smc
open Mocat Mocat.Ideal Mocat.Meas Mocat.Spec MeasureTheory Filter Topology
open scoped ENNReal

section
variable {Ω : ℕ → Type*} [∀ n, MeasurableSpace (Ω n)] {μ : ∀ n, Measure (Ω n)}

theorem inProb_of_le {Y : ∀ n, Ω n → ℝ} (h : ∀ η > 0, ∃ Z : ∀ n, Ω n → ℝ, InProb μ Z 0 ∧ ∀ n ω, |Y n ω| ≤ |Z n ω| + η) : InProb μ Y 0 := by
  rw [inProb_real]
  intro ε hε
  obtain ⟨Z, hZ, hle⟩ := h (ε / 2) (by positivity)
  have h1 := inProb_real.1 hZ (ε / 2) (by positivity)
  refine tendsto_of_tendsto_of_tendsto_of_le_of_le tendsto_const_nhds h1 (fun n => bot_le) fun n => measure_mono fun ω hω => ?_
  simp only [Set.mem_ofPred_eq, sub_zero] at hω ⊢
  have := hle n ω
  linarith

theorem inProb_of_le' {Y Z : ∀ n, Ω n → ℝ} (hZ : InProb μ Z 0) (h : ∀ n ω, |Y n ω| ≤ |Z n ω|) : InProb μ Y 0 :=
  inProb_of_le fun η hη => ⟨Z, hZ, fun n ω => (h n ω).trans (by linarith)⟩

theorem inProb_abs {Y : ∀ n, Ω n → ℝ} (h : InProb μ Y 0) : InProb μ (fun n ω => |Y n ω|) 0 := by
  have := h.comp (φ := fun x : ℝ => |x|) continuous_abs.continuousAt
  simpa using this

theorem inProb_sum {ι : Type*} (I : Finset ι) {Y : ι → ∀ n, Ω n → ℝ} (h : ∀ i, InProb μ (Y i) 0) : InProb μ (fun n ω => ∑ i ∈ I, |Y i n ω|) 0 := by
  classical
  induction I using Finset.induction_on with
  | empty => simpa using inProb_const (μ := μ) (0 : ℝ)
  | insert a I ha ih =>
    have := (inProb_abs (h a)).add ih
    rw [add_zero] at this
    simpa only [Finset.sum_insert ha] using this

/-- A ratio whose denominator stays away from zero. -/
theorem inProb_ratio {Y Z y z : ∀ n, Ω n → ℝ} {z0 b : ℝ} (hz0 : 0 < z0) (hb : 0 ≤ b) (hz : ∀ n ω, z0 ≤ z n ω) (hy : ∀ n ω, |y n ω| ≤ b * z n ω)
    (hY : InProb μ (fun n ω => Y n ω - y n ω) 0) (hZ : InProb μ (fun n ω => Z n ω - z n ω) 0) : InProb μ (fun n ω => Y n ω / Z n ω - y n ω / z n ω) 0 := by
  rw [inProb_real]
  intro ε hε
  set δ := min (z0 / 2) (ε * z0 / (2 * (1 + b))) with hδ
  have hδ0 : 0 < δ := lt_min (by positivity) (by positivity)
  have h1 := (inProb_real.1 hY δ hδ0).add (inProb_real.1 hZ δ hδ0)
  rw [add_zero] at h1
  refine tendsto_of_tendsto_of_tendsto_of_le_of_le tendsto_const_nhds h1 (fun n => bot_le) fun n => (measure_mono fun ω hω => ?_).trans (measure_union_le _ _)
  by_contra hc
  simp only [Set.mem_union, Set.mem_ofPred_eq, not_or, not_le, sub_zero] at hc hω
  obtain ⟨h1, h2⟩ := hc
  have hδ1 : δ ≤ z0 / 2 := min_le_left _ _
  have hδ2 : δ * (2 * (1 + b)) ≤ ε * z0 := by
    have := min_le_right (z0 / 2) (ε * z0 / (2 * (1 + b)))
    rw [← hδ, le_div_iff₀ (by positivity)] at this
    exact this
  have hzp := hz n ω
  have hz' : 0 < z n ω := by linarith
  have hZpos : z0 / 2 < Z n ω := by
    have := (abs_lt.mp h2).1
    linarith
  have hZ0 : 0 < Z n ω := by linarith
  have e : Y n ω / Z n ω - y n ω / z n ω = ((Y n ω - y n ω) - y n ω / z n ω * (Z n ω - z n ω)) / Z n ω := by field_simp; ring
  rw [e, abs_div, abs_of_pos hZ0, le_div_iff₀ hZ0] at hω
  have h3 : |y n ω / z n ω| ≤ b := by rw [abs_div, abs_of_pos hz', div_le_iff₀ hz']; exact hy n ω
  have h4 : |(Y n ω - y n ω) - y n ω / z n ω * (Z n ω - z n ω)| < δ + b * δ := by
    refine (abs_sub _ _).trans_lt ?_
    rw [abs_mul]
    have := mul_le_mul h3 h2.le (abs_nonneg _) hb
    linarith
  nlinarith

end

/-! ## Estimates -/

section
variable {n : ℕ} {X : Type*}

/-- The weighted estimate of an unnormalised expectation, for real functions. -/
noncomputable def Qr (f : X → ℝ) (R : Red n X) : ℝ := ∑ i, share R i * f (R.1 i)

theorem share_nonneg (R : Red n X) (i : Fin n) : 0 ≤ share R i := by unfold share; positivity

theorem Qr_mono {f g : X → ℝ} (h : ∀ x, f x ≤ g x) (R : Red n X) : Qr f R ≤ Qr g R :=
  Finset.sum_le_sum fun i _ => mul_le_mul_of_nonneg_left (h _) (share_nonneg R i)

theorem Qr_nonneg {f : X → ℝ} (h : ∀ x, 0 ≤ f x) (R : Red n X) : 0 ≤ Qr f R :=
  Finset.sum_nonneg fun i _ => mul_nonneg (share_nonneg R i) (h _)

theorem Qr_sub (f g : X → ℝ) (R : Red n X) : Qr (fun x => f x - g x) R = Qr f R - Qr g R := by
  simp only [Qr, mul_sub, Finset.sum_sub_distrib]

theorem Qr_abs_sub {f g h : X → ℝ} (hh : ∀ x, |f x - g x| ≤ h x) (R : Red n X) : |Qr f R - Qr g R| ≤ Qr h R := by
  rw [← Qr_sub]
  refine (Finset.abs_sum_le_sum_abs _ _).trans (Finset.sum_le_sum fun i _ => ?_)
  rw [abs_mul, abs_of_nonneg (share_nonneg R i)]
  exact mul_le_mul_of_nonneg_left (hh _) (share_nonneg R i)

theorem Qr_eq {f : X → ℝ} (hf : ∀ x, 0 ≤ f x) (R : Red n X) : (Q (fun x => ENNReal.ofReal (f x)) R).toReal = Qr f R := Props.Q_toReal hf R

variable [MeasurableSpace X]

theorem measurable_share (i : Fin n) : Measurable fun R : Red n X => share R i := by
  have hw : Measurable fun R : Red n X => R.2.1 := measurable_fst.comp measurable_snd
  exact (Real.measurable_exp.comp (measurable_snd.comp measurable_snd)).mul
    ((Real.measurable_exp.comp ((measurable_pi_apply i).comp hw)).div
      (Finset.measurable_sum _ fun j _ => Real.measurable_exp.comp ((measurable_pi_apply j).comp hw)))

/-- The unnormalised expectation at temperature `T`. -/
noncomputable def gam (μ0 : Measure X) (lik : X → ℝ) (T : ℝ) (f : X → ℝ) : ℝ := ∫ x, Real.exp (-(T * lik x)) * f x ∂μ0

variable {μ0 : Measure X} [IsProbabilityMeasure μ0] {lik : X → ℝ} (hlik : Measurable lik) {M W : ℝ} (hW : ∀ T ∈ Set.Icc 0 M, ∀ x, Real.exp (-(T * lik x)) ≤ W)

include hlik hW

theorem gam_integrable {T : ℝ} (hT : T ∈ Set.Icc 0 M) {f : X → ℝ} (hf : Measurable f) {B : ℝ} (hB : ∀ x, |f x| ≤ B) :
    Integrable (fun x => Real.exp (-(T * lik x)) * f x) μ0 := by
  refine Integrable.of_bound ((Real.measurable_exp.comp (measurable_const.mul hlik).neg).mul hf).aestronglyMeasurable (W * B) (Filter.Eventually.of_forall fun x => ?_)
  rw [Real.norm_eq_abs, abs_mul, abs_of_pos (Real.exp_pos _)]
  exact mul_le_mul (hW T hT x) (hB x) (abs_nonneg _) ((Real.exp_pos _).le.trans (hW T hT x))

theorem gam_le {T : ℝ} (hT : T ∈ Set.Icc 0 M) {f : X → ℝ} (hf : Measurable f) (hf0 : ∀ x, 0 ≤ f x) {B : ℝ} (hB : ∀ x, f x ≤ B) :
    gam μ0 lik T f ≤ W * ∫ x, f x ∂μ0 := by
  have hab : ∀ x, |f x| ≤ B := fun x => by rw [abs_of_nonneg (hf0 x)]; exact hB x
  have hi : Integrable f μ0 := Integrable.of_bound hf.aestronglyMeasurable B (Filter.Eventually.of_forall hab)
  unfold gam
  rw [← integral_const_mul]
  exact integral_mono (gam_integrable hlik hW hT hf hab) (hi.const_mul W) fun x => mul_le_mul_of_nonneg_right (hW T hT x) (hf0 x)

theorem gam_abs_sub {T : ℝ} (hT : T ∈ Set.Icc 0 M) {f g h : X → ℝ} (hf : Measurable f) (hg : Measurable g) (hhm : Measurable h) {B : ℝ} (hfB : ∀ x, |f x| ≤ B) (hgB : ∀ x, |g x| ≤ B) (hhB : ∀ x, |h x| ≤ B)
    (hh : ∀ x, |f x - g x| ≤ h x) : |gam μ0 lik T f - gam μ0 lik T g| ≤ gam μ0 lik T h := by
  unfold gam
  have hs := integral_sub (gam_integrable (μ0 := μ0) hlik hW hT hf hfB) (gam_integrable (μ0 := μ0) hlik hW hT hg hgB)
  rw [← hs]
  refine (abs_integral_le_integral_abs).trans ?_
  refine integral_mono ((gam_integrable hlik hW hT hf hfB).sub (gam_integrable hlik hW hT hg hgB)).abs (gam_integrable hlik hW hT hhm hhB) fun x => ?_
  simp only
  rw [← mul_sub, abs_mul, abs_of_pos (Real.exp_pos _)]
  exact mul_le_mul_of_nonneg_left (hh x) (Real.exp_pos _).le

end

/-! ## Uniformity over a family of functions -/

section
variable {X : Type*} [MeasurableSpace X] {Ω : ℕ → Type*} [∀ n, MeasurableSpace (Ω n)] {μ : ∀ n, Measure (Ω n)}

/-- The estimates of weighted particles with a temperature converge. -/
def Good (μ : ∀ n, Measure (Ω n)) (μ0 : Measure X) (lik : X → ℝ) (s : ∀ n, Ω n → ℝ × Red (n + 1) X) : Prop :=
  ∀ (f : X → ℝ) (B : ℝ), Measurable f → (∀ x, 0 ≤ f x) → (∀ x, f x ≤ B) → InProb μ (fun n z => Qr f (s n z).2 - gam μ0 lik (s n z).1 f) 0

theorem grid {M u : ℝ} (hu : u ∈ Set.Icc 0 M) (j : ℕ) :
    ∃ i ∈ Finset.range (⌊M * (j + 1)⌋₊ + 1), min M ((i : ℝ) / (j + 1)) ∈ Set.Icc 0 M ∧ |u - min M ((i : ℝ) / (j + 1))| ≤ 1 / (j + 1) := by
  have hj : (0 : ℝ) < j + 1 := by positivity
  have h0 : 0 ≤ u * (j + 1) := mul_nonneg hu.1 hj.le
  have h1 : ((⌊u * (j + 1)⌋₊ : ℕ) : ℝ) / (j + 1) ≤ u := by rw [div_le_iff₀ hj]; exact Nat.floor_le h0
  have h2 : u - ((⌊u * (j + 1)⌋₊ : ℕ) : ℝ) / (j + 1) ≤ 1 / (j + 1) := by
    rw [sub_le_iff_le_add, ← add_div, le_div_iff₀ hj]
    have := Nat.lt_floor_add_one (u * ((j : ℝ) + 1))
    linarith
  refine ⟨⌊u * (j + 1)⌋₊, ?_, ?_, ?_⟩
  · rw [Finset.mem_range, Nat.lt_succ_iff]
    exact Nat.floor_le_floor (mul_le_mul_of_nonneg_right hu.2 hj.le)
  · exact ⟨le_min (hu.1.trans hu.2) (by positivity), min_le_left _ _⟩
  · rw [min_eq_right (h1.trans hu.2), abs_of_nonneg (by linarith)]
    exact h2

/-- A family of functions with a common modulus of continuity that vanishes on average. -/
structure Family (μ0 : Measure X) (M : ℝ) (F : ℝ → X → ℝ) : Prop where
  measurable : ∀ u, Measurable (F u)
  nonneg : ∀ u x, 0 ≤ F u x
  bounded : ∃ B, ∀ u ∈ Set.Icc 0 M, ∀ x, F u x ≤ B
  modulus : ∃ (D : ℕ → X → ℝ) (B : ℝ), (∀ j, Measurable (D j)) ∧ (∀ j x, 0 ≤ D j x) ∧ (∀ j x, D j x ≤ B) ∧
    (∀ j : ℕ, ∀ u ∈ Set.Icc 0 M, ∀ u' ∈ Set.Icc 0 M, |u - u'| ≤ 1 / ((j : ℝ) + 1) → ∀ x, |F u x - F u' x| ≤ D j x) ∧ Tendsto (fun j => ∫ x, D j x ∂μ0) atTop (𝓝 0)

theorem Good.family {μ0 : Measure X} [IsProbabilityMeasure μ0] {lik : X → ℝ} (hlik : Measurable lik) {M W : ℝ} (hW : ∀ T ∈ Set.Icc 0 M, ∀ x, Real.exp (-(T * lik x)) ≤ W)
    {s : ∀ n, Ω n → ℝ × Red (n + 1) X} (hs : Good μ μ0 lik s) (hT : ∀ n z, (s n z).1 ∈ Set.Icc 0 M) {F : ℝ → X → ℝ} (hF : Family μ0 M F)
    {u : ∀ n, Ω n → ℝ} (hu : ∀ n z, u n z ∈ Set.Icc 0 M) : InProb μ (fun n z => Qr (F (u n z)) (s n z).2 - gam μ0 lik (s n z).1 (F (u n z))) 0 := by
  obtain ⟨b, hb⟩ := hF.bounded
  obtain ⟨D, B, hDm, hD0, hDB, hD, hlim⟩ := hF.modulus
  refine inProb_of_le fun η hη => ?_
  have hev : ∀ᶠ j in atTop, 2 * (W * ∫ x, D j x ∂μ0) < η := by
    have h1 : Tendsto (fun j => 2 * (W * ∫ x, D j x ∂μ0)) atTop (𝓝 (2 * (W * 0))) := (hlim.const_mul W).const_mul 2
    rw [mul_zero, mul_zero] at h1
    exact h1.eventually_lt_const hη
  obtain ⟨j, hj⟩ := hev.exists
  set t : ℕ → ℝ := fun i => min M ((i : ℝ) / (j + 1)) with ht
  set I := Finset.range (⌊M * (j + 1)⌋₊ + 1) with hI
  -- the errors at the points of the grid
  set Y : ℕ → ∀ n, Ω n → ℝ := fun i n z => if t i ∈ Set.Icc 0 M then Qr (F (t i)) (s n z).2 - gam μ0 lik (s n z).1 (F (t i)) else 0 with hY
  have hYp : ∀ i, InProb μ (Y i) 0 := fun i => by
    by_cases hi : t i ∈ Set.Icc 0 M
    · simp only [hY, if_pos hi]
      exact hs (F (t i)) b (hF.measurable _) (hF.nonneg _) (hb _ hi)
    · simp only [hY, if_neg hi]
      exact inProb_const _
  refine ⟨fun n z => (∑ i ∈ I, |Y i n z|) + |Qr (D j) (s n z).2 - gam μ0 lik (s n z).1 (D j)|, ?_, fun n z => ?_⟩
  · have := (inProb_sum I hYp).add (inProb_abs (hs (D j) B (hDm j) (hD0 j) (hDB j)))
    rwa [add_zero] at this
  · obtain ⟨i, hi, hti, hd⟩ := grid (hu n z) j
    have h1 : |Qr (F (u n z)) (s n z).2 - Qr (F (t i)) (s n z).2| ≤ Qr (D j) (s n z).2 := Qr_abs_sub (hD j _ (hu n z) _ hti hd) _
    have hab : ∀ u ∈ Set.Icc 0 M, ∀ x, |F u x| ≤ max b B := fun u hu x => by
      rw [abs_of_nonneg (hF.nonneg _ _)]; exact (hb u hu x).trans (le_max_left _ _)
    have hab' : ∀ x, |D j x| ≤ max b B := fun x => by
      rw [abs_of_nonneg (hD0 _ _)]; exact (hDB j x).trans (le_max_right _ _)
    have h2 : |gam μ0 lik (s n z).1 (F (u n z)) - gam μ0 lik (s n z).1 (F (t i))| ≤ gam μ0 lik (s n z).1 (D j) :=
      gam_abs_sub hlik hW (hT n z) (hF.measurable _) (hF.measurable _) (hDm j) (hab _ (hu n z)) (hab _ hti) hab' (hD j _ (hu n z) _ hti hd)
    have h3 : gam μ0 lik (s n z).1 (D j) ≤ W * ∫ x, D j x ∂μ0 := gam_le hlik hW (hT n z) (hDm j) (hD0 j) (hDB j)
    have h4 : |Y i n z| ≤ ∑ i ∈ I, |Y i n z| := Finset.single_le_sum (f := fun i => |Y i n z|) (fun i _ => abs_nonneg _) hi
    have h5 : Y i n z = Qr (F (t i)) (s n z).2 - gam μ0 lik (s n z).1 (F (t i)) := if_pos hti
    rw [h5] at h4
    have h6 : 0 ≤ ∑ i ∈ I, |Y i n z| := Finset.sum_nonneg fun i _ => abs_nonneg _
    rw [abs_of_nonneg (add_nonneg h6 (abs_nonneg _))]
    have h7 := le_abs_self (Qr (D j) (s n z).2 - gam μ0 lik (s n z).1 (D j))
    have e : Qr (F (u n z)) (s n z).2 - gam μ0 lik (s n z).1 (F (u n z)) = (Qr (F (u n z)) (s n z).2 - Qr (F (t i)) (s n z).2)
        + (Qr (F (t i)) (s n z).2 - gam μ0 lik (s n z).1 (F (t i))) - (gam μ0 lik (s n z).1 (F (u n z)) - gam μ0 lik (s n z).1 (F (t i))) := by ring
    rw [e]
    refine (abs_sub _ _).trans ?_
    have := abs_add_le (Qr (F (u n z)) (s n z).2 - Qr (F (t i)) (s n z).2) (Qr (F (t i)) (s n z).2 - gam μ0 lik (s n z).1 (F (t i)))
    linarith

end

end Mocat.Smc
