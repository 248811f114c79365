import Verif.Lemmas.AliveVariance
import Verif.Lemmas.SmcAdaptiveRun
/-! Particles with weights 0 or 1 whose thresholds are chosen from the particles: estimates, uniformly in the threshold. -/
namespace Mocat.Alive
open Mocat Mocat.Ideal Mocat.Meas Mocat.Spec Mocat.Smc MeasureTheory Filter Topology
open scoped ENNReal

section
variable {n : ℕ} {Z : Type*}

/-- The estimate of an unnormalised expectation, for real functions. -/
noncomputable def er (A : Set Z) (f : Z → ℝ) (R : St n Z) : ℝ := R.2.toReal * ((n : ℝ)⁻¹ * ∑ i, A.indicator f (R.1 i))

theorem er_eq {f : Z → ℝ} (hf : ∀ z, 0 ≤ f z) (A : Set Z) (R : St n Z) : (est A (fun z => ENNReal.ofReal (f z)) R).toReal = er A f R := by
  unfold est er
  have h : ∀ i, A.indicator (fun z => ENNReal.ofReal (f z)) (R.1 i) = ENNReal.ofReal (A.indicator f (R.1 i)) := fun i => by
    by_cases hi : R.1 i ∈ A
    · rw [Set.indicator_of_mem hi, Set.indicator_of_mem hi]
    · rw [Set.indicator_of_notMem hi, Set.indicator_of_notMem hi, ENNReal.ofReal_zero]
  rw [ENNReal.toReal_mul, ENNReal.toReal_mul, ENNReal.toReal_inv, ENNReal.toReal_natCast, ENNReal.toReal_sum fun i _ => by rw [h]; exact ENNReal.ofReal_ne_top]
  refine congrArg (fun x => R.2.toReal * ((n : ℝ)⁻¹ * x)) (Finset.sum_congr rfl fun i _ => ?_)
  rw [h, ENNReal.toReal_ofReal (Set.indicator_nonneg (fun z _ => hf z) _)]

theorem er_sub (A : Set Z) (f g : Z → ℝ) (R : St n Z) : er A (fun z => f z - g z) R = er A f R - er A g R := by
  unfold er
  rw [← mul_sub, ← mul_sub, ← Finset.sum_sub_distrib]
  refine congrArg (fun x => R.2.toReal * ((n : ℝ)⁻¹ * x)) (Finset.sum_congr rfl fun i _ => ?_)
  by_cases hi : R.1 i ∈ A
  · simp only [Set.indicator_of_mem hi]
  · simp only [Set.indicator_of_notMem hi, sub_zero]

theorem er_nonneg {A : Set Z} {f : Z → ℝ} (hf : ∀ z, 0 ≤ f z) (R : St n Z) : 0 ≤ er A f R := by
  unfold er
  exact mul_nonneg ENNReal.toReal_nonneg (mul_nonneg (by positivity) (Finset.sum_nonneg fun i _ => Set.indicator_nonneg (fun z _ => hf z) _))

theorem er_abs_sub {A : Set Z} {f g h : Z → ℝ} (hh : ∀ z, |f z - g z| ≤ h z) (R : St n Z) : |er A f R - er A g R| ≤ er A h R := by
  rw [← er_sub]
  unfold er
  rw [abs_mul, abs_mul, abs_of_nonneg (ENNReal.toReal_nonneg), abs_of_nonneg (by positivity : (0 : ℝ) ≤ (n : ℝ)⁻¹)]
  refine mul_le_mul_of_nonneg_left (mul_le_mul_of_nonneg_left ((Finset.abs_sum_le_sum_abs _ _).trans (Finset.sum_le_sum fun i _ => ?_)) (by positivity)) ENNReal.toReal_nonneg
  by_cases hi : R.1 i ∈ A
  · rw [Set.indicator_of_mem hi, Set.indicator_of_mem hi]; exact hh _
  · rw [Set.indicator_of_notMem hi, Set.indicator_of_notMem hi, abs_zero]

theorem er_subset {A B : Set Z} (h : B ⊆ A) (f : Z → ℝ) (R : St n Z) : er A (B.indicator f) R = er B f R := by
  unfold er
  rw [Set.indicator_indicator, Set.inter_eq_self_of_subset_right h]

end

/-! ## Uniformity over a family of functions -/

section
variable {Z Θ Θ' : Type*} [MeasurableSpace Z] {Ω : ℕ → Type*} [∀ n, MeasurableSpace (Ω n)] {P : ∀ n, Measure (Ω n)}

/-- A family of functions that is totally bounded, on average. -/
structure Net (μ : Measure Z) (F : Θ → Z → ℝ) : Prop where
  measurable : ∀ u, Measurable (F u)
  nonneg : ∀ u z, 0 ≤ F u z
  bounded : ∃ B, ∀ u z, F u z ≤ B
  cover : ∀ η > 0, ∃ (ι : Type) (I : Finset ι) (p : ι → Θ) (D : ι → Z → ℝ), (∀ i, Measurable (D i)) ∧ (∀ i z, 0 ≤ D i z) ∧ (∃ B, ∀ i z, D i z ≤ B) ∧ (∀ i ∈ I, ∫ z, D i z ∂μ ≤ η) ∧
    ∀ u, ∃ i ∈ I, ∀ z, |F u z - F (p i) z| ≤ D i z

/-- The estimates of particles with a set in which they have weight converge. -/
def Good (P : ∀ n, Measure (Ω n)) (μ : Measure Z) (A : Θ → Set Z) (s : ∀ n, Ω n → Θ × St (n + 1) Z) : Prop :=
  ∀ (f : Z → ℝ) (B : ℝ), Measurable f → (∀ z, 0 ≤ f z) → (∀ z, f z ≤ B) → InProb P (fun n w => er (A (s n w).1) f (s n w).2 - ∫ z in A (s n w).1, f z ∂μ) 0

theorem integrable_of_bounds {μ : Measure Z} [IsFiniteMeasure μ] {f : Z → ℝ} (hf : Measurable f) (hf0 : ∀ z, 0 ≤ f z) {B : ℝ} (hB : ∀ z, f z ≤ B) : Integrable f μ :=
  Integrable.of_bound hf.aestronglyMeasurable B (Filter.Eventually.of_forall fun z => by rw [Real.norm_eq_abs, abs_of_nonneg (hf0 z)]; exact hB z)

theorem Good.net {μ : Measure Z} [IsFiniteMeasure μ] {A : Θ → Set Z} {s : ∀ n, Ω n → Θ × St (n + 1) Z} (hs : Good P μ A s) {F : Θ' → Z → ℝ} (hF : Net μ F) (u : ∀ n, Ω n → Θ') :
    InProb P (fun n w => er (A (s n w).1) (F (u n w)) (s n w).2 - ∫ z in A (s n w).1, F (u n w) z ∂μ) 0 := by
  obtain ⟨b, hb⟩ := hF.bounded
  refine inProb_of_le fun η hη => ?_
  obtain ⟨ι, I, p, D, hDm, hD0, ⟨B, hDB⟩, hDi, hcov⟩ := hF.cover (η / 2) (by positivity)
  refine ⟨fun n w => (∑ i ∈ I, |er (A (s n w).1) (F (p i)) (s n w).2 - ∫ z in A (s n w).1, F (p i) z ∂μ|) + ∑ i ∈ I, |er (A (s n w).1) (D i) (s n w).2 - ∫ z in A (s n w).1, D i z ∂μ|, ?_, fun n w => ?_⟩
  · have h1 := inProb_sum I fun i => hs (F (p i)) b (hF.measurable _) (hF.nonneg _) (hb _)
    have h2 := inProb_sum I fun i => hs (D i) B (hDm i) (hD0 i) (hDB i)
    have := h1.add h2
    rwa [add_zero] at this
  · obtain ⟨i, hi, hd⟩ := hcov (u n w)
    obtain ⟨R, hR⟩ : ∃ R, R = (s n w).2 := ⟨_, rfl⟩
    obtain ⟨S, hS⟩ : ∃ S, S = A (s n w).1 := ⟨_, rfl⟩
    beta_reduce
    rw [← hR, ← hS]
    have h1 : |er S (F (u n w)) R - er S (F (p i)) R| ≤ er S (D i) R := er_abs_sub hd _
    have hiu : Integrable (F (u n w)) (μ.restrict S) := integrable_of_bounds (hF.measurable _) (hF.nonneg _) (hb _)
    have hip : Integrable (F (p i)) (μ.restrict S) := integrable_of_bounds (hF.measurable _) (hF.nonneg _) (hb _)
    have hid : Integrable (D i) (μ.restrict S) := integrable_of_bounds (hDm i) (hD0 i) (hDB i)
    have h2 : |∫ z in S, F (u n w) z ∂μ - ∫ z in S, F (p i) z ∂μ| ≤ ∫ z in S, D i z ∂μ := by
      rw [← integral_sub hiu hip]
      exact abs_integral_le_integral_abs.trans (integral_mono (hiu.sub hip).abs hid hd)
    have h3 : ∫ z in S, D i z ∂μ ≤ η / 2 :=
      (setIntegral_le_integral (integrable_of_bounds (hDm i) (hD0 i) (hDB i)) (Filter.Eventually.of_forall (hD0 i))).trans (hDi i hi)
    have h4 : |er S (F (p i)) R - ∫ z in S, F (p i) z ∂μ| ≤ ∑ i ∈ I, |er S (F (p i)) R - ∫ z in S, F (p i) z ∂μ| :=
      Finset.single_le_sum (f := fun i => |er S (F (p i)) R - ∫ z in S, F (p i) z ∂μ|) (fun i _ => abs_nonneg _) hi
    have h5 : |er S (D i) R - ∫ z in S, D i z ∂μ| ≤ ∑ i ∈ I, |er S (D i) R - ∫ z in S, D i z ∂μ| :=
      Finset.single_le_sum (f := fun i => |er S (D i) R - ∫ z in S, D i z ∂μ|) (fun i _ => abs_nonneg _) hi
    have h6 := (le_abs_self _).trans h5
    have h7 : (0 : ℝ) ≤ ∑ i ∈ I, |er S (F (p i)) R - ∫ z in S, F (p i) z ∂μ| := (abs_nonneg _).trans h4
    have h8 : (0 : ℝ) ≤ ∑ i ∈ I, |er S (D i) R - ∫ z in S, D i z ∂μ| := (abs_nonneg _).trans h5
    rw [abs_of_nonneg (add_nonneg h7 h8)]
    have e : er S (F (u n w)) R - ∫ z in S, F (u n w) z ∂μ = (er S (F (u n w)) R - er S (F (p i)) R) + (er S (F (p i)) R - ∫ z in S, F (p i) z ∂μ)
        - (∫ z in S, F (u n w) z ∂μ - ∫ z in S, F (p i) z ∂μ) := by ring
    rw [e]
    refine (abs_sub _ _).trans ?_
    have := abs_add_le (er S (F (u n w)) R - er S (F (p i)) R) (er S (F (p i)) R - ∫ z in S, F (p i) z ∂μ)
    linarith

end

/-! ## Thresholds -/

/-- The line splits into finitely many pieces of small probability such that every threshold is in a piece together with one of finitely many points. -/
theorem pieces (ν : Measure ℝ) [IsFiniteMeasure ν] (h0 : ∀ x, ν {x} = 0) {η : ℝ≥0∞} (hη : 0 < η) :
    ∃ (ι : Type) (I : Finset ι) (p : ι → ℝ) (C : ι → Set ℝ), (∀ i, MeasurableSet (C i)) ∧ (∀ i ∈ I, ν (C i) ≤ η) ∧ ∀ t, ∃ i ∈ I, ∀ y, y ∉ C i → (y ≤ t ↔ y ≤ p i) ∧ (y < t ↔ y < p i) := by
  classical
  -- near every point
  have hnear : ∀ x : ℝ, ∃ δ > 0, ν (Set.Ioo (x - δ) (x + δ)) ≤ η := by
    intro x
    have hanti : Antitone fun k : ℕ => Set.Ioo (x - 1 / ((k : ℝ) + 1)) (x + 1 / ((k : ℝ) + 1)) := fun a b hab => by
      have h : 1 / ((b : ℝ) + 1) ≤ 1 / ((a : ℝ) + 1) := one_div_le_one_div_of_le (by positivity) (by exact_mod_cast Nat.succ_le_succ hab)
      exact Set.Ioo_subset_Ioo (by linarith) (by linarith)
    have hlim := tendsto_measure_iInter_atTop (μ := ν) (s := fun k : ℕ => Set.Ioo (x - 1 / ((k : ℝ) + 1)) (x + 1 / ((k : ℝ) + 1))) (fun k => measurableSet_Ioo.nullMeasurableSet) hanti ⟨0, measure_ne_top _ _⟩
    have hI : ⋂ k : ℕ, Set.Ioo (x - 1 / ((k : ℝ) + 1)) (x + 1 / ((k : ℝ) + 1)) = {x} := by
      ext y
      simp only [Set.mem_iInter, Set.mem_Ioo, Set.mem_singleton_iff]
      constructor
      · intro h
        by_contra hne
        obtain ⟨k, hk⟩ := exists_nat_one_div_lt (abs_pos.2 (sub_ne_zero.2 hne))
        have := h k
        rcases abs_cases (y - x) with ⟨h1, -⟩ | ⟨h1, -⟩ <;> linarith
      · rintro rfl k
        have : (0 : ℝ) < 1 / ((k : ℝ) + 1) := by positivity
        constructor <;> linarith
    rw [hI, h0] at hlim
    obtain ⟨k, hk⟩ := (hlim.eventually_le_const hη).exists
    exact ⟨1 / ((k : ℝ) + 1), by positivity, hk⟩
  choose δ hδ hνδ using hnear
  -- far away
  have hfar : ∃ r : ℝ, ν (Set.Iic (-r)) ≤ η ∧ ν (Set.Ici r) ≤ η := by
    have h1 : Tendsto (fun k : ℕ => ν (Set.Iic (-(k : ℝ)))) atTop (𝓝 0) := by
      have h := tendsto_measure_iInter_atTop (μ := ν) (s := fun k : ℕ => Set.Iic (-(k : ℝ))) (fun k => measurableSet_Iic.nullMeasurableSet)
        (fun a b hab => Set.Iic_subset_Iic.2 (neg_le_neg (by exact_mod_cast hab))) ⟨0, measure_ne_top _ _⟩
      have e : ⋂ k : ℕ, Set.Iic (-(k : ℝ)) = ∅ := by
        ext y
        simp only [Set.mem_iInter, Set.mem_Iic, Set.mem_empty_iff_false, iff_false, not_forall, not_le]
        obtain ⟨k, hk⟩ := exists_nat_gt (-y)
        exact ⟨k, by linarith⟩
      rw [e, measure_empty] at h
      exact h
    have h2 : Tendsto (fun k : ℕ => ν (Set.Ici (k : ℝ))) atTop (𝓝 0) := by
      have h := tendsto_measure_iInter_atTop (μ := ν) (s := fun k : ℕ => Set.Ici (k : ℝ)) (fun k => measurableSet_Ici.nullMeasurableSet)
        (fun a b hab => Set.Ici_subset_Ici.2 (by exact_mod_cast hab)) ⟨0, measure_ne_top _ _⟩
      have e : ⋂ k : ℕ, Set.Ici (k : ℝ) = ∅ := by
        ext y
        simp only [Set.mem_iInter, Set.mem_Ici, Set.mem_empty_iff_false, iff_false, not_forall, not_le]
        exact exists_nat_gt y
      rw [e, measure_empty] at h
      exact h
    obtain ⟨k, hk1, hk2⟩ := ((h1.eventually_le_const hη).and (h2.eventually_le_const hη)).exists
    exact ⟨k, hk1, hk2⟩
  obtain ⟨r, hr1, hr2⟩ := hfar
  obtain ⟨J, -, hJ⟩ := (isCompact_Icc (a := -r) (b := r)).elim_nhds_subcover (fun x => Set.Ioo (x - δ x) (x + δ x))
    fun x _ => Ioo_mem_nhds (by linarith [hδ x]) (by linarith [hδ x])
  refine ⟨ℝ ⊕ Bool, J.disjSum Finset.univ, fun i => i.elim id fun b => if b then r else -r, fun i => i.elim (fun x => Set.Ioo (x - δ x) (x + δ x)) fun b => if b then Set.Ici r else Set.Iic (-r),
    fun i => ?_, fun i hi => ?_, fun t => ?_⟩
  · rcases i with x | b
    · exact measurableSet_Ioo
    · cases b
      · exact measurableSet_Iic
      · exact measurableSet_Ici
  · rcases i with x | b
    · exact hνδ x
    · cases b
      · exact hr1
      · exact hr2
  · rcases lt_or_ge t (-r) with h1 | h1
    · refine ⟨Sum.inr false, by simp, fun y hy => ?_⟩
      have hy' : -r < y := not_le.1 hy
      change (y ≤ t ↔ y ≤ -r) ∧ (y < t ↔ y < -r)
      constructor <;> constructor <;> intro <;> linarith
    · rcases lt_or_ge r t with h2 | h2
      · refine ⟨Sum.inr true, by simp, fun y hy => ?_⟩
        have hy' : y < r := not_le.1 hy
        change (y ≤ t ↔ y ≤ r) ∧ (y < t ↔ y < r)
        constructor <;> constructor <;> intro <;> linarith
      · obtain ⟨x, hx, htx⟩ := Set.mem_iUnion₂.1 (hJ ⟨h1, h2⟩)
        refine ⟨Sum.inl x, by simpa using hx, fun y hy => ?_⟩
        have hy' : y ≤ x - δ x ∨ x + δ x ≤ y := by
          by_contra hc
          push Not at hc
          exact hy ⟨hc.1, hc.2⟩
        have hδx := hδ x
        change (y ≤ t ↔ y ≤ x) ∧ (y < t ↔ y < x)
        rcases hy' with hy' | hy' <;> constructor <;> constructor <;> intro <;> linarith [htx.1, htx.2]

section
variable {Z : Type*} [MeasurableSpace Z]

/-- The particles within a threshold. -/
def upTo (dist : Z → ℝ) (t : ℝ) : Set Z := {z | dist z ≤ t}

/-- A net of thresholds on a space with a distance that has no atoms. -/
theorem thresholds (μ : Measure Z) [IsFiniteMeasure μ] {dist : Z → ℝ} (hd : Measurable dist) (h0 : ∀ t, μ {z | dist z = t} = 0) {η : ℝ} (hη : 0 < η) :
    ∃ (ι : Type) (I : Finset ι) (p : ι → ℝ) (C : ι → Set Z), (∀ i, MeasurableSet (C i)) ∧ (∀ i ∈ I, μ.real (C i) ≤ η) ∧
      ∀ t, ∃ i ∈ I, ∀ z, z ∉ C i → (dist z ≤ t ↔ dist z ≤ p i) ∧ (dist z < t ↔ dist z < p i) := by
  obtain ⟨ι, I, p, C, hC, hI, h⟩ := pieces (μ.map dist) (fun x => by rw [Measure.map_apply hd (measurableSet_singleton x)]; exact h0 x) (ENNReal.ofReal_pos.2 hη)
  refine ⟨ι, I, p, fun i => dist ⁻¹' C i, fun i => hd (hC i), fun i hi => ?_, fun t => ?_⟩
  · have h1 := hI i hi
    rw [Measure.map_apply hd (hC i)] at h1
    exact ENNReal.toReal_le_of_le_ofReal hη.le h1
  · obtain ⟨i, hi, h2⟩ := h t
    exact ⟨i, hi, fun z hz => h2 _ hz⟩

/-- Bounded functions cut off at a threshold. -/
theorem cut_net (μ : Measure Z) [IsFiniteMeasure μ] {dist : Z → ℝ} (hd : Measurable dist) (h0 : ∀ t, μ {z | dist z = t} = 0) {f : Z → ℝ} (hf : Measurable f) (hf0 : ∀ z, 0 ≤ f z) {B : ℝ} (hB : ∀ z, f z ≤ B) :
    Net μ (fun t => (upTo dist t).indicator f) ∧ Net μ fun t => {z | dist z < t}.indicator f := by
  have hB' : ∀ z, f z ≤ |B| + 1 := fun z => (hB z).trans (by linarith [le_abs_self B])
  have key : ∀ S : ℝ → Set Z, (∀ t, MeasurableSet (S t)) → (∀ t p z, ((dist z ≤ t ↔ dist z ≤ p) ∧ (dist z < t ↔ dist z < p)) → (z ∈ S t ↔ z ∈ S p)) → Net μ fun t => (S t).indicator f := by
    intro S hS hSp
    refine ⟨fun t => hf.indicator (hS t), fun t z => Set.indicator_nonneg (fun z _ => hf0 z) _, ⟨|B| + 1, fun t z => Set.indicator_apply_le' (fun _ => hB' z) fun _ => by positivity⟩, fun η hη => ?_⟩
    obtain ⟨ι, I, p, C, hC, hI, h⟩ := thresholds μ hd h0 (div_pos hη (by positivity : 0 < |B| + 1))
    refine ⟨ι, I, p, fun i => (C i).indicator fun _ => |B| + 1, fun i => measurable_const.indicator (hC i), fun i z => Set.indicator_nonneg (fun z _ => by positivity) _,
      ⟨|B| + 1, fun i z => Set.indicator_apply_le' (fun _ => le_rfl) fun _ => by positivity⟩, fun i hi => ?_, fun t => ?_⟩
    · rw [integral_indicator_const _ (hC i), smul_eq_mul]
      exact (le_div_iff₀ (by positivity)).1 (hI i hi)
    · obtain ⟨i, hi, h2⟩ := h t
      refine ⟨i, hi, fun z => ?_⟩
      beta_reduce
      by_cases hz : z ∈ C i
      · rw [Set.indicator_of_mem hz, abs_le]
        have h3 : ∀ A : Set Z, 0 ≤ A.indicator f z ∧ A.indicator f z ≤ |B| + 1 := fun A =>
          ⟨Set.indicator_nonneg (fun z _ => hf0 z) _, Set.indicator_apply_le' (fun _ => hB' z) fun _ => by positivity⟩
        have := h3 (S t)
        have := h3 (S (p i))
        constructor <;> linarith
      · rw [Set.indicator_of_notMem hz]
        have h4 := hSp t (p i) z (h2 z hz)
        by_cases h5 : z ∈ S t
        · rw [Set.indicator_of_mem h5, Set.indicator_of_mem (h4.1 h5), sub_self, abs_zero]
        · rw [Set.indicator_of_notMem h5, Set.indicator_of_notMem fun h6 => h5 (h4.2 h6), sub_self, abs_zero]
  exact ⟨key _ (fun t => measurableSet_le hd measurable_const) fun t p z h => h.1, key _ (fun t => measurableSet_lt hd measurable_const) fun t p z h => h.2⟩

end

end Mocat.Alive
