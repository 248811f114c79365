import Verif.Lemmas.AliveAdaptiveStep
/-! Moves that reject whatever is not within the threshold: their averages are totally bounded, over the thresholds. -/
namespace Mocat.Alive
open Mocat Mocat.Ideal Mocat.Meas Mocat.Spec Mocat.Smc MeasureTheory Filter Topology
open scoped ENNReal

variable {Z D : Type*} [MeasurableSpace Z] [MeasurableSpace D]

/-- What is used of a move: `st t` is the move with threshold `t`, `su` the move without threshold. -/
structure CutMove (μ : Measure Z) (dist : Z → ℝ) (δ : Measure D) (st : ℝ → Z → D → Z) (su : Z → D → Z) : Prop where
  measurable : ∀ t, Measurable (Function.uncurry (st t))
  measurable' : Measurable (Function.uncurry su)
  stays : ∀ t x, ∀ᵐ w ∂δ, st t x w = x ∨ st t x w = su x w
  same : ∀ t p x, ∀ᵐ w ∂δ, ((dist (su x w) ≤ t ↔ dist (su x w) ≤ p) ∧ (dist (su x w) < t ↔ dist (su x w) < p)) → st t x w = st p x w
  inv : ∀ u : Z → ℝ≥0∞, Measurable u → ∫⁻ x, ∫⁻ w, u (su x w) ∂δ ∂μ = ∫⁻ x, u x ∂μ

/-- How much a non-negative function can be after a move, in the mean. -/
noncomputable def majorant (δ : Measure D) (su : Z → D → Z) (u : Z → ℝ≥0∞) (x : Z) : ℝ≥0∞ := stepOp δ su u x + u x

section
variable {μ : Measure Z} [IsProbabilityMeasure μ] {dist : Z → ℝ} {δ : Measure D} [IsProbabilityMeasure δ] {st : ℝ → Z → D → Z} {su : Z → D → Z} (h : CutMove μ dist δ st su)
include h

omit [IsProbabilityMeasure μ] in
theorem measurable_majorant (m : ℕ) {u : Z → ℝ≥0∞} (hu : Measurable u) : Measurable ((majorant δ su)^[m] u) := by
  induction m with
  | zero => exact hu
  | succ m ih => rw [Function.iterate_succ_apply']; exact (measurable_stepOp h.measurable' ih).add ih

omit [IsProbabilityMeasure μ] in
theorem lintegral_majorant (m : ℕ) {u : Z → ℝ≥0∞} (hu : Measurable u) : ∫⁻ x, (majorant δ su)^[m] u x ∂μ = 2 ^ m * ∫⁻ x, u x ∂μ := by
  induction m with
  | zero => simp
  | succ m ih =>
    have hm := measurable_majorant h m hu
    rw [Function.iterate_succ_apply']
    generalize (majorant δ su)^[m] u = v at hm ih ⊢
    have e := h.inv _ hm
    unfold majorant stepOp
    rw [lintegral_add_right _ hm, e, ih]
    ring

omit [MeasurableSpace Z] [IsProbabilityMeasure μ] h in
theorem majorant_le (m : ℕ) {u : Z → ℝ≥0∞} {B : ℝ≥0∞} (hB : ∀ x, u x ≤ B) (x : Z) : (majorant δ su)^[m] u x ≤ 2 ^ m * B := by
  induction m generalizing x with
  | zero => simpa using hB x
  | succ m ih =>
    rw [Function.iterate_succ_apply']
    unfold majorant stepOp
    have h1 : ∫⁻ z, (majorant δ su)^[m] u (su x z) ∂δ ≤ 2 ^ m * B := (lintegral_mono fun z => ih _).trans (le_of_eq (by rw [lintegral_const, measure_univ, mul_one]))
    refine (add_le_add h1 (ih x)).trans (le_of_eq ?_)
    rw [pow_succ]
    ring

omit [MeasurableSpace Z] [IsProbabilityMeasure μ] [IsProbabilityMeasure δ] h in
theorem le_majorant (m : ℕ) (u : Z → ℝ≥0∞) (x : Z) : u x ≤ (majorant δ su)^[m] u x := by
  induction m generalizing x with
  | zero => exact le_rfl
  | succ m ih => rw [Function.iterate_succ_apply']; exact (ih x).trans le_add_self

omit [IsProbabilityMeasure μ] in
/-- Averages at two thresholds that differ on `C` only. -/
theorem close {t p : ℝ} {C : Set Z} (hC : MeasurableSet C) (hcell : ∀ z, z ∉ C → (dist z ≤ t ↔ dist z ≤ p) ∧ (dist z < t ↔ dist z < p)) {a b : Z → ℝ≥0∞} (hb : Measurable b) {B : ℝ≥0∞}
    (haB : ∀ z, a z ≤ B) (hab : ∀ z, a z ≤ b z + C.indicator (fun _ => B) z) (m : ℕ) (x : Z) :
    (stepOp δ (st t))^[m] a x ≤ (stepOp δ (st p))^[m] b x + (majorant δ su)^[m] (C.indicator fun _ => B) x := by
  have hCm : Measurable (C.indicator fun _ : Z => B) := measurable_const.indicator hC
  induction m generalizing x with
  | zero => exact hab x
  | succ m ih =>
    rw [Function.iterate_succ_apply', Function.iterate_succ_apply', Function.iterate_succ_apply']
    obtain ⟨a', ha'⟩ : ∃ a', a' = (stepOp δ (st t))^[m] a := ⟨_, rfl⟩
    obtain ⟨b', hb'⟩ : ∃ b', b' = (stepOp δ (st p))^[m] b := ⟨_, rfl⟩
    obtain ⟨E, hE⟩ : ∃ E, E = (majorant δ su)^[m] (C.indicator fun _ => B) := ⟨_, rfl⟩
    have hb'm : Measurable b' := by rw [hb']; exact measurable_stepOp_iterate (h.measurable p) m hb
    have hEm : Measurable E := by rw [hE]; exact measurable_majorant h m hCm
    have ha'B : ∀ z, a' z ≤ B := by
      rw [ha']
      intro z
      clear ih ha' hb' hE hb'm hEm
      induction m generalizing z with
      | zero => exact haB z
      | succ m ih =>
        rw [Function.iterate_succ_apply']
        exact (lintegral_mono fun w => ih _).trans (le_of_eq (by rw [lintegral_const, measure_univ, mul_one]))
    have hCE : ∀ z ∈ C, B ≤ E z := fun z hz => by
      rw [hE]
      refine le_trans ?_ (le_majorant m _ z)
      rw [Set.indicator_of_mem hz]
    rw [← ha', ← hb', ← hE] at ih
    rw [← ha', ← hb', ← hE]
    unfold majorant stepOp
    have h2 : Measurable fun w => E (su x w) := hEm.comp (h.measurable'.comp measurable_prodMk_left)
    have key : ∀ᵐ w ∂δ, a' (st t x w) ≤ b' (st p x w) + (E (su x w) + E x) := by
      filter_upwards [h.stays p x, h.same t p x] with w hw1 hw2
      by_cases hc : su x w ∈ C
      · exact (ha'B _).trans ((hCE _ hc).trans (le_self_add.trans le_add_self))
      · rw [hw2 (hcell _ hc)]
        refine (ih _).trans (add_le_add le_rfl ?_)
        rcases hw1 with e | e <;> rw [e]
        · exact le_add_self
        · exact le_self_add
    refine (lintegral_mono_ae key).trans (le_of_eq ?_)
    have h3 : Measurable fun w => E (su x w) + E x := h2.add measurable_const
    rw [lintegral_add_right _ h3, lintegral_add_right _ measurable_const, lintegral_const, measure_univ, mul_one]

/-- The averages over the thresholds. -/
theorem CutMove.net (hd : Measurable dist) (h0 : ∀ t, μ {z | dist z = t} = 0) (m : ℕ) {f : Z → ℝ} (hf : Measurable f) {B : ℝ} (hB : ∀ z, f z ≤ B) :
    Net μ (PC dist (fun t => (stepOp δ (st t))^[m]) f) := by
  obtain ⟨b, hb⟩ : ∃ b, b = |B| + 1 := ⟨_, rfl⟩
  have hb0 : 0 < b := by rw [hb]; positivity
  have hB' : ∀ z, f z ≤ b := fun z => (hB z).trans (by rw [hb]; linarith [le_abs_self B])
  have hgm : ∀ t, Measurable fun z => ENNReal.ofReal ((upTo dist t).indicator f z) := fun t => ENNReal.measurable_ofReal.comp (hf.indicator (measurableSet_upTo hd t))
  have hib : ∀ t z, (upTo dist t).indicator f z ≤ b := fun t z => Set.indicator_apply_le' (fun _ => hB' z) fun _ => hb0.le
  have hgB : ∀ t z, ENNReal.ofReal ((upTo dist t).indicator f z) ≤ ENNReal.ofReal b := fun t z => ENNReal.ofReal_le_ofReal (hib t z)
  have hPB : ∀ t z, (stepOp δ (st t))^[m] (fun z => ENNReal.ofReal ((upTo dist t).indicator f z)) z ≤ ENNReal.ofReal b := by
    intro t z
    induction m generalizing z with
    | zero => exact hgB t z
    | succ m ih =>
      rw [Function.iterate_succ_apply']
      exact (lintegral_mono fun w => ih _).trans (le_of_eq (by rw [lintegral_const, measure_univ, mul_one]))
  have hfin : ∀ t z, (stepOp δ (st t))^[m] (fun z => ENNReal.ofReal ((upTo dist t).indicator f z)) z ≠ ∞ := fun t z => ne_top_of_le_ne_top ENNReal.ofReal_ne_top (hPB t z)
  refine ⟨fun t => (measurable_stepOp_iterate (h.measurable t) m (hgm t)).ennreal_toReal, fun t z => ENNReal.toReal_nonneg, ⟨b, fun t z => ENNReal.toReal_le_of_le_ofReal hb0.le (hPB t z)⟩, fun η hη => ?_⟩
  obtain ⟨ι, I, p, C, hC, hI, hcov⟩ := thresholds μ hd h0 (η := η / (2 ^ m * b)) (by positivity)
  have hEtop : ∀ i z, (majorant δ su)^[m] ((C i).indicator fun _ => ENNReal.ofReal b) z ≤ 2 ^ m * ENNReal.ofReal b := fun i z =>
    majorant_le m (fun x => Set.indicator_apply_le' (fun _ => le_rfl) fun _ => bot_le) z
  have htop : (2 : ℝ≥0∞) ^ m * ENNReal.ofReal b ≠ ∞ := ENNReal.mul_ne_top (ENNReal.pow_ne_top ENNReal.ofNat_ne_top) ENNReal.ofReal_ne_top
  have hEf : ∀ i z, (majorant δ su)^[m] ((C i).indicator fun _ => ENNReal.ofReal b) z ≠ ∞ := fun i z => ne_top_of_le_ne_top htop (hEtop i z)
  have hEm : ∀ i, Measurable ((majorant δ su)^[m] ((C i).indicator fun _ => ENNReal.ofReal b)) := fun i => measurable_majorant h m (measurable_const.indicator (hC i))
  refine ⟨ι, I, p, fun i z => ((majorant δ su)^[m] ((C i).indicator fun _ => ENNReal.ofReal b) z).toReal, fun i => (hEm i).ennreal_toReal, fun i z => ENNReal.toReal_nonneg,
    ⟨(2 ^ m * ENNReal.ofReal b).toReal, fun i z => ENNReal.toReal_mono htop (hEtop i z)⟩, fun i hi => ?_, fun t => ?_⟩
  · rw [integral_toReal (hEm i).aemeasurable (Filter.Eventually.of_forall fun z => (hEf i z).lt_top), lintegral_majorant h m (measurable_const.indicator (hC i)), lintegral_indicator_const (hC i), ENNReal.toReal_mul,
      ENNReal.toReal_mul, ENNReal.toReal_pow, ENNReal.toReal_ofReal hb0.le, ENNReal.toReal_ofNat, ← mul_assoc]
    have h1 := hI i hi
    rw [le_div_iff₀ (by positivity)] at h1
    have e : (μ (C i)).toReal = μ.real (C i) := rfl
    rw [e]
    linarith
  · obtain ⟨i, hi, h2⟩ := hcov t
    refine ⟨i, hi, fun z => ?_⟩
    have hind : ∀ s s' : ℝ, (∀ z, z ∉ C i → (dist z ≤ s ↔ dist z ≤ s')) → ∀ z, ENNReal.ofReal ((upTo dist s).indicator f z) ≤ ENNReal.ofReal ((upTo dist s').indicator f z) + (C i).indicator (fun _ => ENNReal.ofReal b) z := by
      intro s s' hss z
      by_cases hz : z ∈ C i
      · rw [Set.indicator_of_mem hz]
        exact (hgB s z).trans le_add_self
      · refine le_trans (le_of_eq ?_) le_self_add
        have h3 := hss z hz
        by_cases h4 : dist z ≤ s
        · rw [Set.indicator_of_mem (show z ∈ upTo dist s from h4), Set.indicator_of_mem (show z ∈ upTo dist s' from h3.1 h4)]
        · rw [Set.indicator_of_notMem (show z ∉ upTo dist s from h4), Set.indicator_of_notMem (show z ∉ upTo dist s' from fun h5 => h4 (h3.2 h5))]
    have c1 := close h (hC i) h2 (hgm (p i)) (hgB t) (hind t (p i) fun z hz => (h2 z hz).1) m z
    have c2 := close h (hC i) (fun z hz => ⟨(h2 z hz).1.symm, (h2 z hz).2.symm⟩) (hgm t) (hgB (p i)) (hind (p i) t fun z hz => (h2 z hz).1.symm) m z
    have r1 := ENNReal.toReal_mono (ENNReal.add_ne_top.2 ⟨hfin _ _, hEf i z⟩) c1
    have r2 := ENNReal.toReal_mono (ENNReal.add_ne_top.2 ⟨hfin _ _, hEf i z⟩) c2
    rw [ENNReal.toReal_add (hfin _ _) (hEf i z)] at r1 r2
    unfold PC PR
    rw [abs_le]
    constructor <;> linarith

end

end Mocat.Alive
