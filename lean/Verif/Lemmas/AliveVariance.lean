import Verif.Lemmas.AliveLaw
import Verif.Lemmas.SmcVariance
/-! Second moments of the estimates of particles with weights 0 or 1 (ABC-SMC). -/
namespace Mocat.Alive
open Mocat Mocat.Ideal Mocat.Meas MeasureTheory
open scoped ENNReal

variable {n : ℕ} {Z : Type*} [MeasurableSpace Z]

omit [MeasurableSpace Z] in
theorem factor_le_one (C : Set (Finset (Fin n))) (S : Finset (Fin n)) : factor C S ≤ 1 := by
  unfold factor
  split_ifs
  · refine ENNReal.div_le_of_le_mul ?_
    rw [one_mul]
    exact_mod_cast (Finset.card_le_univ S).trans (le_of_eq (Fintype.card_fin n))
  · exact le_rfl

/-- `n` terms of size `B ^ 2 / n ^ 2`. -/
theorem sum_inv_sq [NeZero n] (B : ℝ≥0∞) : ∑ _i : Fin n, (n : ℝ≥0∞)⁻¹ ^ 2 * B ^ 2 = B ^ 2 / n := by
  have hn : (n : ℝ≥0∞) ≠ 0 := by exact_mod_cast NeZero.ne n
  have hn' : (n : ℝ≥0∞) ≠ ⊤ := ENNReal.natCast_ne_top n
  rw [Finset.sum_const, Finset.card_univ, Fintype.card_fin, nsmul_eq_mul, sq (n : ℝ≥0∞)⁻¹, ← mul_assoc, ← mul_assoc, ENNReal.mul_inv_cancel hn hn', one_mul, ENNReal.div_eq_inv_mul]

section
variable {A : Set Z} {cat : Finset (Fin n) → ℝ → Fin n} {C : Set (Finset (Fin n))} {σ : Fin n → Site} {mv : Fin n → Z → Tape → Z} {T : Fin n → Set Site} {P : (Z → ℝ≥0∞) → Z → ℝ≥0∞}
  (hL : Law A cat C σ mv T P) (hap : Smc.Apart σ T)
include hL

theorem value_dependsOn (S : Finset (Fin n)) (z : Fin n → Z) (i : Fin n) : DependsOn (fun ω => value cat C σ mv S z ω i) (insert (σ i) (T i)) := by
  classical
  intro ω ω' h
  simp only [value]
  rw [h (σ i) (Set.mem_insert _ _)]
  split_ifs
  · exact hL.reads i _ fun s hs => h s (Set.mem_insert_of_mem _ hs)
  · exact hL.reads i _ fun s hs => h s (Set.mem_insert_of_mem _ hs)
  · rfl

theorem op_bound [NeZero n] {h : Z → ℝ≥0∞} (hh : Measurable h) {B : ℝ≥0∞} (hB : ∀ x, h x ≤ B) (x : Z) : P h x ≤ B := by
  rw [← hL.law 0 x hh]
  refine (lintegral_mono fun ω => hB _).trans (le_of_eq ?_)
  rw [lintegral_const, measure_univ, mul_one]

include hap

/-- The second moment after an update from a given state. -/
theorem lintegral_sq_step [NeZero n] {A' : Set Z} (hA' : MeasurableSet A') (hsub : A' ⊆ A) {f : Z → ℝ≥0∞} (hf : Measurable f) {B : ℝ≥0∞} (hB : ∀ x, f x ≤ B) (R : St n Z) (hR : R.2 ≤ 1) :
    ∫⁻ ω, est A' f (step A cat C σ mv R ω) ^ 2 ∂ideal ≤ est A (P (A'.indicator f)) R ^ 2 + B ^ 2 / n := by
  set g := A'.indicator f with hg
  have hgm : Measurable g := hf.indicator hA'
  have hgB : ∀ x, g x ≤ B := fun x => (Set.indicator_le_self A' f x).trans (hB x)
  set S := pat A R.1 with hS
  set H : Fin n → Tape → ℝ≥0∞ := fun i ω => g (value cat C σ mv S R.1 ω i) with hH
  have hHm : ∀ i, Measurable (H i) := fun i => hgm.comp ((measurable_value hL S i).comp measurable_prodMk_left)
  have hHd : ∀ i, DependsOn (H i) (insert (σ i) (T i)) := fun i ω ω' h => congrArg g (value_dependsOn hL S R.1 i h)
  have hind : ∀ i j, i ≠ j → ∫⁻ ω, H i ω * H j ω ∂ideal = (∫⁻ ω, H i ω ∂ideal) * ∫⁻ ω, H j ω ∂ideal := by
    intro i j hij
    have e := fresh (hap i j hij) (f := H i) (g := fun a ω => a * H j ω) (hHm i) (hHd i) (measurable_fst.mul ((hHm j).comp measurable_snd))
      (fun a ω ω' hω => by simp only; rw [hHd j hω])
    rw [e, ← lintegral_mul_const _ (hHm i)]
    exact lintegral_congr fun ω => lintegral_const_mul _ (hHm j)
  set a : ℝ≥0∞ := R.2 * factor C S * (n : ℝ≥0∞)⁻¹ with ha
  have e1 : ∀ ω, est A' f (step A cat C σ mv R ω) = ∑ i, a * H i ω := fun ω => by
    rw [← Finset.mul_sum, ha, mul_assoc (R.2 * factor C S)]
    rfl
  have hmain := Smc.lintegral_sq_sum ideal hHm hind fun _ => a
  have e2 : ∑ i, a * ∫⁻ ω, H i ω ∂ideal = est A (P g) R := by
    rw [← lintegral_est_step hL hA' hsub hf R, lintegral_congr e1, lintegral_finsetSum _ fun i _ => (hHm i).const_mul a]
    exact Finset.sum_congr rfl fun i _ => (lintegral_const_mul _ (hHm i)).symm
  rw [lintegral_congr fun ω => by rw [e1 ω]]
  rw [e2] at hmain
  refine hmain.trans (add_le_add le_rfl ?_)
  have ha1 : a ≤ (n : ℝ≥0∞)⁻¹ := by
    refine (mul_le_mul' (mul_le_mul' hR (factor_le_one C S)) le_rfl).trans (le_of_eq ?_)
    rw [one_mul, one_mul]
  rw [← sum_inv_sq B]
  refine Finset.sum_le_sum fun i _ => mul_le_mul' (pow_le_pow_left' ha1 2) ?_
  refine (lintegral_mono fun ω => pow_le_pow_left' (hgB _) 2).trans (le_of_eq ?_)
  rw [lintegral_const, measure_univ, mul_one]

/-- The same from a random state that has not read what the update reads. -/
theorem lintegral_sq_next [NeZero n] {A' : Set Z} (hA' : MeasurableSet A') (hsub : A' ⊆ A) {f : Z → ℝ≥0∞} (hf : Measurable f) {B : ℝ≥0∞} (hB : ∀ x, f x ≤ B) {R : Tape → St n Z} (hR : Measurable R)
    {S : Set Site} (hRS : DependsOn R S) (hdis : Disjoint S (Smc.stepSites σ T)) (h1 : ∀ ω, (R ω).2 ≤ 1) :
    ∫⁻ ω, est A' f (step A cat C σ mv (R ω) ω) ^ 2 ∂ideal ≤ ∫⁻ ω, est A (P (A'.indicator f)) (R ω) ^ 2 ∂ideal + B ^ 2 / n := by
  have hm : Measurable fun p : St n Z × Tape => est A' f (step A cat C σ mv p.1 p.2) ^ 2 := by
    have h : Measurable fun p : St n Z × Tape => est A' f (step A cat C σ mv p.1 p.2) := (measurable_est hA' hf).comp (measurable_step hL)
    exact h.pow_const 2
  rw [fresh hdis (f := R) (g := fun a ω => est A' f (step A cat C σ mv a ω) ^ 2) hR hRS hm
    (fun a ω ω' hω => congrArg (fun z => est A' f z ^ 2) (step_dependsOn hL a hω))]
  refine (lintegral_mono fun ω => lintegral_sq_step hL hap hA' hsub hf hB (R ω) (h1 ω)).trans (le_of_eq ?_)
  rw [lintegral_add_right _ measurable_const, lintegral_const, measure_univ, mul_one]

end

omit [MeasurableSpace Z] in
theorem iter_le_one (A : ℕ → Set Z) (cat : Finset (Fin n) → ℝ → Fin n) (C : Set (Finset (Fin n))) (mv : ℕ → Keys.Key → Z → Tape → Z) (κ : Keys.Key) (R : St n Z) (hR : R.2 ≤ 1) (k : ℕ) (ω : Tape) :
    (iter A cat C mv κ R k ω).2 ≤ 1 := by
  induction k with
  | zero => exact hR
  | succ k ih => exact (mul_le_mul' ih (factor_le_one _ _)).trans (le_of_eq (one_mul 1))

section
variable {A : ℕ → Set Z} (hA : ∀ k, MeasurableSet (A k)) {cat : Finset (Fin n) → ℝ → Fin n} {C : Set (Finset (Fin n))} (hcm : ∀ S, Measurable (cat S))
  (hcp : ∀ S ∈ C, ∀ j, unif {u | cat S u = j} = if j ∈ S then (S.card : ℝ≥0∞)⁻¹ else 0) (hC : ∀ S ∈ C, S.Nonempty)
  {mv : ℕ → Keys.Key → Z → Tape → Z} (hm : ∀ t k, Measurable fun z : Z × Tape => mv t k z.1 z.2) (hd : ∀ t k x, DependsOn (mv t k x) (below k))
  {P : ℕ → (Z → ℝ≥0∞) → Z → ℝ≥0∞} (hP : ∀ t k x {h : Z → ℝ≥0∞}, Measurable h → ∫⁻ ω, h (mv t k x ω) ∂ideal = P t h x)
  (hPm : ∀ t {h : Z → ℝ≥0∞}, Measurable h → Measurable (P t h)) (κ : Keys.Key)

include hA in
/-- The second moment of the estimate of uncorrelated initial particles. -/
theorem lintegral_sq_zero [NeZero n] {Ω : Type*} [MeasurableSpace Ω] (μ : Measure Z) (P0 : Measure Ω) [IsProbabilityMeasure P0] {x : Ω → Fin n → Z} (hx : ∀ i, Measurable fun w => x w i)
    (hlaw : ∀ i, P0.map (fun w => x w i) = μ)
    (hind : ∀ {h : Z → ℝ≥0∞}, Measurable h → ∀ i j, i ≠ j → ∫⁻ w, h (x w i) * h (x w j) ∂P0 = (∫⁻ w, h (x w i) ∂P0) * ∫⁻ w, h (x w j) ∂P0)
    {f : Z → ℝ≥0∞} (hf : Measurable f) {B : ℝ≥0∞} (hB : ∀ x, f x ≤ B) :
    ∫⁻ w, est (A 0) f ((x w, 1) : St n Z) ^ 2 ∂P0 ≤ (∫⁻ z in A 0, f z ∂μ) ^ 2 + B ^ 2 / n := by
  have hn : (n : ℝ≥0∞) ≠ 0 := by exact_mod_cast NeZero.ne n
  have hn' : (n : ℝ≥0∞) ≠ ⊤ := ENNReal.natCast_ne_top n
  set g := (A 0).indicator f with hg
  have hgm : Measurable g := hf.indicator (hA 0)
  have hgB : ∀ x, g x ≤ B := fun x => (Set.indicator_le_self (A 0) f x).trans (hB x)
  have e1 : ∀ w, est (A 0) f ((x w, 1) : St n Z) = ∑ i, (n : ℝ≥0∞)⁻¹ * g (x w i) := fun w => by
    unfold est
    rw [one_mul, Finset.mul_sum]
  rw [lintegral_congr fun w => by rw [e1 w]]
  refine (Smc.lintegral_sq_sum P0 (fun i => hgm.comp (hx i)) (fun i j hij => hind hgm i j hij) fun _ => (n : ℝ≥0∞)⁻¹).trans (add_le_add (le_of_eq ?_) ?_)
  · congr 1
    have e : ∀ i : Fin n, ∫⁻ w, g (x w i) ∂P0 = ∫⁻ z in A 0, f z ∂μ := fun i => by
      rw [← lintegral_indicator (hA 0), ← hlaw i, lintegral_map hgm (hx i)]
    refine (Finset.sum_congr rfl fun i _ => congrArg _ (e i)).trans ?_
    rw [Finset.sum_const, Finset.card_univ, Fintype.card_fin, nsmul_eq_mul, ← mul_assoc, ENNReal.mul_inv_cancel hn hn', one_mul]
  · rw [← sum_inv_sq B]
    refine Finset.sum_le_sum fun i _ => mul_le_mul' le_rfl ?_
    refine (lintegral_mono fun ω => pow_le_pow_left' (hgB _) 2).trans (le_of_eq ?_)
    rw [lintegral_const, measure_univ, mul_one]

include hA hcm hcp hC hm hd hP hPm

theorem lintegral_sq_succ [NeZero n] (hsub : ∀ k, A (k + 1) ⊆ A k) (R : St n Z) (hR : R.2 ≤ 1) (k : ℕ) {f : Z → ℝ≥0∞} (hf : Measurable f) {B : ℝ≥0∞} (hB : ∀ x, f x ≤ B) :
    ∫⁻ ω, est (A (k + 1)) f (iter A cat C mv κ R (k + 1) ω) ^ 2 ∂ideal
      ≤ ∫⁻ ω, est (A k) (P k ((A (k + 1)).indicator f)) (iter A cat C mv κ R k ω) ^ 2 ∂ideal + B ^ 2 / n :=
  lintegral_sq_next (stepLaw hA hcm hcp hC hm hd hP hPm κ k) (Smc.smcApart _) (hA _) (hsub k) hf hB (measurable_iter hA hcm hcp hC hm hd hP hPm κ R k)
    (iter_dependsOn hA hcm hcp hC hm hd hP hPm κ R k) (Set.disjoint_of_subset_right (Smc.smcSites _) (Set.disjoint_left.mpr fun _ h1 h2 => h1 h2.1))
    (iter_le_one A cat C mv κ R hR k)

/-- The second moment of the estimate of a run from uncorrelated particles each with law `μ`. -/
theorem lintegral_sq_iter [NeZero n] (hsub : ∀ k, A (k + 1) ⊆ A k) (μ : Measure Z) (P0 : Measure (Fin n → Z)) [IsProbabilityMeasure P0] (hP0 : ∀ i, P0.map (fun z => z i) = μ)
    (hind : ∀ {h : Z → ℝ≥0∞}, Measurable h → ∀ i j, i ≠ j → ∫⁻ w, h (w i) * h (w j) ∂P0 = (∫⁻ w, h (w i) ∂P0) * ∫⁻ w, h (w j) ∂P0)
    (k : ℕ) (hinv : ∀ j < k, ∀ {h : Z → ℝ≥0∞}, Measurable h → ∫⁻ z in A j, P j h z ∂μ = ∫⁻ z in A j, h z ∂μ) {f : Z → ℝ≥0∞} (hf : Measurable f) {B : ℝ≥0∞} (hB : ∀ x, f x ≤ B) :
    ∫⁻ z0, ∫⁻ ω, est (A k) f (iter A cat C mv κ (z0, 1) k ω) ^ 2 ∂ideal ∂P0 ≤ (∫⁻ z in A k, f z ∂μ) ^ 2 + (k + 1) * B ^ 2 / n := by
  induction k generalizing f with
  | zero =>
    have h := lintegral_sq_zero hA μ P0 (x := fun w => w) (fun i => measurable_pi_apply i) hP0 hind hf hB
    simp only [iter, lintegral_const, measure_univ, mul_one]
    simpa using h
  | succ k ih =>
    have hg : Measurable ((A (k + 1)).indicator f) := hf.indicator (hA _)
    have hgB : ∀ x, (A (k + 1)).indicator f x ≤ B := fun x => (Set.indicator_le_self (A (k + 1)) f x).trans (hB x)
    refine (lintegral_mono fun z0 => lintegral_sq_succ hA hcm hcp hC hm hd hP hPm κ hsub (z0, 1) le_rfl k hf hB).trans ?_
    rw [lintegral_add_right _ measurable_const, lintegral_const, measure_univ, mul_one]
    refine (add_le_add_left (ih (fun j hj _ hh => hinv j (by omega) hh) (hPm k hg) (op_bound (stepLaw hA hcm hcp hC hm hd hP hPm κ k) hg hgB)) _).trans (le_of_eq ?_)
    rw [hinv k (by omega) hg, setLIntegral_indicator (hA _), Set.inter_eq_left.2 (hsub k), add_assoc]
    congr 1
    rw [ENNReal.div_eq_inv_mul, ENNReal.div_eq_inv_mul, ENNReal.div_eq_inv_mul, ← mul_add]
    congr 1
    push_cast
    ring

end

end Mocat.Alive
