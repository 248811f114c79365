import Verif.Lemmas.SmcLaw
import Mathlib.Probability.Moments.Variance
/-! Second moments of the weighted estimates of particle methods: they exceed the squared mean by at most a constant over the number of particles. -/
namespace Mocat.Smc
open Mocat Mocat.Ideal Mocat.Meas MeasureTheory ProbabilityTheory
open scoped ENNReal

/-- The second moment of a weighted sum of uncorrelated non-negative variables. -/
theorem lintegral_sq_sum {Ω ι : Type*} [MeasurableSpace Ω] [Fintype ι] (μ : Measure Ω) {H : ι → Ω → ℝ≥0∞} (hm : ∀ i, Measurable (H i))
    (hind : ∀ i j, i ≠ j → ∫⁻ ω, H i ω * H j ω ∂μ = (∫⁻ ω, H i ω ∂μ) * ∫⁻ ω, H j ω ∂μ) (a : ι → ℝ≥0∞) :
    ∫⁻ ω, (∑ i, a i * H i ω) ^ 2 ∂μ ≤ (∑ i, a i * ∫⁻ ω, H i ω ∂μ) ^ 2 + ∑ i, a i ^ 2 * ∫⁻ ω, H i ω ^ 2 ∂μ := by
  classical
  have e1 : ∀ ω, (∑ i, a i * H i ω) ^ 2 = ∑ i, ∑ j, a i * a j * (H i ω * H j ω) := fun ω => by
    rw [sq, Finset.sum_mul_sum]
    exact Finset.sum_congr rfl fun i _ => Finset.sum_congr rfl fun j _ => by ring
  have hmm : ∀ i j, Measurable fun ω => a i * a j * (H i ω * H j ω) := fun i j => ((hm i).mul (hm j)).const_mul _
  rw [lintegral_congr e1, lintegral_finsetSum _ fun i _ => Finset.measurable_sum _ fun j _ => hmm i j]
  have e2 : ∀ i, ∫⁻ ω, ∑ j, a i * a j * (H i ω * H j ω) ∂μ = ∑ j, a i * a j * ∫⁻ ω, H i ω * H j ω ∂μ := fun i => by
    rw [lintegral_finsetSum _ fun j _ => hmm i j]
    exact Finset.sum_congr rfl fun j _ => lintegral_const_mul _ ((hm i).mul (hm j))
  rw [Finset.sum_congr rfl fun i _ => e2 i, sq, Finset.sum_mul_sum, ← Finset.sum_add_distrib]
  refine Finset.sum_le_sum fun i _ => ?_
  rw [← Finset.add_sum_erase _ _ (Finset.mem_univ i), ← Finset.add_sum_erase _ (fun j => a i * (∫⁻ ω, H i ω ∂μ) * (a j * ∫⁻ ω, H j ω ∂μ)) (Finset.mem_univ i), add_comm, add_comm (a i * (∫⁻ ω, H i ω ∂μ) * (a i * ∫⁻ ω, H i ω ∂μ)), add_assoc]
  refine add_le_add (Finset.sum_le_sum fun j hj => ?_) ?_
  · rw [hind i j (Finset.ne_of_mem_erase hj).symm]
    exact le_of_eq (by ring)
  · refine le_add_of_nonneg_of_le zero_le (le_of_eq ?_)
    rw [← sq, lintegral_congr fun ω => (sq (H i ω)).symm]

/-- Chebyshev's inequality for a non-negative variable. -/
theorem chebyshev {Ω : Type*} [MeasurableSpace Ω] (μ : Measure Ω) [IsProbabilityMeasure μ] {Y : Ω → ℝ≥0∞} (hY : Measurable Y) {m v : ℝ≥0∞} (hm : m ≠ ∞) (hv : v ≠ ∞)
    (h1 : ∫⁻ ω, Y ω ∂μ = m) (h2 : ∫⁻ ω, Y ω ^ 2 ∂μ ≤ m ^ 2 + v) {ε : ℝ} (hε : 0 < ε) :
    μ {ω | ε ≤ |(Y ω).toReal - m.toReal|} ≤ v / ENNReal.ofReal (ε ^ 2) := by
  have hfin : ∀ᵐ ω ∂μ, Y ω < ∞ := ae_lt_top hY (by rw [h1]; exact hm)
  have hmean : μ[fun ω => (Y ω).toReal] = m.toReal := by rw [integral_toReal hY.aemeasurable hfin, h1]
  have hsq : ∫⁻ ω, Y ω ^ 2 ∂μ ≠ ∞ := ne_top_of_le_ne_top (by simp [hm, hv]) h2
  have hYr : Measurable fun ω => (Y ω).toReal := hY.ennreal_toReal
  have hL2 : MemLp (fun ω => (Y ω).toReal) 2 μ := by
    rw [memLp_two_iff_integrable_sq hYr.aestronglyMeasurable]
    have : (fun ω => (Y ω).toReal ^ 2) = fun ω => (Y ω ^ 2).toReal := funext fun ω => by simp
    rw [this]
    exact integrable_toReal_of_lintegral_ne_top (hY.pow_const 2).aemeasurable hsq
  have hvar : ENNReal.ofReal (Var[fun ω => (Y ω).toReal; μ]) ≤ v := by
    rw [variance_eq_sub hL2, hmean]
    have : (fun ω => (Y ω).toReal) ^ 2 = fun ω => (Y ω ^ 2).toReal := funext fun ω => by simp
    rw [this, integral_toReal (hY.pow_const 2).aemeasurable (by filter_upwards [hfin] with ω h using ENNReal.pow_lt_top h)]
    rw [← ENNReal.ofReal_toReal hv]
    refine ENNReal.ofReal_le_ofReal ?_
    have := (ENNReal.toReal_le_toReal hsq (by simp [hm, hv])).2 h2
    rw [ENNReal.toReal_add (by simp [hm]) hv, ENNReal.toReal_pow] at this
    linarith
  have := meas_ge_le_variance_div_sq hL2 hε
  rw [hmean, ENNReal.ofReal_div_of_pos (by positivity)] at this
  exact this.trans (ENNReal.div_le_div_right hvar _)

variable {n : ℕ} {X : Type*} [MeasurableSpace X]

/-- The share of particle `i` in the estimate. -/
noncomputable def share (R : Red n X) (i : Fin n) : ℝ := Real.exp R.2.2 * (Real.exp (R.2.1 i) / ∑ j, Real.exp (R.2.1 j))

/-- No particle has a share above `A / n`. -/
def Spread (A : ℝ) (R : Red n X) : Prop := ∀ i, share R i ≤ A / n

/-- The share of particle `i` after the resampling step. -/
noncomputable def shareAfter (C : Set (Fin n → ℝ)) (R : Red n X) (i : Fin n) : ℝ :=
  Real.exp R.2.2 * (Real.exp (redWeight C R i) / ∑ j, Real.exp (redWeight C R j))

omit [MeasurableSpace X] in
theorem share_sum [NeZero n] (R : Red n X) : ∑ i, share R i = Real.exp R.2.2 := by
  have hpos : (0 : ℝ) < ∑ j, Real.exp (R.2.1 j) := Finset.sum_pos (fun i _ => Real.exp_pos _) ⟨0, Finset.mem_univ _⟩
  simp only [share, ← Finset.mul_sum, ← Finset.sum_div]
  rw [div_self hpos.ne', mul_one]

omit [MeasurableSpace X] in
theorem shareAfter_le [NeZero n] {A : ℝ} {C : Set (Fin n → ℝ)} {R : Red n X} (h : Spread A R) (i : Fin n) : shareAfter C R i ≤ A / n := by
  by_cases hc : R.2.1 ∈ C
  · have hn : (0 : ℝ) < n := by exact_mod_cast Nat.pos_of_ne_zero (NeZero.ne n)
    have hw : redWeight C R = fun _ => 0 := by unfold redWeight; rw [if_pos hc]
    have hA : Real.exp R.2.2 ≤ A := by
      rw [← share_sum R]
      refine (Finset.sum_le_sum fun i _ => h i).trans (le_of_eq ?_)
      rw [Finset.sum_const, Finset.card_univ, Fintype.card_fin, nsmul_eq_mul]
      field_simp
    simp only [shareAfter, hw, Real.exp_zero, Finset.sum_const, Finset.card_univ, Fintype.card_fin, nsmul_eq_mul, mul_one]
    rw [mul_one_div]
    exact div_le_div_of_nonneg_right hA hn.le
  · have hw : redWeight C R = R.2.1 := by unfold redWeight; rw [if_neg hc]
    rw [shareAfter, hw]
    exact h i

section
variable {cat : (Fin n → ℝ) → ℝ → Fin n} {C : Set (Fin n → ℝ)} {σ : Fin n → Site} {G : X → X → ℝ} {mv : Fin n → X → Tape → X}
  {T : Fin n → Set Site} {P : (X → ℝ≥0∞) → X → ℝ≥0∞}

omit [MeasurableSpace X] in
theorem share_redStep [NeZero n] (R : Red n X) (ω : Tape) (i : Fin n) :
    share (redStep cat C σ G mv R ω) i = shareAfter C R i * Real.exp (G (redValue cat C σ R ω i) (mv i (redValue cat C σ R ω i) ω)) := by
  simp only [share, shareAfter, redStep]
  set r := fun i : Fin n => redValue cat C σ R ω i
  set v := fun i : Fin n => mv i (redValue cat C σ R ω i) ω
  set lw := fun i => redWeight C R i + G (r i) (v i) with hlw
  have hpos : (0 : ℝ) < ∑ j, Real.exp (lw j) := Finset.sum_pos (fun i _ => Real.exp_pos _) ⟨0, Finset.mem_univ _⟩
  have hpos' : (0 : ℝ) < ∑ j, Real.exp (redWeight C R j) := Finset.sum_pos (fun i _ => Real.exp_pos _) ⟨0, Finset.mem_univ _⟩
  rw [Real.exp_sub, Real.exp_add, lse_exp, lse_exp]
  simp only [hlw, Real.exp_add] at hpos ⊢
  field_simp
  rfl

omit [MeasurableSpace X] in
theorem spread_redStep [NeZero n] {A W : ℝ} (hA : 0 ≤ A) {R : Red n X} (h : Spread A R) (hW : ∀ x y, Real.exp (G x y) ≤ W) (ω : Tape) :
    Spread (A * W) (redStep cat C σ G mv R ω) := by
  intro i
  rw [share_redStep]
  calc _ ≤ A / n * W := mul_le_mul (shareAfter_le h i) (hW _ _) (Real.exp_pos _).le (by positivity)
    _ = A * W / n := by ring

/-- The particles of an update read apart from one another. -/
def Apart (σ : Fin n → Site) (T : Fin n → Set Site) : Prop := ∀ i j, i ≠ j → Disjoint (insert (σ i) (T i)) (insert (σ j) (T j))

variable (hcat : IsCategoricalReal cat) (hS : StepLaw C σ G mv T P) (hap : Apart σ T)

include hS in
theorem op_le {W : ℝ} (hW : ∀ x y, Real.exp (G x y) ≤ W) {f : X → ℝ≥0∞} (hf : Measurable f) {B : ℝ≥0∞} (hB : ∀ x, f x ≤ B) [NeZero n] (x : X) :
    P f x ≤ ENNReal.ofReal W * B := by
  rw [← hS.law 0 x hf]
  refine (lintegral_mono fun ω => mul_le_mul' (ENNReal.ofReal_le_ofReal (hW _ _)) (hB _)).trans (le_of_eq ?_)
  rw [lintegral_const, measure_univ, mul_one]

include hcat hS hap

/-- The second moment of the estimate after an update from a given state. -/
theorem lintegral_sq_redStep [NeZero n] {f : X → ℝ≥0∞} (hf : Measurable f) {B : ℝ≥0∞} (hB : ∀ x, f x ≤ B) {A W : ℝ} (hW : ∀ x y, Real.exp (G x y) ≤ W)
    (R : Red n X) (h : Spread A R) :
    ∫⁻ ω, Q f (redStep cat C σ G mv R ω) ^ 2 ∂ideal ≤ Q (P f) R ^ 2 + (ENNReal.ofReal A * ENNReal.ofReal W * B) ^ 2 / n := by
  have hR : Measurable fun ω : Tape => (R, ω) := measurable_prodMk_left
  set H : Fin n → Tape → ℝ≥0∞ := fun i ω => ENNReal.ofReal (Real.exp (G (redValue cat C σ R ω i) (mv i (redValue cat C σ R ω i) ω))) * f (mv i (redValue cat C σ R ω i) ω) with hH
  have hHm : ∀ i, Measurable (H i) := by
    intro i
    have h1 := (measurable_redValue hcat hS.crit σ i).comp hR
    have h2 := (measurable_moved hcat hS i).comp hR
    have h3 := (ENNReal.measurable_ofReal.comp (Real.measurable_exp.comp (hS.weight.comp (h1.prodMk h2)))).mul (hf.comp h2)
    exact h3
  have hHd : ∀ i, DependsOn (H i) (insert (σ i) (T i)) := by
    intro i ω ω' hω
    have e1 := redValue_dependsOn cat C σ R i (fun s hs => hω s (by rw [Set.mem_singleton_iff.1 hs]; exact Set.mem_insert _ _) : ∀ s ∈ ({σ i} : Set Site), ω s = ω' s)
    have e2 := hS.reads i (redValue cat C σ R ω' i) (fun s hs => hω s (Set.mem_insert_of_mem _ hs))
    simp only [hH]
    simp only at e1
    rw [e1, e2]
  have hind : ∀ i j, i ≠ j → ∫⁻ ω, H i ω * H j ω ∂ideal = (∫⁻ ω, H i ω ∂ideal) * ∫⁻ ω, H j ω ∂ideal := by
    intro i j hij
    have e := fresh (hap i j hij) (f := H i) (g := fun a ω => a * H j ω) (hHm i) (hHd i) (measurable_fst.mul ((hHm j).comp measurable_snd))
      (fun a ω ω' hω => by simp only; rw [hHd j hω])
    rw [e, ← lintegral_mul_const _ (hHm i)]
    exact lintegral_congr fun ω => lintegral_const_mul _ (hHm j)
  have hmain := lintegral_sq_sum ideal hHm hind fun i => ENNReal.ofReal (shareAfter C R i)
  have e1 : ∀ ω, Q f (redStep cat C σ G mv R ω) = ∑ i, ENNReal.ofReal (shareAfter C R i) * H i ω := fun ω => Q_redStep f R ω
  have e2 : ∑ i, ENNReal.ofReal (shareAfter C R i) * ∫⁻ ω, H i ω ∂ideal = Q (P f) R := by
    rw [← sum_redValue (σ := σ) (C := C) hcat]
    exact Finset.sum_congr rfl fun i _ => by rw [← lintegral_moved hcat hS hf]; rfl
  rw [lintegral_congr fun ω => by rw [e1 ω]]
  rw [e2] at hmain
  refine hmain.trans (add_le_add le_rfl ?_)
  have hn : (0 : ℝ) < n := by exact_mod_cast Nat.pos_of_ne_zero (NeZero.ne n)
  have hterm : ∀ i, ENNReal.ofReal (shareAfter C R i) ^ 2 * ∫⁻ ω, H i ω ^ 2 ∂ideal ≤ (ENNReal.ofReal A * ENNReal.ofReal W * B) ^ 2 / n ^ 2 := by
    intro i
    have h1 : ∫⁻ ω, H i ω ^ 2 ∂ideal ≤ (ENNReal.ofReal W * B) ^ 2 := by
      refine (lintegral_mono fun ω => pow_le_pow_left' (mul_le_mul' (ENNReal.ofReal_le_ofReal (hW _ _)) (hB _)) 2).trans (le_of_eq ?_)
      rw [lintegral_const, measure_univ, mul_one]
    have h2 : ENNReal.ofReal (shareAfter C R i) ≤ ENNReal.ofReal A / n := by
      rw [← ENNReal.ofReal_natCast, ← ENNReal.ofReal_div_of_pos hn]
      exact ENNReal.ofReal_le_ofReal (shareAfter_le h i)
    refine (mul_le_mul' (pow_le_pow_left' h2 2) h1).trans (le_of_eq ?_)
    rw [← mul_pow, ENNReal.div_eq_inv_mul, ENNReal.div_eq_inv_mul, ENNReal.inv_pow, ← mul_pow]
    congr 1
    ring
  refine (Finset.sum_le_sum fun i _ => hterm i).trans (le_of_eq ?_)
  have hn0 : (n : ℝ≥0∞) ≠ 0 := by exact_mod_cast NeZero.ne n
  rw [Finset.sum_const, Finset.card_univ, Fintype.card_fin, nsmul_eq_mul, ENNReal.div_eq_inv_mul, ENNReal.div_eq_inv_mul, ← mul_assoc]
  congr 1
  rw [sq, ENNReal.mul_inv (Or.inl hn0) (Or.inr hn0), ← mul_assoc, ENNReal.mul_inv_cancel hn0 (ENNReal.natCast_ne_top n), one_mul]

/-- The same from a random state that has not read what the update reads. -/
theorem lintegral_sq_next [NeZero n] {f : X → ℝ≥0∞} (hf : Measurable f) {B : ℝ≥0∞} (hB : ∀ x, f x ≤ B) {A W : ℝ} (hW : ∀ x y, Real.exp (G x y) ≤ W)
    {R : Tape → Red n X} (hR : Measurable R) {S : Set Site} (hRS : DependsOn R S) (hdis : Disjoint S (stepSites σ T)) (h : ∀ ω, Spread A (R ω)) :
    ∫⁻ ω, Q f (redStep cat C σ G mv (R ω) ω) ^ 2 ∂ideal ≤ ∫⁻ ω, Q (P f) (R ω) ^ 2 ∂ideal + (ENNReal.ofReal A * ENNReal.ofReal W * B) ^ 2 / n := by
  have hm : Measurable fun p : Red n X × Tape => Q f (redStep cat C σ G mv p.1 p.2) ^ 2 := by
    have h1 : Measurable fun p : Red n X × Tape => Q f (redStep cat C σ G mv p.1 p.2) := (measurable_Q hf).comp (measurable_redStep hcat hS)
    exact h1.pow_const 2
  rw [fresh hdis (f := R) (g := fun a ω => Q f (redStep cat C σ G mv a ω) ^ 2) hR hRS hm
    (fun a ω ω' hω => congrArg (fun z => Q f z ^ 2) (redStep_dependsOn hS a hω))]
  refine (lintegral_mono fun ω => lintegral_sq_redStep hcat hS hap hf hB hW (R ω) (h ω)).trans (le_of_eq ?_)
  rw [lintegral_add_right _ measurable_const, lintegral_const, measure_univ, mul_one]

end

/-- The starting ensemble with log weights `g x`. -/
noncomputable def startAt (g : X → ℝ) (x : Fin n → X) : Red n X := (x, fun i => g (x i), lseMean fun i => g (x i))

omit [MeasurableSpace X] in
theorem share_startAt [NeZero n] (g : X → ℝ) (x : Fin n → X) (i : Fin n) : share (startAt g x) i = 1 / n * Real.exp (g (x i)) := by
  have hn : (0 : ℝ) < n := by exact_mod_cast Nat.pos_of_ne_zero (NeZero.ne n)
  have hpos : (0 : ℝ) < ∑ j, Real.exp (g (x j)) := Finset.sum_pos (fun i _ => Real.exp_pos _) ⟨0, Finset.mem_univ _⟩
  simp only [share, startAt, lseMean, ← Finset.mul_sum]
  rw [Real.exp_log (by positivity)]
  field_simp

omit [MeasurableSpace X] in
theorem spread_startAt [NeZero n] {g : X → ℝ} {W : ℝ} (hW : ∀ x, Real.exp (g x) ≤ W) (x : Fin n → X) : Spread W (startAt g x) := by
  intro i
  have hn : (0 : ℝ) < n := by exact_mod_cast Nat.pos_of_ne_zero (NeZero.ne n)
  rw [share_startAt, one_div_mul_eq_div]
  exact div_le_div_of_nonneg_right (hW _) hn.le

theorem measurable_lseMean : Measurable (lseMean : (Fin n → ℝ) → ℝ) := by
  unfold lseMean
  exact Real.measurable_log.comp (Finset.measurable_sum _ fun i _ => measurable_const.mul (Real.measurable_exp.comp (measurable_pi_apply i)))

theorem measurable_startAt {g : X → ℝ} (hg : Measurable g) : Measurable (startAt g : (Fin n → X) → Red n X) := by
  have h : Measurable fun x : Fin n → X => fun i => g (x i) := measurable_pi_lambda _ fun i => hg.comp (measurable_pi_apply i)
  exact measurable_id.prodMk (h.prodMk (measurable_lseMean.comp h))

omit [MeasurableSpace X] in
theorem Q_eq_share (f : X → ℝ≥0∞) (R : Red n X) : Q f R = ∑ i, ENNReal.ofReal (share R i) * f (R.1 i) := rfl

/-- The second moment of the estimate from weighted uncorrelated draws. -/
theorem lintegral_sq_start [NeZero n] {Ω : Type*} [MeasurableSpace Ω] (μ : Measure Ω) [IsProbabilityMeasure μ] {x : Ω → Fin n → X} (hx : ∀ i, Measurable fun ω => x ω i)
    (hind : ∀ {h : X → ℝ≥0∞}, Measurable h → ∀ i j, i ≠ j → ∫⁻ ω, h (x ω i) * h (x ω j) ∂μ = (∫⁻ ω, h (x ω i) ∂μ) * ∫⁻ ω, h (x ω j) ∂μ)
    {g : X → ℝ} (hg : Measurable g) {W : ℝ} (hW : ∀ x, Real.exp (g x) ≤ W) {f : X → ℝ≥0∞} (hf : Measurable f) {B : ℝ≥0∞} (hB : ∀ x, f x ≤ B)
    {m : ℝ≥0∞} (hm : ∀ i, ∫⁻ ω, ENNReal.ofReal (Real.exp (g (x ω i))) * f (x ω i) ∂μ = m) :
    ∫⁻ ω, Q f (startAt g (x ω)) ^ 2 ∂μ ≤ m ^ 2 + (ENNReal.ofReal W * B) ^ 2 / n := by
  have hn : (0 : ℝ) < n := by exact_mod_cast Nat.pos_of_ne_zero (NeZero.ne n)
  have hn0 : (n : ℝ≥0∞) ≠ 0 := by exact_mod_cast NeZero.ne n
  set H : X → ℝ≥0∞ := fun x => ENNReal.ofReal (Real.exp (g x)) * f x with hH
  have hHm : Measurable H := (ENNReal.measurable_ofReal.comp (Real.measurable_exp.comp hg)).mul hf
  have hinv : ENNReal.ofReal (1 / n) = (n : ℝ≥0∞)⁻¹ := by rw [one_div, ENNReal.ofReal_inv_of_pos hn, ENNReal.ofReal_natCast]
  have e1 : ∀ ω, Q f (startAt g (x ω)) = ∑ i, (n : ℝ≥0∞)⁻¹ * H (x ω i) := fun ω => by
    rw [Q_eq_share]
    refine Finset.sum_congr rfl fun i _ => ?_
    rw [share_startAt, ENNReal.ofReal_mul (by positivity), hinv, mul_assoc]
    rfl
  rw [lintegral_congr fun ω => by rw [e1 ω]]
  refine (lintegral_sq_sum μ (fun i => hHm.comp (hx i)) (fun i j hij => hind hHm i j hij) fun _ => (n : ℝ≥0∞)⁻¹).trans ?_
  have hsum : ∀ c : ℝ≥0∞, ∑ _i : Fin n, (n : ℝ≥0∞)⁻¹ * c = c := fun c => by
    rw [Finset.sum_const, Finset.card_univ, Fintype.card_fin, nsmul_eq_mul, ← mul_assoc, ENNReal.mul_inv_cancel hn0 (ENNReal.natCast_ne_top n), one_mul]
  refine add_le_add (le_of_eq ?_) ?_
  · congr 1
    refine Eq.trans (Finset.sum_congr rfl fun i _ => ?_) (hsum m)
    rw [← hm i]
    rfl
  · have hterm : ∀ i, (n : ℝ≥0∞)⁻¹ ^ 2 * ∫⁻ ω, H (x ω i) ^ 2 ∂μ ≤ (n : ℝ≥0∞)⁻¹ * ((n : ℝ≥0∞)⁻¹ * (ENNReal.ofReal W * B) ^ 2) := fun i => by
      rw [sq (n : ℝ≥0∞)⁻¹, mul_assoc]
      refine mul_le_mul' le_rfl (mul_le_mul' le_rfl ?_)
      refine (lintegral_mono fun ω => pow_le_pow_left' (mul_le_mul' (ENNReal.ofReal_le_ofReal (hW _)) (hB _)) 2).trans (le_of_eq ?_)
      rw [lintegral_const, measure_univ, mul_one]
    refine (Finset.sum_le_sum fun i _ => hterm i).trans (le_of_eq ?_)
    rw [hsum, ENNReal.div_eq_inv_mul]

/-- Independent draws from one law. -/
theorem pi_uncorrelated (μ0 : Measure X) [IsProbabilityMeasure μ0] {h : X → ℝ≥0∞} (hh : Measurable h) (i j : Fin n) (hij : i ≠ j) :
    ∫⁻ x, h (x i) * h (x j) ∂(Measure.pi fun _ : Fin n => μ0) = (∫⁻ x, h (x i) ∂(Measure.pi fun _ : Fin n => μ0)) * ∫⁻ x, h (x j) ∂(Measure.pi fun _ : Fin n => μ0) := by
  have h1 := (iIndepFun_pi (μ := fun _ : Fin n => μ0) (X := fun _ => h) fun _ => hh.aemeasurable).indepFun hij
  exact lintegral_mul_eq_lintegral_mul_lintegral_of_indepFun (hh.comp (measurable_pi_apply i)) (hh.comp (measurable_pi_apply j)) h1

theorem pi_marginal (μ0 : Measure X) [IsProbabilityMeasure μ0] (i : Fin n) : (Measure.pi fun _ : Fin n => μ0).map (fun x => x i) = μ0 :=
  (measurePreserving_eval (fun _ : Fin n => μ0) i).map_eq

/-- The particles of a tempered SMC update read apart. -/
theorem smcApart (κ : Keys.Key) : Apart (n := n) (fun i => (n :: κ, (i : ℕ))) (fun i => below ((i : ℕ) :: κ)) := by
  intro i j hij
  have hne : (i : ℕ) ≠ j := fun h => hij (Fin.ext h)
  rw [Set.disjoint_insert_left, Set.disjoint_insert_right]
  refine ⟨?_, below_cons_ne i.is_lt.ne', below_disjoint hne⟩
  rw [Set.mem_insert_iff, not_or]
  exact ⟨fun h => hne (congrArg Prod.snd h), below_cons_ne j.is_lt.ne'⟩

section
variable {cat : (Fin n → ℝ) → ℝ → Fin n} (hcat : IsCategoricalReal cat) (thr : ℝ) {lik : X → ℝ} (hlik : Measurable lik) (δ : ℕ → ℝ)
  {mv : ℕ → Keys.Key → X → Tape → X} (hm : ∀ t k, Measurable fun z : X × Tape => mv t k z.1 z.2) (hd : ∀ t k x, DependsOn (mv t k x) (below k))
  {P : ℕ → (X → ℝ≥0∞) → X → ℝ≥0∞} (hP : ∀ t k x {h : X → ℝ≥0∞}, Measurable h → ∫⁻ ω, h (mv t k x ω) ∂ideal = P t h x)
  (hPm : ∀ t {h : X → ℝ≥0∞}, Measurable h → Measurable (P t h)) (κ : Keys.Key) (R : Red n X)

include hcat hlik hm hd hP hPm

theorem measurable_redIter_joint (k : ℕ) : Measurable fun z : Red n X × Tape => redIter cat thr lik δ mv κ z.1 k z.2 := by
  induction k with
  | zero => exact measurable_fst
  | succ k ih =>
    have h := (measurable_redStep hcat (smcStep_law thr hlik (δ k) (hm k) (hd k) (hP k) (hPm k) (keyAt n κ k))).comp (ih.prodMk measurable_snd)
    exact h

omit [MeasurableSpace X] hcat hlik hm hd hP hPm in
theorem spread_redIter [NeZero n] {A W : ℝ} (hA : 0 ≤ A) (hW0 : 0 ≤ W) (h : Spread A R) (k : ℕ) (hW : ∀ j < k, ∀ x, Real.exp (-δ j * lik x) ≤ W) (ω : Tape) :
    Spread (A * W ^ k) (redIter cat thr lik δ mv κ R k ω) := by
  induction k with
  | zero => simpa [redIter] using h
  | succ k ih =>
    rw [pow_succ, ← mul_assoc]
    exact spread_redStep (by positivity) (ih fun j hj => hW j (by omega)) (fun _ x => hW k (by omega) x) ω

/-- The second moment after one more update. -/
theorem lintegral_sq_succ [NeZero n] {A W : ℝ} (hA : 0 ≤ A) (hW0 : 0 ≤ W) (h : Spread A R) (k : ℕ) (hW : ∀ j < k + 1, ∀ x, Real.exp (-δ j * lik x) ≤ W) {f : X → ℝ≥0∞} (hf : Measurable f)
    {B : ℝ≥0∞} (hB : ∀ x, f x ≤ B) :
    ∫⁻ ω, Q f (redIter cat thr lik δ mv κ R (k + 1) ω) ^ 2 ∂ideal
      ≤ ∫⁻ ω, Q (P k fun x => ENNReal.ofReal (Real.exp (-δ k * lik x)) * f x) (redIter cat thr lik δ mv κ R k ω) ^ 2 ∂ideal
        + (ENNReal.ofReal (A * W ^ k) * ENNReal.ofReal W * B) ^ 2 / n :=
  lintegral_sq_next hcat (smcStep_law thr hlik (δ k) (hm k) (hd k) (hP k) (hPm k) (keyAt n κ k)) (smcApart _) hf hB (fun _ x => hW k (by omega) x)
    (measurable_redIter hcat thr hlik δ hm hd hP hPm κ R k) (redIter_dependsOn thr hlik δ hm hd hP hPm κ R k)
    (Set.disjoint_of_subset_right (smcSites _) (Set.disjoint_left.mpr fun _ h1 h2 => h1 h2.1))
    (spread_redIter thr δ κ R hA hW0 h k fun j hj => hW j (by omega))

end

/-- The ratio of two concentrated estimates: any event on which it is off when the denominator is positive. -/
theorem ratio_bound_on {Ω : Type*} [MeasurableSpace Ω] (μ : Measure Ω) {Y Z : Ω → ℝ} {y z b v : ℝ} (hz : 0 < z) (hb : 0 ≤ b) (hyz : |y| ≤ b * z)
    (hY : ∀ δ, 0 < δ → μ {ω | δ ≤ |Y ω - y|} ≤ ENNReal.ofReal (v / δ ^ 2)) (hZ : ∀ δ, 0 < δ → μ {ω | δ ≤ |Z ω - z|} ≤ ENNReal.ofReal (v / δ ^ 2)) {ε : ℝ} (hε : 0 < ε) (hv : 0 ≤ v) {E : Set Ω}
    (hE : ∀ ω ∈ E, 0 < Z ω → ε ≤ |Y ω / Z ω - y / z|) :
    μ E ≤ ENNReal.ofReal (2 * v / (min (z / 2) (ε * z / (2 * (1 + b)))) ^ 2) := by
  set δ := min (z / 2) (ε * z / (2 * (1 + b))) with hδ
  have hδ0 : 0 < δ := lt_min (by positivity) (by positivity)
  have hsub : E ⊆ {ω | δ ≤ |Y ω - y|} ∪ {ω | δ ≤ |Z ω - z|} := by
    intro ω hω
    by_contra hc
    simp only [Set.mem_union, Set.mem_ofPred_eq, not_or, not_le] at hc
    obtain ⟨h1, h2⟩ := hc
    have hδ1 : δ ≤ z / 2 := min_le_left _ _
    have hδ2 : δ * (2 * (1 + b)) ≤ ε * z := by
      have := min_le_right (z / 2) (ε * z / (2 * (1 + b)))
      rw [← hδ, le_div_iff₀ (by positivity)] at this
      exact this
    have hZpos : z / 2 < Z ω := by
      have := (abs_lt.mp h2).1
      linarith
    have hZ0 : 0 < Z ω := by linarith
    replace hω := hE ω hω hZ0
    have e : Y ω / Z ω - y / z = ((Y ω - y) - y / z * (Z ω - z)) / Z ω := by field_simp; ring
    rw [e, abs_div, abs_of_pos hZ0, le_div_iff₀ hZ0] at hω
    have h3 : |y / z| ≤ b := by rw [abs_div, abs_of_pos hz, div_le_iff₀ hz]; exact hyz
    have h4 : |(Y ω - y) - y / z * (Z ω - z)| < δ + b * δ := by
      refine (abs_sub _ _).trans_lt ?_
      rw [abs_mul]
      have := mul_le_mul h3 h2.le (abs_nonneg _) hb
      linarith
    nlinarith
  refine (measure_mono hsub).trans ((measure_union_le _ _).trans ((add_le_add (hY δ hδ0) (hZ δ hδ0)).trans (le_of_eq ?_)))
  rw [← ENNReal.ofReal_add (by positivity) (by positivity)]
  congr 1
  ring

/-- The ratio of two concentrated estimates. -/
theorem ratio_bound {Ω : Type*} [MeasurableSpace Ω] (μ : Measure Ω) {Y Z : Ω → ℝ} {y z b v : ℝ} (hz : 0 < z) (hb : 0 ≤ b) (hyz : |y| ≤ b * z)
    (hY : ∀ δ, 0 < δ → μ {ω | δ ≤ |Y ω - y|} ≤ ENNReal.ofReal (v / δ ^ 2)) (hZ : ∀ δ, 0 < δ → μ {ω | δ ≤ |Z ω - z|} ≤ ENNReal.ofReal (v / δ ^ 2)) {ε : ℝ} (hε : 0 < ε) (hv : 0 ≤ v) :
    μ {ω | ε ≤ |Y ω / Z ω - y / z|} ≤ ENNReal.ofReal (2 * v / (min (z / 2) (ε * z / (2 * (1 + b)))) ^ 2) :=
  ratio_bound_on μ hz hb hyz hY hZ hε hv fun _ h _ => h

end Mocat.Smc
