import Verif.Lemmas.SmcLaw
/-! Particles with weights 0 or 1 on an ideal tape (ABC-SMC): the expectation of their estimates. -/
namespace Mocat.Alive
open Mocat Mocat.Ideal Mocat.Meas MeasureTheory
open scoped ENNReal

variable {n : ℕ} {Z : Type*}

/-- Particles and the product of the alive fractions at the resampling steps so far. -/
abbrev St (n : ℕ) (Z : Type*) := (Fin n → Z) × ℝ≥0∞

/-- The particles in `A`. -/
noncomputable def pat (A : Set Z) (z : Fin n → Z) : Finset (Fin n) := open Classical in Finset.univ.filter fun i => z i ∈ A

theorem mem_pat {A : Set Z} {z : Fin n → Z} {i : Fin n} : i ∈ pat A z ↔ z i ∈ A := by unfold pat; simp

/-- The estimate. -/
noncomputable def est (A : Set Z) (f : Z → ℝ≥0∞) (R : St n Z) : ℝ≥0∞ := R.2 * ((n : ℝ≥0∞)⁻¹ * ∑ i, A.indicator f (R.1 i))

/-- What particle `i` becomes when the particles with weight are `S`; the ancestor is read from `σ i`, `mv i` moves. -/
noncomputable def value (cat : Finset (Fin n) → ℝ → Fin n) (C : Set (Finset (Fin n))) (σ : Fin n → Site) (mv : Fin n → Z → Tape → Z) (S : Finset (Fin n)) (z : Fin n → Z) (ω : Tape) (i : Fin n) : Z :=
  open Classical in if S ∈ C then mv i (z (cat S (ω (σ i)))) ω else if i ∈ S then mv i (z i) ω else z i

/-- The new product. -/
noncomputable def factor (C : Set (Finset (Fin n))) (S : Finset (Fin n)) : ℝ≥0∞ := open Classical in if S ∈ C then (S.card : ℝ≥0∞) / n else 1

/-- One update. -/
noncomputable def step (A : Set Z) (cat : Finset (Fin n) → ℝ → Fin n) (C : Set (Finset (Fin n))) (σ : Fin n → Site) (mv : Fin n → Z → Tape → Z) (R : St n Z) (ω : Tape) : St n Z :=
  (fun i => value cat C σ mv (pat A R.1) R.1 ω i, R.2 * factor C (pat A R.1))

/-- What is assumed of an update. -/
structure Law [MeasurableSpace Z] (A : Set Z) (cat : Finset (Fin n) → ℝ → Fin n) (C : Set (Finset (Fin n))) (σ : Fin n → Site) (mv : Fin n → Z → Tape → Z) (T : Fin n → Set Site) (P : (Z → ℝ≥0∞) → Z → ℝ≥0∞) : Prop where
  alive : MeasurableSet A
  cat_measurable : ∀ S, Measurable (cat S)
  cat_prob : ∀ S ∈ C, ∀ j, unif {u | cat S u = j} = if j ∈ S then (S.card : ℝ≥0∞)⁻¹ else 0
  crit : ∀ S ∈ C, S.Nonempty
  move : ∀ i, Measurable fun z : Z × Tape => mv i z.1 z.2
  reads : ∀ i x, DependsOn (mv i x) (T i)
  apart : ∀ i, σ i ∉ T i
  law : ∀ i x {h : Z → ℝ≥0∞}, Measurable h → ∫⁻ ω, h (mv i x ω) ∂ideal = P h x
  op : ∀ {h : Z → ℝ≥0∞}, Measurable h → Measurable (P h)

variable [MeasurableSpace Z]

theorem measurable_pat {A : Set Z} (hA : MeasurableSet A) : Measurable[_, ⊤] (pat A : (Fin n → Z) → Finset (Fin n)) := by
  classical
  refine @measurable_to_countable' _ _ ⊤ _ _ _ fun S => ?_
  have : (pat A : (Fin n → Z) → Finset (Fin n)) ⁻¹' {S} = ⋂ i, {z | z i ∈ A ↔ i ∈ S} := by
    ext z
    simp only [Set.mem_preimage, Set.mem_singleton_iff, Set.mem_iInter, Set.mem_ofPred_eq]
    rw [Finset.ext_iff]
    exact forall_congr' fun i => by rw [mem_pat]
  rw [this]
  refine MeasurableSet.iInter fun i => ?_
  by_cases h : i ∈ S
  · simp only [h, iff_true]; exact measurable_pi_apply i hA
  · simp only [h, iff_false]; exact (measurable_pi_apply i hA).compl

/-- A function that depends on the pattern is measurable if it is so for each pattern. -/
theorem measurable_of_pat {A : Set Z} (hA : MeasurableSet A) {α β : Type*} [MeasurableSpace α] [MeasurableSpace β] {z : α → Fin n → Z} (hz : Measurable z) {g : Finset (Fin n) → α → β}
    (hg : ∀ S, Measurable (g S)) : Measurable fun a => g (pat A (z a)) a := by
  let _ : MeasurableSpace (Finset (Fin n)) := ⊤
  have h : Measurable fun w : Finset (Fin n) × α => g w.1 w.2 := measurable_from_prod_countable_right hg
  have hp : Measurable fun a => pat A (z a) := (measurable_pat hA).comp hz
  exact h.comp (hp.prodMk measurable_id)

theorem measurable_est {A : Set Z} (hA : MeasurableSet A) {f : Z → ℝ≥0∞} (hf : Measurable f) : Measurable (est A f : St n Z → ℝ≥0∞) := by
  unfold est
  exact measurable_snd.mul (measurable_const.mul (Finset.measurable_sum _ fun i _ => (hf.indicator hA).comp ((measurable_pi_apply i).comp measurable_fst)))

section
variable {A : Set Z} {cat : Finset (Fin n) → ℝ → Fin n} {C : Set (Finset (Fin n))} {σ : Fin n → Site} {mv : Fin n → Z → Tape → Z} {T : Fin n → Set Site} {P : (Z → ℝ≥0∞) → Z → ℝ≥0∞}
  (hL : Law A cat C σ mv T P)
include hL

theorem measurable_value (S : Finset (Fin n)) (i : Fin n) : Measurable fun w : (Fin n → Z) × Tape => value cat C σ mv S w.1 w.2 i := by
  classical
  unfold value
  by_cases h1 : S ∈ C
  · simp only [h1, if_true]
    have hc : Measurable fun w : (Fin n → Z) × Tape => cat S (w.2 (σ i)) := (hL.cat_measurable S).comp ((measurable_pi_apply (σ i)).comp measurable_snd)
    exact (hL.move i).comp ((Smc.measurable_apply_fin measurable_fst hc).prodMk measurable_snd)
  · by_cases h2 : i ∈ S
    · simp only [h1, h2, if_true, if_false]
      have hz : Measurable fun w : (Fin n → Z) × Tape => (w.1 i, w.2) := ((measurable_pi_apply i).comp measurable_fst).prodMk measurable_snd
      exact (hL.move i).comp hz
    · simp only [h1, h2, if_false]
      exact (measurable_pi_apply i).comp measurable_fst

theorem measurable_step : Measurable fun w : St n Z × Tape => step A cat C σ mv w.1 w.2 := by
  unfold step
  have hz : Measurable fun w : St n Z × Tape => w.1.1 := measurable_fst.comp measurable_fst
  refine Measurable.prodMk (measurable_pi_lambda _ fun i => ?_) ((measurable_snd.comp measurable_fst).mul ?_)
  · exact measurable_of_pat (g := fun S (w : St n Z × Tape) => value cat C σ mv S w.1.1 w.2 i) hL.alive hz fun S =>
      (measurable_value hL S i).comp (hz.prodMk measurable_snd)
  · exact measurable_of_pat (g := fun S (_ : St n Z × Tape) => factor C S) hL.alive hz fun S => measurable_const

theorem step_dependsOn (R : St n Z) : DependsOn (step A cat C σ mv R) (Smc.stepSites σ T) := by
  classical
  intro ω ω' h
  unfold step
  refine Prod.ext (funext fun i => ?_) rfl
  simp only [value]
  rw [h (σ i) ⟨i, Or.inl rfl⟩]
  split_ifs
  · exact hL.reads i _ fun s hs => h s ⟨i, Or.inr hs⟩
  · exact hL.reads i _ fun s hs => h s ⟨i, Or.inr hs⟩
  · rfl

/-- The expectation over the draw and the move of one particle at a resampling step. -/
theorem lintegral_resampled {g : Z → ℝ≥0∞} (hg : Measurable g) (S : Finset (Fin n)) (hS : S ∈ C) (z : Fin n → Z) (i : Fin n) :
    ∫⁻ ω, g (mv i (z (cat S (ω (σ i)))) ω) ∂ideal = (S.card : ℝ≥0∞)⁻¹ * ∑ j ∈ S, P g (z j) := by
  classical
  have hcm : Measurable fun ω : Tape => cat S (ω (σ i)) := (hL.cat_measurable S).comp (measurable_pi_apply (σ i))
  have hz : Measurable fun j : Fin n => z j := measurable_of_finite _
  have hgm : Measurable fun w : Fin n × Tape => g (mv i (z w.1) w.2) := hg.comp ((hL.move i).comp ((hz.comp measurable_fst).prodMk measurable_snd))
  have e := fresh (S := {σ i}) (T := T i) (Set.disjoint_singleton_left.mpr (hL.apart i)) (f := fun ω : Tape => cat S (ω (σ i)))
    (g := fun j ω => g (mv i (z j) ω)) hcm (fun ω ω' h => by simp only; rw [h (σ i) rfl]) hgm (fun j ω ω' h => by simp only; rw [hL.reads i _ h])
  have e' : ∫⁻ ω : Tape, ∫⁻ ω', g (mv i (z (cat S (ω (σ i)))) ω') ∂ideal ∂ideal = ∫⁻ ω : Tape, P g (z (cat S (ω (σ i)))) ∂ideal :=
    lintegral_congr fun ω => hL.law i _ hg
  rw [e, e', ← lintegral_map (f := fun j => P g (z j)) (measurable_of_finite _) hcm, lintegral_fintype]
  have hp : ∀ j, (ideal.map fun ω : Tape => cat S (ω (σ i))) {j} = if j ∈ S then (S.card : ℝ≥0∞)⁻¹ else 0 := by
    intro j
    rw [Measure.map_apply hcm (measurableSet_singleton j), ← hL.cat_prob S hS j]
    exact site (σ i) ((hL.cat_measurable S) (measurableSet_singleton j))
  simp only [hp, mul_ite, mul_zero]
  rw [← Finset.sum_filter, Finset.mul_sum]
  refine Finset.sum_congr (by ext; simp) fun j _ => mul_comm _ _

/-- The expected estimate after an update from a given state. -/
theorem lintegral_est_step [NeZero n] {A' : Set Z} (hA' : MeasurableSet A') (hsub : A' ⊆ A) {f : Z → ℝ≥0∞} (hf : Measurable f) (R : St n Z) :
    ∫⁻ ω, est A' f (step A cat C σ mv R ω) ∂ideal = est A (P (A'.indicator f)) R := by
  classical
  set g := A'.indicator f with hg
  have hgm : Measurable g := hf.indicator hA'
  set S := pat A R.1 with hS
  have hv : ∀ i, Measurable fun ω : Tape => g (value cat C σ mv S R.1 ω i) := fun i =>
    hgm.comp ((measurable_value hL S i).comp measurable_prodMk_left)
  have e1 : ∀ ω, est A' f (step A cat C σ mv R ω) = R.2 * factor C S * ((n : ℝ≥0∞)⁻¹ * ∑ i, g (value cat C σ mv S R.1 ω i)) := fun ω => rfl
  have hvs : Measurable fun ω : Tape => ∑ i, g (value cat C σ mv S R.1 ω i) := Finset.measurable_sum _ fun i _ => hv i
  have hvc : Measurable fun ω : Tape => (n : ℝ≥0∞)⁻¹ * ∑ i, g (value cat C σ mv S R.1 ω i) := measurable_const.mul hvs
  rw [lintegral_congr e1, lintegral_const_mul _ hvc, lintegral_const_mul _ hvs, lintegral_finsetSum _ fun i _ => hv i]
  have hsum : ∑ i, A.indicator (P g) (R.1 i) = ∑ j ∈ S, P g (R.1 j) := by
    rw [hS]
    unfold pat
    rw [Finset.sum_filter]
    exact Finset.sum_congr rfl fun i _ => by simp only [Set.indicator]
  unfold est
  rw [hsum]
  have hn : (n : ℝ≥0∞) ≠ 0 := by exact_mod_cast NeZero.ne n
  have hn' : (n : ℝ≥0∞) ≠ ⊤ := ENNReal.natCast_ne_top n
  by_cases hC : S ∈ C
  · have hcard : (S.card : ℝ≥0∞) ≠ 0 := by exact_mod_cast Finset.card_ne_zero.2 (hL.crit S hC)
    have hcard' : (S.card : ℝ≥0∞) ≠ ⊤ := ENNReal.natCast_ne_top _
    have e2 : ∀ i, ∫⁻ ω, g (value cat C σ mv S R.1 ω i) ∂ideal = (S.card : ℝ≥0∞)⁻¹ * ∑ j ∈ S, P g (R.1 j) := fun i => by
      rw [← lintegral_resampled hL hgm S hC R.1 i]
      exact lintegral_congr fun ω => by simp only [value, if_pos hC]
    rw [Finset.sum_congr rfl fun i _ => e2 i, Finset.sum_const, Finset.card_univ, Fintype.card_fin, nsmul_eq_mul]
    have e3 : factor C S = (S.card : ℝ≥0∞) / n := by unfold factor; rw [if_pos hC]
    rw [e3, mul_assoc, ← mul_assoc (n : ℝ≥0∞)⁻¹ (n : ℝ≥0∞), ENNReal.inv_mul_cancel hn hn', one_mul, ← mul_assoc ((S.card : ℝ≥0∞) / n), ENNReal.div_eq_inv_mul, mul_assoc (n : ℝ≥0∞)⁻¹,
      ENNReal.mul_inv_cancel hcard hcard', mul_one]
  · have e3 : factor C S = 1 := by unfold factor; rw [if_neg hC]
    rw [e3, mul_one]
    congr 2
    have e2 : ∀ i, ∫⁻ ω, g (value cat C σ mv S R.1 ω i) ∂ideal = if i ∈ S then P g (R.1 i) else 0 := fun i => by
      by_cases hi : i ∈ S
      · rw [if_pos hi, ← hL.law i (R.1 i) hgm]
        exact lintegral_congr fun ω => by simp only [value, if_neg hC, if_pos hi]
      · rw [if_neg hi]
        have : ∀ ω, g (value cat C σ mv S R.1 ω i) = 0 := fun ω => by
          simp only [value, if_neg hC, if_neg hi, hg]
          exact Set.indicator_of_notMem (fun h => hi (mem_pat.2 (hsub h))) _
        simp [this]
    rw [Finset.sum_congr rfl fun i _ => e2 i, ← Finset.sum_filter]
    congr 1
    ext; simp

/-- The expected estimate after an update from a random state that has not read what the update reads. -/
theorem lintegral_est_next [NeZero n] {A' : Set Z} (hA' : MeasurableSet A') (hsub : A' ⊆ A) {f : Z → ℝ≥0∞} (hf : Measurable f) {R : Tape → St n Z} (hR : Measurable R) {S : Set Site}
    (hRS : DependsOn R S) (hdis : Disjoint S (Smc.stepSites σ T)) :
    ∫⁻ ω, est A' f (step A cat C σ mv (R ω) ω) ∂ideal = ∫⁻ ω, est A (P (A'.indicator f)) (R ω) ∂ideal := by
  rw [fresh hdis (f := R) (g := fun a ω => est A' f (step A cat C σ mv a ω)) hR hRS ((measurable_est hA' hf).comp (measurable_step hL))
    (fun a ω ω' hω => congrArg (est A' f) (step_dependsOn hL a hω))]
  exact lintegral_congr fun ω => lintegral_est_step hL hA' hsub hf _

theorem measurable_next {R : Tape → St n Z} (hR : Measurable R) : Measurable fun ω => step A cat C σ mv (R ω) ω :=
  (measurable_step hL).comp (hR.prodMk measurable_id)

theorem next_dependsOn {R : Tape → St n Z} {S : Set Site} (hRS : DependsOn R S) : DependsOn (fun ω => step A cat C σ mv (R ω) ω) (S ∪ Smc.stepSites σ T) := by
  intro ω ω' h
  have e1 := hRS fun s hs => h s (Or.inl hs)
  simp only
  rw [e1]
  exact step_dependsOn hL _ fun s hs => h s (Or.inr hs)

end

/-- The states of a run: update `k` has the alive set `A k`, the key `keyAt n κ k` and moves with `mv k`. -/
noncomputable def iter (A : ℕ → Set Z) (cat : Finset (Fin n) → ℝ → Fin n) (C : Set (Finset (Fin n))) (mv : ℕ → Keys.Key → Z → Tape → Z) (κ : Keys.Key) (R : St n Z) : ℕ → Tape → St n Z
  | 0, _ => R
  | k + 1, ω => step (A k) cat C (fun i => (n :: Smc.keyAt n κ k, (i : ℕ))) (fun i => mv k ((i : ℕ) :: Smc.keyAt n κ k)) (iter A cat C mv κ R k ω) ω

section
variable {A : ℕ → Set Z} (hA : ∀ k, MeasurableSet (A k)) {cat : Finset (Fin n) → ℝ → Fin n} {C : Set (Finset (Fin n))} (hcm : ∀ S, Measurable (cat S))
  (hcp : ∀ S ∈ C, ∀ j, unif {u | cat S u = j} = if j ∈ S then (S.card : ℝ≥0∞)⁻¹ else 0) (hC : ∀ S ∈ C, S.Nonempty)
  {mv : ℕ → Keys.Key → Z → Tape → Z} (hm : ∀ t k, Measurable fun z : Z × Tape => mv t k z.1 z.2) (hd : ∀ t k x, DependsOn (mv t k x) (below k))
  {P : ℕ → (Z → ℝ≥0∞) → Z → ℝ≥0∞} (hP : ∀ t k x {h : Z → ℝ≥0∞}, Measurable h → ∫⁻ ω, h (mv t k x ω) ∂ideal = P t h x)
  (hPm : ∀ t {h : Z → ℝ≥0∞}, Measurable h → Measurable (P t h)) (κ : Keys.Key) (R : St n Z)
include hA hcm hcp hC hm hd hP hPm

theorem stepLaw (k : ℕ) : Law (A k) cat C (fun i => (n :: Smc.keyAt n κ k, (i : ℕ))) (fun i => mv k ((i : ℕ) :: Smc.keyAt n κ k)) (fun i => below ((i : ℕ) :: Smc.keyAt n κ k)) (P k) :=
  ⟨hA k, hcm, hcp, hC, fun _ => hm _ _, fun _ _ => hd _ _ _, fun i => below_cons_ne i.is_lt.ne', fun _ _ _ hh => hP _ _ _ hh, fun hh => hPm _ hh⟩

theorem measurable_iter (k : ℕ) : Measurable (iter A cat C mv κ R k) := by
  induction k with
  | zero => exact measurable_const
  | succ k ih => exact measurable_next (stepLaw hA hcm hcp hC hm hd hP hPm κ k) ih

theorem iter_dependsOn (k : ℕ) : DependsOn (iter A cat C mv κ R k) (below (Smc.keyAt n κ k))ᶜ := by
  induction k with
  | zero => intro _ _ _; rfl
  | succ k ih =>
    intro ω ω' h
    refine next_dependsOn (stepLaw hA hcm hcp hC hm hd hP hPm κ k) ih fun s hs => h s ?_
    rcases hs with hs | hs
    · exact fun h2 => hs (mem_below_cons h2)
    · exact (Smc.smcSites _ hs).2

omit hd in
theorem measurable_iter₂ (hd : ∀ t k x, DependsOn (mv t k x) (below k)) (k : ℕ) : Measurable fun w : St n Z × Tape => iter A cat C mv κ w.1 k w.2 := by
  induction k with
  | zero => exact measurable_fst
  | succ k ih => exact (measurable_step (stepLaw hA hcm hcp hC hm hd hP hPm κ k)).comp (ih.prodMk measurable_snd)

theorem iter_below (k : ℕ) : DependsOn (iter A cat C mv κ R k) (below κ) := by
  have hk : ∀ k, below (Smc.keyAt n κ k) ⊆ below κ := by
    intro k
    induction k with
    | zero => exact fun _ h => h
    | succ k ih => exact fun _ h => ih (mem_below_cons h)
  induction k with
  | zero => intro _ _ _; rfl
  | succ k ih =>
    intro ω ω' h
    refine next_dependsOn (stepLaw hA hcm hcp hC hm hd hP hPm κ k) ih fun s hs => h s ?_
    rcases hs with hs | hs
    · exact hs
    · exact hk k (Smc.smcSites _ hs).1

theorem lintegral_est_succ [NeZero n] (hsub : ∀ k, A (k + 1) ⊆ A k) (k : ℕ) {f : Z → ℝ≥0∞} (hf : Measurable f) :
    ∫⁻ ω, est (A (k + 1)) f (iter A cat C mv κ R (k + 1) ω) ∂ideal = ∫⁻ ω, est (A k) (P k ((A (k + 1)).indicator f)) (iter A cat C mv κ R k ω) ∂ideal :=
  lintegral_est_next (stepLaw hA hcm hcp hC hm hd hP hPm κ k) (hA _) (hsub k) hf (measurable_iter hA hcm hcp hC hm hd hP hPm κ R k)
    (iter_dependsOn hA hcm hcp hC hm hd hP hPm κ R k) (Set.disjoint_of_subset_right (Smc.smcSites _) (Set.disjoint_left.mpr fun _ h1 h2 => h1 h2.1))

omit hcm hcp hC hm hd hP hPm in
/-- The expected estimate of the initial particles. -/
theorem lintegral_est_zero [NeZero n] (μ : Measure Z) (P0 : Measure (Fin n → Z)) (hP0 : ∀ i, P0.map (fun z => z i) = μ) {f : Z → ℝ≥0∞} (hf : Measurable f) :
    ∫⁻ z0, ∫⁻ ω, est (A 0) f (iter A cat C mv κ (z0, 1) 0 ω) ∂ideal ∂P0 = ∫⁻ z in A 0, f z ∂μ := by
  have hn : (n : ℝ≥0∞) ≠ 0 := by exact_mod_cast NeZero.ne n
  have hn' : (n : ℝ≥0∞) ≠ ⊤ := ENNReal.natCast_ne_top n
  have hg : Measurable ((A 0).indicator f) := hf.indicator (hA 0)
  have hm' : ∀ i : Fin n, Measurable fun z0 : Fin n → Z => (A 0).indicator f (z0 i) := fun i => hg.comp (measurable_pi_apply i)
  simp only [iter, est, lintegral_const, measure_univ, mul_one, one_mul]
  rw [lintegral_const_mul _ (Finset.measurable_sum _ fun i _ => hm' i), lintegral_finsetSum _ fun i _ => hm' i]
  have e : ∀ i : Fin n, ∫⁻ z0, (A 0).indicator f (z0 i) ∂P0 = ∫⁻ z in A 0, f z ∂μ := fun i => by
    rw [← lintegral_indicator (hA 0), ← hP0 i, lintegral_map hg (measurable_pi_apply i)]
  rw [Finset.sum_congr rfl fun i _ => e i, Finset.sum_const, Finset.card_univ, Fintype.card_fin, nsmul_eq_mul, ← mul_assoc, ENNReal.inv_mul_cancel hn hn', one_mul]

/-- The expected estimate of a run from particles each with law `μ`, when the moves of update `k` leave `μ` restricted to `A k` invariant. -/
theorem lintegral_est_iter [NeZero n] (hsub : ∀ k, A (k + 1) ⊆ A k) (μ : Measure Z)
    (P0 : Measure (Fin n → Z)) (hP0 : ∀ i, P0.map (fun z => z i) = μ) (k : ℕ) (hinv : ∀ j < k, ∀ {h : Z → ℝ≥0∞}, Measurable h → ∫⁻ z in A j, P j h z ∂μ = ∫⁻ z in A j, h z ∂μ)
    {f : Z → ℝ≥0∞} (hf : Measurable f) :
    ∫⁻ z0, ∫⁻ ω, est (A k) f (iter A cat C mv κ (z0, 1) k ω) ∂ideal ∂P0 = ∫⁻ z in A k, f z ∂μ := by
  induction k generalizing f with
  | zero => exact lintegral_est_zero hA κ μ P0 hP0 hf
  | succ k ih =>
    have hg : Measurable ((A (k + 1)).indicator f) := hf.indicator (hA _)
    simp_rw [fun z0 : Fin n → Z => lintegral_est_succ hA hcm hcp hC hm hd hP hPm κ (z0, 1) hsub k hf]
    rw [ih (fun j hj _ hh => hinv j (by omega) hh) (hPm k hg), hinv k (by omega) hg, setLIntegral_indicator (hA _), Set.inter_eq_left.2 (hsub k)]

end

end Mocat.Alive
