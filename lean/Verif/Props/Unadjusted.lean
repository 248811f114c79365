import Verif.Props.ChainErgodic
import Mathlib.Analysis.SpecificLimits.Basic
/-!
# C130: Langevin runs without correction

`run(..., correction=Uncorrected)` with the defaults of `Underdamped` (infinite friction, one leapfrog step) moves by exact Gaussian steps. On a Gaussian posterior the law
of every row, and the limit of averages over a run, are known: the mean is right, the variance is too large by a factor that depends on the stepsize.
-/
namespace Mocat.Props
open Mocat Mocat.Mcmc Mocat.Ideal Mocat.Meas Mocat.Ergodic MeasureTheory ProbabilityTheory Filter
open scoped ENNReal Topology NNReal

variable {d : ℕ}

/-! ## Specification -/

/-- Independent normal coordinates with these means and variances. -/
noncomputable def normals (m v : Fin d → ℝ) : Measure (Fin d → ℝ) := Measure.pi fun i => gaussianReal (m i) (v i).toNNReal

/-- The gradient of the potential of the posterior with independent normal coordinates of means `m` and standard deviations `σ`. -/
def NormalPosterior (prior lik : (Fin d → ℝ) → ℝ × (Fin d → ℝ)) (T : ℝ) (m σ : Fin d → ℝ) : Prop :=
  ∀ x i, (prior x).2 i + T * (lik x).2 i = (x i - m i) / σ i ^ 2

/-- The factor by which one step contracts a coordinate of standard deviation `σ` towards its mean. -/
noncomputable def contraction (h σ : ℝ) : ℝ := 1 - h ^ 2 / (2 * σ ^ 2)

/-- The variance of the limit of a coordinate. -/
noncomputable def inflated (h σ : ℝ) : ℝ := σ ^ 2 / (1 - h ^ 2 / (4 * σ ^ 2))

/-- Rows of a run of `Underdamped` with infinite friction, one leapfrog step and no correction. -/
noncomputable def langevinRows (q : ℝ → ℝ) (prior lik : (Fin d → ℝ) → ℝ × (Fin d → ℝ)) (T h : ℝ) (n : ℕ) (z : (Fin d → ℝ) × (Fin d → ℝ)) (al : Fl) (t : ℝ) (key : Keys.Key) (ω : Tape) :
    List (Fin d → ℝ) :=
  (runFrom (underdamped Keys.split Keys.splitN (normalAt q d ω) (fun x _ => prior x) (fun x _ => lik x) T 1) uncorrected n (udState prior lik T z al t) ⟨key, 0, ⟨h, none⟩⟩).map
    fun s => s.payload.value

/-! ## One step -/

theorem affine_1d (μ c b s : ℝ) (v : ℝ) (hv : 0 ≤ v) :
    ((gaussianReal μ v.toNNReal).prod (gaussianReal 0 1)).map (fun z : ℝ × ℝ => c * z.1 + b + s * z.2) = gaussianReal (c * μ + b) (c ^ 2 * v + s ^ 2).toNNReal := by
  have e : (fun z : ℝ × ℝ => c * z.1 + b + s * z.2) = (fun z : ℝ × ℝ => z.1 + z.2) ∘ (Prod.map (fun x => c * x + b) (fun x => s * x)) := by
    funext z; simp
  have e1 : (gaussianReal μ v.toNNReal).map (fun x => c * x + b) = gaussianReal (c * μ + b) (NNReal.mk (c ^ 2) (sq_nonneg _) * v.toNNReal) := by
    have : (fun x : ℝ => c * x + b) = (fun x => x + b) ∘ fun x => c * x := rfl
    rw [this, ← Measure.map_map (by fun_prop) (by fun_prop), gaussianReal_map_const_mul, gaussianReal_map_add_const]
  rw [e, ← Measure.map_map (by fun_prop) (by fun_prop), ← Measure.map_prod_map _ _ (by fun_prop) (by fun_prop), e1, gaussianReal_map_const_mul]
  have h := gaussianReal_conv_gaussianReal (m₁ := c * μ + b) (m₂ := s * 0) (v₁ := NNReal.mk (c ^ 2) (sq_nonneg _) * v.toNNReal) (v₂ := NNReal.mk (s ^ 2) (sq_nonneg _) * 1)
  rw [Measure.conv] at h
  rw [h]
  congr 1
  · simp
  · ext
    simp [hv]
    positivity

theorem affine_nd (μ v c b s : Fin d → ℝ) (hv : ∀ i, 0 ≤ v i) :
    ((normals μ v).prod (stdNormal d)).map (fun z : (Fin d → ℝ) × (Fin d → ℝ) => fun i => c i * z.1 i + b i + s i * z.2 i)
      = normals (fun i => c i * μ i + b i) fun i => c i ^ 2 * v i + s i ^ 2 := by
  have h := measurePreserving_arrowProdEquivProdArrow ℝ ℝ (Fin d) (fun i => gaussianReal (μ i) (v i).toNNReal) (fun _ => gaussianReal 0 1)
  unfold stdNormal normals
  rw [← h.map_eq, Measure.map_map (by fun_prop) h.measurable]
  have e : ((fun z : (Fin d → ℝ) × (Fin d → ℝ) => fun i => c i * z.1 i + b i + s i * z.2 i) ∘ (MeasurableEquiv.arrowProdEquivProdArrow ℝ ℝ (Fin d)))
      = fun y i => (fun z : ℝ × ℝ => c i * z.1 + b i + s i * z.2) (y i) := rfl
  rw [e, Measure.pi_map_pi (f := fun i (z : ℝ × ℝ) => c i * z.1 + b i + s i * z.2) (fun _ => by fun_prop)]
  simp_rw [affine_1d _ _ _ _ _ (hv _)]

instance (m v : Fin d → ℝ) : IsProbabilityMeasure (normals m v) := by unfold normals; infer_instance

/-- The draw of one uncorrected update, as a function of its key. -/
def langevinDraw (q : ℝ → ℝ) (d : ℕ) (k : Keys.Key) (ω : Tape) : Fin d → ℝ := normalAt q d ω (1 :: k)

/-- The key of the next update. -/
def langevinNext (k : Keys.Key) : Keys.Key := 0 :: 0 :: k

theorem langevin_draws {q : ℝ → ℝ} (hq : IsNormalDraw q) : Draws (langevinDraw q d) langevinNext (stdNormal d) where
  measurable k := measurable_normalAt hq _
  reads k := by
    refine ⟨{s | s.1 = 1 :: k}, fun x y h => funext fun j => ?_, ?_, ?_⟩
    · simp only [langevinDraw, normalAt]; rw [h _ rfl]
    · rintro s hs
      exact ⟨[1], hs⟩
    · rw [Set.disjoint_left]
      rintro ⟨s, t⟩ h1 ⟨l, h2⟩
      simp only [Set.mem_ofPred_eq] at h1 h2
      rw [h1, langevinNext] at h2
      have := congrArg List.length h2
      simp at this
      omega
  next k := by
    rintro ⟨s, t⟩ ⟨l, h⟩
    exact ⟨l ++ [0, 0], by simp only at h ⊢; rw [h]; simp [langevinNext]⟩
  law k := map_normalAt hq _

section
variable (prior lik : (Fin d → ℝ) → ℝ × (Fin d → ℝ)) (T h : ℝ)

/-- One step: down the gradient, plus noise. -/
noncomputable def langevinStep (x ξ : Fin d → ℝ) : Fin d → ℝ := fun i => x i - h ^ 2 / 2 * gradField prior lik T x i + h * ξ i

theorem langevin_update {q : ℝ → ℝ} (z : (Fin d → ℝ) × (Fin d → ℝ)) (al : Fl) (t : ℝ) (ω : Tape) (k : Keys.Key) (i : ℕ) :
    ∃ p, update (underdamped Keys.split Keys.splitN (normalAt q d ω) (fun x _ => prior x) (fun x _ => lik x) T 1) uncorrected (udState prior lik T z al t) ⟨k, i, ⟨h, none⟩⟩
      = (udState prior lik T (langevinStep prior lik T h z.1 (langevinDraw q d k ω), p) al t, ⟨langevinNext k, i + 1, ⟨h, none⟩⟩) := by
  set smp := underdamped Keys.split Keys.splitN (normalAt q d ω) (fun x _ => prior x) (fun x _ => lik x) T 1 with hsmp
  set z1 : (Fin d → ℝ) × (Fin d → ℝ) := (z.1, refreshMomenta ⟨h, none⟩ z.2 (normalAt q d ω (1 :: k))) with hz1
  have hph := proposal_phase prior lik Keys.split Keys.splitN (normalAt q d ω) T 1 (fun k => by simp [Keys.splitN]) (udState prior lik T z1 al t)
    ⟨0 :: k, i + 1, ⟨h, none⟩⟩ (stateAt_consistent prior lik T _ _)
  have hprop : smp.proposal (udState prior lik T z1 al t) ⟨0 :: k, i + 1, ⟨h, none⟩⟩
      = (udState prior lik T (hmcMap h (gradField prior lik T) 1 z1) al t, ⟨langevinNext k, i + 1, ⟨h, none⟩⟩) := by
    refine Prod.ext ?_ rfl
    rw [state_eq_udState prior lik T _ hph.1, hph.2]; rfl
  have hupd : update smp uncorrected (udState prior lik T z al t) ⟨k, i, ⟨h, none⟩⟩ = smp.proposal (udState prior lik T z1 al t) ⟨0 :: k, i + 1, ⟨h, none⟩⟩ := rfl
  refine ⟨(hmcMap h (gradField prior lik T) 1 z1).2, ?_⟩
  rw [hupd, hprop]
  have : hmcMap h (gradField prior lik T) 1 z1 = (langevinStep prior lik T h z.1 (langevinDraw q d k ω), (hmcMap h (gradField prior lik T) 1 z1).2) := by
    refine Prod.ext ?_ rfl
    funext j
    simp only [hmcMap, lfMap, Mcmc.flip, Function.iterate_succ, Function.iterate_zero, Function.comp, id, langevinStep, langevinDraw, hz1, refreshMomenta, decay]
    simp
    ring
  rw [← this]

theorem langevin_values {q : ℝ → ℝ} (t : ℝ) (ω : Tape) (n : ℕ) : ∀ z k (al : Fl) (i : ℕ),
    (bodyIter (update (underdamped Keys.split Keys.splitN (normalAt q d ω) (fun x _ => prior x) (fun x _ => lik x) T 1) uncorrected) n (udState prior lik T z al t, ⟨k, i, ⟨h, none⟩⟩)).1.payload.value
      = tapeIter (langevinDraw q d) langevinNext (langevinStep prior lik T h) n k z.1 ω := by
  induction n with
  | zero => intro z k al i; rfl
  | succ n ih =>
    intro z k al i
    obtain ⟨p, hp⟩ := langevin_update prior lik T h (q := q) z al t ω k i
    have : ∀ (U : State (LfState d) → Extra Keys.Key UDParams → State (LfState d) × Extra Keys.Key UDParams) w, bodyIter U (n + 1) w = bodyIter U n (U w.1 w.2) := by
      intro U w; simp [bodyIter, Function.iterate_succ_apply]
    rw [this, hp, ih]; rfl

theorem langevin_rows {q : ℝ → ℝ} (n : ℕ) (hn : 1 ≤ n) (z : (Fin d → ℝ) × (Fin d → ℝ)) (al : Fl) (t : ℝ) (key : Keys.Key) (ω : Tape) :
    langevinRows q prior lik T h n z al t key ω = (List.range n).map fun j => tapeIter (langevinDraw q d) langevinNext (langevinStep prior lik T h) j key z.1 ω := by
  rw [langevinRows, C12_mcmc _ _ (keepsIter_underdamped _ _ _ _ _ _ _) corrKeepsIter_uncorrected, List.map_map]
  have hlen : ((n : ℤ) - 1 - ((0 : ℕ) : ℤ)).toNat + 1 = n := by omega
  simp only [hlen]
  refine List.map_congr_left fun j _ => ?_
  simp only [Function.comp]
  exact langevin_values prior lik T h t ω j z key al 0

theorem measurable_langevinStep (hg : Measurable (gradField prior lik T)) : Measurable (Function.uncurry (langevinStep prior lik T h)) := by
  refine measurable_pi_lambda _ fun i => ?_
  have h1 : Measurable fun z : (Fin d → ℝ) × (Fin d → ℝ) => gradField prior lik T z.1 i := (measurable_pi_apply i).comp (hg.comp measurable_fst)
  have h2 : Measurable fun z : (Fin d → ℝ) × (Fin d → ℝ) => z.1 i := (measurable_pi_apply i).comp measurable_fst
  have h3 : Measurable fun z : (Fin d → ℝ) × (Fin d → ℝ) => z.2 i := (measurable_pi_apply i).comp measurable_snd
  exact (h2.sub (h1.const_mul _)).add (h3.const_mul _)

end

theorem normals_eq_map (m s : Fin d → ℝ) : normals m (fun i => s i ^ 2) = (stdNormal d).map fun ξ i => m i + s i * ξ i := by
  have h := affine_nd (0 : Fin d → ℝ) 0 0 m s fun _ => le_rfl
  have e : (fun z : (Fin d → ℝ) × (Fin d → ℝ) => fun i => (0 : Fin d → ℝ) i * z.1 i + m i + s i * z.2 i) = (fun ξ i => m i + s i * ξ i) ∘ Prod.snd := by
    funext z i; simp
  rw [e, ← Measure.map_map (by fun_prop) measurable_snd, Measure.map_snd_prod, measure_univ, one_smul] at h
  rw [h]
  congr 1 <;> funext i <;> simp

theorem normals_dirac (m : Fin d → ℝ) : normals m (fun _ => 0) = Measure.dirac m := by
  have h := normals_eq_map m 0
  simp only [Pi.zero_apply, zero_mul, add_zero, ne_eq, OfNat.ofNat_ne_zero, not_false_eq_true, zero_pow] at h
  rw [h, Measure.map_const, measure_univ, one_smul]

theorem normals_null (m s : Fin d → ℝ) (hs : ∀ i, s i ≠ 0) (A : Set (Fin d → ℝ)) (hA : MeasurableSet A) : normals m (fun i => s i ^ 2) A = 0 ↔ volume A = 0 := by
  rw [normals_eq_map, Measure.map_apply (by fun_prop) hA, stdNormal_null, volume_scale m s hs]

/-! ## Transitions -/

/-- The pair of the last two states of a chain is a chain. -/
theorem tapeIter_pair {X D : Type*} (draw : Keys.Key → Tape → D) (nxt : Keys.Key → Keys.Key) (step : X → D → X) (m : ℕ) (ω : Tape) : ∀ k (a b : X),
    tapeIter draw nxt (fun (z : X × X) w => (z.2, step z.2 w)) (m + 1) k (a, b) ω = (tapeIter draw nxt step m k b ω, tapeIter draw nxt step (m + 1) k b ω) := by
  induction m with
  | zero => intro k a b; rfl
  | succ m ih =>
    intro k a b
    rw [tapeIter, ih]; rfl

theorem lintegral_pair {X D : Type*} [MeasurableSpace X] [MeasurableSpace D] {draw : Keys.Key → Tape → D} {nxt : Keys.Key → Keys.Key} {δ : Measure D} [SFinite δ] {step : X → D → X}
    (hd : Draws draw nxt δ) (hs : Measurable (Function.uncurry step)) (m : ℕ) (k : Keys.Key) (x : X) {F : X × X → ℝ≥0∞} (hF : Measurable F) :
    ∫⁻ ω, F (tapeIter draw nxt step m k x ω, tapeIter draw nxt step (m + 1) k x ω) ∂ideal = ∫⁻ ω, ∫⁻ w, F (tapeIter draw nxt step m k x ω, step (tapeIter draw nxt step m k x ω) w) ∂δ ∂ideal := by
  have hs2 : Measurable (Function.uncurry fun (z : X × X) w => (z.2, step z.2 w)) := by
    have h1 : Measurable fun p : (X × X) × D => p.1.2 := measurable_snd.comp measurable_fst
    have h2 : Measurable fun p : (X × X) × D => step p.1.2 p.2 := hs.comp (h1.prodMk measurable_snd)
    exact h1.prodMk h2
  have hG : Measurable fun y => ∫⁻ w, F (y, step y w) ∂δ := Measurable.lintegral_prod_right (hF.comp (measurable_fst.prodMk hs))
  have e := lintegral_tapeIter hd hs2 (m + 1) k (x, x) hF
  simp only [tapeIter_pair] at e
  rw [e, lintegral_tapeIter hd hs m k x hG, Function.iterate_succ_apply]
  have hop : stepOp δ (fun (z : X × X) w => (z.2, step z.2 w)) F = fun z => ∫⁻ w, F (z.2, step z.2 w) ∂δ := rfl
  rw [hop]
  have key : ∀ m (G : X → ℝ≥0∞) (a b : X), (stepOp δ fun (z : X × X) w => (z.2, step z.2 w))^[m] (fun z => G z.2) (a, b) = (stepOp δ step)^[m] G b := by
    intro m
    induction m with
    | zero => intro G a b; rfl
    | succ m ih =>
      intro G a b
      rw [Function.iterate_succ_apply, Function.iterate_succ_apply]
      exact ih (stepOp δ step G) a b
  exact key m (fun y => ∫⁻ w, F (y, step y w) ∂δ) x x

section
variable {prior lik : (Fin d → ℝ) → ℝ × (Fin d → ℝ)} {T h : ℝ}

theorem langevin_rows_getD {q : ℝ → ℝ} {n j : ℕ} (hj : j < n) (z : (Fin d → ℝ) × (Fin d → ℝ)) (al : Fl) (t : ℝ) (key : Keys.Key) (ω : Tape) :
    (langevinRows q prior lik T h n z al t key ω).getD j 0 = tapeIter (langevinDraw q d) langevinNext (langevinStep prior lik T h) j key z.1 ω := by
  rw [langevin_rows prior lik T h n (by omega)]
  simp [hj]

/-- C130: whatever the posterior, each row of an uncorrected run, given the row before it, is normal: its mean is the row before moved down the gradient by half the squared stepsize, its coordinates
are independent, and their standard deviation is the stepsize. -/
theorem C130_transition {q : ℝ → ℝ} (hq : IsNormalDraw q) (hg : Measurable fun x i => (prior x).2 i + T * (lik x).2 i) {n j : ℕ} (hj : j + 1 < n) (z : (Fin d → ℝ) × (Fin d → ℝ)) (al : Fl) (t : ℝ)
    (key : Keys.Key) {F : (Fin d → ℝ) × (Fin d → ℝ) → ℝ≥0∞} (hF : Measurable F) :
    ∫⁻ ω, F ((langevinRows q prior lik T h n z al t key ω).getD j 0, (langevinRows q prior lik T h n z al t key ω).getD (j + 1) 0) ∂ideal
      = ∫⁻ ω, ∫⁻ y, F ((langevinRows q prior lik T h n z al t key ω).getD j 0, y)
          ∂(normals (fun i => (langevinRows q prior lik T h n z al t key ω).getD j 0 i
            - h ^ 2 / 2 * ((prior ((langevinRows q prior lik T h n z al t key ω).getD j 0)).2 i + T * (lik ((langevinRows q prior lik T h n z al t key ω).getD j 0)).2 i)) fun _ => h ^ 2) ∂ideal := by
  simp only [langevin_rows_getD hj, langevin_rows_getD (Nat.lt_of_succ_lt hj)]
  have hs := measurable_langevinStep prior lik T h hg
  rw [lintegral_pair (langevin_draws hq) hs j key z.1 hF]
  refine lintegral_congr fun ω => ?_
  set x := tapeIter (langevinDraw q d) langevinNext (langevinStep prior lik T h) j key z.1 ω
  have hFx : Measurable fun y => F (x, y) := hF.comp measurable_prodMk_left
  rw [normals_eq_map _ fun _ => h, lintegral_map hFx (by fun_prop)]
  rfl

/-! ## Normal posteriors -/

/-- The variance of a coordinate after `n` steps. -/
noncomputable def spread (h σ : ℝ) (n : ℕ) : ℝ := h ^ 2 * ∑ k ∈ Finset.range n, contraction h σ ^ (2 * k)

theorem spread_nonneg (h σ : ℝ) (n : ℕ) : 0 ≤ spread h σ n :=
  mul_nonneg (sq_nonneg _) (Finset.sum_nonneg fun k _ => by rw [pow_mul]; positivity)

theorem spread_succ (h σ : ℝ) (n : ℕ) : spread h σ (n + 1) = contraction h σ ^ 2 * spread h σ n + h ^ 2 := by
  unfold spread
  rw [Finset.sum_range_succ']
  simp only [mul_add, pow_add, ← Finset.sum_mul]
  simp
  ring

theorem langevin_gauss {m σ : Fin d → ℝ} (hN : NormalPosterior prior lik T m σ) (x ξ : Fin d → ℝ) :
    langevinStep prior lik T h x ξ = fun i => contraction h (σ i) * x i + (1 - contraction h (σ i)) * m i + h * ξ i := by
  funext i
  simp only [langevinStep, gradField, hN x i, contraction]
  ring

theorem langevin_measurable {m σ : Fin d → ℝ} (hN : NormalPosterior prior lik T m σ) : Measurable (Function.uncurry (langevinStep prior lik T h)) := by
  refine measurable_langevinStep prior lik T h ?_
  have : gradField prior lik T = fun x i => (x i - m i) / σ i ^ 2 := by funext x i; exact hN x i
  rw [this]; fun_prop

theorem langevin_push {m σ μ v : Fin d → ℝ} (hN : NormalPosterior prior lik T m σ) (hv : ∀ i, 0 ≤ v i) {f : (Fin d → ℝ) → ℝ≥0∞} (hf : Measurable f) :
    ∫⁻ x, ∫⁻ ξ, f (langevinStep prior lik T h x ξ) ∂(stdNormal d) ∂(normals μ v)
      = ∫⁻ x, f x ∂(normals (fun i => contraction h (σ i) * μ i + (1 - contraction h (σ i)) * m i) fun i => contraction h (σ i) ^ 2 * v i + h ^ 2) := by
  have hm : Measurable fun z : (Fin d → ℝ) × (Fin d → ℝ) => langevinStep prior lik T h z.1 z.2 := langevin_measurable hN
  have hm' : Measurable fun a : (Fin d → ℝ) × (Fin d → ℝ) => f fun i => contraction h (σ i) * a.1 i + (1 - contraction h (σ i)) * m i + h * a.2 i := hf.comp (by fun_prop)
  rw [← affine_nd μ v (fun i => contraction h (σ i)) (fun i => (1 - contraction h (σ i)) * m i) (fun _ => h) hv, lintegral_map hf (by fun_prop), lintegral_prod _ hm'.aemeasurable]
  simp only [langevin_gauss hN]

theorem langevin_law {m σ : Fin d → ℝ} (hN : NormalPosterior prior lik T m σ) (n : ℕ) (x : Fin d → ℝ) : ∀ {f : (Fin d → ℝ) → ℝ≥0∞}, Measurable f →
    (stepOp (stdNormal d) (langevinStep prior lik T h))^[n] f x = ∫⁻ y, f y ∂(normals (fun i => m i + contraction h (σ i) ^ n * (x i - m i)) fun i => spread h (σ i) n) := by
  induction n with
  | zero =>
    intro f hf
    simp only [pow_zero, one_mul, add_sub_cancel, spread, Finset.range_zero, Finset.sum_empty, mul_zero, Function.iterate_zero, id]
    rw [normals_dirac, lintegral_dirac' _ hf]
  | succ n ih =>
    intro f hf
    rw [Function.iterate_succ_apply, ih (measurable_stepOp (langevin_measurable hN) hf)]
    simp only [stepOp]
    rw [langevin_push hN (fun i => spread_nonneg _ _ _) hf]
    congr 2
    · funext i; ring
    · funext i; rw [spread_succ]

/-- C130: on a posterior with independent normal coordinates of means `m` and standard deviations `σ`, row `j` of an uncorrected run from `x` has independent normal coordinates; their means approach `m` by
the factor `1 - h²/(2σ²)` per step, and their variances are the sums of the even powers of that factor, times `h²`. -/
theorem C130_law {q : ℝ → ℝ} (hq : IsNormalDraw q) {m σ : Fin d → ℝ} (hN : NormalPosterior prior lik T m σ) {n j : ℕ} (hj : j < n) (z : (Fin d → ℝ) × (Fin d → ℝ)) (al : Fl) (t : ℝ) (key : Keys.Key) :
    ideal.map (fun ω => (langevinRows q prior lik T h n z al t key ω).getD j 0)
      = normals (fun i => m i + (1 - h ^ 2 / (2 * σ i ^ 2)) ^ j * (z.1 i - m i)) fun i => h ^ 2 * ∑ k ∈ Finset.range j, (1 - h ^ 2 / (2 * σ i ^ 2)) ^ (2 * k) := by
  simp only [langevin_rows_getD hj]
  have hmeas : Measurable fun ω => tapeIter (langevinDraw q d) langevinNext (langevinStep prior lik T h) j key z.1 ω :=
    (measurable_tapeIter (langevin_draws hq) (langevin_measurable hN) j key).comp measurable_prodMk_left
  refine Measure.ext_of_lintegral _ fun f hf => ?_
  rw [lintegral_map hf hmeas, lintegral_tapeIter (langevin_draws hq) (langevin_measurable hN) j key z.1 hf, langevin_law hN j z.1 hf]
  rfl

/-- C130: with a stepsize below twice every standard deviation the laws of the rows settle: means at the posterior means, variances at `σ² / (1 - h²/(4σ²))`. -/
theorem C130_settles {h σ : ℝ} (hσ : 0 < σ) (hh : 0 < h) (hlt : h < 2 * σ) (m x : ℝ) :
    Tendsto (fun j : ℕ => m + (1 - h ^ 2 / (2 * σ ^ 2)) ^ j * (x - m)) atTop (𝓝 m)
    ∧ Tendsto (fun j : ℕ => h ^ 2 * ∑ k ∈ Finset.range j, (1 - h ^ 2 / (2 * σ ^ 2)) ^ (2 * k)) atTop (𝓝 (σ ^ 2 / (1 - h ^ 2 / (4 * σ ^ 2)))) := by
  set a := 1 - h ^ 2 / (2 * σ ^ 2) with ha
  have h1 : h ^ 2 / (2 * σ ^ 2) < 2 := by rw [div_lt_iff₀ (by positivity)]; nlinarith
  have h0 : 0 < h ^ 2 / (2 * σ ^ 2) := by positivity
  have habs : |a| < 1 := by rw [abs_lt]; constructor <;> linarith
  constructor
  · have := ((tendsto_pow_atTop_nhds_zero_of_abs_lt_one habs).mul_const (x - m)).const_add m
    simpa using this
  · have hs : HasSum (fun k : ℕ => a ^ (2 * k)) (1 - a ^ 2)⁻¹ := by
      simp only [pow_mul]
      exact hasSum_geometric_of_lt_one (sq_nonneg a) (by rw [sq_lt_one_iff_abs_lt_one]; exact habs)
    have := hs.tendsto_sum_nat.const_mul (h ^ 2)
    have e : h ^ 2 * (1 - a ^ 2)⁻¹ = σ ^ 2 / (1 - h ^ 2 / (4 * σ ^ 2)) := by
      have h2 : (4 * σ ^ 2 - h ^ 2) ≠ 0 := by nlinarith
      have h3 : 1 - a ^ 2 = h ^ 2 * (4 * σ ^ 2 - h ^ 2) / (4 * σ ^ 4) := by rw [ha]; field_simp; ring
      have h4 : 1 - h ^ 2 / (4 * σ ^ 2) = (4 * σ ^ 2 - h ^ 2) / (4 * σ ^ 2) := by field_simp
      rw [h3, h4]; field_simp
    rwa [e] at this

/-- C130: with a stepsize of at least twice the standard deviation the variance of a coordinate grows without bound: after `j` steps it is at least `j` times the squared stepsize. -/
theorem C130_explodes {h σ : ℝ} (hσ : 0 < σ) (hge : 2 * σ ≤ h) (j : ℕ) : j * h ^ 2 ≤ h ^ 2 * ∑ k ∈ Finset.range j, (1 - h ^ 2 / (2 * σ ^ 2)) ^ (2 * k) := by
  have h1 : 2 ≤ h ^ 2 / (2 * σ ^ 2) := by rw [le_div_iff₀ (by positivity)]; nlinarith
  have h2 : (j : ℝ) ≤ ∑ k ∈ Finset.range j, (1 - h ^ 2 / (2 * σ ^ 2)) ^ (2 * k) := by
    have : ∑ k ∈ Finset.range j, (1 : ℝ) = j := by simp
    rw [← this]
    refine Finset.sum_le_sum fun k _ => ?_
    rw [pow_mul]
    exact one_le_pow₀ (by nlinarith)
  nlinarith [sq_nonneg h]

theorem inflated_fixed {h σ : ℝ} (hσ : 0 < σ) (hlt : h ^ 2 < 4 * σ ^ 2) : 0 < inflated h σ ∧ contraction h σ ^ 2 * inflated h σ + h ^ 2 = inflated h σ := by
  obtain ⟨D, hD⟩ : ∃ D, D = 4 * σ ^ 2 - h ^ 2 := ⟨_, rfl⟩
  have h2 : 0 < D := by linarith
  have h3 : h ^ 2 = 4 * σ ^ 2 - D := by linarith
  have h4 : 1 - h ^ 2 / (4 * σ ^ 2) = D / (4 * σ ^ 2) := by rw [h3]; field_simp; ring
  unfold inflated contraction
  rw [h4, h3]
  refine ⟨by positivity, ?_⟩
  field_simp
  ring

theorem langevin_inv {m σ : Fin d → ℝ} (hN : NormalPosterior prior lik T m σ) (hσ : ∀ i, 0 < σ i) (hlt : ∀ i, h ^ 2 < 4 * σ i ^ 2) {g : (Fin d → ℝ) → ℝ≥0∞} (hg : Measurable g) :
    ∫⁻ x, ∫⁻ w, g (langevinStep prior lik T h x w) ∂(stdNormal d) ∂(normals m fun i => inflated h (σ i)) = ∫⁻ x, g x ∂(normals m fun i => inflated h (σ i)) := by
  have hI := fun i => inflated_fixed (hσ i) (hlt i)
  rw [langevin_push hN (fun i => (hI i).1.le) hg]
  congr 2
  · funext i; ring
  · funext i; exact (hI i).2

/-- C130: the posterior's means with the inflated variances are the law that the updates keep. -/
theorem C130_stationary {m σ : Fin d → ℝ} (hN : NormalPosterior prior lik T m σ) (hσ : ∀ i, 0 < σ i) (hh : 0 < h) (hlt : ∀ i, h < 2 * σ i) {q : ℝ → ℝ} (hq : IsNormalDraw q) {n j : ℕ} (hj : j < n)
    (p : Fin d → ℝ) (al : Fl) (t : ℝ) (key : Keys.Key) {f : (Fin d → ℝ) → ℝ≥0∞} (hf : Measurable f) :
    ∫⁻ x, ∫⁻ ω, f ((langevinRows q prior lik T h n (x, p) al t key ω).getD j 0) ∂ideal ∂(normals m fun i => σ i ^ 2 / (1 - h ^ 2 / (4 * σ i ^ 2)))
      = ∫⁻ x, f x ∂(normals m fun i => σ i ^ 2 / (1 - h ^ 2 / (4 * σ i ^ 2))) := by
  simp only [langevin_rows_getD hj, lintegral_tapeIter (langevin_draws hq) (langevin_measurable hN) j key _ hf]
  exact stepOp_invariant (langevin_measurable hN) (fun g hg => langevin_inv hN hσ (fun i => by nlinarith [hlt i]) hg) j hf

/-- C130: averages over uncorrected runs converge, from every start, to the mean under the law with the inflated variances, and not under the posterior. -/
theorem C130_average {m σ : Fin d → ℝ} (hN : NormalPosterior prior lik T m σ) (hσ : ∀ i, 0 < σ i) (hh : 0 < h) (hlt : ∀ i, h < 2 * σ i) {q : ℝ → ℝ} (hq : IsNormalDraw q)
    (z : (Fin d → ℝ) × (Fin d → ℝ)) (al : Fl) (t : ℝ) (key : Keys.Key) {f : (Fin d → ℝ) → ℝ} (hf : Measurable f) (hfi : Integrable f (normals m fun i => σ i ^ 2 / (1 - h ^ 2 / (4 * σ i ^ 2))))
    {ε : ℝ} (hε : 0 < ε) :
    Tendsto (fun n : ℕ => ideal {ω | ε ≤ |rowMean f (langevinRows q prior lik T h n z al t key ω) - ∫ x, f x ∂(normals m fun i => σ i ^ 2 / (1 - h ^ 2 / (4 * σ i ^ 2)))|}) atTop (𝓝 0) := by
  have hI := fun i => inflated_fixed (hσ i) (h := h) (by nlinarith [hlt i])
  set π := normals m fun i => σ i ^ 2 / (1 - h ^ 2 / (4 * σ i ^ 2)) with hπ
  have hinv : ∀ g : (Fin d → ℝ) → ℝ≥0∞, Measurable g → ∫⁻ x, ∫⁻ w, g (langevinStep prior lik T h x w) ∂(stdNormal d) ∂π = ∫⁻ x, g x ∂π := by
    intro g hg
    exact langevin_inv hN hσ (fun i => by nlinarith [hlt i]) hg
  have hsq : π = normals m fun i => Real.sqrt (inflated h (σ i)) ^ 2 := by
    rw [hπ]; congr 1; funext i; exact (Real.sq_sqrt (hI i).1.le).symm
  have hnull : ∀ A, MeasurableSet A → (π A = 0 ↔ volume A = 0) := fun A hA => by
    rw [hsq]; exact normals_null m _ (fun i => (Real.sqrt_pos.mpr (hI i).1).ne') A hA
  have hnull' : ∀ x A, MeasurableSet A → ((stdNormal d).map (langevinStep prior lik T h x) A = 0 ↔ volume A = 0) := fun x A hA => by
    have hm : Measurable (langevinStep prior lik T h x) := (langevin_measurable hN).comp measurable_prodMk_left
    rw [Measure.map_apply hm hA, stdNormal_null]
    exact volume_affine (fun i => x i - h ^ 2 / 2 * gradField prior lik T x i) hh.ne' A
  have hirr : Irreducible (stdNormal d) (langevinStep prior lik T h) π :=
    irreducible_of_reach (langevin_measurable hN) (ae_of_all _ fun x => Measure.AbsolutelyContinuous.mk fun A hA h0 => (hnull A hA).mpr ((hnull' x A hA).mp h0))
  have hm0 : Measurable (langevinStep prior lik T h z.1) := (langevin_measurable hN).comp measurable_prodMk_left
  have : IsProbabilityMeasure ((stdNormal d).map (langevinStep prior lik T h z.1)) := Measure.isProbabilityMeasure_map hm0.aemeasurable
  refine (average_prob (π := π) (langevin_draws hq) (langevin_measurable hN) hinv hirr hf hfi (x0 := z.1) (r := 0) one_pos (ν := (stdNormal d).map (langevinStep prior lik T h z.1))
    (Measure.AbsolutelyContinuous.mk fun A hA h0 => (hnull' z.1 A hA).mpr ((hnull A hA).mp h0)) (by simp) hε key).congr' ?_
  filter_upwards [eventually_ge_atTop 1] with n hn
  simp only [langevin_rows prior lik T h n hn, rowMean_range]
  rfl

theorem normals_integrable_sq (m v : Fin d → ℝ) (c : ℝ) (i : Fin d) : Integrable (fun x : Fin d → ℝ => (x i - c) ^ 2) (normals m v) := by
  have h : Integrable (fun x : ℝ => (x - c) ^ 2) (gaussianReal (m i) (v i).toNNReal) := ((memLp_id_gaussianReal 2).sub (memLp_const c)).integrable_sq
  exact integrable_comp_eval (μ := fun i : Fin d => gaussianReal (m i) (v i).toNNReal) (i := i) h

theorem normals_integrable_coord (m v : Fin d → ℝ) (i : Fin d) : Integrable (fun x : Fin d → ℝ => x i) (normals m v) := by
  have h : Integrable (fun x : ℝ => x) (gaussianReal (m i) (v i).toNNReal) := (memLp_id_gaussianReal 1).integrable le_rfl
  exact integrable_comp_eval (μ := fun i : Fin d => gaussianReal (m i) (v i).toNNReal) (i := i) h

theorem normals_mean (m v : Fin d → ℝ) (i : Fin d) : ∫ x, x i ∂(normals m v) = m i := by
  have := integral_comp_eval (μ := fun i : Fin d => gaussianReal (m i) (v i).toNNReal) (i := i) (f := fun x : ℝ => x) (by fun_prop)
  rw [normals, this, integral_id_gaussianReal]

theorem normals_sq (m v : Fin d → ℝ) (i : Fin d) (hv : 0 ≤ v i) : ∫ x, (x i - m i) ^ 2 ∂(normals m v) = v i := by
  have := integral_comp_eval (μ := fun i : Fin d => gaussianReal (m i) (v i).toNNReal) (i := i) (f := fun x : ℝ => (x - m i) ^ 2) (by fun_prop)
  rw [normals, this]
  have hvar := variance_fun_id_gaussianReal (μ := m i) (v := (v i).toNNReal)
  rw [variance_eq_integral (by fun_prop), integral_id_gaussianReal] at hvar
  rw [hvar, Real.coe_toNNReal _ hv]

/-- C130: what a user estimates from an uncorrected run: the mean of every coordinate, rightly, and for its mean squared deviation a number above the posterior variance. -/
theorem C130_estimates {m σ : Fin d → ℝ} (hN : NormalPosterior prior lik T m σ) (hσ : ∀ i, 0 < σ i) (hh : 0 < h) (hlt : ∀ i, h < 2 * σ i) {q : ℝ → ℝ} (hq : IsNormalDraw q)
    (z : (Fin d → ℝ) × (Fin d → ℝ)) (al : Fl) (t : ℝ) (key : Keys.Key) (i : Fin d) {ε : ℝ} (hε : 0 < ε) :
    Tendsto (fun n : ℕ => ideal {ω | ε ≤ |rowMean (fun x => x i) (langevinRows q prior lik T h n z al t key ω) - m i|}) atTop (𝓝 0)
    ∧ Tendsto (fun n : ℕ => ideal {ω | ε ≤ |rowMean (fun x => (x i - m i) ^ 2) (langevinRows q prior lik T h n z al t key ω) - σ i ^ 2 / (1 - h ^ 2 / (4 * σ i ^ 2))|}) atTop (𝓝 0)
    ∧ σ i ^ 2 < σ i ^ 2 / (1 - h ^ 2 / (4 * σ i ^ 2)) := by
  have hI := inflated_fixed (hσ i) (h := h) (by nlinarith [hlt i])
  refine ⟨?_, ?_, ?_⟩
  · have := C130_average hN hσ hh hlt hq z al t key (f := fun x => x i) (by fun_prop) (normals_integrable_coord _ _ i) hε
    simpa only [normals_mean] using this
  · have := C130_average hN hσ hh hlt hq z al t key (f := fun x => (x i - m i) ^ 2) (by fun_prop) (normals_integrable_sq _ _ _ i) hε
    rwa [normals_sq m _ i hI.1.le] at this
  · have hp := hσ i
    have h1 : h ^ 2 / (4 * σ i ^ 2) < 1 := by rw [div_lt_one (by positivity)]; nlinarith [hlt i]
    have h0 : 0 < h ^ 2 / (4 * σ i ^ 2) := by positivity
    rw [lt_div_iff₀ (by linarith)]
    nlinarith [sq_pos_of_pos hp]

/-- C130: the excess disappears with the stepsize. -/
theorem C130_small (σ : ℝ) : Tendsto (fun h : ℝ => σ ^ 2 / (1 - h ^ 2 / (4 * σ ^ 2))) (𝓝 0) (𝓝 (σ ^ 2)) := by
  have : ContinuousAt (fun h : ℝ => σ ^ 2 / (1 - h ^ 2 / (4 * σ ^ 2))) 0 := by
    refine ContinuousAt.div (by fun_prop) (by fun_prop) (by simp)
  simpa [ContinuousAt] using this

end

/-! ## A case -/

/-- The standard normal prior with a standard normal likelihood at temperature 3, stepsize 0.8: standard deviation 1/2, and the mean square tends to 25/36 instead of 1/4. -/
example (x0 : Fin 1 → ℝ) (key : Keys.Key) : ∃ q, IsNormalDraw q ∧
    Tendsto (fun n : ℕ => ideal {ω | 0.1 ≤ |rowMean (fun x => (x 0 - 0) ^ 2)
      (langevinRows q (fun x : Fin 1 → ℝ => (x 0 ^ 2 / 2, x)) (fun x => (x 0 ^ 2 / 2, x)) 3 (4 / 5) n (x0, 0) (Fl.fin 1) 0 key ω) - 25 / 36|}) atTop (𝓝 0) := by
  obtain ⟨q, hq⟩ := exists_isNormalDraw
  refine ⟨q, hq, ?_⟩
  have := (C130_estimates (prior := fun x : Fin 1 → ℝ => (x 0 ^ 2 / 2, x)) (lik := fun x => (x 0 ^ 2 / 2, x)) (T := 3) (h := 4 / 5) (m := fun _ => 0) (σ := fun _ => 1 / 2)
    (fun x i => by simp; ring) (fun _ => by norm_num) (by norm_num) (fun _ => by norm_num) hq (x0, 0) (Fl.fin 1) 0 key 0 (ε := 0.1) (by norm_num)).2.1
  norm_num at this ⊢
  exact this

end Mocat.Props
