import Verif.Model.Svgd
import Verif.Props.Kernels
import Verif.Lemmas.Mcmc
import Mathlib.Algebra.BigOperators.Fin
import Mathlib.Algebra.Order.BigOperators.Group.Finset
/-!
# C45: Stein variational gradient descent
-/
namespace Mocat.Props
open Mocat Mocat.Svgd Mocat.Kernels

variable {K θ S : Type*} {n d : ℕ}

/-- A kernel with `k(x, x) = 1`, stationary at coincident points. -/
def UnitDiagonal (k : Kernel d) : Prop := ∀ x, k.call x x = 1 ∧ k.gradX x x = 0

/-- The optimiser run on one point with gradient `grad`, by itself: `x_0`, then each entry is updated with the gradient at the current point. -/
noncomputable def optimiserRun (opt : Optimiser S) (grad : (Fin d → ℝ) → Fin d → ℝ) (x0 : Fin d → ℝ) : ℕ → Fin d → S
  | 0 => fun c => opt.init (x0 c)
  | k + 1 => fun c => opt.update (k + 1) (grad (fun c => opt.get (optimiserRun opt grad x0 k c)) c) (optimiserRun opt grad x0 k c)

theorem svgd_phi_one (vals grads : Fin 1 → Fin d → ℝ) (k : Kernel d) (hk : UnitDiagonal k) (batch : Fin 1 → List (Fin 1)) (hb : batch 0 ≠ []) (c : Fin d) :
    -kernelisedGradMatrix vals grads k batch 0 c = grads 0 c := by
  unfold kernelisedGradMatrix
  have : (batch 0).map (fun j => -k.call (vals j) (vals 0) * grads j c + k.gradX (vals j) (vals 0) c)
      = (batch 0).map fun _ => -grads 0 c := by
    apply List.map_congr_left
    intro j _
    rw [Subsingleton.elim j 0, (hk (vals 0)).1, (hk (vals 0)).2]
    simp
  have hl : ((batch 0).length : ℝ) ≠ 0 := by
    exact_mod_cast (List.length_pos_iff.2 hb).ne'
  rw [this, List.map_const', List.sum_replicate, nsmul_eq_mul]
  field_simp

/-- C45: for one particle, any optimiser, any batch size and any kernel of unit diagonal, SVGD is that optimiser applied to the potential: after `k` updates the
particle is where the optimiser fed with the gradients of the potential takes it. -/
theorem C45_one_particle (env : Env K θ S 1 d) (hk : ∀ p, UnitDiagonal (env.kernel p)) (hc : ∀ key b, env.choice key (b + 1) 0 ≠ [])
    (grad : (Fin d → ℝ) → Fin d → ℝ) (hg : ∀ x key, (env.potentialAndGrad x key).2 = grad x) (hget : ∀ x, env.optimiser.get (env.optimiser.init x) = x)
    (x0 : Fin 1 → Fin d → ℝ) (key : K) (p : θ) (b : ℕ) (k : ℕ) :
    let s := bodyIter (Svgd.update env (b + 1)) k (Svgd.startup env x0 key p)
    s.1.value 0 = (fun c => env.optimiser.get (optimiserRun env.optimiser grad (x0 0) k c)) ∧ s.1.grad 0 = grad (s.1.value 0) := by
  have hbatch : ∀ key, getBatchInds env (b + 1) key 0 ≠ [] := by
    intro key
    unfold getBatchInds
    split_ifs
    · simp
    · exact hc key b
  have key : ∀ k, let s := bodyIter (Svgd.update env (b + 1)) k (Svgd.startup env x0 key p)
      s.1.value 0 = (fun c => env.optimiser.get (optimiserRun env.optimiser grad (x0 0) k c)) ∧ s.1.grad 0 = grad (s.1.value 0)
        ∧ s.2.opt 0 = optimiserRun env.optimiser grad (x0 0) k ∧ s.2.iter = k := by
    intro k
    induction k with
    | zero =>
      refine ⟨?_, hg _ _, rfl, rfl⟩
      funext c
      exact (hget _).symm
    | succ k ih =>
      obtain ⟨h1, h2, h3, h4⟩ := ih
      rw [Mcmc.bodyIter_succ]
      generalize hs : bodyIter (Svgd.update env (b + 1)) k (Svgd.startup env x0 key p) = s at h1 h2 h3 h4
      have hopt : (Svgd.update env (b + 1) s.1 s.2).2.opt 0 = optimiserRun env.optimiser grad (x0 0) (k + 1) := by
        funext c
        unfold Svgd.update
        dsimp only
        rw [svgd_phi_one _ _ _ (hk _) _ (hbatch _), h2, h1, h3, h4]
        rfl
      refine ⟨?_, hg _ _, hopt, ?_⟩
      · rw [← hopt]; rfl
      · change s.2.iter + 1 = k + 1
        rw [h4]
  exact ⟨(key k).1, (key k).2.1⟩

/-- C45: with `sgd` as the optimiser each update is a gradient step. -/
theorem C45_gradient_descent (env : Env K θ ℝ 1 d) (step : ℕ → ℝ) (ho : env.optimiser = sgd step) (hk : ∀ p, UnitDiagonal (env.kernel p))
    (hc : ∀ key b, env.choice key (b + 1) 0 ≠ [])
    (grad : (Fin d → ℝ) → Fin d → ℝ) (hg : ∀ x key, (env.potentialAndGrad x key).2 = grad x) (x0 : Fin 1 → Fin d → ℝ) (key : K) (p : θ) (b : ℕ) (k : ℕ) :
    let x := fun k => (bodyIter (Svgd.update env (b + 1)) k (Svgd.startup env x0 key p)).1.value 0
    x 0 = x0 0 ∧ x (k + 1) = x k - step (k + 1) • grad (x k) := by
  refine ⟨rfl, ?_⟩
  have h1 := (C45_one_particle env hk hc grad hg (by rw [ho]; exact fun _ => rfl) x0 key p b (k + 1)).1
  have h2 := (C45_one_particle env hk hc grad hg (by rw [ho]; exact fun _ => rfl) x0 key p b k).1
  dsimp only at h1 h2 ⊢
  rw [h1]
  funext c
  simp only [optimiserRun]
  rw [← h2]
  have h2c := congrFun h2 c
  rw [ho] at h2c ⊢
  simp only [sgd] at h2c ⊢
  rw [← h2c]
  simp

/-- The direction of AdaGrad with momentum after gradients `g 0, ..., g k`: an exponential average of the gradients, each divided by the root of the sum of squares up to it. -/
noncomputable def adagradDirection (momentum : ℝ) (g : ℕ → ℝ) (k : ℕ) : ℝ :=
  ∑ j ∈ Finset.range (k + 1), (1 - momentum) * momentum ^ (k - j) * (g j / Real.sqrt (∑ l ∈ Finset.range (j + 1), g l ^ 2))

theorem adagradDirection_succ (momentum : ℝ) (g : ℕ → ℝ) (k : ℕ) :
    adagradDirection momentum g (k + 1)
      = (1 - momentum) * (g (k + 1) / Real.sqrt (∑ l ∈ Finset.range (k + 2), g l ^ 2)) + momentum * adagradDirection momentum g k := by
  unfold adagradDirection
  rw [Finset.sum_range_succ _ (k + 1), add_comm, Finset.mul_sum]
  congr 1
  · simp
  · refine Finset.sum_congr rfl fun j hj => ?_
    have : k + 1 - j = (k - j) + 1 := by have := Finset.mem_range.1 hj; omega
    rw [this, pow_succ]; ring

theorem adagradDirection_abs (momentum : ℝ) (h0 : 0 ≤ momentum) (h1 : momentum ≤ 1) (g : ℕ → ℝ) (k : ℕ) : |adagradDirection momentum g k| ≤ 1 := by
  have hone : ∀ j, |g j / Real.sqrt (∑ l ∈ Finset.range (j + 1), g l ^ 2)| ≤ 1 := fun j => by
    rw [abs_div, abs_of_nonneg (Real.sqrt_nonneg _)]
    refine div_le_one_of_le₀ (Real.abs_le_sqrt ?_) (Real.sqrt_nonneg _)
    exact Finset.single_le_sum (f := fun l => g l ^ 2) (fun l _ => sq_nonneg _) (Finset.mem_range.2 (Nat.lt_succ_self j))
  induction k with
  | zero =>
    have : adagradDirection momentum g 0 = (1 - momentum) * (g 0 / Real.sqrt (∑ l ∈ Finset.range (0 + 1), g l ^ 2)) := by
      simp [adagradDirection]
    rw [this, abs_mul, abs_of_nonneg (by linarith)]
    nlinarith [hone 0, abs_nonneg (g 0 / Real.sqrt (∑ l ∈ Finset.range (0 + 1), g l ^ 2))]
  | succ k ih =>
    rw [adagradDirection_succ]
    refine (abs_add_le _ _).trans ?_
    rw [abs_mul, abs_mul, abs_of_nonneg (show 0 ≤ 1 - momentum by linarith), abs_of_nonneg h0]
    nlinarith [hone (k + 1)]

theorem adagrad_update (step : ℕ → ℝ) (momentum : ℝ) (g : ℕ → ℝ) (x : ℕ → ℝ × ℝ × ℝ) (x0 : ℝ) (hx0 : x 0 = (adagrad step momentum).init x0)
    (hx : ∀ k, x (k + 1) = (adagrad step momentum).update (k + 1) (g k) (x k)) (k : ℕ) :
    x (k + 1) = ((x k).1 - step (k + 1) * adagradDirection momentum g k, ∑ l ∈ Finset.range (k + 1), g l ^ 2, adagradDirection momentum g k) := by
  have hinv : ∀ (a S : ℝ), a * (if 0 < S then 1 / Real.sqrt S else 0) = a / Real.sqrt S := by
    intro a S
    split_ifs with h
    · rw [mul_one_div]
    · rw [Real.sqrt_eq_zero'.2 (not_lt.1 h)]; simp
  induction k with
  | zero =>
    rw [hx, hx0]
    simp only [adagrad, hinv, adagradDirection]
    simp
  | succ k ih =>
    rw [hx, ih, adagradDirection_succ, Finset.sum_range_succ _ (k + 1)]
    simp only [adagrad, hinv]

/-- C45: with `adagrad`, the default, and any number of particles, each coordinate of each particle moves by AdaGrad with momentum along the kernelised gradients `φ_0, φ_1, ...` of the ensembles
visited (averages over the batches of `-k(x_j, x_i) ∇U(x_j) + ∇k(x_j, x_i)`), and by at most the step size. -/
theorem C45_adagrad (env : Env K θ (ℝ × ℝ × ℝ) n d) (step : ℕ → ℝ) (momentum : ℝ) (ho : env.optimiser = adagrad step momentum)
    (x0 : Fin n → Fin d → ℝ) (key : K) (p : θ) (b : ℕ) (i : Fin n) (c : Fin d) :
    let s := fun k => bodyIter (Svgd.update env b) k (Svgd.startup env x0 key p)
    ∃ φ : ℕ → ℝ, (∀ k, ∃ batch : List (Fin n), (b = n → batch = List.finRange n) ∧
        φ k = (batch.map fun j => -(env.kernel (s k).2.kernelParams).call ((s k).1.value j) ((s k).1.value i) * (s k).1.grad j c
          + (env.kernel (s k).2.kernelParams).gradX ((s k).1.value j) ((s k).1.value i) c).sum / batch.length) ∧
      ∀ k, (s (k + 1)).1.value i c = (s k).1.value i c + step (k + 1) * adagradDirection momentum φ k ∧
        (0 ≤ momentum → momentum ≤ 1 → |(s (k + 1)).1.value i c - (s k).1.value i c| ≤ |step (k + 1)|) := by
  intro s
  set φ : ℕ → ℝ := fun k => kernelisedGradMatrix (s k).1.value (s k).1.grad (env.kernel (s k).2.kernelParams)
    (getBatchInds env b (env.splitN (s k).2.key (Fin.last (n + 1)))) i c with hφ
  refine ⟨φ, fun k => ⟨getBatchInds env b (env.splitN (s k).2.key (Fin.last (n + 1))) i, fun hb => ?_, rfl⟩, fun k => ?_⟩
  · rw [getBatchInds, if_pos hb]
  have hiter : ∀ k, (s k).2.iter = k := by
    intro k
    induction k with
    | zero => rfl
    | succ k ih =>
      simp only [s] at ih ⊢
      rw [Mcmc.bodyIter_succ]
      exact congrArg (· + 1) ih
  have hstep : ∀ k, (s (k + 1)).2.opt i c = (adagrad step momentum).update (k + 1) (-φ k) ((s k).2.opt i c) := by
    intro k
    have h := hiter k
    simp only [s] at h ⊢
    rw [Mcmc.bodyIter_succ, ← ho]
    simp only [Svgd.update, h, hφ, s]
  have hval : ∀ k, (s k).1.value i c = ((s k).2.opt i c).1 := by
    intro k
    cases k with
    | zero => simp only [s, bodyIter, Svgd.startup, ho]; rfl
    | succ k =>
      simp only [s]
      rw [Mcmc.bodyIter_succ]
      simp only [Svgd.update, ho]; rfl
  have hneg : ∀ k, adagradDirection momentum (fun k => -φ k) k = -adagradDirection momentum φ k := by
    intro k
    simp only [adagradDirection, neg_sq, neg_div, mul_neg, Finset.sum_neg_distrib]
  have hu := adagrad_update step momentum (fun k => -φ k) (fun k => (s k).2.opt i c) (x0 i c) (by rw [← ho]; rfl) hstep k
  have hm : (s (k + 1)).1.value i c = (s k).1.value i c + step (k + 1) * adagradDirection momentum φ k := by
    rw [hval, hu, hval, hneg]; ring
  refine ⟨hm, fun h0 h1 => ?_⟩
  rw [hm, add_sub_cancel_left, abs_mul]
  exact mul_le_of_le_one_right (abs_nonneg _) (adagradDirection_abs momentum h0 h1 φ k)

/-- The Gaussian kernel has a unit diagonal, whatever its bandwidth. -/
theorem gaussian_unitDiagonal (h : Fin d → ℝ) : UnitDiagonal (Kernels.gaussian h) := by
  intro x
  constructor
  · simp [Kernels.gaussian]
  · funext i
    simp [Kernels.gaussian]

/-- C45: but with the default bandwidth rule one particle gets a NaN bandwidth, so the default sampler does not work there. -/
theorem C45_default_bandwidth_one_particle (vals : Fin 1 → Fin d → ℝ) : Svgd.meanBandwidth vals = Fl.nan := by
  simp [Svgd.meanBandwidth, fdiv, l2Distance]

/-- C45: with two or more particles that are not all equal the default bandwidth is positive and finite. -/
theorem C45_default_bandwidth (hn : 2 ≤ n) (vals : Fin n → Fin d → ℝ) (i j : Fin n) (hij : vals i ≠ vals j) :
    ∃ h : ℝ, 0 < h ∧ Svgd.meanBandwidth vals = Fl.fin h := by
  have hlog : 0 < Real.sqrt (2 * Real.log n) := by
    apply Real.sqrt_pos.2
    have : 0 < Real.log n := Real.log_pos (by exact_mod_cast hn)
    linarith
  have hnn : ∀ a b, 0 ≤ l2Distance (vals a) (vals b) := fun a b => Real.sqrt_nonneg _
  have hpos : 0 < l2Distance (vals i) (vals j) := by
    apply Real.sqrt_pos.2
    obtain ⟨c, hc⟩ := Function.ne_iff.1 hij
    refine Finset.sum_pos' (fun c _ => sq_nonneg _) ⟨c, Finset.mem_univ c, ?_⟩
    have : vals i c - vals j c ≠ 0 := sub_ne_zero.2 hc
    positivity
  have hsum : 0 < ∑ a, ∑ b, l2Distance (vals a) (vals b) := by
    refine Finset.sum_pos' (fun a _ => Finset.sum_nonneg fun b _ => hnn a b) ⟨i, Finset.mem_univ i, ?_⟩
    exact Finset.sum_pos' (fun b _ => hnn i b) ⟨j, Finset.mem_univ j, hpos⟩
  refine ⟨_, ?_, if_neg hlog.ne'⟩
  have : (0 : ℝ) < n := by exact_mod_cast (by omega : 0 < n)
  positivity

/-! ## Permutations -/

theorem sum_l2Distance_perm (vals : Fin n → Fin d → ℝ) (π : Equiv.Perm (Fin n)) :
    ∑ i, ∑ j, l2Distance ((vals ∘ π) i) ((vals ∘ π) j) = ∑ i, ∑ j, l2Distance (vals i) (vals j) := by
  rw [← Equiv.sum_comp π (fun i => ∑ j, l2Distance (vals i) (vals j))]
  exact Finset.sum_congr rfl fun i _ => Equiv.sum_comp π (fun j => l2Distance (vals (π i)) (vals j))

/-- The bandwidth rule does not depend on the order of the particles. -/
theorem meanBandwidth_perm (vals : Fin n → Fin d → ℝ) (π : Equiv.Perm (Fin n)) : Svgd.meanBandwidth (vals ∘ π) = Svgd.meanBandwidth vals := by
  unfold Svgd.meanBandwidth
  rw [sum_l2Distance_perm]

theorem svgd_phi_perm (vals grads : Fin n → Fin d → ℝ) (k : Kernel d) (π : Equiv.Perm (Fin n)) :
    kernelisedGradMatrix (vals ∘ π) (grads ∘ π) k (fun _ => List.finRange n)
      = kernelisedGradMatrix vals grads k (fun _ => List.finRange n) ∘ π := by
  funext i c
  simp only [kernelisedGradMatrix, Function.comp_apply]
  congr 1
  rw [← List.ofFn_eq_map, ← List.ofFn_eq_map, List.sum_ofFn, List.sum_ofFn]
  exact Equiv.sum_comp π (fun j => -k.call (vals j) (vals (π i)) * grads j c + k.gradX (vals j) (vals (π i)) c)

/-- C45: with full batches, a deterministic potential and an adaptation that does not depend on the order of the particles, running from a permuted initial ensemble gives the permuted ensemble
after every number of updates: values, potentials and gradients. -/
theorem C45_permutation (env : Env K θ S n d) (pg : (Fin d → ℝ) → ℝ × (Fin d → ℝ)) (hg : ∀ x key, env.potentialAndGrad x key = pg x)
    (hadapt : ∀ vals p (π : Equiv.Perm (Fin n)), env.adapt (vals ∘ π) p = env.adapt vals p)
    (x0 : Fin n → Fin d → ℝ) (key : K) (p : θ) (π : Equiv.Perm (Fin n)) (k : ℕ) :
    let s := (bodyIter (Svgd.update env n) k (Svgd.startup env x0 key p)).1
    let s' := (bodyIter (Svgd.update env n) k (Svgd.startup env (x0 ∘ π) key p)).1
    s'.value = s.value ∘ π ∧ s'.potential = s.potential ∘ π ∧ s'.grad = s.grad ∘ π := by
  have H : ∀ k, let s := bodyIter (Svgd.update env n) k (Svgd.startup env x0 key p)
      let s' := bodyIter (Svgd.update env n) k (Svgd.startup env (x0 ∘ π) key p)
      (s'.1.value = s.1.value ∘ π ∧ s'.1.potential = s.1.potential ∘ π ∧ s'.1.grad = s.1.grad ∘ π) ∧
        s'.2.opt = s.2.opt ∘ π ∧ s'.2.key = s.2.key ∧ s'.2.iter = s.2.iter ∧ s'.2.kernelParams = s.2.kernelParams := by
    intro k
    induction k with
    | zero =>
      refine ⟨⟨rfl, ?_, ?_⟩, rfl, rfl, rfl, hadapt _ _ _⟩
      · funext i; change (env.potentialAndGrad _ _).1 = (env.potentialAndGrad _ _).1; rw [hg, hg]; rfl
      · funext i; change (env.potentialAndGrad _ _).2 = (env.potentialAndGrad _ _).2; rw [hg, hg]; rfl
    | succ k ih =>
      rw [Mcmc.bodyIter_succ, Mcmc.bodyIter_succ]
      generalize bodyIter (Svgd.update env n) k (Svgd.startup env x0 key p) = s at ih ⊢
      generalize bodyIter (Svgd.update env n) k (Svgd.startup env (x0 ∘ π) key p) = s' at ih ⊢
      obtain ⟨⟨h1, h2, h3⟩, h4, h5, h6, h7⟩ := ih
      have hopt : (Svgd.update env n s'.1 s'.2).2.opt = (Svgd.update env n s.1 s.2).2.opt ∘ π := by
        funext i c
        simp only [Svgd.update, getBatchInds, if_true, Function.comp_apply]
        rw [h1, h3, h4, h6, h7, svgd_phi_perm]
        rfl
      have hval : (Svgd.update env n s'.1 s'.2).1.value = (Svgd.update env n s.1 s.2).1.value ∘ π := by
        funext i c
        exact congrArg env.optimiser.get (congrFun (congrFun hopt i) c)
      refine ⟨⟨hval, ?_, ?_⟩, hopt, ?_, ?_, ?_⟩
      · funext i
        change (env.potentialAndGrad _ _).1 = (env.potentialAndGrad _ _).1
        rw [hg, hg]
        exact congrArg (fun x => (pg x).1) (congrFun hval i)
      · funext i
        change (env.potentialAndGrad _ _).2 = (env.potentialAndGrad _ _).2
        rw [hg, hg]
        exact congrArg (fun x => (pg x).2) (congrFun hval i)
      · change env.splitN s'.2.key _ = env.splitN s.2.key _
        rw [h5]
      · change s'.2.iter + 1 = s.2.iter + 1
        rw [h6]
      · change env.adapt (Svgd.update env n s'.1 s'.2).1.value s'.2.kernelParams = env.adapt (Svgd.update env n s.1 s.2).1.value s.2.kernelParams
        rw [hval, h7, hadapt]
  exact (H k).1

/-- C45: a sampler object built without a batch size keeps the size of its first ensemble for all later runs; so later runs with another `n` use random batches, not full ones. -/
theorem C45_reuse (n₁ : ℕ) (ns : List ℕ) : batchsizes none (n₁ :: ns) = List.replicate (ns.length + 1) n₁ := by
  have : ∀ b : ℕ, ∀ ns : List ℕ, batchsizes (some b) ns = List.replicate ns.length b := by
    intro b ns
    induction ns with
    | nil => rfl
    | cons a ns ih => simp [batchsizes, startupBatchsize, ih, List.replicate_succ]
  simp [batchsizes, startupBatchsize, this, List.replicate_succ]

/-- A two-particle environment with a Gaussian kernel, adagrad and a quadratic potential meets the hypotheses of `C45_permutation`;
the one-particle one those of `C45_one_particle`. -/
noncomputable def svgdExample (n : ℕ) : Env ℕ ℝ (ℝ × ℝ × ℝ) n 1 where
  splitN k i := k + i
  splitInit k i := k + i
  choice _ b i := List.replicate b i
  potentialAndGrad x _ := (x 0 ^ 2 / 2, x)
  kernel h := Kernels.gaussian fun _ => h
  adapt vals _ := ∑ i, ∑ j, l2Distance (vals i) (vals j)
  optimiser := adagrad (fun _ => 0.1) 0.9

example : (∀ p, UnitDiagonal ((svgdExample 1).kernel p)) ∧ (∀ key b, (svgdExample 1).choice key (b + 1) 0 ≠ []) ∧
    (∀ x key, ((svgdExample 1).potentialAndGrad x key).2 = x) ∧ ∀ x, (svgdExample 1).optimiser.get ((svgdExample 1).optimiser.init x) = x :=
  ⟨fun _ => gaussian_unitDiagonal _, fun _ b => by simp [svgdExample, List.replicate_succ], fun _ _ => rfl, fun _ => rfl⟩

example : (∀ x key, (svgdExample 2).potentialAndGrad x key = (x 0 ^ 2 / 2, x)) ∧
    ∀ vals p (π : Equiv.Perm (Fin 2)), (svgdExample 2).adapt (vals ∘ π) p = (svgdExample 2).adapt vals p := by
  refine ⟨fun _ _ => rfl, fun vals p π => ?_⟩
  simp only [svgdExample]
  exact sum_l2Distance_perm vals π

end Mocat.Props
