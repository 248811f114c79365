import Verif.Lemmas.SmcRmMoves
/-! Runs with adapted stepsizes in terms of reduced states. -/
namespace Mocat.Smc
open Mocat Mocat.Ideal Mocat.Meas Mocat.Props MeasureTheory Filter Topology
open scoped ENNReal

section
variable {n : ℕ} [NeZero n] {X ρ π : Type*} (cat : (Fin n → ℝ) → ℝ → Fin n) (ω : Tape) (p : Params)

/-- The resampling step on reduced states. -/
theorem basis_reduced {ens : Ensemble n X ρ} (hsh : Shared ens) (e : Extra Keys.Key π) :
    (∀ i, (basis (fun k (i : Fin (n + 2)) => (i : ℕ) :: k) (fun k lw (i : Fin n) => cat lw (ω (k, i))) p ens e i).mc.value
      = redValue cat (critLe n p.essThresholdResample) (fun i => (n :: e.key, (i : ℕ))) (redOf ens) ω i) ∧
      (fun i => (basis (fun k (i : Fin (n + 2)) => (i : ℕ) :: k) (fun k lw (i : Fin n) => cat lw (ω (k, i))) p ens e i).logWeight) = redWeight (critLe n p.essThresholdResample) (redOf ens) := by
  rcases basis_cases (fun k (i : Fin (n + 2)) => (i : ℕ) :: k) (fun k lw (i : Fin n) => cat lw (ω (k, i))) p ens e with ⟨hc, hb⟩ | ⟨hc, hb⟩
  · rw [hsh.ess 0] at hc
    change (redOf ens).2.1 ∈ critLe n p.essThresholdResample at hc
    rw [hb]
    refine ⟨fun i => ?_, ?_⟩
    · unfold redValue
      rw [if_pos hc]
      rfl
    · unfold redWeight
      rw [if_pos hc]
      rfl
  · rw [hsh.ess 0] at hc
    change (redOf ens).2.1 ∉ critLe n p.essThresholdResample at hc
    rw [hb]
    refine ⟨fun i => ?_, ?_⟩
    · unfold redValue
      rw [if_neg hc]
      rfl
    · unfold redWeight
      rw [if_neg hc]
      rfl

/-- One update on reduced states: temperature, weighted particles and acceptance probabilities. -/
theorem update_reduced {kernel : Kernel Keys.Key π X ρ} {prior lik : X → ℝ} (htr : Smc.Kernel.Tracks kernel prior lik) {c : Config} {par : π} {κ : Keys.Key} {j : ℕ}
    {ens : Ensemble n X ρ} (hsh : Shared ens) {T : ℝ} (hT : (ens 0).temperature = T) (hT0 : T ≠ 0) {mv : Keys.Key → X → Tape → X} {al : Keys.Key → X → Tape → ℝ}
    (hf : ∀ particle k' k i, (forwardProposal kernel prior p T particle ⟨k', i, par⟩ k).mc.value = mv k particle.mc.value ω ∧ (forwardProposal kernel prior p T particle ⟨k', i, par⟩ k).mc.alpha = al k particle.mc.value ω)
    {nxt : ℝ → (Fin n → ℝ) → (Fin n → ℝ) → ℝ}
    (hn : ∀ M : Ensemble n X ρ, (M 0).temperature = T → (M 0).ess = Real.exp (logEss fun i => (M i).logWeight) →
      nextTemperature c p M ⟨(n + 1) :: κ, j + 1, par⟩ = nxt T (fun i => (M i).logWeight) fun i => (M i).lik) :
    (((update (fun k (i : Fin (n + 2)) => (i : ℕ) :: k) (fun k lw (i : Fin n) => cat lw (ω (k, i))) kernel prior c p ens ⟨κ, j, par⟩).1 0).temperature,
      redOf (update (fun k (i : Fin (n + 2)) => (i : ℕ) :: k) (fun k lw (i : Fin n) => cat lw (ω (k, i))) kernel prior c p ens ⟨κ, j, par⟩).1)
      = bStep lik nxt (T, redStep cat (critLe n p.essThresholdResample) (fun i => (n :: κ, (i : ℕ))) (fun _ _ => 0) (fun i => mv ((i : ℕ) :: κ)) (redOf ens) ω) ∧
    ∀ i, ((update (fun k (i : Fin (n + 2)) => (i : ℕ) :: k) (fun k lw (i : Fin n) => cat lw (ω (k, i))) kernel prior c p ens ⟨κ, j, par⟩).1 i).mc.alpha
      = al ((i : ℕ) :: κ) (redValue cat (critLe n p.essThresholdResample) (fun i => (n :: κ, (i : ℕ))) (redOf ens) ω i) ω := by
  obtain ⟨hv, hw⟩ := basis_reduced cat ω p hsh (⟨κ, j, par⟩ : Extra Keys.Key π)
  have hbs := basis_shared (splitN := fun k (i : Fin (n + 2)) => (i : ℕ) :: k) (categorical := fun k lw (i : Fin n) => cat lw (ω (k, i))) (p := p) (e := (⟨κ, j, par⟩ : Extra Keys.Key π)) hsh
  rw [update_eq]
  obtain ⟨B, hB⟩ : ∃ B, B = basis (fun k (i : Fin (n + 2)) => (i : ℕ) :: k) (fun k lw (i : Fin n) => cat lw (ω (k, i))) p ens (⟨κ, j, par⟩ : Extra Keys.Key π) := ⟨_, rfl⟩
  obtain ⟨M, hM⟩ : ∃ M, M = moved (fun k (i : Fin (n + 2)) => (i : ℕ) :: k) (fun k lw (i : Fin n) => cat lw (ω (k, i))) kernel prior p ens (⟨κ, j, par⟩ : Extra Keys.Key π) := ⟨_, rfl⟩
  have hMf : ∀ i : Fin n, M i = forwardProposal kernel prior p T (B i) ⟨(n + 1) :: κ, j + 1, par⟩ ((i : ℕ) :: κ) := fun i => by
    rw [hM, hB, ← hT]
    rfl
  rw [← hB, ← hM, show nextExtra (fun k (i : Fin (n + 2)) => (i : ℕ) :: k) (⟨κ, j, par⟩ : Extra Keys.Key π) = ⟨(n + 1) :: κ, j + 1, par⟩ from rfl]
  rw [← hB] at hv hw hbs
  simp only at hv
  obtain ⟨V, hV⟩ : ∃ V, V = redValue cat (critLe n p.essThresholdResample) (fun i => (n :: κ, (i : ℕ))) (redOf ens) ω := ⟨_, rfl⟩
  obtain ⟨w, hwd⟩ : ∃ w, w = redWeight (critLe n p.essThresholdResample) (redOf ens) := ⟨_, rfl⟩
  have hMv : ∀ i : Fin n, (M i).mc.value = mv ((i : ℕ) :: κ) (V i) ω := fun i => by
    rw [hMf i, (hf _ _ _ _).1, hv i, hV]
  have hMa : ∀ i : Fin n, (M i).mc.alpha = al ((i : ℕ) :: κ) (V i) ω := fun i => by
    rw [hMf i, (hf _ _ _ _).2, hv i, hV]
  have hMl : ∀ i : Fin n, (M i).lik = lik (mv ((i : ℕ) :: κ) (V i) ω) := fun i => by
    rw [← hMv i, hMf i]
    exact (forward_tracks kernel prior lik htr p T hT0 (B i) _ _).2
  have hMw : (fun i => (M i).logWeight) = w := by
    rw [hwd, ← hw]
    funext i
    rw [hMf i]
    rfl
  have hB0 : (B 0).temperature = T := by rw [hbs.2.1, hT]
  have hM0 : (M 0).temperature = T := by rw [hMf 0]; exact hB0
  have hMe : (M 0).ess = Real.exp (logEss fun i => (M i).logWeight) := by
    rw [hMw, hwd, ← hw, hMf 0]
    exact hbs.1.ess 0
  have hlm : (fun i : Fin n => (M i).lik) = fun i : Fin n => lik (mv ((i : ℕ) :: κ) (V i) ω) := funext hMl
  have hnext := hn M hM0 hMe
  rw [hMw, hlm] at hnext
  rw [← hwd] at hw
  obtain ⟨T', hT'⟩ : ∃ T', T' = nextTemperature c p M (⟨(n + 1) :: κ, j + 1, par⟩ : Extra Keys.Key π) := ⟨_, rfl⟩
  have hlw : (fun i => (B i).logWeight + -(T' - T) * (M i).lik) = fun i : Fin n => w i + -(T' - T) * lik (mv ((i : ℕ) :: κ) (V i) ω) := by
    funext i
    rw [hMl i, ← congrFun hw i]
  refine ⟨?_, fun i => ?_⟩
  · have hvm : (fun i : Fin n => (M i).mc.value) = fun i : Fin n => mv ((i : ℕ) :: κ) (V i) ω := funext hMv
    have htemp : ((adapt c p B M (⟨(n + 1) :: κ, j + 1, par⟩ : Extra Keys.Key π)).1 0).temperature = T' := by
      simp only [adapt, one_mul]
      exact hT'.symm
    have hred : redOf (adapt c p B M (⟨(n + 1) :: κ, j + 1, par⟩ : Extra Keys.Key π)).1 = (fun i => (M i).mc.value, fun i => (B i).logWeight + -(T' - T) * (M i).lik,
        (ens 0).logNorm + lse (fun i => (B i).logWeight + -(T' - T) * (M i).lik) - lse fun i => (B i).logWeight) := by
      unfold redOf
      simp only [adapt, ← hT', hB0]
      rw [hbs.2.2]
    rw [htemp, hred, hlw, hvm, hw]
    rw [← hT'] at hnext
    unfold bStep redStep
    simp only [add_zero, ← hV, ← hwd, ← hnext]
    refine Prod.ext rfl (Prod.ext rfl (Prod.ext rfl ?_))
    simp only [redOf]
    ring
  · rw [← hV, ← hMa i]
    rfl

/-- The start on reduced states. -/
theorem start_reduced {kernel : Kernel Keys.Key π X ρ} {prior lik : X → ℝ} (htr : Smc.Kernel.Tracks kernel prior lik) {c : Config} (alpha0 : ℝ) (rest0 : ρ) (e : Extra Keys.Key π) (values : Fin n → X)
    {nxt : ℝ → (Fin n → ℝ) → (Fin n → ℝ) → ℝ}
    (hn : ∀ M : Ensemble n X ρ, (M 0).temperature = 0 → (M 0).ess = Real.exp (logEss fun i => (M i).logWeight) → nextTemperature c p M e = nxt 0 (fun i => (M i).logWeight) fun i => (M i).lik) :
    (((startup kernel prior lik c p values alpha0 rest0 e).1 0).temperature, redOf (startup kernel prior lik c p values alpha0 rest0 e).1) = bStep lik nxt (0, startAt (fun _ => 0) values) := by
  have hpos : (0 : ℝ) < n := by exact_mod_cast Nat.pos_of_ne_zero (NeZero.ne n)
  have h1 := hn (fun i : Fin n => (⟨⟨values i, prior (values i), alpha0, rest0⟩, prior (values i), lik (values i), 0, 0, n, lseMean fun _ : Fin n => 0⟩ : Particle X ρ)) rfl logEss_zero.symm
  simp only at h1
  obtain ⟨T, hT⟩ : ∃ T, T = nxt 0 (fun _ => 0) fun i => lik (values i) := ⟨_, rfl⟩
  have hm : ∀ v : Fin n → ℝ, lseMean v = lse v - Real.log n := fun v => by
    have hp : (0 : ℝ) < ∑ j, Real.exp (v j) := Finset.sum_pos (fun i _ => Real.exp_pos _) ⟨0, Finset.mem_univ _⟩
    rw [lseMean, lse, ← Finset.mul_sum, Real.log_mul (by positivity) hp.ne', one_div, Real.log_inv]
    ring
  unfold bStep redOf
  simp only [Smc.startup, startAt, sub_zero, zero_add]
  rw [h1, ← hT]
  refine Prod.ext rfl (Prod.ext (funext fun i => ?_) (Prod.ext rfl ?_))
  · exact htr.value _ _ _
  · simp only
    rw [hm, hm, lse_zero]
    ring

end

/-- `RMMetropolisedSMCSampler` with `RandomWalk` on an ideal generator with tape `ω`. -/
noncomputable def rmTape {n d : ℕ} [NeZero n] (cat : (Fin n → ℝ) → ℝ → Fin n) (q : ℝ → ℝ) (prior lik : (Fin d → ℝ) → ℝ) (c : Config) (p : Params) (target rm step alpha0 rest0 : ℝ) (key : Keys.Key)
    (values : Fin n → Fin d → ℝ) (ω : Tape) : RmSetup Keys.Key ℝ (Fin d → ℝ) ℝ n :=
  { tapeSmc cat (rwTape q prior lik) prior lik c p step alpha0 rest0 key values ω with tune := Tune.randomWalk, target := target, rm := rm }

section
variable {n d : ℕ} [NeZero n] (cat : (Fin n → ℝ) → ℝ → Fin n) (q : ℝ → ℝ) (prior lik : (Fin d → ℝ) → ℝ) (c : Config) (p : Params) (target rm u0 alpha0 rest0 : ℝ) (key : Keys.Key)
  (values : Fin n → Fin d → ℝ) (ω : Tape)

/-- The reduced run. -/
noncomputable abbrev rmRed (nxt : ℕ → ℝ → (Fin n → ℝ) → (Fin n → ℝ) → ℝ) (k : ℕ) : (ℝ × ℝ) × Red n (Fin d → ℝ) :=
  tRun cat p.essThresholdResample (rwMv q prior lik p.mcmcSteps) (rwAl q prior lik p.mcmcSteps) lik nxt target rm u0 (0 :: key) values k ω

/-- The states of a run and the reduced run. -/
theorem rm_reduced {nxt : ℕ → ℝ → (Fin n → ℝ) → (Fin n → ℝ) → ℝ}
    (h0 : ∀ (M : Ensemble n (Fin d → ℝ) ℝ), (M 0).temperature = 0 → (M 0).ess = Real.exp (logEss fun i => (M i).logWeight) →
      nextTemperature c p M (⟨key, 0, Real.exp u0⟩ : Extra Keys.Key ℝ) = nxt 0 0 (fun i => (M i).logWeight) fun i => (M i).lik)
    (hn : ∀ k (M : Ensemble n (Fin d → ℝ) ℝ) (κ : Keys.Key) (s : ℝ), (M 0).temperature = (rmRed cat q prior lik p target rm u0 key values ω nxt k).1.1 → (M 0).ess = Real.exp (logEss fun i => (M i).logWeight) →
      nextTemperature c p M (⟨κ, k + 1, s⟩ : Extra Keys.Key ℝ) = nxt (k + 1) (M 0).temperature (fun i => (M i).logWeight) fun i => (M i).lik)
    (hT : ∀ k, (rmRed cat q prior lik p target rm u0 key values ω nxt k).1.1 ≠ 0) (k : ℕ) :
    Shared ((rmTape cat q prior lik c p target rm (Real.exp u0) alpha0 rest0 key values ω).rmState k).1.1 ∧
    ((rmTape cat q prior lik c p target rm (Real.exp u0) alpha0 rest0 key values ω).rmState k).2 = ⟨keyAt n (0 :: key) k, k, Real.exp (rmRed cat q prior lik p target rm u0 key values ω nxt k).1.2⟩ ∧
    ((((rmTape cat q prior lik c p target rm (Real.exp u0) alpha0 rest0 key values ω).rmState k).1.1 0).temperature, redOf ((rmTape cat q prior lik c p target rm (Real.exp u0) alpha0 rest0 key values ω).rmState k).1.1)
      = ((rmRed cat q prior lik p target rm u0 key values ω nxt k).1.1, (rmRed cat q prior lik p target rm u0 key values ω nxt k).2) := by
  have htr : Smc.Kernel.Tracks (rwTape q prior lik ω) prior lik := C42_randomWalk_tracks Keys.split Keys.split3 (normalAt q d ω) (fun k => ω (k, 0)) prior lik
  induction k with
  | zero => exact ⟨startup_shared, rfl, start_reduced p htr alpha0 rest0 _ values h0⟩
  | succ k ih =>
    obtain ⟨hsh, hx, hr⟩ := ih
    obtain ⟨S, hS⟩ : ∃ S, S = rmTape cat q prior lik c p target rm (Real.exp u0) alpha0 rest0 key values ω := ⟨_, rfl⟩
    obtain ⟨R, hR⟩ : ∃ R, R = rmRed cat q prior lik p target rm u0 key values ω nxt k := ⟨_, rfl⟩
    have hRk := hT k
    have hnk := hn k
    rw [← hR] at hx hr hRk hnk
    have hstep : rmRed cat q prior lik p target rm u0 key values ω nxt (k + 1)
        = tStep cat p.essThresholdResample (rwMv q prior lik p.mcmcSteps) (rwAl q prior lik p.mcmcSteps) lik (nxt (k + 1)) target rm (keyAt n (0 :: key) k) R ω := by rw [hR]; rfl
    rw [← hS] at hsh hx hr ⊢
    have hens := C95_ensemble S k
    have hst := rm_step S k
    rw [hx] at hens hst
    have hu := update_reduced cat ω p htr (c := c) (κ := keyAt n (0 :: key) k) (j := k) hsh (congrArg Prod.fst hr) hRk
      (mv := rwMv q prior lik p.mcmcSteps (R.1.1, R.1.2)) (al := rwAl q prior lik p.mcmcSteps (R.1.1, R.1.2)) (par := Real.exp R.1.2)
      (fun particle k' k i => rw_forward q prior lik p ω R.1.1 R.1.2 particle k' k i) (nxt := nxt (k + 1)) fun M h1 h2 => by rw [hnk M _ _ h1 h2, h1]
    have hsplit : S.splitN = fun k (i : Fin (n + 2)) => (i : ℕ) :: k := by rw [hS]; rfl
    have hcat : S.categorical = fun k lw (i : Fin n) => cat lw (ω (k, i)) := by rw [hS]; rfl
    have hker : S.kernel = rwTape q prior lik ω := by rw [hS]; rfl
    have hpr : S.prior = prior := by rw [hS]; rfl
    have hc : S.config = c := by rw [hS]; rfl
    have hp : S.params = p := by rw [hS]; rfl
    have htu : S.tune = Tune.randomWalk := by rw [hS]; rfl
    have hta : S.target = target := by rw [hS]; rfl
    have hrm : S.rm = rm := by rw [hS]; rfl
    rw [hsplit, hcat, hker, hpr, hc, hp] at hens
    have hr2 : redOf (S.rmState k).1.1 = R.2 := congrArg Prod.snd hr
    rw [← hens, hr2] at hu
    obtain ⟨hu1, hu2⟩ := hu
    rw [htu, hta, hrm] at hst
    simp only [Tune.randomWalk, id, Real.log_exp] at hst
    have hacc : meanAcceptance (S.rmState (k + 1)).1.1 = wMean (bStep lik (nxt (k + 1)) (cStep cat p.essThresholdResample (rwMv q prior lik p.mcmcSteps) (keyAt n (0 :: key) k) R ω)).2.2.1
        (accs cat p.essThresholdResample (rwAl q prior lik p.mcmcSteps) (keyAt n (0 :: key) k) R ω) := by
      have h1 : redOf (S.rmState (k + 1)).1.1 = (bStep lik (nxt (k + 1)) (cStep cat p.essThresholdResample (rwMv q prior lik p.mcmcSteps) (keyAt n (0 :: key) k) R ω)).2 := congrArg Prod.snd hu1
      rw [← h1]
      unfold meanAcceptance wMean
      refine Finset.sum_congr rfl fun i _ => ?_
      rw [hu2 i]
      rfl
    rw [hstep]
    refine ⟨?_, ?_, hu1⟩
    · rw [hens]
      exact update_shared hsh
    · have hkey : (S.rmState (k + 1)).2.key = keyAt n (0 :: key) (k + 1) ∧ (S.rmState (k + 1)).2.iter = k + 1 := by
        rw [S.rmState_succ, hx, hsplit]
        exact ⟨rfl, rfl⟩
      have hpar : (S.rmState (k + 1)).2.params = Real.exp (tStep cat p.essThresholdResample (rwMv q prior lik p.mcmcSteps) (rwAl q prior lik p.mcmcSteps) lik (nxt (k + 1)) target rm (keyAt n (0 :: key) k) R ω).1.2 := by
        rw [hst, hacc]
        rfl
      obtain ⟨x, hx'⟩ : ∃ x, x = (S.rmState (k + 1)).2 := ⟨_, rfl⟩
      rw [← hx'] at hkey hpar ⊢
      obtain ⟨a, b, c'⟩ := x
      simp only at hkey hpar ⊢
      rw [hkey.1, hkey.2, hpar]

end

end Mocat.Smc
