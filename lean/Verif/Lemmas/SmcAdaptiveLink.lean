import Verif.Lemmas.SmcAdaptiveNext
/-! Runs with adaptive temperatures in terms of reduced states. -/
namespace Mocat.Smc
open Mocat Mocat.Ideal Mocat.Meas Mocat.Props MeasureTheory Filter Topology
open scoped ENNReal

variable {n : ℕ} [NeZero n] {X ρ π : Type*} [MeasurableSpace X] {kern : Tape → Kernel Keys.Key π X ρ} {prior lik : X → ℝ} {p : Params} {par : π} {mv : ℝ → Keys.Key → X → Tape → X}
  {P : ℝ → (X → ℝ≥0∞) → X → ℝ≥0∞} (hI : InnerLaw kern prior lik p par mv P)
  (cat : (Fin n → ℝ) → ℝ → Fin n) (c : Config) (alpha0 : ℝ) (rest0 : ρ) (key : Keys.Key) (values : Fin n → X) (ω : Tape)
include hI

omit hI [MeasurableSpace X] in
theorem basis_red (k : ℕ) (hx : ((tapeSmc cat kern prior lik c p par alpha0 rest0 key values ω).state k).2 = ⟨keyAt n (0 :: key) k, k, par⟩) :
    (∀ i, (basis (tapeSmc cat kern prior lik c p par alpha0 rest0 key values ω).splitN (tapeSmc cat kern prior lik c p par alpha0 rest0 key values ω).categorical p
        ((tapeSmc cat kern prior lik c p par alpha0 rest0 key values ω).state k).1 ((tapeSmc cat kern prior lik c p par alpha0 rest0 key values ω).state k).2 i).mc.value
      = redValue cat (critLe n p.essThresholdResample) (fun i => (n :: keyAt n (0 :: key) k, (i : ℕ))) (redOf ((tapeSmc cat kern prior lik c p par alpha0 rest0 key values ω).state k).1) ω i) ∧
      (fun i => (basis (tapeSmc cat kern prior lik c p par alpha0 rest0 key values ω).splitN (tapeSmc cat kern prior lik c p par alpha0 rest0 key values ω).categorical p
        ((tapeSmc cat kern prior lik c p par alpha0 rest0 key values ω).state k).1 ((tapeSmc cat kern prior lik c p par alpha0 rest0 key values ω).state k).2 i).logWeight)
        = redWeight (critLe n p.essThresholdResample) (redOf ((tapeSmc cat kern prior lik c p par alpha0 rest0 key values ω).state k).1) := by
  set S := tapeSmc cat kern prior lik c p par alpha0 rest0 key values ω with hS
  have hsh := S.shared k
  rcases basis_cases S.splitN S.categorical p (S.state k).1 (S.state k).2 with ⟨hc, hb⟩ | ⟨hc, hb⟩
  · rw [hsh.ess 0] at hc
    change (redOf (S.state k).1).2.1 ∈ critLe n p.essThresholdResample at hc
    rw [hb]
    refine ⟨fun i => ?_, ?_⟩
    · unfold redValue
      rw [if_pos hc, hx]
      rfl
    · unfold redWeight
      rw [if_pos hc]
      rfl
  · rw [hsh.ess 0] at hc
    change (redOf (S.state k).1).2.1 ∉ critLe n p.essThresholdResample at hc
    rw [hb]
    refine ⟨fun i => ?_, ?_⟩
    · unfold redValue
      rw [if_neg hc]
      rfl
    · unfold redWeight
      rw [if_neg hc]
      rfl

theorem adaptive_succ (hl : c.schedule = none) (k : ℕ) (hT : (tapeSmc cat kern prior lik c p par alpha0 rest0 key values ω).temp k ≠ 0) :
    ((tapeSmc cat kern prior lik c p par alpha0 rest0 key values ω).temp (k + 1), redOf ((tapeSmc cat kern prior lik c p par alpha0 rest0 key values ω).state (k + 1)).1)
      = bStep lik (nextOf p c.maxTemperature) (aStep cat p.essThresholdResample mv (keyAt n (0 :: key) k)
        ((tapeSmc cat kern prior lik c p par alpha0 rest0 key values ω).temp k, redOf ((tapeSmc cat kern prior lik c p par alpha0 rest0 key values ω).state k).1) ω) := by
  have hx : ((tapeSmc cat kern prior lik c p par alpha0 rest0 key values ω).state k).2 = ⟨keyAt n (0 :: key) k, k, par⟩ := tapeSmc_extra hI cat c alpha0 rest0 key values ω k
  obtain ⟨hv, hw⟩ := basis_red cat c alpha0 rest0 key values ω k hx
  set S := tapeSmc cat kern prior lik c p par alpha0 rest0 key values ω with hS
  have hsh := S.shared k
  set B := basis S.splitN S.categorical p (S.state k).1 (S.state k).2 with hB
  have hbs := basis_shared (splitN := S.splitN) (categorical := S.categorical) (p := p) (e := (S.state k).2) hsh
  rw [← hB] at hbs
  obtain ⟨T, hTk⟩ : ∃ T, T = S.temp k := ⟨_, rfl⟩
  set M := moved S.splitN S.categorical S.kernel S.prior S.params (S.state k).1 (S.state k).2 with hM
  have hMv : ∀ i : Fin n, (M i).mc.value = mv T ((i : ℕ) :: keyAt n (0 :: key) k) (B i).mc.value ω := fun i => by
    have : M i = forwardProposal (kern ω) prior p T (B i)
        ⟨(n + 1) :: keyAt n (0 :: key) k, k + 1, par⟩ ((i : ℕ) :: keyAt n (0 :: key) k) := by
      have h1 : nextExtra S.splitN (S.state k).2 = ⟨(n + 1) :: keyAt n (0 :: key) k, k + 1, par⟩ := by
        rw [hx]; rfl
      have h2 : S.splitN (S.state k).2.key i.castSucc.castSucc = (i : ℕ) :: keyAt n (0 :: key) k := by
        rw [hx]; rfl
      rw [hTk, ← h1, ← h2]
      rfl
    rw [this]
    exact hI.value ω _ _ _ _ _
  have hMl : ∀ i : Fin n, (M i).lik = lik (M i).mc.value := fun i =>
    (forward_tracks S.kernel prior lik (hI.tracks ω) p (S.temp k) hT (B i)
      (nextExtra S.splitN (S.state k).2) (S.splitN (S.state k).2.key i.castSucc.castSucc)).2
  have hMw : (fun i => (M i).logWeight) = redWeight (critLe n p.essThresholdResample) (redOf (S.state k).1) := hw
  have hB0 : (B 0).temperature = T := by rw [hbs.2.1, hTk]; rfl
  have hM0 : (M 0).temperature = T := hB0
  have hMe : (M 0).ess = Real.exp (logEss (redWeight (critLe n p.essThresholdResample) (redOf (S.state k).1))) := by
    rw [← hw]
    exact hbs.1.ess 0
  have hvm : (fun i : Fin n => (M i).mc.value) = fun i : Fin n => mv T ((i : ℕ) :: keyAt n (0 :: key) k)
      (redValue cat (critLe n p.essThresholdResample) (fun i => (n :: keyAt n (0 :: key) k, (i : ℕ))) (redOf (S.state k).1) ω i) ω := by
    funext i; rw [hMv i, hv i]
  have hlm : (fun i : Fin n => (M i).lik) = fun i : Fin n => lik (mv T ((i : ℕ) :: keyAt n (0 :: key) k)
      (redValue cat (critLe n p.essThresholdResample) (fun i => (n :: keyAt n (0 :: key) k, (i : ℕ))) (redOf (S.state k).1) ω i) ω) := by
    funext i; rw [hMl i, ← congrFun hvm i]
  have hnext : nextTemperature S.config S.params M (nextExtra S.splitN (S.state k).2)
      = nextOf p c.maxTemperature T (redWeight (critLe n p.essThresholdResample) (redOf (S.state k).1)) fun i : Fin n => lik (mv T ((i : ℕ) :: keyAt n (0 :: key) k)
      (redValue cat (critLe n p.essThresholdResample) (fun i => (n :: keyAt n (0 :: key) k, (i : ℕ))) (redOf (S.state k).1) ω i) ω) := by
    have h1 : S.config.schedule = none := hl
    simp only [nextTemperature, h1]
    rw [hM0, hMe, hMw, hlm]
    rfl
  obtain ⟨T', hT'⟩ : ∃ T', T' = nextTemperature S.config S.params M (nextExtra S.splitN (S.state k).2) := ⟨_, rfl⟩
  have hup : S.state (k + 1) = adapt S.config S.params B M (nextExtra S.splitN (S.state k).2) := by
    rw [S.state_succ, update_eq]
    rfl
  have hlw : (fun i => (B i).logWeight + -(T' - T) * (M i).lik) = fun i : Fin n =>
      redWeight (critLe n p.essThresholdResample) (redOf (S.state k).1) i + -(T' - T)
        * lik (mv T ((i : ℕ) :: keyAt n (0 :: key) k)
      (redValue cat (critLe n p.essThresholdResample) (fun i => (n :: keyAt n (0 :: key) k, (i : ℕ))) (redOf (S.state k).1) ω i) ω) := by
    funext i
    rw [congrFun hlm i, ← congrFun hw i]
  have htemp : S.temp (k + 1) = T' := by
    unfold SmcSetup.temp
    rw [hup]
    simp only [adapt, one_mul]
    exact hT'.symm
  have hred : redOf (S.state (k + 1)).1 = (fun i => (M i).mc.value, fun i => (B i).logWeight + -(T' - T) * (M i).lik,
      ((S.state k).1 0).logNorm + lse (fun i => (B i).logWeight + -(T' - T) * (M i).lik) - lse fun i => (B i).logWeight) := by
    rw [hup]
    unfold redOf
    simp only [adapt, ← hT', hB0]
    rw [hbs.2.2]
  rw [htemp, hred, hlw, hvm, hw, ← hTk]
  rw [hnext] at hT'
  unfold bStep aStep redStep
  simp only [add_zero, ← hT']
  refine Prod.ext rfl (Prod.ext rfl (Prod.ext rfl ?_))
  simp only [redOf]
  ring

theorem adaptive_zero (hl : c.schedule = none) :
    ((tapeSmc cat kern prior lik c p par alpha0 rest0 key values ω).temp 0, redOf ((tapeSmc cat kern prior lik c p par alpha0 rest0 key values ω).state 0).1)
      = bStep lik (nextOf p c.maxTemperature) (0, startAt (fun _ => 0) values) := by
  have hn : (0 : ℝ) < n := by exact_mod_cast Nat.pos_of_ne_zero (NeZero.ne n)
  have h1 : nextTemperature c p (fun i : Fin n => (⟨⟨values i, prior (values i), alpha0, rest0⟩, prior (values i), lik (values i), 0, 0, n, lseMean fun _ : Fin n => 0⟩ : Particle X ρ))
      (⟨key, 0, par⟩ : Extra Keys.Key π) = nextOf p c.maxTemperature 0 (fun _ => 0) fun i => lik (values i) := by
    simp only [nextTemperature, hl, nextOf]
    rw [logEss_zero]
  obtain ⟨T, hT⟩ : ∃ T, T = nextOf p c.maxTemperature 0 (fun _ => 0) fun i => lik (values i) := ⟨_, rfl⟩
  have hm : ∀ v : Fin n → ℝ, lseMean v = lse v - Real.log n := fun v => by
    have hpos : (0 : ℝ) < ∑ j, Real.exp (v j) := Finset.sum_pos (fun i _ => Real.exp_pos _) ⟨0, Finset.mem_univ _⟩
    rw [lseMean, lse, ← Finset.mul_sum, Real.log_mul (by positivity) hpos.ne', one_div, Real.log_inv]
    ring
  unfold bStep redOf SmcSetup.temp
  simp only [SmcSetup.state, bodyIter, Function.iterate_zero, id, SmcSetup.start, Smc.startup, tapeSmc, startAt, sub_zero, zero_add]
  rw [h1, ← hT]
  refine Prod.ext rfl (Prod.ext (funext fun i => ?_) (Prod.ext rfl ?_))
  · exact (hI.tracks ω).value _ _ _
  · simp only
    rw [hm, hm, lse_zero]
    ring

theorem adaptive_run (hl : c.schedule = none) (hM : 0 ≤ c.maxTemperature) (h0 : 0 < (tapeSmc cat kern prior lik c p par alpha0 rest0 key values ω).temp 0) (k : ℕ) :
    ((tapeSmc cat kern prior lik c p par alpha0 rest0 key values ω).temp k, redOf ((tapeSmc cat kern prior lik c p par alpha0 rest0 key values ω).state k).1)
      = aRun cat p.essThresholdResample mv lik (nextOf p c.maxTemperature) (0 :: key) values k ω := by
  have mono : Monotone (tapeSmc cat kern prior lik c p par alpha0 rest0 key values ω).temp := monotone_nat_of_le_succ fun k => (C39_adaptive _ hl hM k).2.2
  induction k with
  | zero => exact adaptive_zero hI cat c alpha0 rest0 key values ω hl
  | succ k ih =>
    rw [adaptive_succ hI cat c alpha0 rest0 key values ω hl k (h0.trans_le (mono (Nat.zero_le k))).ne', ih]
    rfl

end Mocat.Smc
