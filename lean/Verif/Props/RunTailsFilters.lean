import Verif.Props.RunErrorBarsFilters
import Verif.Lemmas.RunTails
/-!
# C166: large errors of averages over runs of a particle filter are exponentially rare
-/
namespace Mocat.Props
open Mocat Mocat.Filtering Mocat.Metrics Mocat.Ideal Mocat.Meas MeasureTheory ProbabilityTheory
open Mocat.Smc (Red Q Qr share Spread)
open scoped ENNReal

variable {X : Type} {n dy : ℕ}

section
variable [MeasurableSpace X] [NeZero n] {cat : (Fin n → Fl) → ℝ → Fin n} {f : Tape → Filter X Keys.Key dy} {G0 : X → Obs dy → ℝ → ℝ} {G : X → ℝ → X → Obs dy → ℝ → ℝ}
  {Γ0 : Obs dy → ℝ → Measure X} {Γ : X → ℝ → Obs dy → ℝ → Measure X} (hF : FilterLaw f G0 G Γ0 Γ)

include hF in
/-- Large errors across runs of any filter with properly weighted proposals and bounded weights. -/
theorem rare_filter (hf : Handed f) (hcat : IsCategoricalReal fun (w : Fin n → ℝ) u => cat (fun i => .fin (w i)) u) (thr : ℝ) (y0 : Obs dy) (ys : List (Obs dy)) (t0 : ℝ) (ts : List ℝ)
    (hlen : ts.length = ys.length) (keys : ℕ → Keys.Key) (hk : ∀ a b, a ≠ b → Disjoint (below (keys a)) (below (keys b))) {W : ℝ} (hW0 : ∀ x, Real.exp (G0 x y0 t0) ≤ W)
    (hW : ∀ o ∈ ys.zip ts, ∀ t x x', Real.exp (G x t x' o.1 o.2) ≤ W) (hW1 : 0 ≤ W) {g : X → ℝ} (hg : Measurable g) {B : ℝ} (hB0 : 0 ≤ B) (hB : ∀ x, |g x| ≤ B) {Φ : Measure X}
    (hΦ : Φ = terminal Γ (Γ0 y0 t0) t0 (ys.zip ts)) :
    ∃ out : Keys.Key → Tape → Particles X n dy, (∀ key ω, run (tapeEnv cat ω) (f ω) thr (y0 :: ys) (t0 :: ts) key = some (out key ω)) ∧
      RareErrors ideal (Φ.real Set.univ) (fun ε => 2 * ε ^ 2 / (W ^ (ys.length + 1)) ^ 2) (fun _ _ => 1) (fun r ω => likelihoodEstimate thr (out (keys r) ω)) ∧
      RareErrors ideal ((∫ x, g x ∂Φ) / Φ.real Set.univ) (fun ε => (Φ.real Set.univ * ε) ^ 2 / (2 * (W ^ (ys.length + 1) * (2 * B + ε)) ^ 2)) (fun r ω => likelihoodEstimate thr (out (keys r) ω))
        fun r ω => filterMean g (out (keys r) ω) := by
  obtain ⟨out, F, hrun, hFm, hM, hmom, hlik, hnum⟩ := run_red hF hcat thr y0 ys t0 ts hlen [] hW0 hW hW1 g
  have hΦf : IsFiniteMeasure Φ := by rw [hΦ]; exact terminal_finite hF y0 t0 _ hW0 hW hW1
  rw [← hΦ] at hmom
  have hone : ∀ ω, Qr (fun _ => 1) (F ω) = Real.exp (F ω).2.2 := fun ω => by
    unfold Qr
    rw [← Smc.share_sum (F ω)]
    simp
  have hM1 : ∀ ω, |Qr (fun _ : X => (1 : ℝ)) (F ω)| ≤ W ^ (ys.length + 1) := fun ω => by rw [hone, abs_of_pos (Real.exp_pos _)]; exact hM ω
  have hEn : ∫ ω, Qr g (F ω) ∂ideal = ∫ x, g x ∂Φ := Qr_mean hFm hM1 hmom hg hB0 hB
  have hEl : ∫ ω, Real.exp (F ω).2.2 ∂ideal = Φ.real Set.univ := by
    have h1 := Qr_mean hFm hM1 hmom (g := fun _ => 1) measurable_const zero_le_one fun _ => by simp
    simp only [hone] at h1
    rw [h1]
    simp
  have hlm : Measurable fun ω => Real.exp (F ω).2.2 := Real.measurable_exp.comp (measurable_snd.comp (measurable_snd.comp hFm))
  have hnm : Measurable fun ω => Qr g (F ω) := (Smc.measurable_Qr hg).comp hFm
  have hli : Integrable (fun ω => Real.exp (F ω).2.2) ideal := Integrable.of_bound hlm.aestronglyMeasurable _ (ae_of_all _ fun ω => by rw [Real.norm_eq_abs, abs_of_pos (Real.exp_pos _)]; exact hM ω)
  have hpos : 0 < ∫ ω, Real.exp (F ω).2.2 ∂ideal := integral_exp_pos hli
  have hZ : Φ.real Set.univ ≠ 0 := by rw [← hEl]; exact hpos.ne'
  have hθ : |(∫ x, g x ∂Φ) / Φ.real Set.univ| ≤ B := by
    rw [hEl] at hpos
    rw [abs_div, abs_of_pos hpos, div_le_iff₀ hpos]
    have h : ∀ᵐ x ∂Φ, ‖g x‖ ≤ B := Filter.Eventually.of_forall hB
    exact norm_integral_le_of_norm_le_const h
  refine ⟨fun key ω => out (subtape key ω), fun key ω => by rw [run_subtape hf]; exact hrun _, ?_, ?_⟩
  · exact rareErrors_one (fun r => measurable_subtape (keys r)) (keys_independent keys hk) (fun r => map_subtape (keys r)) hlm (fun ω => (Real.exp_pos _).le) hM (fun r ω => hlik _) hEl
  · exact rareErrors_of_copies (fun r => measurable_subtape (keys r)) (keys_independent keys hk) (fun r => map_subtape (keys r)) hlm hnm (fun ω => (Real.exp_pos _).le) hM (fun ω => Qr_abs_le hB _) (fun r ω => hlik _)
      (fun r ω => hnum _) hB0 hθ hEl (by rw [hEn, div_mul_cancel₀ _ hZ])

end

/-! ## Properties -/

section
variable [MeasurableSpace X] {m : Tape → Ssm.Model X (Obs dy) Keys.Key} {μ0 : ℝ → Measure X} {M : X → ℝ → ℝ → Measure X} {lik : X → Obs dy → ℝ → ℝ} (hm : ModelLaw m μ0 M lik)
include hm

/-- C166 for the bootstrap filter on any state-space model whose draws with a key are a function of the part of the tape of that key (`Handed`) and whose likelihood potentials are at least `b` at the observations. With `T` the number of
observations, `Z` the likelihood and `M = exp (-b) ^ T`: for every number of particles, threshold and family of separate keys, and for every number `R` of runs, the average of the likelihood estimates of `R` runs is off by `ε` or more
with probability at most `2 exp (-2 R ε² / M²)`, and the pooled mean of a `g` with values in `[-B, B]` with probability at most `2 exp (-R (Z ε)² / (2 (M (2 B + ε))²))`. -/
theorem C166_bootstrap (hf : Handed fun ω => bootstrap (m ω)) (y0 : Obs dy) (ys : List (Obs dy)) (t0 : ℝ) (ts : List ℝ) (hlen : ts.length = ys.length) (b : ℝ) (hb : ∀ o ∈ (y0, t0) :: ys.zip ts, ∀ x, b ≤ lik x o.1 o.2)
    (g : X → ℝ) (hg : Measurable g) (B : ℝ) (hB0 : 0 ≤ B) (hB : ∀ x, |g x| ≤ B) (n : ℕ) [NeZero n] (cat : (Fin n → Fl) → ℝ → Fin n) (hcat : IsCategoricalReal fun (w : Fin n → ℝ) u => cat (fun i => .fin (w i)) u) (thr : ℝ)
    (keys : ℕ → Keys.Key) (hk : ∀ a b, a ≠ b → Disjoint (below (keys a)) (below (keys b))) :
    ∃ out : Keys.Key → Tape → Particles X n dy, (∀ key ω, run (tapeEnv cat ω) (bootstrap (m ω)) thr (y0 :: ys) (t0 :: ts) key = some (out key ω)) ∧
      let Φ := filteringLaw M lik ((μ0 t0).withDensity fun x => ENNReal.ofReal (Real.exp (-lik x y0 t0))) t0 (ys.zip ts)
      RareErrors ideal (Φ.real Set.univ) (fun ε => 2 * ε ^ 2 / (Real.exp (-b) ^ (ys.length + 1)) ^ 2) (fun _ _ => 1) (fun r ω => likelihoodEstimate thr (out (keys r) ω)) ∧
      RareErrors ideal ((∫ x, g x ∂Φ) / Φ.real Set.univ) (fun ε => (Φ.real Set.univ * ε) ^ 2 / (2 * (Real.exp (-b) ^ (ys.length + 1) * (2 * B + ε)) ^ 2)) (fun r ω => likelihoodEstimate thr (out (keys r) ω))
        fun r ω => filterMean g (out (keys r) ω) := by
  have h := rare_filter (n := n) (bootstrap_law hm) hf hcat thr y0 ys t0 ts hlen keys hk (W := Real.exp (-b)) (fun x => Real.exp_le_exp.mpr (neg_le_neg (hb (y0, t0) List.mem_cons_self x)))
    (fun o ho t x x' => Real.exp_le_exp.mpr (neg_le_neg (hb o (List.mem_cons_of_mem _ ho) x'))) (Real.exp_pos _).le hg hB0 hB rfl
  rw [terminal_bootstrap hm] at h
  exact h

end

section
open Matrix Mocat.NonlinearGaussian Mocat.Spec Mocat.Covariance Mocat.MatGauss
variable {d e : ℕ} {chol : Chol} (hchol : IsCholeskyAll chol) {m : NLG d e} (hm : ProperNLG m) (htr : ∀ t t', Measurable fun x => m.transFun x t t') {q : ℝ → ℝ} (hq : IsNormalDraw q)

include hchol hm htr hq

/-- C166 for the bootstrap filter on a nonlinear Gaussian model: the bound on the weights is the largest value of the Gaussian density of the observation noise. -/
theorem C166_nonlinear_gaussian (y0 : Obs e) (ys : List (Obs e)) (t0 : ℝ) (ts : List ℝ) (hlen : ts.length = ys.length) (g : (Fin d → ℝ) → ℝ) (hg : Measurable g) (B : ℝ) (hB0 : 0 ≤ B) (hB : ∀ x, |g x| ≤ B)
    (n : ℕ) [NeZero n] (cat : (Fin n → Fl) → ℝ → Fin n) (hcat : IsCategoricalReal fun (w : Fin n → ℝ) u => cat (fun i => .fin (w i)) u) (thr : ℝ) (keys : ℕ → Keys.Key)
    (hk : ∀ a b, a ≠ b → Disjoint (below (keys a)) (below (keys b))) :
    ∃ out : Keys.Key → Tape → Particles (Fin d → ℝ) n e, (∀ key ω, run (tapeEnv cat ω) (bootstrap (reKeyModel (normalsAt q ω) (m.model chol))) thr (y0 :: ys) (t0 :: ts) key = some (out key ω)) ∧
      let Φ := filteringLaw (fun x t t' => gauss (m.transFun x t t') ((chol d m.transCov)ᵀ * chol d m.transCov)) (fun x y _ => covPotential chol m.likCov (x ᵥ* m.likMatᵀ) y)
        ((gauss m.initialMean m.initialCov).withDensity fun x => ENNReal.ofReal (Real.exp (-covPotential chol m.likCov (x ᵥ* m.likMatᵀ) y0))) t0 (ys.zip ts)
      let M := Real.exp (-Gaussian.negLogZ e (some (1 / m.likCov.det))) ^ (ys.length + 1)
      RareErrors ideal (Φ.real Set.univ) (fun ε => 2 * ε ^ 2 / M ^ 2) (fun _ _ => 1) (fun r ω => likelihoodEstimate thr (out (keys r) ω)) ∧
      RareErrors ideal ((∫ x, g x ∂Φ) / Φ.real Set.univ) (fun ε => (Φ.real Set.univ * ε) ^ 2 / (2 * (M * (2 * B + ε)) ^ 2)) (fun r ω => likelihoodEstimate thr (out (keys r) ω))
        fun r ω => filterMean g (out (keys r) ω) :=
  C166_bootstrap (nlg_modelLaw hchol hm htr hq) (handed_nlg chol m q) y0 ys t0 ts hlen (Gaussian.negLogZ e (some (1 / m.likCov.det))) (fun o _ x => neg_potential_le o.1 (x ᵥ* m.likMatᵀ) _ _) g hg B hB0 hB n cat hcat thr keys hk

/-- C166 for the optimal filter of a nonlinear Gaussian model, with the distribution of its first draws as the law of the first state. -/
theorem C166_optimal (y0 : Obs e) (ys : List (Obs e)) (t0 : ℝ) (ts : List ℝ) (hlen : ts.length = ys.length) (g : (Fin d → ℝ) → ℝ) (hg : Measurable g) (B : ℝ) (hB0 : 0 ≤ B) (hB : ∀ x, |g x| ≤ B)
    (n : ℕ) [NeZero n] (cat : (Fin n → Fl) → ℝ → Fin n) (hcat : IsCategoricalReal fun (w : Fin n → ℝ) u => cat (fun i => .fin (w i)) u) (thr : ℝ) (keys : ℕ → Keys.Key)
    (hk : ∀ a b, a ≠ b → Disjoint (below (keys a)) (below (keys b))) :
    ∃ out : Keys.Key → Tape → Particles (Fin d → ℝ) n e, (∀ key ω, run (tapeEnv cat ω) (reKey (normalsAt q ω) (optimalFilter chol m)) thr (y0 :: ys) (t0 :: ts) key = some (out key ω)) ∧
      let Φ := filteringLaw (fun x t t' => gauss (m.transFun x t t') m.transCov) (fun x y _ => -Real.log (gaussDensity (m.likMat *ᵥ x) m.likCov y))
        ((stdNormal d).map (initialSample chol m y0)) t0 (ys.zip ts)
      let M := max 1 (Real.exp (-Gaussian.negLogZ e (some (weightPrec chol m).det))) ^ (ys.length + 1)
      RareErrors ideal (Φ.real Set.univ) (fun ε => 2 * ε ^ 2 / M ^ 2) (fun _ _ => 1) (fun r ω => likelihoodEstimate thr (out (keys r) ω)) ∧
      RareErrors ideal ((∫ x, g x ∂Φ) / Φ.real Set.univ) (fun ε => (Φ.real Set.univ * ε) ^ 2 / (2 * (M * (2 * B + ε)) ^ 2)) (fun r ω => likelihoodEstimate thr (out (keys r) ω))
        fun r ω => filterMean g (out (keys r) ω) := by
  have hL := optimal_law hchol hm htr hq
  have hterm := optimal_terminal hm htr (ys.zip ts) ((stdNormal d).map (initialSample chol m y0)) t0 (fun t y t' => measurable_kernel hL t y t')
  have h := rare_filter (n := n) hL (handed_optimal chol m q) hcat thr y0 ys t0 ts hlen keys hk (W := max 1 (Real.exp (-Gaussian.negLogZ e (some (weightPrec chol m).det)))) (fun x => by rw [Real.exp_zero]; exact le_max_left _ _)
    (fun o ho t x x' => (Real.exp_le_exp.mpr (neg_le_neg (neg_potential_le _ _ _ _))).trans (le_max_right _ _)) (zero_le_one.trans (le_max_left _ _)) hg hB0 hB rfl
  rw [hterm] at h
  exact h

end

/-! ## A case: a nonlinear model with three observations and ten particles -/

section
open Matrix Mocat.NonlinearGaussian Mocat.Spec Mocat.Covariance Mocat.MatGauss

example (y0 y1 y2 : Obs 1) (key : Keys.Key) : ∃ (chol : Chol) (q : ℝ → ℝ) (cat : (Fin 10 → Fl) → ℝ → Fin 10) (out : Keys.Key → Tape → Particles (Fin 1 → ℝ) 10 1),
    (∀ k ω, run (tapeEnv cat ω) (bootstrap (reKeyModel (normalsAt q ω) (NLG.model chol ⟨0, 1, fun x t t' i => Real.sin (x i) + (t' - t), 1, 1, 1⟩))) (1 / 2) [y0, y1, y2] [0, 1, 3] k = some (out k ω)) ∧
      ∃ L M : ℝ, 0 < M ∧ RareErrors ideal L (fun ε => 2 * ε ^ 2 / M ^ 2) (fun _ _ => 1) fun r ω => likelihoodEstimate (1 / 2) (out (r :: key) ω) := by
  obtain ⟨chol, hchol⟩ := exists_isCholeskyAll
  obtain ⟨q, hq⟩ := exists_isNormalDraw
  have hp : ProperNLG (⟨0, 1, fun x t t' i => Real.sin (x i) + (t' - t), 1, 1, 1⟩ : NLG 1 1) := ⟨Matrix.PosDef.one, Matrix.PosDef.one, Matrix.PosDef.one⟩
  obtain ⟨out, h1, h2, -⟩ := C166_nonlinear_gaussian hchol hp (fun t t' => by fun_prop) hq y0 [y1, y2] 0 [1, 3] rfl (fun _ => 1) measurable_const 1 zero_le_one (fun _ => by simp) 10
    (fun lw u => invCdfReal (fun i => match lw i with | .fin x => x | _ => 0) u) isCategoricalReal_invCdfReal (1 / 2) (fun r => r :: key) fun _ _ h => below_disjoint h
  exact ⟨chol, q, _, out, h1, _, _, by positivity, h2⟩

end
end Mocat.Props
