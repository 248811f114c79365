import Verif.Props.FfbsLaw
import Verif.Props.FilterLawGauss
/-!
# C91 for the bootstrap filter and for nonlinear Gaussian models
-/
namespace Mocat.Props
open Matrix MeasureTheory Mocat Mocat.Filtering Mocat.Ideal Mocat.Meas Mocat.Backward Mocat.NonlinearGaussian Mocat.Spec Mocat.Covariance Mocat.MatGauss
open scoped ENNReal

variable {X : Type} [MeasurableSpace X] {dy m n : ℕ}

/-- Specification: from state `x` at time `t`, after the states `l`: the expectation under the model of `h` of the whole path times the likelihoods of the observations to come. -/
noncomputable def smoothingExpectation (M : X → ℝ → ℝ → Measure X) (lik : X → Obs dy → ℝ → ℝ) (h : List X → ℝ≥0∞) : ℝ → List (Obs dy × ℝ) → List X → X → ℝ≥0∞
  | _, [], l, x => h (l ++ [x])
  | t, (y, t') :: os, l, x => ∫⁻ x', ENNReal.ofReal (Real.exp (-lik x' y t')) * smoothingExpectation M lik h t' os (l ++ [x]) x' ∂(M x t t')

theorem measurable_pathIntegral {f : Tape → Filter X Keys.Key dy} {G0 : X → Obs dy → ℝ → ℝ} {G : X → ℝ → X → Obs dy → ℝ → ℝ} {Γ0 : Obs dy → ℝ → Measure X} {Γ : X → ℝ → Obs dy → ℝ → Measure X}
    (hF : FilterLaw f G0 G Γ0 Γ) {h : List X → ℝ≥0∞} (hh : PathMeasurable h) (t : ℝ) (os : List (Obs dy × ℝ)) (l : List X) : Measurable fun x => pathIntegral Γ h t os l x := by
  rcases isEmpty_or_nonempty X with hX | ⟨⟨x0⟩⟩
  · exact measurable_of_empty _
  have hu : Measurable fun x : X => Function.update (fun s => l.getD s x0) l.length x := measurable_update _
  have h1 := (measurable_futurePath hF (measurable_onPath hh (l.length + os.length)) os l.length t).comp hu
  have e : ((futurePath Γ (onPath h (l.length + os.length)) l.length t os) ∘ fun x : X => Function.update (fun s => l.getD s x0) l.length x) = fun x => pathIntegral Γ h t os l x := by
    funext x
    rw [Function.comp_apply, futurePath_eq Γ h _ os l.length rfl, Function.update_self]
    congr 1
    refine List.ext_getElem (by simp) fun i h1 h2 => ?_
    rw [List.getElem_map, List.getElem_range, Function.update_of_ne (by omega), List.getD_eq_getElem _ _ h2]
  rwa [e] at h1

theorem pathIntegral_bootstrap {mo : Tape → Ssm.Model X (Obs dy) Keys.Key} {μ0 : ℝ → Measure X} {M : X → ℝ → ℝ → Measure X} {lik : X → Obs dy → ℝ → ℝ} (hm : ModelLaw mo μ0 M lik)
    {h : List X → ℝ≥0∞} (hh : PathMeasurable h) (os : List (Obs dy × ℝ)) (t : ℝ) (l : List X) (x : X) :
    pathIntegral (fun x t y t' => (M x t t').withDensity fun x' => ENNReal.ofReal (Real.exp (-lik x' y t'))) h t os l x = smoothingExpectation M lik h t os l x := by
  induction os generalizing t l x with
  | nil => rfl
  | cons o os ih =>
    have h1 := measurable_pathIntegral (bootstrap_law hm) hh o.2 os (l ++ [x])
    rw [pathIntegral, smoothingExpectation, lintegral_withDensity_eq_lintegral_mul _ (measurable_likDensity hm o.1 o.2) h1]
    refine lintegral_congr fun x' => ?_
    rw [Pi.mul_apply, ih]

variable [NeZero n] [NeZero m] {cat : (Fin n → Fl) → ℝ → Fin n}

/-- C91 for the bootstrap filter: the expectation of (likelihood estimate × `h` of a returned trajectory) is the expectation under the model of `h` of the whole hidden path times the likelihoods of all
observations. `hM`: `exp` of minus the transition potential is the density of the transitions. `hb`: with rejection switched on, the bound given bounds that density. -/
theorem C91_bootstrap {mo : Tape → Ssm.Model X (Obs dy) Keys.Key} {μ0 : ℝ → Measure X} {M : X → ℝ → ℝ → Measure X} {lik : X → Obs dy → ℝ → ℝ} (hm : ModelLaw mo μ0 M lik)
    (hcat : IsCategorical cat) (hcatR : IsCategoricalReal fun (w : Fin n → ℝ) u => cat (fun i => .fin (w i)) u) {trans : X → ℝ → X → ℝ → ℝ}
    (htp : ∀ ω, (mo ω).transitionPotential = trans) (htr : ∀ t t', Measurable fun z : X × X => trans z.1 t z.2 t') {ρ : ℝ → ℝ → Measure X}
    (hM : ∀ x t t', M x t t' = (ρ t t').withDensity fun x' => ENNReal.ofReal (Real.exp (-trans x t x' t')))
    (thr : ℝ) (y0 : Obs dy) (ys : List (Obs dy)) (t0 : ℝ) (ts : List ℝ) (hlen : ts.length = ys.length) (maxRej : ℤ) (bound inflation : ℝ)
    (hb : 0 < maxRej → ∀ x t x' t', Real.exp (-trans x t x' t') ≤ bound) (key : Keys.Key) {h : List X → ℝ≥0∞} (hh : PathMeasurable h) :
    ∃ (pf : Tape → Particles X n dy) (paths : Tape → List (Fin m → X)),
      (∀ ω, run (tapeEnv cat ω) (bootstrap (mo ω)) thr (y0 :: ys) (t0 :: ts) (0 :: key) = some (pf ω)) ∧
      (∀ ω, (ffbsi (fun k => (0 :: k, 1 :: k)) (fun k s => s :: k) (tapeEnv cat ω) (bootstrap (mo ω)) (tapeRand cat ω) (mo ω).transitionPotential thr (y0 :: ys) (t0 :: ts) maxRej bound inflation key).map Prod.fst
        = some (paths ω)) ∧
      (∀ ω, (paths ω).length = ys.length + 1) ∧
      ∀ i, ∫⁻ ω, ENNReal.ofReal (likelihoodEstimate thr (pf ω)) * h ((paths ω).map fun x => x i) ∂ideal
        = ∫⁻ x, ENNReal.ofReal (Real.exp (-lik x y0 t0)) * smoothingExpectation M lik h t0 (ys.zip ts) [] x ∂(μ0 t0) := by
  have hΓ : ∀ x t y t', (M x t t').withDensity (fun x' => ENNReal.ofReal (Real.exp (-lik x' y t')))
      = ((ρ t t').withDensity fun x' => ENNReal.ofReal (Real.exp (-lik x' y t'))).withDensity fun x' => ENNReal.ofReal (Real.exp (-trans x t x' t')) := fun x t y t' => by
    have h1 := measurable_likDensity hm y t'
    have h2 : Measurable fun x' => ENNReal.ofReal (Real.exp (-trans x t x' t')) := by
      have h3 : Measurable fun x' : X => trans x t x' t' := (htr t t').comp measurable_prodMk_left
      exact ENNReal.measurable_ofReal.comp (Real.measurable_exp.comp h3.neg)
    rw [hM, ← withDensity_mul _ h2 h1, ← withDensity_mul _ h1 h2, mul_comm]
  obtain ⟨pf, paths, h1, h2, h3, h4⟩ := C91_proper (m := m) (bootstrap_law hm) hcat hcatR htr (ρ := fun t y t' => (ρ t t').withDensity fun x' => ENNReal.ofReal (Real.exp (-lik x' y t'))) hΓ
    thr y0 ys t0 ts hlen maxRej bound inflation hb key hh
  refine ⟨pf, paths, h1, fun ω => by rw [htp ω]; exact h2 ω, h3, fun i => (h4 i).trans ?_⟩
  rw [lintegral_withDensity_eq_lintegral_mul _ (measurable_likDensity hm y0 t0) (measurable_pathIntegral (bootstrap_law hm) hh t0 _ [])]
  refine lintegral_congr fun x => ?_
  rw [Pi.mul_apply, pathIntegral_bootstrap hm hh]

section
variable {d e : ℕ} {chol : Chol} (hchol : IsCholeskyAll chol) {mo : NLG d e} (hm : ProperNLG mo) (htr : ∀ t t', Measurable fun x => mo.transFun x t t') {q : ℝ → ℝ} (hq : IsNormalDraw q)
include hchol hm htr hq

/-- C91 for nonlinear Gaussian models with the bootstrap filter, transitions `N(f(x), LᵀL)` with `L` the factor of the transition covariance. -/
theorem C91_nonlinear_gaussian (hcat : IsCategorical cat) (hcatR : IsCategoricalReal fun (w : Fin n → ℝ) u => cat (fun i => .fin (w i)) u)
    (thr : ℝ) (y0 : Obs e) (ys : List (Obs e)) (t0 : ℝ) (ts : List ℝ) (hlen : ts.length = ys.length) (maxRej : ℤ) (bound inflation : ℝ)
    (hb : 0 < maxRej → Real.sqrt (((chol d mo.transCov)ᵀ * chol d mo.transCov).det⁻¹ / (2 * Real.pi) ^ d) ≤ bound) (key : Keys.Key) {h : List (Fin d → ℝ) → ℝ≥0∞} (hh : PathMeasurable h) :
    ∃ (pf : Tape → Particles (Fin d → ℝ) n e) (paths : Tape → List (Fin m → Fin d → ℝ)),
      (∀ ω, run (tapeEnv cat ω) (bootstrap (reKeyModel (normalsAt q ω) (mo.model chol))) thr (y0 :: ys) (t0 :: ts) (0 :: key) = some (pf ω)) ∧
      (∀ ω, (ffbsi (fun k => (0 :: k, 1 :: k)) (fun k s => s :: k) (tapeEnv cat ω) (bootstrap (reKeyModel (normalsAt q ω) (mo.model chol))) (tapeRand cat ω)
        (mo.model chol).transitionPotential thr (y0 :: ys) (t0 :: ts) maxRej bound inflation key).map Prod.fst = some (paths ω)) ∧
      (∀ ω, (paths ω).length = ys.length + 1) ∧
      ∀ i, ∫⁻ ω, ENNReal.ofReal (likelihoodEstimate thr (pf ω)) * h ((paths ω).map fun x => x i) ∂ideal
        = ∫⁻ x, ENNReal.ofReal (Real.exp (-covPotential chol mo.likCov (x ᵥ* mo.likMatᵀ) y0))
          * smoothingExpectation (fun x t t' => gauss (mo.transFun x t t') ((chol d mo.transCov)ᵀ * chol d mo.transCov)) (fun x y _ => covPotential chol mo.likCov (x ᵥ* mo.likMatᵀ) y) h t0 (ys.zip ts) [] x
          ∂(gauss mo.initialMean mo.initialCov) := by
  have hdens := fun x t t' x' => covPotential_density hchol hm.trans (mo.transFun x t t') x'
  refine C91_bootstrap (m := m) (nlg_modelLaw hchol hm htr hq) hcat hcatR (trans := (mo.model chol).transitionPotential) (fun _ => rfl) (fun t t' => ?_) (ρ := fun _ _ => volume) (fun x t t' => ?_)
    thr y0 ys t0 ts hlen maxRej bound inflation (fun h0 x t x' t' => ?_) key hh
  · have h1 := (measurable_gaussianPotential_mat (chol d mo.transCov)⁻¹ (1 / mo.transCov.det)).comp (measurable_snd.prodMk ((htr t t').comp (measurable_fst (β := Fin d → ℝ))))
    exact h1
  · unfold gauss
    congr 1
    funext x'
    rw [← hdens]
    rfl
  · refine (le_of_eq (hdens x t t' x')).trans (le_trans ?_ (hb h0))
    unfold gaussDensity
    refine mul_le_of_le_one_right (Real.sqrt_nonneg _) (Real.exp_le_one_iff.2 ?_)
    have hP : ((chol d mo.transCov)ᵀ * chol d mo.transCov).PosSemidef := by
      have := posSemidef_conjTranspose_mul_self (chol d mo.transCov)
      rwa [conjTranspose_eq_transpose_of_trivial] at this
    have := hP.inv.dotProduct_mulVec_nonneg (x' - mo.transFun x t t')
    simp only [star_trivial] at this
    linarith
end

/-! ## A case that meets the hypotheses -/

/-- Four trajectories from a filter with 5 particles for a nonlinear model in dimension 2, three observations, up to 7 rejections: the squared distance between the first and last states. -/
example (y0 y1 y2 : Obs 2) : ∃ (chol : Chol) (q : ℝ → ℝ) (cat : (Fin 5 → Fl) → ℝ → Fin 5) (bound : ℝ) (h : List (Fin 2 → ℝ) → ℝ≥0∞) (pf : Tape → Particles (Fin 2 → ℝ) 5 2) (paths : Tape → List (Fin 4 → Fin 2 → ℝ)),
    (∀ x y z, h [x, y, z] = ENNReal.ofReal (((x - z) ⬝ᵥ (x - z)))) ∧
      (∀ ω, run (tapeEnv cat ω) (bootstrap (reKeyModel (normalsAt q ω) ((⟨0, 1, fun x t t' i => Real.sin (x i) + (t' - t), covEx, 1, 1⟩ : NLG 2 2).model chol))) (1 / 2) [y0, y1, y2] [0, 1, 3] [0] = some (pf ω)) ∧
      (∀ ω, (ffbsi (fun k => (0 :: k, 1 :: k)) (fun k s => s :: k) (tapeEnv cat ω) (bootstrap (reKeyModel (normalsAt q ω) ((⟨0, 1, fun x t t' i => Real.sin (x i) + (t' - t), covEx, 1, 1⟩ : NLG 2 2).model chol)))
        (tapeRand cat ω) ((⟨0, 1, fun x t t' i => Real.sin (x i) + (t' - t), covEx, 1, 1⟩ : NLG 2 2).model chol).transitionPotential (1 / 2) [y0, y1, y2] [0, 1, 3] 7 bound 2 []).map Prod.fst = some (paths ω)) ∧
      ∀ i, ∫⁻ ω, ENNReal.ofReal (likelihoodEstimate (1 / 2) (pf ω)) * h ((paths ω).map fun x => x i) ∂ideal
        = ∫⁻ x, ENNReal.ofReal (Real.exp (-covPotential chol 1 (x ᵥ* (1 : Matrix (Fin 2) (Fin 2) ℝ)ᵀ) y0))
          * smoothingExpectation (fun x t t' => gauss (fun i => Real.sin (x i) + (t' - t)) ((chol 2 covEx)ᵀ * chol 2 covEx)) (fun x y _ => covPotential chol 1 (x ᵥ* (1 : Matrix (Fin 2) (Fin 2) ℝ)ᵀ) y) h 0 [(y1, 1), (y2, 3)] [] x
          ∂(gauss 0 1) := by
  obtain ⟨chol, hchol⟩ := exists_isCholeskyAll
  obtain ⟨q, hq⟩ := exists_isNormalDraw
  have hh : PathMeasurable fun l : List (Fin 2 → ℝ) => ENNReal.ofReal ((l.getD 0 0 - l.getD 2 0) ⬝ᵥ (l.getD 0 0 - l.getD 2 0)) := fun k => by
    have h1 : ∀ s, Measurable fun v : Fin k → Fin 2 → ℝ => (List.ofFn v).getD s 0 := fun s => by
      by_cases hs : s < k
      · have e : (fun v : Fin k → Fin 2 → ℝ => (List.ofFn v).getD s 0) = fun v => v ⟨s, hs⟩ := by
          funext v
          rw [List.getD_eq_getElem _ _ (by simpa using hs), List.getElem_ofFn]
        rw [e]
        exact measurable_pi_apply _
      · have e : (fun v : Fin k → Fin 2 → ℝ => (List.ofFn v).getD s 0) = fun _ => 0 := by
          funext v
          exact List.getD_eq_default _ _ (by simpa using hs)
        rw [e]
        exact measurable_const
    have h2 := (h1 0).sub (h1 2)
    have h3 : Measurable fun v : Fin 2 → ℝ => v ⬝ᵥ v := by
      simp only [dotProduct]
      fun_prop
    exact ENNReal.measurable_ofReal.comp (h3.comp h2)
  obtain ⟨pf, paths, h1, h2, -, h4⟩ := C91_nonlinear_gaussian (m := 4) (n := 5) (cat := invCdf) hchol (mo := ⟨0, 1, fun x t t' i => Real.sin (x i) + (t' - t), covEx, 1, 1⟩)
    ⟨PosDef.one, covEx_posDef, PosDef.one⟩ (fun t t' => by fun_prop) hq isCategorical_invCdf isCategoricalReal_invCdfReal (1 / 2) y0 [y1, y2] 0 [1, 3] rfl 7 _ 2 (fun _ => le_rfl) [] hh
  exact ⟨chol, q, invCdf, _, fun l => ENNReal.ofReal ((l.getD 0 0 - l.getD 2 0) ⬝ᵥ (l.getD 0 0 - l.getD 2 0)), pf, paths, fun x y z => rfl, h1, h2, h4⟩

end Mocat.Props
