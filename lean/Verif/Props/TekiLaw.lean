import Verif.Model.Teki
import Verif.Spec.Eki
import Verif.Lemmas.GaussCov
/-!
# C92: tempered ensemble Kalman inversion on linear Gaussian models
-/
namespace Mocat.Props
open Mocat Mocat.Teki Mocat.Spec Mocat.Meas Mocat.MatGauss Matrix MeasureTheory ProbabilityTheory
open scoped ENNReal

variable {K : Type*} [MeasurableSpace K] {n dx dy : ℕ}

/-- Members distributed as `μ`, each with its simulated data; `δ` is the law of the draws of the simulator. -/
noncomputable def pairLaw (env : Env K n dx dy) (δ : Measure K) (μ : Measure (Fin dx → ℝ)) : Measure ((Fin dx → ℝ) × (Fin dy → ℝ)) :=
  (μ.prod δ).map fun z => (z.1, env.simulate z.1 z.2)

/-- `cov_x`, `cov_xy`, `cov_y` of a law of pairs (in place of those of a finite ensemble). -/
noncomputable def lawCovs (ν : Measure ((Fin dx → ℝ) × (Fin dy → ℝ))) : Matrix (Fin dx) (Fin dx) ℝ × Matrix (Fin dx) (Fin dy) ℝ × Matrix (Fin dy) (Fin dy) ℝ :=
  (covMatrix ν Prod.fst Prod.fst, covMatrix ν Prod.fst Prod.snd, covMatrix ν Prod.snd Prod.snd)

/-- The law of a member after the code's update, when the covariances are those of the law of the members (an infinite ensemble). -/
noncomputable def memberLaw (env : Env K n dx dy) (δ : Measure K) (alph : ℝ) (μ : Measure (Fin dx → ℝ)) : Measure (Fin dx → ℝ) :=
  ((pairLaw env δ μ).prod (stdNormal dy)).map fun z => memberUpdate env (lawCovs (pairLaw env δ μ)) alph z.1.1 z.1.2 z.2

/-- Successive updates through the given temperatures. -/
noncomputable def meanField (env : Env K n dx dy) (δ : Measure K) : ℝ → List ℝ → Measure (Fin dx → ℝ) → Measure (Fin dx → ℝ)
  | _, [], μ => μ
  | t, t' :: ts, μ => meanField env δ t' ts (memberLaw env δ (1 / (t' - t)) μ)

/-- A linear Gaussian simulator: data `N(H x, R)`; the matrix routines are right for invertible and for positive definite matrices; no nugget. -/
structure LinearSim (env : Env K n dx dy) (δ : Measure K) (H : Matrix (Fin dy) (Fin dx) ℝ) (R : Matrix (Fin dy) (Fin dy) ℝ) : Prop where
  prob : IsProbabilityMeasure δ
  posDef : R.PosDef
  measurable : Measurable (Function.uncurry env.simulate)
  law : ∀ x, δ.map (env.simulate x) = gauss (H *ᵥ x) R
  inv : ∀ (d : ℕ) (A : Matrix (Fin d) (Fin d) ℝ), A.PosDef → env.inv d A = A⁻¹
  chol : ∀ A : Matrix (Fin dy) (Fin dy) ℝ, A.PosDef → ∃ c, env.chol A = some c ∧ c * cᵀ = A
  nugget : env.nugget = 0

section
variable {env : Env K n dx dy} {δ : Measure K} {H : Matrix (Fin dy) (Fin dx) ℝ} {R : Matrix (Fin dy) (Fin dy) ℝ} (hS : LinearSim env δ H R) {m : Fin dx → ℝ} {P : Matrix (Fin dx) (Fin dx) ℝ} (hP : P.PosDef)

theorem measurable_obs (H : Matrix (Fin dy) (Fin dx) ℝ) : Measurable fun z : (Fin dx → ℝ) × (Fin dy → ℝ) => (z.1, H *ᵥ z.1 + z.2) := by
  have h1 : Measurable fun x : Fin dx → ℝ => H *ᵥ x := by
    have := measurable_affine H 0
    simpa only [add_zero] using this
  have h : Measurable fun z : (Fin dx → ℝ) × (Fin dy → ℝ) => H *ᵥ z.1 := h1.comp measurable_fst
  exact measurable_fst.prodMk (h.add measurable_snd)

include hS hP in
/-- The pairs are `(x, H x + ε)` with independent `ε`. -/
theorem pairLaw_eq : pairLaw env δ (gauss m P) = ((gauss m P).prod (gauss 0 R)).map fun z => (z.1, H *ᵥ z.1 + z.2) := by
  have := gauss_isProb m hP
  have := gauss_isProb (0 : Fin dy → ℝ) hS.posDef
  have := hS.prob
  have h1 : Measurable fun z : (Fin dx → ℝ) × K => (z.1, env.simulate z.1 z.2) := measurable_fst.prodMk hS.measurable
  have h2 := measurable_obs H
  ext A hA
  have hA' : Measurable (A.indicator (1 : (Fin dx → ℝ) × (Fin dy → ℝ) → ℝ≥0∞)) := measurable_const.indicator hA
  rw [← lintegral_indicator_one hA, ← lintegral_indicator_one hA]
  unfold pairLaw
  have hA1 : Measurable fun z : (Fin dx → ℝ) × K => A.indicator (1 : (Fin dx → ℝ) × (Fin dy → ℝ) → ℝ≥0∞) (z.1, env.simulate z.1 z.2) := hA'.comp h1
  have hA2 : Measurable fun z : (Fin dx → ℝ) × (Fin dy → ℝ) => A.indicator (1 : (Fin dx → ℝ) × (Fin dy → ℝ) → ℝ≥0∞) (z.1, H *ᵥ z.1 + z.2) := hA'.comp h2
  rw [lintegral_map hA' h1, lintegral_map hA' h2, lintegral_prod _ hA1.aemeasurable, lintegral_prod _ hA2.aemeasurable]
  refine lintegral_congr fun x => ?_
  have h3 : Measurable fun y : Fin dy → ℝ => A.indicator (1 : (Fin dx → ℝ) × (Fin dy → ℝ) → ℝ≥0∞) (x, y) := hA'.comp measurable_prodMk_left
  have h4 : Measurable (env.simulate x) := hS.measurable.comp measurable_prodMk_left
  have e1 := lintegral_map (μ := δ) h3 h4
  rw [hS.law x, gauss_shift _ hS.posDef, lintegral_map h3 (measurable_const_add _)] at e1
  exact e1.symm

include hS hP in
theorem lawCovs_eq : lawCovs (pairLaw env δ (gauss m P)) = (P, P * Hᵀ, H * P * Hᵀ + R) := by
  have := gauss_isProb m hP
  have := gauss_isProb (0 : Fin dy → ℝ) hS.posDef
  have h2 := measurable_obs H
  rw [pairLaw_eq hS hP]
  set ν := (gauss m P).prod (gauss (0 : Fin dy → ℝ) R) with hν
  have hX : ∀ i, MemLp (fun z : (Fin dx → ℝ) × (Fin dy → ℝ) => z.1 i) 2 ν := fun i => (memLp_gauss m hP i).comp_measurePreserving measurePreserving_fst
  have hE : ∀ i, MemLp (fun z : (Fin dx → ℝ) × (Fin dy → ℝ) => z.2 i) 2 ν := fun i => (memLp_gauss 0 hS.posDef i).comp_measurePreserving measurePreserving_snd
  have hH : ∀ i, MemLp (fun z : (Fin dx → ℝ) × (Fin dy → ℝ) => (H *ᵥ z.1) i) 2 ν := memLp_mulVec hX H
  have cXX : ∀ i j, cov[fun z => z.1 i, fun z => z.1 j; ν] = P i j := fun i j => by
    rw [← cov_gauss m hP i j, ← (measurePreserving_fst (μ := gauss m P) (ν := gauss (0 : Fin dy → ℝ) R)).map_eq,
      covariance_map_fun (measurable_pi_apply i).aestronglyMeasurable (measurable_pi_apply j).aestronglyMeasurable measurable_fst.aemeasurable]
  have cEE : ∀ i j, cov[fun z => z.2 i, fun z => z.2 j; ν] = R i j := fun i j => by
    rw [← cov_gauss 0 hS.posDef i j, ← (measurePreserving_snd (μ := gauss m P) (ν := gauss (0 : Fin dy → ℝ) R)).map_eq,
      covariance_map_fun (measurable_pi_apply i).aestronglyMeasurable (measurable_pi_apply j).aestronglyMeasurable measurable_snd.aemeasurable]
  have cXE : ∀ i j, cov[fun z => z.1 i, fun z => z.2 j; ν] = 0 := fun i j => covariance_fst_snd_prod (memLp_gauss m hP i) (memLp_gauss 0 hS.posDef j)
  have mX : ∀ i, AEStronglyMeasurable (fun z : (Fin dx → ℝ) × (Fin dy → ℝ) => z.1 i) (ν.map fun z => (z.1, H *ᵥ z.1 + z.2)) := fun i => ((measurable_pi_apply i).comp measurable_fst).aestronglyMeasurable
  have mY : ∀ i, AEStronglyMeasurable (fun z : (Fin dx → ℝ) × (Fin dy → ℝ) => z.2 i) (ν.map fun z => (z.1, H *ᵥ z.1 + z.2)) := fun i => ((measurable_pi_apply i).comp measurable_snd).aestronglyMeasurable
  have hY : ∀ i, MemLp (fun z : (Fin dx → ℝ) × (Fin dy → ℝ) => (H *ᵥ z.1 + z.2) i) 2 ν := fun i => (hH i).add (hE i)
  have cHX : ∀ i j, cov[fun z => (H *ᵥ z.1) i, fun z => z.1 j; ν] = (H * P) i j := fun i j => by
    rw [cov_mulVec_left hX (hX j)]
    simp_rw [cXX]
    rfl
  have cHH : ∀ i j, cov[fun z => (H *ᵥ z.1) i, fun z => (H *ᵥ z.1) j; ν] = (H * P * Hᵀ) i j := fun i j => by
    rw [covariance_comm, cov_mulVec_left hX (hH i)]
    simp_rw [covariance_comm _ (fun z : (Fin dx → ℝ) × (Fin dy → ℝ) => (H *ᵥ z.1) i), cHX]
    simp [mul_apply, mul_comm]
  have cHE : ∀ i j, cov[fun z => (H *ᵥ z.1) i, fun z => z.2 j; ν] = 0 := fun i j => by
    rw [cov_mulVec_left hX (hE j)]
    simp [cXE]
  unfold lawCovs covMatrix
  refine Prod.ext (funext fun i => funext fun j => ?_) (Prod.ext (funext fun i => funext fun j => ?_) (funext fun i => funext fun j => ?_))
  · simp only
    rw [covariance_map_fun (mX i) (mX j) h2.aemeasurable]
    exact cXX i j
  · simp only
    rw [covariance_map_fun (mX i) (mY j) h2.aemeasurable]
    have e : cov[fun z => z.1 i, fun z => (H *ᵥ z.1) j + z.2 j; ν] = cov[fun z => z.1 i, fun z => (H *ᵥ z.1) j; ν] + cov[fun z => z.1 i, fun z => z.2 j; ν] := covariance_add_right (hX i) (hH j) (hE j)
    refine e.trans ?_
    rw [cXE, add_zero, covariance_comm, cHX]
    have := congrFun (congrFun (transpose_mul P Hᵀ) j) i
    simp only [transpose_apply, transpose_transpose, PosDef.symm hP] at this
    exact this.symm
  · simp only
    rw [covariance_map_fun (mY i) (mY j) h2.aemeasurable]
    have e : cov[fun z => (H *ᵥ z.1) i + z.2 i, fun z => (H *ᵥ z.1) j + z.2 j; ν] = cov[fun z => (H *ᵥ z.1) i, fun z => (H *ᵥ z.1) j + z.2 j; ν] + cov[fun z => z.2 i, fun z => (H *ᵥ z.1) j + z.2 j; ν] :=
      covariance_add_left (hH i) (hE i) (hY j)
    have e1 : cov[fun z => (H *ᵥ z.1) i, fun z => (H *ᵥ z.1) j + z.2 j; ν] = cov[fun z => (H *ᵥ z.1) i, fun z => (H *ᵥ z.1) j; ν] + cov[fun z => (H *ᵥ z.1) i, fun z => z.2 j; ν] := covariance_add_right (hH i) (hH j) (hE j)
    have e2 : cov[fun z => z.2 i, fun z => (H *ᵥ z.1) j + z.2 j; ν] = cov[fun z => z.2 i, fun z => (H *ᵥ z.1) j; ν] + cov[fun z => z.2 i, fun z => z.2 j; ν] := covariance_add_right (hE i) (hH j) (hE j)
    refine e.trans ?_
    rw [e1, e2, cHH, cHE, covariance_comm, cHE, cEE, add_zero, zero_add]
    rfl

include hS hP in
/-- One update of a member of a normal ensemble: Kalman mean and covariance with observation covariance `α R`. -/
theorem memberLaw_gauss {alph : ℝ} (ha : 1 ≤ alph) : memberLaw env δ alph (gauss m P)
    = gauss (m + (P * Hᵀ * (H * P * Hᵀ + alph • R)⁻¹) *ᵥ (env.data - H *ᵥ m)) (P - P * Hᵀ * (H * P * Hᵀ + alph • R)⁻¹ * H * P) := by
  have hpm := gauss_isProb m hP
  have hpr := gauss_isProb (0 : Fin dy → ℝ) hS.posDef
  have ha0 : 0 < alph := by linarith
  have haR : (alph • R).PosDef := hS.posDef.smul ha0
  have hSd := posDef_innovation H hP haR
  set S := H * P * Hᵀ + alph • R with hSdef
  set G := P * Hᵀ * S⁻¹ with hG
  have hcov := lawCovs_eq hS hP (m := m)
  have hy : covYGivenX env (P, P * Hᵀ, H * P * Hᵀ + R) = R := by
    unfold covYGivenX
    simp only
    rw [hS.nugget, zero_smul, add_zero, hS.inv _ _ hP, transpose_mul, transpose_transpose, PosDef.symm hP, Matrix.mul_assoc H P P⁻¹, Matrix.mul_nonsing_inv P (PosDef.isUnit_det' hP), Matrix.mul_one, Matrix.mul_assoc H P,
      add_sub_cancel_left]
  have hgain : kalmanGain env (P, P * Hᵀ, H * P * Hᵀ + R) alph = G := by
    unfold kalmanGain
    simp only
    rw [hy, hS.nugget, zero_smul, add_zero]
    have : H * P * Hᵀ + R + (alph - 1) • R = S := by rw [hSdef, sub_smul, one_smul]; abel
    rw [this, hS.inv _ _ hSd]
  obtain ⟨c, hc, hcR⟩ := hS.chol R hS.posDef
  have hmove : ∀ x y z, memberUpdate env (P, P * Hᵀ, H * P * Hᵀ + R) alph x y z = x + G *ᵥ (env.data - y + Real.sqrt (alph - 1) • (c *ᵥ z)) := fun x y z => by
    unfold memberUpdate
    simp only
    rw [hy, hgain, hS.nugget, zero_smul, add_zero, hc]
    simp only
    rw [vecMul_transpose]
  have hmm : ∀ (a b : ℕ) (B : Matrix (Fin a) (Fin b) ℝ), Measurable fun x : Fin b → ℝ => B *ᵥ x := fun a b B => by
    have := measurable_affine B 0
    simpa only [add_zero] using this
  have hupd : Measurable fun z : ((Fin dx → ℝ) × (Fin dy → ℝ)) × (Fin dy → ℝ) => z.1.1 + G *ᵥ (env.data - z.1.2 + Real.sqrt (alph - 1) • (c *ᵥ z.2)) := by
    have h1 : Measurable fun z : ((Fin dx → ℝ) × (Fin dy → ℝ)) × (Fin dy → ℝ) => env.data - z.1.2 + Real.sqrt (alph - 1) • (c *ᵥ z.2) :=
      ((measurable_snd.comp measurable_fst).const_sub _).add (((hmm _ _ c).comp measurable_snd).const_smul (Real.sqrt (alph - 1)))
    exact (measurable_fst.comp measurable_fst).add ((hmm _ _ G).comp h1)
  have hobs := measurable_obs H
  have hlaw : memberLaw env δ alph (gauss m P)
      = (((gauss m P).prod (gauss 0 R)).prod (stdNormal dy)).map fun z => z.1.1 + G *ᵥ (env.data - (H *ᵥ z.1.1 + z.1.2) + Real.sqrt (alph - 1) • (c *ᵥ z.2)) := by
    unfold memberLaw
    rw [hcov]
    simp_rw [hmove]
    rw [pairLaw_eq hS hP]
    have h1 : (((gauss m P).prod (gauss 0 R)).map fun z => (z.1, H *ᵥ z.1 + z.2)).prod (stdNormal dy)
        = (((gauss m P).prod (gauss 0 R)).prod (stdNormal dy)).map (Prod.map (fun z : (Fin dx → ℝ) × (Fin dy → ℝ) => (z.1, H *ᵥ z.1 + z.2)) id) := by
      rw [← Measure.map_prod_map _ _ hobs measurable_id, Measure.map_id]
    rw [h1, Measure.map_map hupd (hobs.prodMap measurable_id)]
    rfl
  have hprob : IsProbabilityMeasure (memberLaw env δ alph (gauss m P)) := by
    rw [hlaw]
    refine Measure.isProbabilityMeasure_map ?_
    exact (hupd.comp (hobs.prodMap measurable_id)).aemeasurable
  refine eq_gauss_of_charAt _ (cond_posDef H hP haR) fun l => ?_
  set s := Real.sqrt (alph - 1) with hs
  have hs2 : s * s = alph - 1 := Real.mul_self_sqrt (by linarith)
  have hexp : ∀ (x : Fin dx → ℝ) (e z : Fin dy → ℝ), l ⬝ᵥ (x + G *ᵥ (env.data - (H *ᵥ x + e) + s • (c *ᵥ z)))
      = l ⬝ᵥ (G *ᵥ env.data) + (l ᵥ* (1 - G * H)) ⬝ᵥ x + (-(l ᵥ* G)) ⬝ᵥ e + (s • (l ᵥ* (G * c))) ⬝ᵥ z := fun x e z => by
    simp only [mulVec_add, mulVec_sub, mulVec_smul, dotProduct_add, dotProduct_sub, dotProduct_smul, vecMul_sub, vecMul_one, sub_dotProduct, neg_dotProduct, smul_dotProduct, ← vecMul_vecMul, ← dotProduct_mulVec, smul_eq_mul]
    ring
  have hmul : ∀ z : ((Fin dx → ℝ) × (Fin dy → ℝ)) × (Fin dy → ℝ), Complex.exp ((l ⬝ᵥ (z.1.1 + G *ᵥ (env.data - (H *ᵥ z.1.1 + z.1.2) + s • (c *ᵥ z.2))) : ℝ) * Complex.I)
      = Complex.exp ((l ⬝ᵥ (G *ᵥ env.data) : ℝ) * Complex.I) * ((Complex.exp (((l ᵥ* (1 - G * H)) ⬝ᵥ z.1.1 : ℝ) * Complex.I) * Complex.exp (((-(l ᵥ* G)) ⬝ᵥ z.1.2 : ℝ) * Complex.I))
        * Complex.exp (((s • (l ᵥ* (G * c))) ⬝ᵥ z.2 : ℝ) * Complex.I)) := fun z => by
    rw [hexp, ← Complex.exp_add, ← Complex.exp_add, ← Complex.exp_add]
    congr 1
    push_cast
    ring
  have hchar : charAt (memberLaw env δ alph (gauss m P)) l = Complex.exp ((l ⬝ᵥ (G *ᵥ env.data) : ℝ) * Complex.I)
      * ((charAt (gauss m P) (l ᵥ* (1 - G * H)) * charAt (gauss 0 R) (-(l ᵥ* G))) * charAt (stdNormal dy) (s • (l ᵥ* (G * c)))) := by
    have hcont : Continuous fun x : Fin dx → ℝ => Complex.exp ((l ⬝ᵥ x : ℝ) * Complex.I) := by
      simp only [dotProduct]
      fun_prop
    have hu2 : Measurable fun z : ((Fin dx → ℝ) × (Fin dy → ℝ)) × (Fin dy → ℝ) => z.1.1 + G *ᵥ (env.data - (H *ᵥ z.1.1 + z.1.2) + s • (c *ᵥ z.2)) := hupd.comp (hobs.prodMap measurable_id)
    rw [hlaw]
    unfold charAt
    rw [integral_map hu2.aemeasurable hcont.aestronglyMeasurable]
    rw [integral_congr_ae (.of_forall hmul), integral_const_mul]
    congr 1
    rw [integral_prod_mul (μ := (gauss m P).prod (gauss 0 R)) (ν := stdNormal dy)
      (fun z => Complex.exp (((l ᵥ* (1 - G * H)) ⬝ᵥ z.1 : ℝ) * Complex.I) * Complex.exp (((-(l ᵥ* G)) ⬝ᵥ z.2 : ℝ) * Complex.I)) (fun z => Complex.exp (((s • (l ᵥ* (G * c))) ⬝ᵥ z : ℝ) * Complex.I))]
    congr 1
    rw [integral_prod_mul (μ := gauss m P) (ν := gauss 0 R) (fun z => Complex.exp (((l ᵥ* (1 - G * H)) ⬝ᵥ z : ℝ) * Complex.I)) (fun z => Complex.exp (((-(l ᵥ* G)) ⬝ᵥ z : ℝ) * Complex.I))]
  rw [hchar, charAt_gauss _ hP, charAt_gauss _ hS.posDef, charAt_stdNormal, ← Complex.exp_add, ← Complex.exp_add, ← Complex.exp_add]
  congr 1
  have hmean : l ⬝ᵥ (G *ᵥ env.data) + (l ᵥ* (1 - G * H)) ⬝ᵥ m = l ⬝ᵥ (m + G *ᵥ (env.data - H *ᵥ m)) := by
    simp only [mulVec_sub, dotProduct_add, dotProduct_sub, vecMul_sub, vecMul_one, sub_dotProduct, ← vecMul_vecMul, ← dotProduct_mulVec]
    ring
  have hq : ∀ {a b : ℕ} (v : Fin a → ℝ) (B : Matrix (Fin a) (Fin b) ℝ) (C : Matrix (Fin b) (Fin b) ℝ), (v ᵥ* B) ⬝ᵥ (C *ᵥ (v ᵥ* B)) = v ⬝ᵥ ((B * C * Bᵀ) *ᵥ v) := fun v B C => by
    rw [← mulVec_mulVec, ← mulVec_mulVec, mulVec_transpose, dotProduct_mulVec v B]
  have hmat : (1 - G * H) * P * (1 - G * H)ᵀ + G * R * Gᵀ + (alph - 1) • (G * R * Gᵀ) = P - G * H * P := by
    have hGS : G * S = P * Hᵀ := by rw [hG, Matrix.mul_assoc, Matrix.nonsing_inv_mul _ (PosDef.isUnit_det' hSd), Matrix.mul_one]
    have e1 : (1 - G * H) * P * (1 - G * H)ᵀ = P - G * H * P - P * Hᵀ * Gᵀ + G * (H * P * Hᵀ) * Gᵀ := by
      rw [transpose_sub, transpose_one, transpose_mul, Matrix.sub_mul, Matrix.one_mul, Matrix.mul_sub, Matrix.mul_one, Matrix.sub_mul]
      simp only [Matrix.mul_assoc]
      abel
    have e2 : G * (H * P * Hᵀ) * Gᵀ + (G * R * Gᵀ + (alph - 1) • (G * R * Gᵀ)) = P * Hᵀ * Gᵀ := by
      have : G * S * Gᵀ = G * (H * P * Hᵀ) * Gᵀ + alph • (G * R * Gᵀ) := by
        rw [hSdef, Matrix.mul_add, Matrix.add_mul, Matrix.mul_smul, Matrix.smul_mul]
      rw [← hGS, this, sub_smul, one_smul]
      abel
    rw [e1, add_assoc, add_assoc, e2]
    abel
  have hcov2 : (l ᵥ* (1 - G * H)) ⬝ᵥ (P *ᵥ (l ᵥ* (1 - G * H))) + (-(l ᵥ* G)) ⬝ᵥ (R *ᵥ (-(l ᵥ* G))) + (s • (l ᵥ* (G * c))) ⬝ᵥ (s • (l ᵥ* (G * c))) = l ⬝ᵥ ((P - G * H * P) *ᵥ l) := by
    have h3 : (l ᵥ* (G * c)) ⬝ᵥ (l ᵥ* (G * c)) = l ⬝ᵥ ((G * R * Gᵀ) *ᵥ l) := by
      have := hq l (G * c) 1
      rw [one_mulVec, Matrix.mul_one, transpose_mul] at this
      rw [this, ← hcR]
      simp only [Matrix.mul_assoc]
    rw [mulVec_neg, neg_dotProduct_neg, hq, hq, smul_dotProduct, dotProduct_smul, h3, smul_eq_mul, smul_eq_mul, ← mul_assoc, hs2, ← hmat, add_mulVec, add_mulVec, smul_mulVec, dotProduct_add, dotProduct_add, dotProduct_smul, smul_eq_mul]
  rw [← hmean, ← hcov2, dotProduct_zero]
  push_cast
  ring

end

/-! ## Tempered distributions -/

/-- A probability distribution proportional to `exp(-T φ) dμ` is `tempered μ φ T`. -/
theorem eq_tempered {X : Type*} [MeasurableSpace X] {μ ν : Measure X} [IsProbabilityMeasure ν] {φ : X → ℝ} {T : ℝ} {c : ℝ≥0∞}
    (h : ν = c • μ.withDensity fun x => ENNReal.ofReal (Real.exp (-(T * φ x)))) : ν = tempered μ φ T := by
  have h1 : c * ∫⁻ x, ENNReal.ofReal (Real.exp (-(T * φ x))) ∂μ = 1 := by
    have := measure_univ (μ := ν)
    rw [h, Measure.smul_apply, withDensity_apply _ MeasurableSet.univ, setLIntegral_univ, smul_eq_mul] at this
    exact this
  rw [h, tempered, ENNReal.eq_inv_of_mul_eq_one_left h1]

theorem tempered_tempered {X : Type*} [MeasurableSpace X] {μ : Measure X} {φ : X → ℝ} (hφ : Measurable φ) {a b : ℝ} [IsProbabilityMeasure (tempered (tempered μ φ a) φ b)] :
    tempered (tempered μ φ a) φ b = tempered μ φ (a + b) := by
  have hm : ∀ T : ℝ, Measurable fun x => ENNReal.ofReal (Real.exp (-(T * φ x))) := fun T => by fun_prop
  refine eq_tempered (c := (∫⁻ x, ENNReal.ofReal (Real.exp (-(b * φ x))) ∂tempered μ φ a)⁻¹ * (∫⁻ x, ENNReal.ofReal (Real.exp (-(a * φ x))) ∂μ)⁻¹) ?_
  conv_lhs => rw [tempered]
  conv_lhs => arg 2; rw [tempered, withDensity_smul_measure, ← withDensity_mul _ (hm a) (hm b)]
  rw [smul_smul]
  congr 2
  funext x
  rw [Pi.mul_apply, ← ENNReal.ofReal_mul (Real.exp_pos _).le, ← Real.exp_add]
  ring_nf

theorem tempered_zero {X : Type*} [MeasurableSpace X] (μ : Measure X) [IsProbabilityMeasure μ] (φ : X → ℝ) : tempered μ φ 0 = μ := by
  simp [tempered]

theorem measurable_misfit (H : Matrix (Fin dy) (Fin dx) ℝ) (R : Matrix (Fin dy) (Fin dy) ℝ) (y : Fin dy → ℝ) : Measurable (misfit H R y) := by
  refine Continuous.measurable ?_
  unfold misfit
  simp only [dotProduct, mulVec]
  fun_prop

/-- Bayes' rule with the likelihood raised to a power. -/
theorem gauss_tempered {H : Matrix (Fin dy) (Fin dx) ℝ} {R : Matrix (Fin dy) (Fin dy) ℝ} (hR : R.PosDef) (m : Fin dx → ℝ) {P : Matrix (Fin dx) (Fin dx) ℝ} (hP : P.PosDef) (y : Fin dy → ℝ) {alph : ℝ} (ha : 0 < alph) :
    gauss (m + (P * Hᵀ * (H * P * Hᵀ + alph • R)⁻¹) *ᵥ (y - H *ᵥ m)) (P - P * Hᵀ * (H * P * Hᵀ + alph • R)⁻¹ * H * P) = tempered (gauss m P) (misfit H R y) (1 / alph) := by
  have haR : (alph • R).PosDef := hR.smul ha
  have := gauss_isProb (m + (P * Hᵀ * (H * P * Hᵀ + alph • R)⁻¹) *ᵥ (y - H *ᵥ m)) (cond_posDef H hP haR)
  set c1 := Real.sqrt ((alph • R).det⁻¹ / (2 * Real.pi) ^ dy) with hc1
  set c2 := gaussDensity (H *ᵥ m) (H * P * Hᵀ + alph • R) y with hc2
  have hc2p : 0 < c2 := gaussDensity_pos _ (posDef_innovation H hP haR) y
  have hl : ∀ x, gaussDensity (H *ᵥ x) (alph • R) y = c1 * Real.exp (-(1 / alph * misfit H R y x)) := fun x => by
    unfold gaussDensity misfit
    congr 2
    have hi : (alph • R)⁻¹ = alph⁻¹ • R⁻¹ := by
      refine Matrix.inv_eq_left_inv ?_
      rw [Matrix.smul_mul, Matrix.mul_smul, smul_smul, inv_mul_cancel₀ ha.ne', one_smul, Matrix.nonsing_inv_mul _ (PosDef.isUnit_det' hR)]
    rw [hi, smul_mulVec, dotProduct_smul, smul_eq_mul]
    change -(1 / 2) * (alph⁻¹ * _) = -(1 / alph * (1 / 2 * _))
    ring
  refine eq_tempered (c := ENNReal.ofReal (c1 / c2)) ?_
  unfold gauss
  have hm1 : Measurable fun x => ENNReal.ofReal (gaussDensity m P x) := ENNReal.measurable_ofReal.comp (continuous_gaussDensity m P).measurable
  have hm2 : Measurable fun x => ENNReal.ofReal (Real.exp (-(1 / alph * misfit H R y x))) :=
    ENNReal.measurable_ofReal.comp (Real.measurable_exp.comp ((measurable_misfit H R y).const_mul _).neg)
  rw [← withDensity_mul _ hm1 hm2, ← withDensity_smul _ (hm1.mul hm2)]
  congr 1
  funext x
  have hb := gauss_bayes H hP haR m x y
  rw [hl x] at hb
  simp only [Pi.smul_apply, Pi.mul_apply, smul_eq_mul]
  rw [← ENNReal.ofReal_mul (gaussDensity_pos m hP x).le, ← ENNReal.ofReal_mul (div_nonneg (Real.sqrt_nonneg _) hc2p.le)]
  congr 1
  rw [div_mul_eq_mul_div, eq_div_iff hc2p.ne', mul_comm, ← hb]
  ring

section
variable {env : Env K n dx dy} {δ : Measure K} {H : Matrix (Fin dy) (Fin dx) ℝ} {R : Matrix (Fin dy) (Fin dy) ℝ} (hS : LinearSim env δ H R) (m : Fin dx → ℝ) {P : Matrix (Fin dx) (Fin dx) ℝ} (hP : P.PosDef)
include hS hP

/-- C92, one update: on a linear Gaussian model, when the covariances are those of the members' distribution `N(m, P)`, the update from temperature `t` to `t'` turns a member into a draw from
`N(m, P)` reweighted by the likelihood to the power `t' - t`. -/
theorem C92_update {t t' : ℝ} (h1 : t < t') (h2 : t' - t ≤ 1) : memberLaw env δ (1 / (t' - t)) (gauss m P) = tempered (gauss m P) (misfit H R env.data) (t' - t) := by
  have hpos : 0 < t' - t := by linarith
  rw [memberLaw_gauss hS hP (by rw [le_div_iff₀ hpos]; linarith), gauss_tempered hS.posDef m hP env.data (one_div_pos.2 hpos), one_div_one_div]

/-- C92: through any strictly increasing temperatures (with steps of at most 1) the members' distribution is the prior reweighted by the likelihood to the power of the last temperature. -/
theorem C92_tempered (t : ℝ) (ts : List ℝ) (hts : List.IsChain (fun a b => a < b ∧ b - a ≤ 1) (t :: ts)) :
    meanField env δ t ts (gauss m P) = tempered (gauss m P) (misfit H R env.data) ((t :: ts).getLast (by simp) - t) := by
  induction ts generalizing t m P with
  | nil =>
    have := gauss_isProb m hP
    simp [meanField, tempered_zero]
  | cons t' ts ih =>
    rw [List.isChain_cons_cons] at hts
    obtain ⟨⟨h1, h2⟩, h3⟩ := hts
    have hpos : 0 < t' - t := by linarith
    have hle : 1 ≤ 1 / (t' - t) := by rw [le_div_iff₀ hpos]; linarith
    have haR : ((1 / (t' - t)) • R).PosDef := hS.posDef.smul (by positivity)
    have hP' := cond_posDef H hP haR
    rw [meanField, memberLaw_gauss hS hP hle, ih _ hP' t' h3]
    obtain ⟨m', P', hq1, hq2⟩ : ∃ m' P', P'.PosDef ∧ tempered (gauss (m + (P * Hᵀ * (H * P * Hᵀ + (1 / (t' - t)) • R)⁻¹) *ᵥ (env.data - H *ᵥ m))
        (P - P * Hᵀ * (H * P * Hᵀ + (1 / (t' - t)) • R)⁻¹ * H * P)) (misfit H R env.data) ((t' :: ts).getLast (by simp) - t') = gauss m' P' := by
      rcases ts with _ | ⟨t'', ts⟩
      · refine ⟨m + (P * Hᵀ * (H * P * Hᵀ + (1 / (t' - t)) • R)⁻¹) *ᵥ (env.data - H *ᵥ m), P - P * Hᵀ * (H * P * Hᵀ + (1 / (t' - t)) • R)⁻¹ * H * P, hP', ?_⟩
        have := gauss_isProb (m + (P * Hᵀ * (H * P * Hᵀ + (1 / (t' - t)) • R)⁻¹) *ᵥ (env.data - H *ᵥ m)) hP'
        rw [List.getLast_singleton, sub_self, tempered_zero]
      · have hlt : t' < (t' :: t'' :: ts).getLast (by simp) := by
          have hp : List.Pairwise (· < ·) (t' :: t'' :: ts) := List.isChain_iff_pairwise.1 (h3.imp fun _ _ h => h.1)
          rw [List.getLast_cons (by simp)]
          exact (List.pairwise_cons.1 hp).1 _ (List.getLast_mem _)
        have hpos2 : 0 < (t' :: t'' :: ts).getLast (by simp) - t' := by linarith
        have hR2 : ((1 / ((t' :: t'' :: ts).getLast (by simp) - t')) • R).PosDef := hS.posDef.smul (by positivity)
        have e := gauss_tempered (H := H) hS.posDef (m + (P * Hᵀ * (H * P * Hᵀ + (1 / (t' - t)) • R)⁻¹) *ᵥ (env.data - H *ᵥ m)) hP' env.data (one_div_pos.2 hpos2)
        rw [one_div_one_div] at e
        exact ⟨_, _, cond_posDef H hP' hR2, e.symm⟩
    have hpr : IsProbabilityMeasure (tempered (tempered (gauss m P) (misfit H R env.data) (t' - t)) (misfit H R env.data) ((t' :: ts).getLast (by simp) - t')) := by
      have e := gauss_tempered (H := H) hS.posDef m hP env.data (one_div_pos.2 hpos)
      rw [one_div_one_div] at e
      rw [← e, hq2]
      exact gauss_isProb m' hq1
    have e := gauss_tempered (H := H) hS.posDef m hP env.data (one_div_pos.2 hpos)
    rw [one_div_one_div] at e
    rw [e, tempered_tempered (measurable_misfit H R env.data), List.getLast_cons (a := t) (by simp)]
    congr 1
    ring

/-- C92: from temperature 0 to temperature 1 the prior becomes the posterior. -/
theorem C92_posterior (ts : List ℝ) (hinc : (0 :: ts).Pairwise (· < ·)) (hlast : ts.getLast? = some 1) :
    meanField env δ 0 ts (gauss m P) = (∫⁻ x, ENNReal.ofReal (gaussDensity (H *ᵥ x) R env.data) ∂gauss m P)⁻¹ • (gauss m P).withDensity fun x => ENNReal.ofReal (gaussDensity (H *ᵥ x) R env.data) := by
  have hne : ts ≠ [] := fun h => by simp [h] at hlast
  have hl1 : (0 :: ts).getLast (by simp) = 1 := by
    rw [List.getLast_cons hne]
    rw [List.getLast?_eq_some_getLast hne] at hlast
    exact Option.some.inj hlast
  have hmem : ∀ a ∈ (0 : ℝ) :: ts, 0 ≤ a ∧ a ≤ 1 := fun a ha => by
    refine ⟨?_, ?_⟩
    · rcases List.mem_cons.1 ha with rfl | h
      · exact le_rfl
      · exact ((List.pairwise_cons.1 hinc).1 a h).le
    · rw [← hl1]
      have hle : List.Pairwise (fun a b : ℝ => a ≤ b) (0 :: ts) := hinc.imp le_of_lt
      exact hle.rel_getLast ha
  have hch : List.IsChain (fun a b => a < b ∧ b - a ≤ 1) ((0 : ℝ) :: ts) := by
    have h : List.Pairwise (fun a b => a < b ∧ b - a ≤ 1) ((0 : ℝ) :: ts) := by
      rw [List.pairwise_iff_getElem] at hinc ⊢
      intro i j hi hj hij
      have h1 := hmem _ (List.getElem_mem hi)
      have h2 := hmem _ (List.getElem_mem hj)
      exact ⟨hinc i j hi hj hij, by linarith [h1.1, h2.2]⟩
    exact h.isChain
  rw [C92_tempered hS m hP 0 ts hch, hl1, sub_zero]
  have hc1 : 0 < Real.sqrt (R.det⁻¹ / (2 * Real.pi) ^ dy) := by
    have := hS.posDef.det_pos
    positivity
  have hl : ∀ x, ENNReal.ofReal (gaussDensity (H *ᵥ x) R env.data) = ENNReal.ofReal (Real.sqrt (R.det⁻¹ / (2 * Real.pi) ^ dy)) * ENNReal.ofReal (Real.exp (-(1 * misfit H R env.data x))) := fun x => by
    rw [← ENNReal.ofReal_mul hc1.le]
    unfold gaussDensity misfit
    congr 3
    ring
  have hm : Measurable fun x => ENNReal.ofReal (Real.exp (-(1 * misfit H R env.data x))) :=
    ENNReal.measurable_ofReal.comp (Real.measurable_exp.comp ((measurable_misfit H R env.data).const_mul _).neg)
  simp_rw [hl]
  set c := ENNReal.ofReal (Real.sqrt (R.det⁻¹ / (2 * Real.pi) ^ dy)) with hcd
  have h0 : c ≠ 0 := (ENNReal.ofReal_pos.2 hc1).ne'
  have hw : (gauss m P).withDensity (fun x => c * ENNReal.ofReal (Real.exp (-(1 * misfit H R env.data x)))) = c • (gauss m P).withDensity fun x => ENNReal.ofReal (Real.exp (-(1 * misfit H R env.data x))) :=
    withDensity_smul c hm
  rw [hw, lintegral_const_mul _ hm, smul_smul, ENNReal.mul_inv (.inl h0) (.inl ENNReal.ofReal_ne_top), mul_right_comm, ENNReal.inv_mul_cancel h0 ENNReal.ofReal_ne_top, one_mul]
  rfl
end

/-! ## Finite ensembles -/

theorem sampleCov_eq (hn : 1 ≤ n) (f : Fin n → Fin dx → ℝ) (g : Fin n → Fin dy → ℝ) : (centred f)ᵀ * centred g = sampleCov f g := by
  funext i j
  have hn' : (0 : ℝ) ≤ (n : ℝ) - 1 := by
    have : (1 : ℝ) ≤ n := by exact_mod_cast hn
    linarith
  simp only [mul_apply, transpose_apply, centred, Teki.mean, sampleCov]
  refine (Finset.sum_congr rfl fun k _ => ?_).trans (Finset.sum_div _ _ _).symm
  rw [div_mul_div_comm, Real.mul_self_sqrt hn']

omit [MeasurableSpace K] in
/-- C92, finite ensembles: the update of `TemperedEKI` moves every member by the same rule, with the sample covariances of the ensemble. -/
theorem C92_ensemble (env : Env K n dx dy) (next : Teki.State n dx dy → Teki.Extra K dy → ℝ) (s : Teki.State n dx dy) (e : Teki.Extra K dy) (i : Fin n) :
    (Teki.update env next s e).1.value i = memberUpdate env (sampleCov s.value s.value, sampleCov s.value s.sim, sampleCov s.sim s.sim)
      (1 / ((Teki.update env next s e).1.temperature - s.temperature)) (s.value i) (s.sim i) (env.normal (env.splitN e.key (Fin.last n).castSucc) i) := by
  have hn : 1 ≤ n := i.pos
  rw [← sampleCov_eq hn, ← sampleCov_eq hn, ← sampleCov_eq hn]
  rfl

theorem centred_move (hn : 1 ≤ n) (f : Fin n → Fin dx → ℝ) (w : Fin n → Fin dy → ℝ) (G : Matrix (Fin dx) (Fin dy) ℝ) :
    centred (fun i => f i + G *ᵥ w i) = centred f + centred w * Gᵀ := by
  have hn' : (n : ℝ) ≠ 0 := by exact_mod_cast (by omega : n ≠ 0)
  funext i j
  simp only [centred, Teki.mean, Pi.add_apply, Matrix.add_apply, mul_apply, transpose_apply, mulVec, dotProduct]
  have h1 : ∑ k, (f k j + ∑ a, G j a * w k a) = ∑ k, f k j + ∑ a, G j a * ∑ k, w k a := by
    rw [Finset.sum_add_distrib, Finset.sum_comm]
    simp_rw [Finset.mul_sum]
  have h2 : ∑ a, (w i a - (∑ k, w k a) / n) / Real.sqrt ((n : ℝ) - 1) * G j a = (∑ a, G j a * w i a - (∑ a, G j a * ∑ k, w k a) / n) / Real.sqrt ((n : ℝ) - 1) := by
    rw [Finset.sum_div, ← Finset.sum_sub_distrib, Finset.sum_div]
    refine Finset.sum_congr rfl fun a _ => ?_
    ring
  rw [h1, h2]
  ring

theorem centred_innovation (hn : 1 ≤ n) (d : Fin dy → ℝ) (y p : Fin n → Fin dy → ℝ) : centred (fun i => d - y i + p i) = -centred y + centred p := by
  have hn' : (n : ℝ) ≠ 0 := by exact_mod_cast (by omega : n ≠ 0)
  funext i j
  simp only [centred, Teki.mean, Pi.add_apply, Pi.sub_apply, Matrix.add_apply, Matrix.neg_apply]
  have h1 : ∑ k, (d j - y k j + p k j) = n * d j - ∑ k, y k j + ∑ k, p k j := by
    rw [Finset.sum_add_distrib, Finset.sum_sub_distrib, Finset.sum_const, Finset.card_univ, Fintype.card_fin, nsmul_eq_mul]
  rw [h1]
  field_simp
  ring

/-- The perturbations the code adds to the innovations. -/
noncomputable def perturbations (c : Matrix (Fin dy) (Fin dy) ℝ) (alph : ℝ) (z : Fin n → Fin dy → ℝ) (i : Fin n) : Fin dy → ℝ := Real.sqrt (alph - 1) • (c *ᵥ z i)

omit [MeasurableSpace K] in
/-- C92, finite ensembles: with no nugget, if the perturbations have the sample moments they are drawn with (mean 0, uncorrelated with members and data, covariance `(α - 1)` times the conditional covariance of the
data), the ensemble mean moves to the Kalman mean and the sample covariance becomes the Kalman covariance `C_x - C_xy S⁻¹ C_yx` with `S = C_y + (α - 1) C_{y|x}`. -/
theorem C92_moments (env : Env K n dx dy) (next : Teki.State n dx dy → Teki.Extra K dy → ℝ) (s : Teki.State n dx dy) (e : Teki.Extra K dy) (hn : 1 ≤ n) (hnug : env.nugget = 0)
    (hinv : ∀ (d : ℕ) (A : Matrix (Fin d) (Fin d) ℝ), IsUnit A.det → env.inv d A = A⁻¹) {alph : ℝ} (halph : alph = 1 / ((Teki.update env next s e).1.temperature - s.temperature))
    {Cyx S c : Matrix (Fin dy) (Fin dy) ℝ} (hx : IsUnit (sampleCov s.value s.value).det)
    (hCyx : Cyx = sampleCov s.sim s.sim - (sampleCov s.value s.sim)ᵀ * (sampleCov s.value s.value)⁻¹ * sampleCov s.value s.sim)
    (hS : S = sampleCov s.sim s.sim + (alph - 1) • Cyx) (hSu : IsUnit S.det) (hchol : env.chol Cyx = some c)
    {p : Fin n → Fin dy → ℝ} (hp : p = perturbations c alph (env.normal (env.splitN e.key (Fin.last n).castSucc)))
    (hp1 : ∀ j, ∑ k, p k j = 0) (hp2 : sampleCov s.value p = 0) (hp3 : sampleCov s.sim p = 0) (hp4 : sampleCov p p = (alph - 1) • Cyx) :
    Teki.mean (Teki.update env next s e).1.value = Teki.mean s.value + (sampleCov s.value s.sim * S⁻¹) *ᵥ (env.data - Teki.mean s.sim) ∧
      sampleCov (Teki.update env next s e).1.value (Teki.update env next s e).1.value = sampleCov s.value s.value - sampleCov s.value s.sim * S⁻¹ * (sampleCov s.value s.sim)ᵀ := by
  have hn' : (n : ℝ) ≠ 0 := by exact_mod_cast (by omega : n ≠ 0)
  set Cxy := sampleCov s.value s.sim with hCxy
  set G := Cxy * S⁻¹ with hG
  have hcy : covYGivenX env (sampleCov s.value s.value, Cxy, sampleCov s.sim s.sim) = Cyx := by
    unfold covYGivenX
    simp only
    rw [hnug, zero_smul, add_zero, hinv _ _ hx, hCyx]
  have hgain : kalmanGain env (sampleCov s.value s.value, Cxy, sampleCov s.sim s.sim) alph = G := by
    unfold kalmanGain
    simp only
    rw [hcy, ← hS, hnug, zero_smul, add_zero, hinv _ _ hSu]
  have hval : (Teki.update env next s e).1.value = fun i => s.value i + G *ᵥ (env.data - s.sim i + p i) := by
    funext i
    rw [C92_ensemble, ← halph]
    unfold memberUpdate
    rw [hgain, hcy, hnug, zero_smul, add_zero, hchol, hp]
    simp only [perturbations, vecMul_transpose]
  refine ⟨?_, ?_⟩
  · rw [hval]
    funext j
    simp only [Teki.mean, Pi.add_apply, mulVec, dotProduct, Pi.sub_apply]
    rw [Finset.sum_add_distrib, Finset.sum_comm, add_div, Finset.sum_div (s := Finset.univ) (f := fun a => ∑ k, _)]
    congr 1
    refine Finset.sum_congr rfl fun a _ => ?_
    rw [← Finset.mul_sum, Finset.sum_add_distrib, hp1, add_zero, Finset.sum_sub_distrib, Finset.sum_const, Finset.card_univ, Fintype.card_fin, nsmul_eq_mul]
    field_simp
  · have hGS : G * S = Cxy := by rw [hG, Matrix.mul_assoc, Matrix.nonsing_inv_mul _ hSu, Matrix.mul_one]
    rw [hval, ← sampleCov_eq hn, centred_move hn, centred_innovation hn]
    rw [← sampleCov_eq hn] at hp2 hp3 hp4
    have h4 : (centred s.value)ᵀ * centred s.sim = Cxy := sampleCov_eq hn _ _
    have h5 : (centred s.sim)ᵀ * centred s.sim = sampleCov s.sim s.sim := sampleCov_eq hn _ _
    have h6 : (centred s.sim)ᵀ * centred s.value = Cxyᵀ := by rw [← h4, transpose_mul, transpose_transpose]
    have h7 : (centred p)ᵀ * centred s.value = 0 := by
      have := congrArg transpose hp2
      rwa [transpose_mul, transpose_transpose, transpose_zero] at this
    have h8 : (centred p)ᵀ * centred s.sim = 0 := by
      have := congrArg transpose hp3
      rwa [transpose_mul, transpose_transpose, transpose_zero] at this
    have hW : (-centred s.sim + centred p)ᵀ * (-centred s.sim + centred p) = S := by
      rw [transpose_add, transpose_neg, Matrix.add_mul, Matrix.mul_add, Matrix.mul_add, Matrix.neg_mul, Matrix.neg_mul, Matrix.mul_neg, Matrix.mul_neg, h5, hp3, h8, hp4, hS]
      simp
    have hXW : (centred s.value)ᵀ * (-centred s.sim + centred p) = -Cxy := by rw [Matrix.mul_add, Matrix.mul_neg, h4, hp2, add_zero]
    have hWX : (-centred s.sim + centred p)ᵀ * centred s.value = -Cxyᵀ := by rw [transpose_add, transpose_neg, Matrix.add_mul, Matrix.neg_mul, h6, h7, add_zero]
    set W := -centred s.sim + centred p with hWd
    set X := centred s.value with hX
    have e1 : (X + W * Gᵀ)ᵀ * (X + W * Gᵀ) = Xᵀ * X + (Xᵀ * W) * Gᵀ + G * (Wᵀ * X) + G * (Wᵀ * W) * Gᵀ := by
      rw [transpose_add, transpose_mul, transpose_transpose, Matrix.add_mul, Matrix.mul_add, Matrix.mul_add]
      simp only [Matrix.mul_assoc]
      abel
    rw [e1, hXW, hWX, hW, hGS, Matrix.neg_mul, Matrix.mul_neg, sampleCov_eq hn]
    abel

/-! ## Cases that meet the hypotheses -/

/-- For every `H`, positive definite `R` and data there is such a simulator. -/
theorem exists_linearSim (H : Matrix (Fin dy) (Fin dx) ℝ) {R : Matrix (Fin dy) (Fin dy) ℝ} (hR : R.PosDef) (y : Fin dy → ℝ) :
    ∃ env : Env (Fin dy → ℝ) n dx dy, LinearSim env (stdNormal dy) H R ∧ env.data = y := by
  classical
  obtain ⟨L, hL, hLd⟩ := posDef_factor R hR
  refine ⟨{ inv := fun _ A => A⁻¹, chol := fun A => if h : A.PosDef then some (posDef_factor A h).choose else none, splitN := fun k _ => k, normal := fun _ => 0,
            simulate := fun x z => L *ᵥ z + H *ᵥ x, data := y, nugget := 0 }, ?_, rfl⟩
  refine ⟨inferInstance, hR, ?_, fun x => ?_, fun _ _ _ => rfl, fun A hA => ?_, rfl⟩
  · have h1 : Measurable fun z : (Fin dx → ℝ) × (Fin dy → ℝ) => L *ᵥ z.2 + H *ᵥ z.1 := by
      have h2 : Measurable fun x : Fin dy → ℝ => L *ᵥ x := by simpa only [add_zero] using measurable_affine L 0
      have h3 : Measurable fun x : Fin dx → ℝ => H *ᵥ x := by simpa only [add_zero] using measurable_affine H 0
      exact (h2.comp measurable_snd).add (h3.comp measurable_fst)
    exact h1
  · change (stdNormal dy).map (fun z => L *ᵥ z + H *ᵥ x) = _
    rw [stdNormal_map_affine _ L hLd, ← hL]
  · refine ⟨_, dif_pos hA, ?_⟩
    exact (posDef_factor A hA).choose_spec.1.symm

/-- Three unknowns, two data with correlated noise, temperatures 0, 1/4, 1/2, 1. -/
example (H : Matrix (Fin 2) (Fin 3) ℝ) (y : Fin 2 → ℝ) : ∃ env : Env (Fin 2 → ℝ) 100 3 2, env.data = y ∧ meanField env (stdNormal 2) 0 [1 / 4, 1 / 2, 1] (gauss 0 1)
    = (∫⁻ x, ENNReal.ofReal (gaussDensity (H *ᵥ x) !![2, 1; 1, 2] y) ∂gauss 0 1)⁻¹ • (gauss 0 1).withDensity fun x => ENNReal.ofReal (gaussDensity (H *ᵥ x) !![2, 1; 1, 2] y) := by
  have hR : (!![2, 1; 1, 2] : Matrix (Fin 2) (Fin 2) ℝ).PosDef := by
    refine PosDef.of_dotProduct_mulVec_pos (by ext i j; fin_cases i <;> fin_cases j <;> simp) fun x hx => ?_
    have h : x 0 ≠ 0 ∨ x 1 ≠ 0 := by
      by_contra hc
      push Not at hc
      exact hx (funext fun i => by fin_cases i <;> simp [hc.1, hc.2])
    simp only [star_trivial, dotProduct, mulVec, Fin.sum_univ_two, of_apply, cons_val_zero, cons_val_one]
    rcases h with h | h
    · nlinarith [sq_nonneg (x 0 + x 1), sq_nonneg (x 1), sq_pos_of_ne_zero h]
    · nlinarith [sq_nonneg (x 0 + x 1), sq_nonneg (x 0), sq_pos_of_ne_zero h]
  obtain ⟨env, h1, rfl⟩ := exists_linearSim (n := 100) H hR y
  exact ⟨env, rfl, C92_posterior h1 0 PosDef.one [1 / 4, 1 / 2, 1] (by simp only [List.pairwise_cons, List.mem_cons, List.not_mem_nil, or_false]; norm_num) rfl⟩

theorem sampleCov_eight (f g : Fin 8 → ℝ) (hf : ∑ k, f k = 0) (hg : ∑ k, g k = 0) :
    sampleCov (fun k (_ : Fin 1) => f k) (fun k (_ : Fin 1) => g k) = ((∑ k, f k * g k) / 7) • (1 : Matrix (Fin 1) (Fin 1) ℝ) := by
  funext i j
  fin_cases i; fin_cases j
  simp only [sampleCov, hf, hg, zero_div, sub_zero, Matrix.smul_apply, smul_eq_mul, Nat.cast_ofNat]
  norm_num

/-- Eight members, data 3: states `±1`, simulator noise `±1` and perturbations `±1` vary independently; the temperature goes from 0 to 1/2. The mean moves from 0 to 1 and the variance from 8/7 to 16/21. -/
example : ∃ (env : Env Unit 8 1 1) (next : Teki.State 8 1 1 → Teki.Extra Unit 1 → ℝ) (s : Teki.State 8 1 1) (e : Teki.Extra Unit 1),
    env.data = (fun _ => 3) ∧ sampleCov s.value s.value = (8 / 7 : ℝ) • 1 ∧ Teki.mean s.value = 0 ∧
    Teki.mean (Teki.update env next s e).1.value = (fun _ => 1) ∧ sampleCov (Teki.update env next s e).1.value (Teki.update env next s e).1.value = (16 / 21 : ℝ) • 1 := by
  set a : Fin 8 → ℝ := ![1, 1, 1, 1, -1, -1, -1, -1] with ha
  set b : Fin 8 → ℝ := ![1, 1, -1, -1, 1, 1, -1, -1] with hb
  set q : Fin 8 → ℝ := ![1, -1, 1, -1, 1, -1, 1, -1] with hq
  have ha0 : ∑ k, a k = 0 := by
    rw [Fin.sum_univ_eight]; change (1 : ℝ) + 1 + 1 + 1 + -1 + -1 + -1 + -1 = 0; norm_num
  have hs0 : ∑ k, (a k + b k) = 0 := by
    rw [Fin.sum_univ_eight]
    change ((1 : ℝ) + 1) + (1 + 1) + (1 + -1) + (1 + -1) + (-1 + 1) + (-1 + 1) + (-1 + -1) + (-1 + -1) = 0; norm_num
  have hq0 : ∑ k, q k = 0 := by
    rw [Fin.sum_univ_eight]; change (1 : ℝ) + -1 + 1 + -1 + 1 + -1 + 1 + -1 = 0; norm_num
  have haa : ∑ k, a k * a k = 8 := by
    rw [Fin.sum_univ_eight]
    change (1 : ℝ) * 1 + 1 * 1 + 1 * 1 + 1 * 1 + -1 * -1 + -1 * -1 + -1 * -1 + -1 * -1 = 8; norm_num
  have has : ∑ k, a k * (a k + b k) = 8 := by
    rw [Fin.sum_univ_eight]
    change (1 : ℝ) * (1 + 1) + 1 * (1 + 1) + 1 * (1 + -1) + 1 * (1 + -1) + -1 * (-1 + 1) + -1 * (-1 + 1) + -1 * (-1 + -1) + -1 * (-1 + -1) = 8; norm_num
  have hss : ∑ k, (a k + b k) * (a k + b k) = 16 := by
    rw [Fin.sum_univ_eight]
    change ((1 : ℝ) + 1) * (1 + 1) + (1 + 1) * (1 + 1) + (1 + -1) * (1 + -1) + (1 + -1) * (1 + -1) + (-1 + 1) * (-1 + 1) + (-1 + 1) * (-1 + 1) + (-1 + -1) * (-1 + -1) + (-1 + -1) * (-1 + -1) = 16
    norm_num
  have haq : ∑ k, a k * q k = 0 := by
    rw [Fin.sum_univ_eight]
    change (1 : ℝ) * 1 + 1 * -1 + 1 * 1 + 1 * -1 + -1 * 1 + -1 * -1 + -1 * 1 + -1 * -1 = 0; norm_num
  have hsq : ∑ k, (a k + b k) * q k = 0 := by
    rw [Fin.sum_univ_eight]
    change ((1 : ℝ) + 1) * 1 + (1 + 1) * -1 + (1 + -1) * 1 + (1 + -1) * -1 + (-1 + 1) * 1 + (-1 + 1) * -1 + (-1 + -1) * 1 + (-1 + -1) * -1 = 0; norm_num
  have hqq : ∑ k, q k * q k = 8 := by
    rw [Fin.sum_univ_eight]
    change (1 : ℝ) * 1 + -1 * -1 + 1 * 1 + -1 * -1 + 1 * 1 + -1 * -1 + 1 * 1 + -1 * -1 = 8; norm_num
  have hx := sampleCov_eight a a ha0 ha0
  have hxy := sampleCov_eight a (fun k => a k + b k) ha0 hs0
  have hy := sampleCov_eight (fun k => a k + b k) (fun k => a k + b k) hs0 hs0
  have hxq := sampleCov_eight a q ha0 hq0
  have hyq := sampleCov_eight (fun k => a k + b k) q hs0 hq0
  have hpp := sampleCov_eight q q hq0 hq0
  rw [haa] at hx; rw [has] at hxy; rw [hss] at hy; rw [haq, zero_div, zero_smul] at hxq; rw [hsq, zero_div, zero_smul] at hyq; rw [hqq] at hpp
  have hiv : ∀ r : ℝ, r ≠ 0 → (r • (1 : Matrix (Fin 1) (Fin 1) ℝ))⁻¹ = r⁻¹ • 1 := fun r hr =>
    Matrix.inv_eq_left_inv (by rw [Matrix.smul_mul, Matrix.mul_smul, smul_smul, Matrix.one_mul, inv_mul_cancel₀ hr, one_smul])
  have hun : ∀ r : ℝ, r ≠ 0 → IsUnit (r • (1 : Matrix (Fin 1) (Fin 1) ℝ)).det := fun r hr => by simpa using hr
  have hc : Real.sqrt (8 / 7) ≠ 0 := by positivity
  let env : Env Unit 8 1 1 := { inv := fun _ A => A⁻¹, chol := fun A => some (Real.sqrt (A 0 0) • 1), splitN := fun _ _ => (), normal := fun _ k _ => q k / Real.sqrt (8 / 7),
                                simulate := fun x _ => x, data := fun _ => 3, nugget := 0 }
  let s : Teki.State 8 1 1 := { value := fun k _ => a k, sim := fun k _ => a k + b k, temperature := 0 }
  let e : Teki.Extra Unit 1 := { key := (), iter := 0, prec := 0 }
  have h := C92_moments env (fun _ _ => 1 / 2) s e (by norm_num) rfl (fun _ _ _ => rfl) (alph := 2) (by change (2 : ℝ) = 1 / (1 / 2 - 0); norm_num)
    (Cyx := (8 / 7 : ℝ) • 1) (S := (24 / 7 : ℝ) • 1) (c := Real.sqrt (8 / 7) • 1) (p := fun k _ => q k) (by rw [hx]; exact hun _ (by norm_num))
    (by
      rw [hx, hxy, hy, hiv _ (by norm_num)]
      simp only [Matrix.transpose_smul, Matrix.transpose_one, Matrix.smul_mul, Matrix.mul_smul, Matrix.one_mul, smul_smul, ← sub_smul]
      norm_num)
    (by rw [hy, smul_smul, ← add_smul]; norm_num) (hun _ (by norm_num)) (by simp [env])
    (by
      funext k j
      fin_cases j
      simp only [perturbations, env, Matrix.smul_mulVec, Matrix.one_mulVec, Pi.smul_apply, smul_eq_mul]
      rw [mul_div_cancel₀ _ hc]
      norm_num)
    (fun _ => hq0) hxq hyq (by rw [hpp, smul_smul]; norm_num)
  refine ⟨env, fun _ _ => 1 / 2, s, e, rfl, hx, ?_, ?_, ?_⟩
  · funext j
    simp only [Teki.mean, s, ha0, zero_div, Pi.zero_apply]
  · rw [h.1, hxy, hiv _ (by norm_num)]
    funext j
    simp only [Teki.mean, s, env, ha0, hs0, Matrix.smul_mul, Matrix.mul_smul, Matrix.one_mul, smul_smul, Matrix.smul_mulVec, Matrix.one_mulVec, Pi.add_apply, Pi.smul_apply, Pi.sub_apply, smul_eq_mul]
    norm_num
  · rw [h.2, hx, hxy, hiv _ (by norm_num)]
    simp only [Matrix.transpose_smul, Matrix.transpose_one, Matrix.smul_mul, Matrix.mul_smul, Matrix.one_mul, smul_smul, ← sub_smul]
    norm_num

end Mocat.Props
