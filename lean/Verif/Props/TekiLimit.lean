import Verif.Lemmas.TekiStep
import Verif.Props.EnkfLimit
import Verif.Props.Teki
/-!
# C126: ensembles of tempered ensemble Kalman inversion as they grow

The draws come from an ideal generator (`Verif.Spec.Tape`).
-/
namespace Mocat.Props
open Mocat Mocat.Teki Mocat.Spec Mocat.Ideal Mocat.Meas Mocat.MatGauss Matrix MeasureTheory ProbabilityTheory Filter Topology
open scoped ENNReal

theorem scheduleAt_get {l : List ℝ} {k : ℕ} (hk : k < l.length) : Smc.scheduleAt l k = l[k] := by
  unfold Smc.scheduleAt
  rw [min_eq_left (by omega), List.getD_eq_getElem _ _ hk]

theorem temps_schedule {l : List ℝ} (hinc : l.Pairwise (· < ·)) (hstep : ∀ j (h : j + 1 < l.length), l[j + 1] - l[j] ≤ 1) (T : ℝ) (it : ℤ) {k : ℕ} (hk : k < l.length) (j : ℕ) (hj : j < k) :
    temperatureAt (Teki.Config.init (some l) T it 0) j < temperatureAt (Teki.Config.init (some l) T it 0) (j + 1) ∧
      temperatureAt (Teki.Config.init (some l) T it 0) (j + 1) - temperatureAt (Teki.Config.init (some l) T it 0) j ≤ 1 := by
  change Smc.scheduleAt l j < Smc.scheduleAt l (j + 1) ∧ Smc.scheduleAt l (j + 1) - Smc.scheduleAt l j ≤ 1
  rw [scheduleAt_get (by omega : j < l.length), scheduleAt_get (by omega : j + 1 < l.length)]
  exact ⟨List.pairwise_iff_getElem.1 hinc j (j + 1) (by omega) (by omega) (by omega), hstep j (by omega)⟩

theorem head_schedule {l : List ℝ} (h0 : l.head? = some 0) (T : ℝ) (it : ℤ) : temperatureAt (Teki.Config.init (some l) T it 0) 0 = 0 := by
  have hpos : 0 < l.length := by cases l <;> simp at h0 ⊢
  change Smc.scheduleAt l 0 = 0
  rw [scheduleAt_get hpos]
  rw [List.head?_eq_getElem?, List.getElem?_eq_getElem hpos] at h0
  exact Option.some.inj h0

variable {dx dy : ℕ}

/-! ## The limit -/

/-- What the code takes for the covariance of the data given the values, for values of covariance `P` and nugget `ν`. -/
noncomputable def tekiCond (ν : ℝ) (H : Matrix (Fin dy) (Fin dx) ℝ) (R : Matrix (Fin dy) (Fin dy) ℝ) (P : Matrix (Fin dx) (Fin dx) ℝ) : Matrix (Fin dy) (Fin dy) ℝ :=
  H * P * Hᵀ + R - H * P * (P + ν • 1)⁻¹ * (P * Hᵀ)

noncomputable def tekiGain (ν : ℝ) (H : Matrix (Fin dy) (Fin dx) ℝ) (R : Matrix (Fin dy) (Fin dy) ℝ) (α : ℝ) (P : Matrix (Fin dx) (Fin dx) ℝ) : Matrix (Fin dx) (Fin dy) ℝ :=
  P * Hᵀ * (H * P * Hᵀ + R + (α - 1) • tekiCond ν H R P + ν • 1)⁻¹

/-- Mean and covariance after an update with nugget `ν`. -/
noncomputable def tekiNext (ν : ℝ) (H : Matrix (Fin dy) (Fin dx) ℝ) (R : Matrix (Fin dy) (Fin dy) ℝ) (data : Fin dy → ℝ) (α : ℝ) (c : (Fin dx → ℝ) × Matrix (Fin dx) (Fin dx) ℝ) :
    (Fin dx → ℝ) × Matrix (Fin dx) (Fin dx) ℝ :=
  let G := tekiGain ν H R α c.2
  (c.1 + G *ᵥ (data - H *ᵥ c.1), (1 - G * H) * c.2 * (1 - G * H)ᵀ + G * (R + (α - 1) • (tekiCond ν H R c.2 + ν • 1)) * Gᵀ)

section
variable {ν : ℝ} {H : Matrix (Fin dy) (Fin dx) ℝ} {R : Matrix (Fin dy) (Fin dy) ℝ} {P : Matrix (Fin dx) (Fin dx) ℝ}

theorem tekiCond_zero (hP : P.PosDef) : tekiCond 0 H R P = R := by
  unfold tekiCond
  rw [zero_smul, add_zero, Matrix.mul_assoc (H * P), ← Matrix.mul_assoc P⁻¹, nonsing_inv_mul _ (PosDef.isUnit_det' hP), Matrix.one_mul, add_sub_cancel_left]

theorem posDef_nugget {d : ℕ} {A : Matrix (Fin d) (Fin d) ℝ} (hA : A.PosDef) (hν : 0 ≤ ν) : (A + ν • 1).PosDef :=
  hA.add_posSemidef (PosSemidef.one.smul hν)

theorem tekiCond_posDef (hν : 0 ≤ ν) (hP : P.PosDef) (hR : R.PosDef) : (tekiCond ν H R P).PosDef := by
  rcases hν.eq_or_lt with rfl | hν
  · rw [tekiCond_zero hP]
    exact hR
  · have h1 : (ν • (1 : Matrix (Fin dx) (Fin dx) ℝ)).PosDef := PosDef.one.smul hν
    have h2 := cond_posDef (1 : Matrix (Fin dx) (Fin dx) ℝ) hP h1
    have h3 := posDef_innovation H h2 hR
    have : tekiCond ν H R P = H * (P - P * (1 : Matrix (Fin dx) (Fin dx) ℝ)ᵀ * (1 * P * (1 : Matrix (Fin dx) (Fin dx) ℝ)ᵀ + ν • 1)⁻¹ * 1 * P) * Hᵀ + R := by
      unfold tekiCond
      simp only [transpose_one, Matrix.mul_one, Matrix.one_mul, Matrix.mul_sub, Matrix.sub_mul, Matrix.mul_assoc]
      abel
    rw [this]
    exact h3

theorem tekiInnov_posDef (hν : 0 ≤ ν) (hP : P.PosDef) (hR : R.PosDef) {α : ℝ} (hα : 1 ≤ α) : (H * P * Hᵀ + R + (α - 1) • tekiCond ν H R P + ν • 1).PosDef :=
  posDef_nugget ((posDef_innovation H hP hR).add_posSemidef ((tekiCond_posDef hν hP hR).posSemidef.smul (sub_nonneg.2 hα))) hν

theorem tekiNext_posDef (hν : 0 ≤ ν) (hR : R.PosDef) {α : ℝ} (hα : 1 ≤ α) (data : Fin dy → ℝ) {c : (Fin dx → ℝ) × Matrix (Fin dx) (Fin dx) ℝ} (hc : c.2.PosDef) : (tekiNext ν H R data α c).2.PosDef :=
  joseph_posDef hc (hR.add_posSemidef ((posDef_nugget (tekiCond_posDef hν hc hR) hν).posSemidef.smul (sub_nonneg.2 hα))) H _

/-- Without a nugget: Kalman mean and covariance with observation covariance `α R`. -/
theorem tekiNext_zero (hR : R.PosDef) {α : ℝ} (hα : 1 ≤ α) (data : Fin dy → ℝ) (m : Fin dx → ℝ) (hP : P.PosDef) : tekiNext 0 H R data α (m, P)
    = (m + (P * Hᵀ * (H * P * Hᵀ + α • R)⁻¹) *ᵥ (data - H *ᵥ m), P - P * Hᵀ * (H * P * Hᵀ + α • R)⁻¹ * H * P) := by
  have hG : tekiGain 0 H R α P = P * Hᵀ * (H * P * Hᵀ + α • R)⁻¹ := by
    unfold tekiGain
    rw [tekiCond_zero hP, zero_smul, add_zero, sub_smul, one_smul]
    congr 2
    abel
  have haR : (α • R).PosDef := hR.smul (by linarith)
  have h1 : R + (α - 1) • (tekiCond 0 H R P + (0 : ℝ) • 1) = α • R := by
    rw [tekiCond_zero hP, zero_smul, add_zero, sub_smul, one_smul]
    abel
  unfold tekiNext
  dsimp only
  rw [h1, hG]
  exact Prod.ext rfl (joseph hP haR H rfl)

end

/-! ## One stage -/

section
variable {n : ℕ}

theorem moved_eq (env : Env Keys.Key n dx dy) (α : ℝ) (x : Fin n → Fin dx → ℝ) (y z : Fin n → Fin dy → ℝ) (i : Fin n) :
    moved env α x y z i = x i + kalmanGain env (sampleCov x x, sampleCov x y, sampleCov y y) α *ᵥ
      (env.data - y i + Real.sqrt (α - 1) • ((env.chol (covYGivenX env (sampleCov x x, sampleCov x y, sampleCov y y) + env.nugget • 1)).getD 0 *ᵥ z i)) := by
  unfold moved memberUpdate
  simp only
  rcases env.chol (covYGivenX env (sampleCov x x, sampleCov x y, sampleCov y y) + env.nugget • 1) with _ | c
  · simp
  · simp [vecMul_transpose]

end

/-- `inv` and `cholesky` are right on positive definite matrices. -/
structure GoodRoutines (inv : ∀ d, Matrix (Fin d) (Fin d) ℝ → Matrix (Fin d) (Fin d) ℝ) (chol : Matrix (Fin dy) (Fin dy) ℝ → Option (Matrix (Fin dy) (Fin dy) ℝ)) : Prop where
  inv_right : ∀ (d : ℕ) (A : Matrix (Fin d) (Fin d) ℝ), A.PosDef → inv d A = A⁻¹
  chol_right : ∀ A : Matrix (Fin dy) (Fin dy) ℝ, A.PosDef → ∃ c, chol A = some c ∧ c * cᵀ = A
  inv_meas : ∀ d i j, Measurable fun A : Fin d → Fin d → ℝ => inv d A i j
  chol_meas : ∀ i j, Measurable fun A : Fin dy → Fin dy → ℝ => (chol A).getD 0 i j

/-- The routines of an ensemble of `n` members. -/
def tekiEnvs (inv : ∀ d, Matrix (Fin d) (Fin d) ℝ → Matrix (Fin d) (Fin d) ℝ) (chol : Matrix (Fin dy) (Fin dy) ℝ → Option (Matrix (Fin dy) (Fin dy) ℝ)) (data : Fin dy → ℝ) (ν : ℝ) (n : ℕ) :
    Env Keys.Key n dx dy :=
  { inv := inv, chol := chol, splitN := fun k i => (i : ℕ) :: k, normal := fun _ => 0, simulate := fun _ _ => 0, data := data, nugget := ν }

section
variable {Ω : ℕ → Type*} [∀ n, MeasurableSpace (Ω n)] {μ : ∀ n, Measure (Ω n)} [∀ n, IsProbabilityMeasure (μ n)]

omit [∀ n, IsProbabilityMeasure (μ n)] in
theorem Settles.replace {V : Type*} [TopologicalSpace V] {f : ∀ n, Ω n → V} {c : V} (h : InProb μ f c) {x x' : ∀ n, Ω n → Fin n → Fin dx → ℝ} {m : Fin dx → ℝ} {P : Matrix (Fin dx) (Fin dx) ℝ}
    (hx : Settles μ x m P) {U : Set V} (hU : U ∈ 𝓝 c) (he : ∀ n ω, f n ω ∈ U → x n ω = x' n ω) : Settles μ x' m P :=
  ⟨h.replace hx.mean hU (.of_forall fun n ω hω => by rw [he n ω hω]), h.replace hx.cov hU (.of_forall fun n ω hω => by rw [he n ω hω])⟩

omit [∀ n, IsProbabilityMeasure (μ n)] in
theorem Settles.moved {inv : ∀ d, Matrix (Fin d) (Fin d) ℝ → Matrix (Fin d) (Fin d) ℝ} {chol : Matrix (Fin dy) (Fin dy) ℝ → Option (Matrix (Fin dy) (Fin dy) ℝ)} (hg : GoodRoutines inv chol)
    (data : Fin dy → ℝ) {ν : ℝ} (hν : 0 ≤ ν) {H : Matrix (Fin dy) (Fin dx) ℝ} {R : Matrix (Fin dy) (Fin dy) ℝ} (hR : R.PosDef) {α : ℝ} (hα : 1 ≤ α)
    {x : ∀ n, Ω n → Fin n → Fin dx → ℝ} {y z : ∀ n, Ω n → Fin n → Fin dy → ℝ} {c : (Fin dx → ℝ) × Matrix (Fin dx) (Fin dx) ℝ} (hx : Settles μ x c.1 c.2) (hP : c.2.PosDef)
    (he : Settles μ (fun n ω i => y n ω i - H *ᵥ x n ω i) 0 R) (hxe : InProb μ (fun n ω => sampleCov (x n ω) fun i => y n ω i - H *ᵥ x n ω i) 0)
    (hz : Settles μ z 0 1) (hxz : InProb μ (fun n ω => sampleCov (x n ω) (z n ω)) 0) (hez : InProb μ (fun n ω => sampleCov (fun i => y n ω i - H *ᵥ x n ω i) (z n ω)) 0) :
    Settles μ (fun n ω => moved (tekiEnvs inv chol data ν n) α (x n ω) (y n ω) (z n ω)) (tekiNext ν H R data α c).1 (tekiNext ν H R data α c).2 := by
  obtain ⟨m, P⟩ := c
  dsimp only at hx hP
  -- sample covariances
  have hy : ∀ n ω, y n ω = fun i => H *ᵥ x n ω i + (1 : Matrix (Fin dy) (Fin dy) ℝ) *ᵥ (y n ω i - H *ᵥ x n ω i) + 0 := fun n ω => by
    funext i
    rw [one_mulVec, add_zero, add_sub_cancel]
  have cyy : InProb μ (fun n ω => sampleCov (y n ω) (y n ω)) (H * P * Hᵀ + R) := by
    have h := (hx.affine' he hxe (inProb_const H) (inProb_const (0 : Fin dy → ℝ)) (inProb_const (1 : Matrix (Fin dy) (Fin dy) ℝ))).cov
    rw [transpose_one, Matrix.mul_one, Matrix.one_mul] at h
    exact h.congr (.of_forall fun n ω => by rw [← hy n ω])
  have cxy : InProb μ (fun n ω => sampleCov (x n ω) (y n ω)) (P * Hᵀ) := by
    have h := (hx.cov.matMul (inProb_const Hᵀ)).matAdd hxe
    rw [add_zero] at h
    refine h.congr (.of_forall fun n ω => ?_)
    conv_rhs => rw [hy n ω]
    simp only [one_mulVec, add_zero]
    rw [← sampleCov_transpose (fun i => H *ᵥ x n ω i + (y n ω i - H *ᵥ x n ω i)) (x n ω), sampleCov_add_left, sampleCov_mulVec_left, transpose_add, transpose_mul, sampleCov_transpose, sampleCov_transpose]
  have nug : ∀ {d : ℕ} {f : ∀ n, Ω n → Matrix (Fin d) (Fin d) ℝ} {A : Matrix (Fin d) (Fin d) ℝ}, InProb μ f A → InProb μ (fun n ω => f n ω + ν • 1) (A + ν • 1) := fun h => h.matAdd (inProb_const _)
  have cxν := nug hx.cov
  have hPν := posDef_nugget hP hν
  -- the conditional covariance with an exact inverse
  set CY : ∀ n, Ω n → Matrix (Fin dy) (Fin dy) ℝ := fun n ω =>
    sampleCov (y n ω) (y n ω) - (sampleCov (x n ω) (y n ω))ᵀ * (sampleCov (x n ω) (x n ω) + ν • 1)⁻¹ * sampleCov (x n ω) (y n ω) with hCY
  have cC : InProb μ CY (tekiCond ν H R P) := by
    have h1 := (cxy.matTranspose.matMul (cxν.matInv (PosDef.isUnit_det' hPν).ne_zero)).matMul cxy
    rw [transpose_mul, transpose_transpose, PosDef.symm hP] at h1
    exact (cyy.prod h1).comp (φ := fun z : Matrix (Fin dy) (Fin dy) ℝ × Matrix (Fin dy) (Fin dy) ℝ => z.1 - z.2) (continuous_fst.sub continuous_snd).continuousAt
  have sC : ∀ n ω, (CY n ω)ᵀ = CY n ω := fun n ω => by
    simp only [hCY, transpose_sub, transpose_mul, sampleCov_transpose, transpose_nonsing_inv, transpose_add, transpose_smul, transpose_one, Matrix.mul_assoc]
  have pC := tekiCond_posDef (H := H) hν hP hR
  have pCν := posDef_nugget pC hν
  have pS := tekiInnov_posDef (H := H) hν hP hR hα
  set SA : ∀ n, Ω n → Matrix (Fin dy) (Fin dy) ℝ := fun n ω => sampleCov (y n ω) (y n ω) + (α - 1) • CY n ω + ν • 1 with hSA
  have cS : InProb μ SA (H * P * Hᵀ + R + (α - 1) • tekiCond ν H R P + ν • 1) :=
    nug (cyy.matAdd (cC.comp (φ := fun M : Matrix (Fin dy) (Fin dy) ℝ => (α - 1) • M) (continuous_const_smul _).continuousAt))
  have sS : ∀ n ω, (SA n ω)ᵀ = SA n ω := fun n ω => by
    simp only [hSA, transpose_add, transpose_smul, sC, sampleCov_transpose, transpose_one]
  have cG : InProb μ (fun n ω => sampleCov (x n ω) (y n ω) * (SA n ω)⁻¹) (tekiGain ν H R α P) := cxy.matMul (cS.matInv (PosDef.isUnit_det' pS).ne_zero)
  -- perturbations
  set s := Real.sqrt (α - 1) with hs
  have hs2 : s * s = α - 1 := Real.mul_self_sqrt (sub_nonneg.2 hα)
  set B : ∀ n, Ω n → Matrix (Fin dy) (Fin dy) ℝ := fun n ω => s • (chol (CY n ω + ν • 1)).getD 0 with hB
  have cB : InProb μ (fun n ω => B n ω * (B n ω)ᵀ) ((α - 1) • (tekiCond ν H R P + ν • 1)) := by
    have h1 := (nug cC).comp (φ := fun M : Matrix (Fin dy) (Fin dy) ℝ => (α - 1) • M) (continuous_const_smul _).continuousAt
    refine (nug cC).replace h1 (posDef_near pCν) (.of_forall fun n ω hω => ?_)
    obtain ⟨c, hc1, hc2⟩ := hg.chol_right _ (hω (by simp only [transpose_add, transpose_smul, transpose_one, sC]))
    simp only [hB, hc1, Option.getD_some, transpose_smul, Matrix.smul_mul, Matrix.mul_smul, smul_smul, hs2, hc2]
  have hw := he.add (hz.factor cB) (hez.cross_factor cB) (-1)
  have hxw : InProb μ (fun n ω => sampleCov (x n ω) fun i => (-1 : ℝ) • (y n ω i - H *ᵥ x n ω i) + B n ω *ᵥ z n ω i) 0 := by
    have h1 := ((hxe.comp (φ := fun M : Matrix (Fin dx) (Fin dy) ℝ => (-1 : ℝ) • M) (continuous_const_smul _).continuousAt).matAdd (hxz.cross_factor cB))
    rw [smul_zero, add_zero] at h1
    refine h1.congr (.of_forall fun n ω => ?_)
    rw [← sampleCov_transpose (fun i => (-1 : ℝ) • (y n ω i - H *ᵥ x n ω i) + B n ω *ᵥ z n ω i), sampleCov_add_left, transpose_add, sampleCov_transpose, sampleCov_transpose]
    congr 1
    have h2 := sampleCov_mulVec_left ((-1 : ℝ) • (1 : Matrix (Fin dy) (Fin dy) ℝ)) (fun i => y n ω i - H *ᵥ x n ω i) (x n ω)
    simp only [smul_mulVec, one_mulVec, Matrix.smul_mul, Matrix.one_mul] at h2
    rw [← sampleCov_transpose (fun i => (-1 : ℝ) • (y n ω i - H *ᵥ x n ω i)), h2, transpose_smul, sampleCov_transpose]
  rw [smul_zero, add_zero] at hw
  have cA : InProb μ (fun n ω => 1 - sampleCov (x n ω) (y n ω) * (SA n ω)⁻¹ * H) (1 - tekiGain ν H R α P * H) :=
    (cG.matMul (inProb_const H)).comp (φ := fun M : Matrix (Fin dx) (Fin dx) ℝ => 1 - M) (continuous_const.sub continuous_id).continuousAt
  have hmain := hx.affine' hw hxw cA (cG.matVec (inProb_const data)) cG
  have e1 : (1 - tekiGain ν H R α P * H) *ᵥ m + tekiGain ν H R α P *ᵥ data = (tekiNext ν H R data α (m, P)).1 := by
    unfold tekiNext
    dsimp only
    rw [sub_mulVec, one_mulVec, mulVec_sub, mulVec_mulVec]
    abel
  have e2 : (1 - tekiGain ν H R α P * H) * P * (1 - tekiGain ν H R α P * H)ᵀ + tekiGain ν H R α P * ((-1 : ℝ) ^ 2 • R + (α - 1) • (tekiCond ν H R P + ν • 1)) * (tekiGain ν H R α P)ᵀ
      = (tekiNext ν H R data α (m, P)).2 := by
    unfold tekiNext
    dsimp only
    rw [neg_one_sq, one_smul]
  rw [e1, e2] at hmain
  refine Settles.replace (cxν.prod cS) hmain (prod_mem_nhds (posDef_near hPν) (posDef_near pS)) fun n ω hω => ?_
  have i1 := hg.inv_right _ _ (hω.1 (by simp only [transpose_add, transpose_smul, transpose_one, sampleCov_transpose]))
  have i2 := hg.inv_right _ _ (hω.2 (sS n ω))
  have hcy : covYGivenX (tekiEnvs inv chol data ν n) (sampleCov (x n ω) (x n ω), sampleCov (x n ω) (y n ω), sampleCov (y n ω) (y n ω)) = CY n ω := by
    unfold covYGivenX tekiEnvs
    simp only [i1, hCY]
  have hgain : kalmanGain (tekiEnvs inv chol data ν n) (sampleCov (x n ω) (x n ω), sampleCov (x n ω) (y n ω), sampleCov (y n ω) (y n ω)) α = sampleCov (x n ω) (y n ω) * (SA n ω)⁻¹ := by
    unfold kalmanGain
    rw [hcy]
    exact congrArg (sampleCov (x n ω) (y n ω) * ·) i2
  funext i
  rw [moved_eq, hgain, hcy]
  change _ = x n ω i + _ *ᵥ (data - y n ω i + s • ((chol (CY n ω + ν • 1)).getD 0 *ᵥ z n ω i))
  have hBz : B n ω *ᵥ z n ω i = s • ((chol (CY n ω + ν • 1)).getD 0 *ᵥ z n ω i) := smul_mulVec _ _ _
  rw [← hBz, sub_mulVec, one_mulVec, ← mulVec_mulVec, neg_one_smul]
  simp only [mulVec_add, mulVec_neg, mulVec_sub]
  abel

end

/-! ## Independence of the draws -/

section
variable {q : ℝ → ℝ} {X : ℕ → Type*} [∀ n, MeasurableSpace (X n)]

theorem fresh_rows' (hq : IsNormalDraw q) {a : ℕ} {x : ∀ n, Tape → X n} (hx : ∀ n, Measurable (x n)) {S : ℕ → Set Site} (hS : ∀ n, DependsOn (x n) (S n))
    {k : ℕ → Keys.Key} (hk : ∀ n, Disjoint (S n) (below (k n))) : Fresh (fun _ => ideal) x (fun n ω => normalRows q ω (k n) n a) (stdNormal a) where
  measurable_x := hx
  measurable_z n := normalRows_meas hq (k n) n a
  law n := by
    rw [map_pair (hk n) (hx n) (normalRows_meas hq (k n) n a) (hS n) (normalRows_dep (k n) n a)]
    congr 1
    exact map_normals hq (k n)

theorem fresh_tapes {x : ∀ n, Tape → X n} (hx : ∀ n, Measurable (x n)) {S : ℕ → Set Site} (hS : ∀ n, DependsOn (x n) (S n))
    {k : ℕ → Keys.Key} (hk : ∀ n, Disjoint (S n) (⋃ i : Fin n, below ((i : ℕ) :: k n))) : Fresh (fun _ => ideal) x (fun n ω (i : Fin n) => subtape ((i : ℕ) :: k n) ω) ideal where
  measurable_x := hx
  measurable_z n := measurable_pi_lambda _ fun i => measurable_subtape _
  law n := by
    have d2 : DependsOn (fun (ω : Tape) (i : Fin n) => subtape ((i : ℕ) :: k n) ω) (⋃ i : Fin n, below ((i : ℕ) :: k n)) := fun ω ω' h => by
      funext i
      exact subtape_dependsOn _ fun s hs => h s (Set.mem_iUnion.2 ⟨i, hs⟩)
    rw [map_pair (hk n) (hx n) (measurable_pi_lambda _ fun i => measurable_subtape _) (hS n) d2,
      map_pi (S := fun i : Fin n => below ((i : ℕ) :: k n)) (f := fun i ω => subtape ((i : ℕ) :: k n) ω) (fun a b hab => below_disjoint fun h => hab (Fin.ext h)) (fun i => measurable_subtape _)
        (fun i => subtape_dependsOn _)]
    simp only [map_subtape]

end

section
variable {Ω : ℕ → Type*} [∀ n, MeasurableSpace (Ω n)] {μ : ∀ n, Measure (Ω n)} [∀ n, IsProbabilityMeasure (μ n)] {E F : Type*} [MeasurableSpace E] [MeasurableSpace F] {ρ : Measure E} [IsProbabilityMeasure ρ]

omit [∀ n, IsProbabilityMeasure (μ n)] in
theorem fresh_comp {X Y : ℕ → Type*} [∀ n, MeasurableSpace (X n)] [∀ n, MeasurableSpace (Y n)] {x : ∀ n, Ω n → X n} {z : ∀ n, Ω n → Fin n → E} (h : Fresh μ x z ρ) {g : ∀ n, X n → Y n} (hg : ∀ n, Measurable (g n))
    [∀ n, SFinite ((μ n).map (x n))] : Fresh μ (fun n ω => g n (x n ω)) z ρ where
  measurable_x n := (hg n).comp (h.measurable_x n)
  measurable_z := h.measurable_z
  law n := by
    have h1 := congrArg (Measure.map (Prod.map (g n) id)) (h.law n)
    rw [Measure.map_map ((hg n).prodMap measurable_id) ((h.measurable_x n).prodMk (h.measurable_z n)), ← Measure.map_prod_map _ _ (hg n) measurable_id, Measure.map_map (hg n) (h.measurable_x n), Measure.map_id] at h1
    exact h1

/-- Noise whose distribution does not depend on where it is drawn is independent of the ensemble. -/
theorem fresh_noise {x : ∀ n, Ω n → Fin n → Fin dx → ℝ} {τ : ∀ n, Ω n → Fin n → E} (h : Fresh μ x τ ρ) {g : (Fin dx → ℝ) × E → F} (hg : Measurable g) {κ : Measure F}
    (hκ : ∀ v, ρ.map (fun e => g (v, e)) = κ) : Fresh μ x (fun n ω i => g (x n ω i, τ n ω i)) κ where
  measurable_x := h.measurable_x
  measurable_z n := measurable_pi_lambda _ fun i => hg.comp (((measurable_pi_apply i).comp (h.measurable_x n)).prodMk ((measurable_pi_apply i).comp (h.measurable_z n)))
  law n := by
    have := Measure.isProbabilityMeasure_map (μ := μ n) (h.measurable_x n).aemeasurable
    have hgv : ∀ v, Measurable fun e => g (v, e) := fun v => hg.comp measurable_prodMk_left
    have hκp : IsProbabilityMeasure κ := by
      rw [← hκ 0]
      exact Measure.isProbabilityMeasure_map (hgv 0).aemeasurable
    have hT : Measurable fun z : (Fin n → Fin dx → ℝ) × (Fin n → E) => (z.1, fun i => g (z.1 i, z.2 i)) :=
      measurable_fst.prodMk (measurable_pi_lambda _ fun i => hg.comp (((measurable_pi_apply i).comp measurable_fst).prodMk ((measurable_pi_apply i).comp measurable_snd)))
    have h1 := congrArg (Measure.map fun z : (Fin n → Fin dx → ℝ) × (Fin n → E) => (z.1, fun i => g (z.1 i, z.2 i))) (h.law n)
    rw [Measure.map_map hT ((h.measurable_x n).prodMk (h.measurable_z n))] at h1
    refine h1.trans ?_
    ext A hA
    have hA' : Measurable (A.indicator (1 : (Fin n → Fin dx → ℝ) × (Fin n → F) → ℝ≥0∞)) := measurable_const.indicator hA
    have hAT : Measurable fun z : (Fin n → Fin dx → ℝ) × (Fin n → E) => A.indicator (1 : (Fin n → Fin dx → ℝ) × (Fin n → F) → ℝ≥0∞) (z.1, fun i => g (z.1 i, z.2 i)) := hA'.comp hT
    rw [← lintegral_indicator_one hA, ← lintegral_indicator_one hA, lintegral_map hA' hT, lintegral_prod _ hAT.aemeasurable, lintegral_prod _ hA'.aemeasurable]
    refine lintegral_congr fun v => ?_
    have hv : Measurable fun e : Fin n → F => A.indicator (1 : (Fin n → Fin dx → ℝ) × (Fin n → F) → ℝ≥0∞) (v, e) := hA'.comp measurable_prodMk_left
    have hpi : (Measure.pi fun _ : Fin n => κ) = (Measure.pi fun _ : Fin n => ρ).map fun (e : Fin n → E) i => g (v i, e i) := by
      have : ∀ i, SigmaFinite (ρ.map fun e => g (v i, e)) := fun i => by
        rw [hκ]
        infer_instance
      rw [Measure.pi_map_pi (μ := fun _ : Fin n => ρ) (f := fun i e => g (v i, e)) fun i => (hgv _).aemeasurable]
      congr 1
      funext i
      exact (hκ _).symm
    have hm : Measurable fun (e : Fin n → E) i => g (v i, e i) := measurable_pi_lambda _ fun i => (hgv _).comp (measurable_pi_apply i)
    rw [hpi, lintegral_map hv hm]

end

theorem gauss_mean' {d : ℕ} (m : Fin d → ℝ) {P : Matrix (Fin d) (Fin d) ℝ} (hP : P.PosDef) (i : Fin d) : ∫ x, x i ∂gauss m P = m i := by
  obtain ⟨L, rfl, hL⟩ := posDef_factor P hP
  rw [← gauss_mean m hP i, integral_gaussDensity_mul]

theorem gauss_memLp_mul {d : ℕ} (m : Fin d → ℝ) {P : Matrix (Fin d) (Fin d) ℝ} (hP : P.PosDef) (i j : Fin d) : MemLp (fun x : Fin d → ℝ => x i * x j) 2 (gauss m P) := by
  obtain ⟨L, rfl, hL⟩ := posDef_factor P hP
  rw [← stdNormal_map_affine m L hL]
  refine (memLp_map_measure_iff (by fun_prop) (measurable_affine L m).aemeasurable).2 ?_
  have hl : ∀ i, MemLp (fun z : Fin d → ℝ => (L *ᵥ z) i) 2 (stdNormal d) := fun i => memLp_mulVec stdNormal_memLp L i
  have hq : MemLp (fun z : Fin d → ℝ => (L *ᵥ z) i * (L *ᵥ z) j) 2 (stdNormal d) := by
    have e : (fun z : Fin d → ℝ => (L *ᵥ z) i * (L *ᵥ z) j) = fun z => ∑ k, ∑ l, (L i k * L j l) * (z k * z l) := by
      funext z
      simp only [mulVec, dotProduct, Finset.sum_mul_sum]
      exact Finset.sum_congr rfl fun k _ => Finset.sum_congr rfl fun l _ => by ring
    rw [e]
    exact memLp_finsetSum _ fun k _ => memLp_finsetSum _ fun l _ => (stdNormal_memLp_mul k l).const_mul _
  have e : ((fun x : Fin d → ℝ => x i * x j) ∘ fun z => L *ᵥ z + m) = fun z => ((L *ᵥ z) i * (L *ᵥ z) j + m j * (L *ᵥ z) i) + (m i * (L *ᵥ z) j + m i * m j) := by
    funext z
    simp only [Function.comp_apply, Pi.add_apply]
    ring
  rw [e]
  have hp : IsProbabilityMeasure (stdNormal d) := by unfold stdNormal; infer_instance
  exact (hq.add ((hl i).const_mul _)).add (((hl j).const_mul _).add (memLp_const _))

/-! ## The chain of ensembles -/

/-- The key after `k` updates of a run with key `key`. -/
def tekiKey (key : Keys.Key) (n : ℕ) : ℕ → Keys.Key
  | 0 => (2 * n - 1) :: 0 :: key
  | k + 1 => (n + 1) :: tekiKey key n k

/-- The key of the data simulated at stage `k`. -/
def dataKey (key : Keys.Key) (n : ℕ) : ℕ → Keys.Key
  | 0 => 0 :: key
  | k + 1 => tekiKey key n k

section
variable (inv : ∀ d, Matrix (Fin d) (Fin d) ℝ → Matrix (Fin d) (Fin d) ℝ) (chol : Matrix (Fin dy) (Fin dy) ℝ → Option (Matrix (Fin dy) (Fin dy) ℝ)) (data : Fin dy → ℝ) (ν : ℝ) (q : ℝ → ℝ)
  (lik : (Fin dx → ℝ) → Tape → Fin dy → ℝ) (pr : Tape → Fin dx → ℝ) (T : ℕ → ℝ) (key : Keys.Key)

/-- The data simulated for the values of stage `k`. -/
def simAt (k n : ℕ) (x : Fin n → Fin dx → ℝ) (ω : Tape) : Fin n → Fin dy → ℝ := fun i => lik (x i) (subtape ((i : ℕ) :: dataKey key n k) ω)

/-- The values after `k` updates. -/
noncomputable def tekiAt : ℕ → (n : ℕ) → Tape → Fin n → Fin dx → ℝ
  | 0, _, ω => fun i => pr (subtape ((i : ℕ) :: 1 :: key) ω)
  | k + 1, n, ω => moved (tekiEnvs inv chol data ν n) (1 / (T (k + 1) - T k)) (tekiAt k n ω) (simAt lik key k n (tekiAt k n ω) ω) (normalRows q ω (n :: tekiKey key n k) n dy)

/-- A run of the code, from values drawn from the prior, with the draws `ω` of an ideal generator. -/
noncomputable def tekiChain (c : Teki.Config) (constrain : (Fin dx → ℝ) → Fin dx → ℝ) (anyNan : ∀ n, (Fin n → Fin dx → ℝ) → Bool) (n : ℕ) (ω : Tape) : List (Teki.State n dx dy) :=
  Teki.runFrom (tekiEnv (tekiEnvs inv chol data ν n) q lik ω) c constrain (anyNan n) (Teki.start (tekiEnv (tekiEnvs inv chol data ν n) q lik ω) (fun k i => i :: k) (fun k => pr (subtape k ω)) key)

variable {inv chol data ν q lik pr T key}

theorem teki_at {n : ℕ} (c : Teki.Config) (hT : ∀ k, ∀ (s : Teki.State n dx dy) (e : Teki.Extra Keys.Key dy), e.iter = k + 1 → Teki.nextTemperature c s e = T (k + 1)) (hT0 : T 0 = 0) (ω : Tape) (k : ℕ) :
    let r := bodyIter (Teki.update (tekiEnv (tekiEnvs inv chol data ν n) q lik ω) (Teki.nextTemperature c)) k
      (Teki.start (tekiEnv (tekiEnvs inv chol data ν n) q lik ω) (fun k i => i :: k) (fun k => pr (subtape k ω)) key)
    r.1 = ⟨tekiAt inv chol data ν q lik pr T key k n ω, simAt lik key k n (tekiAt inv chol data ν q lik pr T key k n ω) ω, T k⟩ ∧ r.2.key = tekiKey key n k ∧ r.2.iter = k := by
  intro r
  induction k with
  | zero => exact ⟨by rw [hT0]; rfl, rfl, rfl⟩
  | succ k ih =>
    obtain ⟨h1, h2, h3⟩ := ih
    have hr : r = Teki.update (tekiEnv (tekiEnvs inv chol data ν n) q lik ω) (Teki.nextTemperature c) _ _ := Mcmc.bodyIter_succ _ _ _
    set p := bodyIter (Teki.update (tekiEnv (tekiEnvs inv chol data ν n) q lik ω) (Teki.nextTemperature c)) k
      (Teki.start (tekiEnv (tekiEnvs inv chol data ν n) q lik ω) (fun k i => i :: k) (fun k => pr (subtape k ω)) key) with hp
    have hit : r.2.iter = k + 1 := by rw [hr]; exact congrArg (· + 1) h3
    have ht : r.1.temperature = T (k + 1) := by
      rw [hr, teki_update_temperature]
      refine hT k _ _ ?_
      rw [← hr]
      exact hit
    have hv : r.1.value = tekiAt inv chol data ν q lik pr T key (k + 1) n ω := by
      funext i
      rw [hr, C92_ensemble]
      have : (Teki.update (tekiEnv (tekiEnvs inv chol data ν n) q lik ω) (Teki.nextTemperature c) p.1 p.2).1.temperature = T (k + 1) := by rw [← hr]; exact ht
      rw [this, h1, h2]
      rfl
    have hs : r.1.sim = simAt lik key (k + 1) n (tekiAt inv chol data ν q lik pr T key (k + 1) n ω) ω := by
      have : r.1.sim = fun i => lik (r.1.value i) (subtape ((i : ℕ) :: p.2.key) ω) := by rw [hr]; rfl
      rw [this, hv, h2]
      rfl
    refine ⟨Teki.State.ext hv hs ht, ?_, hit⟩
    have : r.2.key = (n + 1) :: p.2.key := by rw [hr]; rfl
    rw [this, h2]
    rfl

/-! ## Which draws a stage depends on -/

/-- The draws behind the data of stage `k`. -/
def dataSites (key : Keys.Key) (n k : ℕ) : Set Site := ⋃ i : Fin n, below ((i : ℕ) :: dataKey key n k)

/-- The draws behind the values of stage `k`. -/
def valueSites (key : Keys.Key) (n : ℕ) : ℕ → Set Site
  | 0 => below (1 :: key)
  | k + 1 => valueSites key n k ∪ dataSites key n k ∪ below (n :: tekiKey key n k)

theorem dataSites_next (n k : ℕ) : Disjoint (dataSites key n k) (below (tekiKey key n k)) := by
  refine Set.disjoint_iUnion_left.2 fun i => ?_
  have hi := i.2
  cases k with
  | zero => exact below_disjoint (by omega)
  | succ k => exact below_disjoint (by omega)

theorem valueSites_next (n k : ℕ) : Disjoint (valueSites key n k) (dataSites key n k) ∧ Disjoint (valueSites key n k) (below (tekiKey key n k)) := by
  induction k with
  | zero =>
    have h0 : Disjoint (below (1 :: key)) (below (0 :: key)) := below_disjoint (by omega)
    exact ⟨Set.disjoint_iUnion_right.2 fun i => h0.mono_right (below_trans (p := [(i : ℕ)])), h0.mono_right (below_trans (p := [2 * n - 1]))⟩
  | succ k ih =>
    have hd : dataSites key n (k + 1) ⊆ below (tekiKey key n k) := Set.iUnion_subset fun i => below_trans (p := [(i : ℕ)])
    have hk : below (tekiKey key n (k + 1)) ⊆ below (tekiKey key n k) := below_trans (p := [n + 1])
    have h2 := dataSites_next (key := key) n k
    refine ⟨((ih.2.mono_right hd).union_left (h2.mono_right hd)).union_left (Set.disjoint_iUnion_right.2 fun i => below_disjoint (by have := i.2; omega)), ?_⟩
    exact ((ih.2.mono_right hk).union_left (h2.mono_right hk)).union_left (below_disjoint (by omega))

theorem simAt_dep {x : Tape → Fin n → Fin dx → ℝ} {S : Set Site} (hx : DependsOn x S) (k : ℕ) : DependsOn (fun ω => simAt lik key k n (x ω) ω) (S ∪ dataSites key n k) := fun ω ω' h => by
  funext i
  change lik (x ω i) _ = lik (x ω' i) _
  rw [hx fun s hs => h s (Or.inl hs), subtape_dependsOn ((i : ℕ) :: dataKey key n k) fun s hs => h s (Or.inr (Set.mem_iUnion.2 ⟨i, hs⟩))]

theorem tekiAt_dep (k n : ℕ) : DependsOn (tekiAt inv chol data ν q lik pr T key k n) (valueSites key n k) := by
  induction k with
  | zero =>
    intro ω ω' h
    funext i
    exact congrArg pr (subtape_dependsOn _ fun s hs => h s (below_trans (p := [(i : ℕ)]) hs))
  | succ k ih =>
    intro ω ω' h
    have h1 := ih fun s hs => h s (Or.inl (Or.inl hs))
    have h2 : simAt lik key k n (tekiAt inv chol data ν q lik pr T key k n ω) ω = simAt lik key k n (tekiAt inv chol data ν q lik pr T key k n ω') ω' := simAt_dep ih k fun s hs => h s (Or.inl hs)
    have h3 := normalRows_dep (q := q) (n :: tekiKey key n k) n dy fun s hs => h s (Or.inr hs)
    change moved _ _ _ _ _ = moved _ _ _ _ _
    rw [h1, ← h2, ← h1]
    exact congrArg (moved _ _ _ _) h3

variable (hg : GoodRoutines inv chol) (hq : IsNormalDraw q) (hlik : Measurable fun z : (Fin dx → ℝ) × Tape => lik z.1 z.2) (hpr : Measurable pr)

include hlik in
theorem simAt_meas {x : Tape → Fin n → Fin dx → ℝ} (hx : Measurable x) (k : ℕ) : Measurable fun ω => simAt lik key k n (x ω) ω :=
  measurable_pi_lambda _ fun i => hlik.comp (((measurable_pi_apply i).comp hx).prodMk (measurable_subtape _))

include hg hq hlik hpr in
theorem tekiAt_meas (k n : ℕ) : Measurable (tekiAt inv chol data ν q lik pr T key k n) := by
  induction k with
  | zero => exact measurable_pi_lambda _ fun i => hpr.comp (measurable_subtape _)
  | succ k ih =>
    have hE : MeasurableEnv (tekiEnvs inv chol data ν n) lik := ⟨hg.inv_meas, hg.chol_meas, hlik⟩
    exact measurable_moved hE measurable_const ih (simAt_meas hlik ih k) (normalRows_meas hq _ _ _)

/-! ## Convergence -/

/-- Limits of mean and covariance after `k` updates. -/
noncomputable def tekiLimit (ν : ℝ) (H : Matrix (Fin dy) (Fin dx) ℝ) (R : Matrix (Fin dy) (Fin dy) ℝ) (data : Fin dy → ℝ) (T : ℕ → ℝ) (c : (Fin dx → ℝ) × Matrix (Fin dx) (Fin dx) ℝ) :
    ℕ → (Fin dx → ℝ) × Matrix (Fin dx) (Fin dx) ℝ
  | 0 => c
  | k + 1 => tekiNext ν H R data (1 / (T (k + 1) - T k)) (tekiLimit ν H R data T c k)

variable {H : Matrix (Fin dy) (Fin dx) ℝ} {R : Matrix (Fin dy) (Fin dy) ℝ} (hR : R.PosDef) (hν : 0 ≤ ν) (hlaw : ∀ v, dataLaw lik v = gauss (H *ᵥ v) R)
  (h2 : ∀ i, MemLp (fun ω => pr ω i) 2 ideal) (h4 : ∀ i j, MemLp (fun ω => pr ω i * pr ω j) 2 ideal) (hP : (covMatrix ideal pr pr).PosDef)

include hlik hlaw hR in
theorem noise_law (v : Fin dx → ℝ) : ideal.map (fun τ => lik v τ - H *ᵥ v) = gauss 0 R := by
  have hl : Measurable (lik v) := hlik.comp measurable_prodMk_left
  have h1 : ideal.map (fun τ => lik v τ - H *ᵥ v) = (dataLaw lik v).map fun y => y - H *ᵥ v := (Measure.map_map (measurable_sub_const _) hl).symm
  rw [h1, hlaw, gauss_shift _ hR, Measure.map_map (measurable_sub_const _) (measurable_const_add _)]
  convert Measure.map_id using 2
  funext x
  simp

include hg hq hlik hpr hR hν hlaw h2 h4 hP in
theorem teki_settles (k : ℕ) (hT : ∀ j < k, T j < T (j + 1) ∧ T (j + 1) - T j ≤ 1) :
    Settles (fun _ => ideal) (tekiAt inv chol data ν q lik pr T key k) (tekiLimit ν H R data T (fun i => ∫ ω, pr ω i ∂ideal, covMatrix ideal pr pr) k).1
      (tekiLimit ν H R data T (fun i => ∫ ω, pr ω i ∂ideal, covMatrix ideal pr pr) k).2 ∧ (tekiLimit ν H R data T (fun i => ∫ ω, pr ω i ∂ideal, covMatrix ideal pr pr) k).2.PosDef := by
  induction k with
  | zero =>
    refine ⟨?_, hP⟩
    have hf : Fresh (fun _ => ideal) (fun (_ : ℕ) (_ : Tape) => ()) (fun n ω (i : Fin n) => subtape ((i : ℕ) :: 1 :: key) ω) ideal :=
      fresh_tapes (S := fun _ => ∅) (k := fun _ => 1 :: key) (fun _ => measurable_const) (fun _ _ _ _ => rfl) fun _ => Set.empty_disjoint _
    exact hf.settles hpr h2 h4
  | succ k ih =>
    obtain ⟨hs, hp⟩ := ih fun j hj => hT j (by omega)
    obtain ⟨t1, t2⟩ := hT k (by omega)
    set x := tekiAt inv chol data ν q lik pr T key k with hx
    set c := tekiLimit ν H R data T (fun i => ∫ ω, pr ω i ∂ideal, covMatrix ideal pr pr) k with hc
    have hα : 1 ≤ 1 / (T (k + 1) - T k) := by
      rw [le_div_iff₀ (by linarith)]
      linarith
    have mx : ∀ n, Measurable (x n) := fun n => tekiAt_meas hg hq hlik hpr k n
    have dx' : ∀ n, DependsOn (x n) (valueSites key n k) := fun n => tekiAt_dep k n
    have fτ : Fresh (fun _ => ideal) x (fun n ω (i : Fin n) => subtape ((i : ℕ) :: dataKey key n k) ω) ideal :=
      fresh_tapes (S := fun n => valueSites key n k) (k := fun n => dataKey key n k) mx dx' fun n => (valueSites_next n k).1
    have hHm : Measurable fun v : Fin dx → ℝ => H *ᵥ v := by simpa only [add_zero] using measurable_affine H 0
    have mg : Measurable fun z : (Fin dx → ℝ) × Tape => lik z.1 z.2 - H *ᵥ z.1 := hlik.sub (hHm.comp measurable_fst)
    have fe : Fresh (fun _ => ideal) x (fun n ω i => simAt lik key k n (x n ω) ω i - H *ᵥ x n ω i) (gauss 0 R) := fresh_noise fτ mg (noise_law hlik hR hlaw)
    have := gauss_isProb (0 : Fin dy → ℝ) hR
    have he : Settles (fun _ => ideal) (fun n ω i => simAt lik key k n (x n ω) ω i - H *ᵥ x n ω i) 0 R := by
      have h := fe.settles (ξ := fun z => z) measurable_id (memLp_gauss 0 hR) (gauss_memLp_mul 0 hR)
      have e1 : (fun i => ∫ z : Fin dy → ℝ, z i ∂gauss 0 R) = 0 := funext fun i => gauss_mean' 0 hR i
      have e2 : covMatrix (gauss 0 R) (fun z : Fin dy → ℝ => z) (fun z => z) = R := by
        ext i j
        exact cov_gauss 0 hR i j
      rw [e1, e2] at h
      exact h
    have hxe := fe.cross (ξ := fun z => z) measurable_id (memLp_gauss 0 hR) hs.cov
    have fz : Fresh (fun _ => ideal) (fun n ω => (x n ω, simAt lik key k n (x n ω) ω)) (fun n ω => normalRows q ω (n :: tekiKey key n k) n dy) (stdNormal dy) := by
      refine fresh_rows' hq (S := fun n => valueSites key n k ∪ dataSites key n k) (k := fun n => n :: tekiKey key n k) (fun n => (mx n).prodMk (simAt_meas hlik (mx n) k)) (fun n ω ω' h => ?_) fun n => ?_
      · exact Prod.ext (dx' n fun s hs => h s (Or.inl hs)) (simAt_dep (dx' n) k h)
      · have hk : below (n :: tekiKey key n k) ⊆ below (tekiKey key n k) := below_trans (p := [n])
        exact ((valueSites_next n k).2.mono_right hk).union_left ((dataSites_next n k).mono_right hk)
    have := fun n => Measure.isProbabilityMeasure_map (μ := ideal) (fz.measurable_x n).aemeasurable
    have hxz := (fresh_comp fz (g := fun n z => z.1) fun n => measurable_fst).cross_normal hs
    have hez := (fresh_comp fz (g := fun n z (i : Fin n) => z.2 i - H *ᵥ z.1 i) fun n => measurable_pi_lambda _ fun i =>
      ((measurable_pi_apply i).comp measurable_snd).sub (hHm.comp ((measurable_pi_apply i).comp measurable_fst))).cross_normal he
    exact ⟨Settles.moved hg data hν hR hα hs hp he hxe fz.settles_normal hxz hez, tekiNext_posDef hν hR hα data hp⟩

/-! ## The reported ensembles -/

/-- The values of the `k`-th ensemble a run reports. -/
noncomputable def valuesOf {n : ℕ} (r : List (Teki.State n dx dy)) (k : ℕ) : Fin n → Fin dx → ℝ := (r[k]?.map Teki.State.value).getD 0

theorem runFrom_getElem {K : Type*} (env : Env K n dx dy) (c : Teki.Config) (constrain : (Fin dx → ℝ) → Fin dx → ℝ) (anyNan : (Fin n → Fin dx → ℝ) → Bool) (init : Teki.State n dx dy × Teki.Extra K dy) {k : ℕ}
    (hk : k < (Teki.runFrom env c constrain anyNan init).length) : (Teki.runFrom env c constrain anyNan init)[k]? = some (bodyIter (Teki.update env (Teki.nextTemperature c)) k init).1 := by
  obtain ⟨m, -, h, -, -⟩ := C12_run (Teki.update env (Teki.nextTemperature c)) (Teki.terminated c constrain (std init.1.value) anyNan) c.maxIter init
  have h' : Teki.runFrom env c constrain anyNan init = (List.range (m + 1)).map fun i => (bodyIter (Teki.update env (Teki.nextTemperature c)) i init).1 := h
  rw [h'] at hk ⊢
  simp only [List.length_map, List.length_range] at hk
  simp [hk]

theorem valuesOf_chain (c : Teki.Config) (constrain : (Fin dx → ℝ) → Fin dx → ℝ) (anyNan : ∀ n, (Fin n → Fin dx → ℝ) → Bool) (n : ℕ) (ω : Tape) {k : ℕ} (h0 : temperatureAt c 0 = 0)
    (hk : k < (tekiChain inv chol data ν q lik pr key c constrain anyNan n ω).length) :
    valuesOf (tekiChain inv chol data ν q lik pr key c constrain anyNan n ω) k = tekiAt inv chol data ν q lik pr (temperatureAt c) key k n ω := by
  unfold valuesOf tekiChain
  rw [runFrom_getElem _ _ _ _ _ hk, (teki_at (inv := inv) (chol := chol) (data := data) (ν := ν) (q := q) (lik := lik) (pr := pr) (key := key) (T := temperatureAt c) c (fun k s e he => by rw [nextTemperature_eq]; exact congrArg _ he) h0 ω k).1]
  rfl

include hg hq hlik hpr hR hν hlaw h2 h4 hP in
theorem teki_reported (c : Teki.Config) (constrain : (Fin dx → ℝ) → Fin dx → ℝ) (anyNan : ∀ n, (Fin n → Fin dx → ℝ) → Bool) (h0 : temperatureAt c 0 = 0) {N : ℕ}
    (hN : ∀ n ω, (tekiChain inv chol data ν q lik pr key c constrain anyNan n ω).length = N) {k : ℕ} (hk : k < N) (hT : ∀ j < k, temperatureAt c j < temperatureAt c (j + 1) ∧ temperatureAt c (j + 1) - temperatureAt c j ≤ 1) :
    Settles (fun _ => ideal) (fun n ω => valuesOf (tekiChain inv chol data ν q lik pr key c constrain anyNan n ω) k) (tekiLimit ν H R data (temperatureAt c) (fun i => ∫ ω, pr ω i ∂ideal, covMatrix ideal pr pr) k).1
      (tekiLimit ν H R data (temperatureAt c) (fun i => ∫ ω, pr ω i ∂ideal, covMatrix ideal pr pr) k).2 := by
  have h := (teki_settles (key := key) (data := data) hg hq hlik hpr hR hν hlaw h2 h4 hP k hT).1
  have e : (fun n ω => valuesOf (tekiChain inv chol data ν q lik pr key c constrain anyNan n ω) k) = tekiAt inv chol data ν q lik pr (temperatureAt c) key k := by
    funext n ω
    exact valuesOf_chain c constrain anyNan n ω h0 (by rw [hN]; exact hk)
  rw [e]
  exact h

/-- Without a nugget the limits are those of the tempered distributions. -/
theorem tekiLimit_tempered (hR : R.PosDef) (m : Fin dx → ℝ) {P : Matrix (Fin dx) (Fin dx) ℝ} (hP : P.PosDef) (h0 : T 0 = 0) (k : ℕ) (hT : ∀ j < k, T j < T (j + 1) ∧ T (j + 1) - T j ≤ 1) :
    (tekiLimit 0 H R data T (m, P) k).2.PosDef ∧ gauss (tekiLimit 0 H R data T (m, P) k).1 (tekiLimit 0 H R data T (m, P) k).2 = tempered (gauss m P) (misfit H R data) (T k) := by
  induction k with
  | zero =>
    have := gauss_isProb m hP
    exact ⟨hP, by rw [h0, tempered_zero]; rfl⟩
  | succ k ih =>
    obtain ⟨hp, hl⟩ := ih fun j hj => hT j (by omega)
    obtain ⟨t1, t2⟩ := hT k (by omega)
    have hpos : 0 < T (k + 1) - T k := by linarith
    have hα : 1 ≤ 1 / (T (k + 1) - T k) := by
      rw [le_div_iff₀ hpos]
      linarith
    have hp' : (tekiLimit 0 H R data T (m, P) (k + 1)).2.PosDef := tekiNext_posDef le_rfl hR hα data hp
    refine ⟨hp', ?_⟩
    have e : tekiLimit 0 H R data T (m, P) (k + 1) = tekiNext 0 H R data (1 / (T (k + 1) - T k)) ((tekiLimit 0 H R data T (m, P) k).1, (tekiLimit 0 H R data T (m, P) k).2) := rfl
    have hpr := gauss_isProb (tekiLimit 0 H R data T (m, P) (k + 1)).1 hp'
    have h1 : gauss (tekiLimit 0 H R data T (m, P) (k + 1)).1 (tekiLimit 0 H R data T (m, P) (k + 1)).2 = tempered (tempered (gauss m P) (misfit H R data) (T k)) (misfit H R data) (T (k + 1) - T k) := by
      rw [e, tekiNext_zero hR hα data _ hp, gauss_tempered hR _ hp data (by linarith), hl, one_div_one_div]
    rw [h1] at hpr ⊢
    rw [tempered_tempered (measurable_misfit H R data)]
    congr 1
    ring

end

section
variable {inv : ∀ d, Matrix (Fin d) (Fin d) ℝ → Matrix (Fin d) (Fin d) ℝ} {chol : Matrix (Fin dy) (Fin dy) ℝ → Option (Matrix (Fin dy) (Fin dy) ℝ)} {q : ℝ → ℝ}
  {lik : (Fin dx → ℝ) → Tape → Fin dy → ℝ} {pr : Tape → Fin dx → ℝ} {H : Matrix (Fin dy) (Fin dx) ℝ} {R : Matrix (Fin dy) (Fin dy) ℝ}
  (hg : GoodRoutines inv chol) (hq : IsNormalDraw q) (hlik : Measurable fun z : (Fin dx → ℝ) × Tape => lik z.1 z.2) (hpr : Measurable pr) (hR : R.PosDef) (hlaw : ∀ v, dataLaw lik v = gauss (H *ᵥ v) R)
  (data : Fin dy → ℝ) (key : Keys.Key) (constrain : (Fin dx → ℝ) → Fin dx → ℝ) (anyNan : ∀ n, (Fin n → Fin dx → ℝ) → Bool) (hnan : ∀ n v, anyNan n v = false) (hdx : 0 < dx)

theorem tekiLimit_congr {ν : ℝ} {T T' : ℕ → ℝ} {c : (Fin dx → ℝ) × Matrix (Fin dx) (Fin dx) ℝ} (k : ℕ) (h : ∀ j ≤ k, T j = T' j) : tekiLimit ν H R data T c k = tekiLimit ν H R data T' c k := by
  induction k with
  | zero => rfl
  | succ k ih => rw [tekiLimit, tekiLimit, ih fun j hj => h j (by omega), h k (by omega), h (k + 1) le_rfl]

include hnan hdx in
/-- C126: the run reports one ensemble per temperature. -/
theorem C126_temperatures (ν : ℝ) (l : List ℝ) (hinc : l.Pairwise (· < ·)) (h0 : l.head? = some 0) (T : ℝ) (it : ℤ) (n : ℕ) (ω : Tape) :
    (tekiChain inv chol data ν q lik pr key (Teki.Config.init (some l) T it 0) constrain anyNan n ω).map Teki.State.temperature = l :=
  C44_schedule _ l hinc h0 T it constrain (anyNan n) (hnan n) hdx _ _ rfl rfl

include hg hq hlik hpr hR hlaw hnan hdx in
/-- C126, any nugget: as the ensemble grows, the mean and covariance of the `k`-th ensemble reported converge in probability to the values that `tekiNext` computes from the prior mean and covariance. -/
theorem C126_recursion {ν : ℝ} (hν : 0 ≤ ν) (h2 : ∀ i, MemLp (fun ω => pr ω i) 2 ideal) (h4 : ∀ i j, MemLp (fun ω => pr ω i * pr ω j) 2 ideal) (hP : (covMatrix ideal pr pr).PosDef)
    (l : List ℝ) (hinc : l.Pairwise (· < ·)) (h0 : l.head? = some 0) (hstep : ∀ j (h : j + 1 < l.length), l[j + 1] - l[j] ≤ 1) (T : ℝ) (it : ℤ) {k : ℕ} (hk : k < l.length) :
    InProb (fun _ => ideal) (fun n ω => sampleMean (valuesOf (tekiChain inv chol data ν q lik pr key (Teki.Config.init (some l) T it 0) constrain anyNan n ω) k))
        (tekiLimit ν H R data (fun j => l.getD j 0) (fun i => ∫ ω, pr ω i ∂ideal, covMatrix ideal pr pr) k).1 ∧
      InProb (fun _ => ideal) (fun n ω => sampleCov (valuesOf (tekiChain inv chol data ν q lik pr key (Teki.Config.init (some l) T it 0) constrain anyNan n ω) k)
          (valuesOf (tekiChain inv chol data ν q lik pr key (Teki.Config.init (some l) T it 0) constrain anyNan n ω) k))
        (tekiLimit ν H R data (fun j => l.getD j 0) (fun i => ∫ ω, pr ω i ∂ideal, covMatrix ideal pr pr) k).2 := by
  have hlen : ∀ n ω, (tekiChain inv chol data ν q lik pr key (Teki.Config.init (some l) T it 0) constrain anyNan n ω).length = l.length := fun n ω => by
    rw [← List.length_map (f := Teki.State.temperature), C126_temperatures data key constrain anyNan hnan hdx ν l hinc h0 T it n ω]
  have h := teki_reported (key := key) (data := data) hg hq hlik hpr hR hν hlaw h2 h4 hP (Teki.Config.init (some l) T it 0) constrain anyNan (head_schedule h0 T it) hlen hk (temps_schedule hinc hstep T it hk)
  have e := tekiLimit_congr (H := H) (R := R) data (ν := ν) (c := (fun i => ∫ ω, pr ω i ∂ideal, covMatrix ideal pr pr)) k (T := temperatureAt (Teki.Config.init (some l) T it 0)) (T' := fun j => l.getD j 0) fun j hj => by
    change Smc.scheduleAt l j = _
    rw [scheduleAt_get (by omega : j < l.length), List.getD_eq_getElem _ _ (by omega : j < l.length)]
  rw [e] at h
  exact ⟨h.mean, h.cov⟩

variable {m : Fin dx → ℝ} {P : Matrix (Fin dx) (Fin dx) ℝ} (hP : P.PosDef) (hprior : ideal.map pr = gauss m P)

include hpr hP hprior in
theorem prior_moments : (∀ i, MemLp (fun ω => pr ω i) 2 ideal) ∧ (∀ i j, MemLp (fun ω => pr ω i * pr ω j) 2 ideal) ∧ (fun i => ∫ ω, pr ω i ∂ideal) = m ∧ covMatrix ideal pr pr = P := by
  refine ⟨fun i => ?_, fun i j => ?_, funext fun i => ?_, ?_⟩
  · have h := memLp_gauss m hP i
    rw [← hprior] at h
    exact (memLp_map_measure_iff (measurable_pi_apply i).aestronglyMeasurable hpr.aemeasurable).1 h
  · have h := gauss_memLp_mul m hP i j
    rw [← hprior] at h
    exact (memLp_map_measure_iff ((measurable_pi_apply i).mul (measurable_pi_apply j)).aestronglyMeasurable hpr.aemeasurable).1 h
  · rw [← gauss_mean' m hP i, ← hprior, integral_map hpr.aemeasurable (measurable_pi_apply i).aestronglyMeasurable]
  · ext i j
    rw [← cov_gauss m hP i j, ← hprior, covariance_map_fun (measurable_pi_apply i).aestronglyMeasurable (measurable_pi_apply j).aestronglyMeasurable hpr.aemeasurable]
    rfl

include hg hq hlik hpr hR hlaw hP hprior in
theorem teki_gauss (c : Teki.Config) (h0 : temperatureAt c 0 = 0) {N : ℕ}
    (hN : ∀ n ω, (tekiChain inv chol data 0 q lik pr key c constrain anyNan n ω).length = N) {k : ℕ} (hk : k < N) (hT : ∀ j < k, temperatureAt c j < temperatureAt c (j + 1) ∧ temperatureAt c (j + 1) - temperatureAt c j ≤ 1) :
    InProb (fun _ => ideal) (fun n ω => sampleMean (valuesOf (tekiChain inv chol data 0 q lik pr key c constrain anyNan n ω) k)) (fun i => ∫ x, x i ∂tempered (gauss m P) (misfit H R data) (temperatureAt c k)) ∧
      InProb (fun _ => ideal) (fun n ω => sampleCov (valuesOf (tekiChain inv chol data 0 q lik pr key c constrain anyNan n ω) k) (valuesOf (tekiChain inv chol data 0 q lik pr key c constrain anyNan n ω) k))
        (covMatrix (tempered (gauss m P) (misfit H R data) (temperatureAt c k)) (fun x => x) fun x => x) := by
  obtain ⟨h2, h4, em, eP⟩ := prior_moments hpr hP hprior
  have h := teki_reported (key := key) (data := data) hg hq hlik hpr hR le_rfl hlaw h2 h4 (by rw [eP]; exact hP) c constrain anyNan h0 hN hk hT
  rw [em, eP] at h
  obtain ⟨hp, ht⟩ := tekiLimit_tempered (H := H) (data := data) hR m hP h0 k hT
  have e1 : (fun i => ∫ x, x i ∂tempered (gauss m P) (misfit H R data) (temperatureAt c k)) = (tekiLimit 0 H R data (temperatureAt c) (m, P) k).1 := funext fun i => by
    rw [← ht, gauss_mean' _ hp]
  have e2 : covMatrix (tempered (gauss m P) (misfit H R data) (temperatureAt c k)) (fun x => x) (fun x => x) = (tekiLimit 0 H R data (temperatureAt c) (m, P) k).2 := by
    ext i j
    rw [← ht]
    exact cov_gauss _ hp i j
  rw [e1, e2]
  exact ⟨h.mean, h.cov⟩

include hg hq hlik hpr hR hlaw hnan hdx hP hprior in
/-- C126, nugget 0: for a Gaussian prior and a linear Gaussian simulator, as the ensemble grows the mean and covariance of the ensemble reported at temperature `l[k]` converge in probability to the mean and
covariance of the distribution at that temperature, whose density with respect to the prior is proportional to the likelihood raised to the power `l[k]`. -/
theorem C126_schedule_partial (l : List ℝ) (hinc : l.Pairwise (· < ·)) (h0 : l.head? = some 0) (hstep : ∀ j (h : j + 1 < l.length), l[j + 1] - l[j] ≤ 1) (T : ℝ) (it : ℤ) {k : ℕ} (hk : k < l.length) :
    InProb (fun _ => ideal) (fun n ω => sampleMean (valuesOf (tekiChain inv chol data 0 q lik pr key (Teki.Config.init (some l) T it 0) constrain anyNan n ω) k))
        (fun i => ∫ x, x i ∂tempered (gauss m P) (misfit H R data) l[k]) ∧
      InProb (fun _ => ideal) (fun n ω => sampleCov (valuesOf (tekiChain inv chol data 0 q lik pr key (Teki.Config.init (some l) T it 0) constrain anyNan n ω) k)
          (valuesOf (tekiChain inv chol data 0 q lik pr key (Teki.Config.init (some l) T it 0) constrain anyNan n ω) k))
        (covMatrix (tempered (gauss m P) (misfit H R data) l[k]) (fun x => x) fun x => x) := by
  have hlen : ∀ n ω, (tekiChain inv chol data 0 q lik pr key (Teki.Config.init (some l) T it 0) constrain anyNan n ω).length = l.length := fun n ω => by
    rw [← List.length_map (f := Teki.State.temperature), C126_temperatures data key constrain anyNan hnan hdx 0 l hinc h0 T it n ω]
  have h := teki_gauss hg hq hlik hpr hR hlaw data key constrain anyNan hP hprior (Teki.Config.init (some l) T it 0) (head_schedule h0 T it) hlen hk (temps_schedule hinc hstep T it hk)
  have e : temperatureAt (Teki.Config.init (some l) T it 0) k = l[k] := scheduleAt_get hk
  rw [e] at h
  exact h

include hg hq hlik hpr hR hlaw hnan hdx hP hprior in
/-- C126, nugget 0, default temperatures: the run reports 51 ensembles; the mean and covariance of the last converge in probability, as the ensemble grows, to those of the posterior. -/
theorem C126_default_partial :
    (∀ n ω, (tekiChain inv chol data 0 q lik pr key (Teki.Config.init none 1 10000 0) constrain anyNan n ω).length = 51) ∧
    InProb (fun _ => ideal) (fun n ω => sampleMean (valuesOf (tekiChain inv chol data 0 q lik pr key (Teki.Config.init none 1 10000 0) constrain anyNan n ω) 50))
        (fun i => ∫ x, x i ∂tempered (gauss m P) (misfit H R data) 1) ∧
      InProb (fun _ => ideal) (fun n ω => sampleCov (valuesOf (tekiChain inv chol data 0 q lik pr key (Teki.Config.init none 1 10000 0) constrain anyNan n ω) 50)
          (valuesOf (tekiChain inv chol data 0 q lik pr key (Teki.Config.init none 1 10000 0) constrain anyNan n ω) 50))
        (covMatrix (tempered (gauss m P) (misfit H R data) 1) (fun x => x) fun x => x) := by
  have hlen : ∀ n ω, (tekiChain inv chol data 0 q lik pr key (Teki.Config.init none 1 10000 0) constrain anyNan n ω).length = 51 := fun n ω => by
    rw [← List.length_map (f := Teki.State.temperature)]
    exact (C44_default _ constrain (anyNan n) (hnan n) hdx _ _ rfl rfl).2.1
  have hd : ∀ j, temperatureAt (Teki.Config.init none 1 10000 0) j = defaultTemp j := fun j => by
    change round4 (((2 : ℝ) ^ ((1 : ℝ) / 50)) ^ j - 1) = _
    unfold defaultTemp
    rw [← Real.rpow_natCast, ← Real.rpow_mul (by norm_num)]
    congr 3
    ring
  have hmono : StrictMono defaultTemp := strictMono_nat_of_lt_succ defaultTemp_lt
  have h := teki_gauss hg hq hlik hpr hR hlaw data key constrain anyNan hP hprior (Teki.Config.init none 1 10000 0) (by rw [hd, defaultTemp_zero]) hlen (k := 50) (by norm_num) fun j hj => by
    rw [hd, hd]
    have h1 : defaultTemp (j + 1) ≤ 1 := by
      rw [← defaultTemp_fifty]
      exact hmono.monotone (by omega)
    have h2 : 0 ≤ defaultTemp j := by
      rw [← defaultTemp_zero]
      exact hmono.monotone (by omega)
    exact ⟨defaultTemp_lt j, by linarith⟩
  rw [hd, defaultTemp_fifty] at h
  exact ⟨hlen, h⟩

end

/-! ## The nugget -/

theorem tekiLimit_one {d : ℕ} {ν : ℝ} (hν : 0 ≤ ν) (y : Fin d → ℝ) : (tekiLimit ν (1 : Matrix (Fin d) (Fin d) ℝ) 1 y (fun j => [0, 1].getD j 0) (0, 1) 1).1 = (1 / (2 + ν)) • y := by
  have hG : tekiGain ν (1 : Matrix (Fin d) (Fin d) ℝ) 1 (1 / (1 - 0)) 1 = (1 / (2 + ν)) • 1 := by
    unfold tekiGain
    have e : (1 : Matrix (Fin d) (Fin d) ℝ) * 1 * (1 : Matrix (Fin d) (Fin d) ℝ)ᵀ + 1 + ((1 : ℝ) / (1 - 0) - 1) • tekiCond ν (1 : Matrix (Fin d) (Fin d) ℝ) 1 1 + ν • 1 = (2 + ν) • 1 := by
      rw [sub_zero, div_one, sub_self, zero_smul, add_zero, transpose_one, Matrix.mul_one, Matrix.mul_one, add_smul, two_smul]
    rw [e, transpose_one, Matrix.mul_one, Matrix.one_mul]
    refine inv_eq_left_inv ?_
    rw [smul_mul_smul_comm, Matrix.mul_one, one_div, inv_mul_cancel₀ (by linarith : (2 + ν) ≠ 0), one_smul]
  change (0 : Fin d → ℝ) + tekiGain ν (1 : Matrix (Fin d) (Fin d) ℝ) 1 (1 / (1 - 0)) 1 *ᵥ (y - (1 : Matrix (Fin d) (Fin d) ℝ) *ᵥ (0 : Fin d → ℝ)) = _
  rw [hG, mulVec_zero, sub_zero, zero_add, smul_mulVec, one_mulVec]

/-- C126 fails with a positive nugget, so with the default one of `10^-5`: prior `N(0, 1)`, one datum `y = 1` with noise `N(0, 1)`, temperatures 0 and 1. The mean of the last ensemble converges to `1 / (2 + ν)`,
not to the posterior mean `1 / 2`. -/
theorem C126_fails {inv : ∀ d, Matrix (Fin d) (Fin d) ℝ → Matrix (Fin d) (Fin d) ℝ} {chol : Matrix (Fin 1) (Fin 1) ℝ → Option (Matrix (Fin 1) (Fin 1) ℝ)} {q : ℝ → ℝ}
    {lik : (Fin 1 → ℝ) → Tape → Fin 1 → ℝ} {pr : Tape → Fin 1 → ℝ} (hg : GoodRoutines inv chol) (hq : IsNormalDraw q) (hlik : Measurable fun z : (Fin 1 → ℝ) × Tape => lik z.1 z.2) (hpr : Measurable pr)
    (hlaw : ∀ v, dataLaw lik v = gauss v 1) (hprior : ideal.map pr = gauss 0 1) (key : Keys.Key) (constrain : (Fin 1 → ℝ) → Fin 1 → ℝ) (anyNan : ∀ n, (Fin n → Fin 1 → ℝ) → Bool)
    (hnan : ∀ n v, anyNan n v = false) {ν : ℝ} (hν : 0 < ν) (T : ℝ) (it : ℤ) :
    (fun i => ∫ x, x i ∂tempered (gauss (0 : Fin 1 → ℝ) 1) (misfit (1 : Matrix (Fin 1) (Fin 1) ℝ) 1 fun _ => 1) 1) = (fun _ => 1 / 2) ∧
    InProb (fun _ => ideal) (fun n ω => sampleMean (valuesOf (tekiChain inv chol (fun _ => 1) ν q lik pr key (Teki.Config.init (some [0, 1]) T it 0) constrain anyNan n ω) 1)) (fun _ => 1 / (2 + ν)) ∧
    ¬ InProb (fun _ => ideal) (fun n ω => sampleMean (valuesOf (tekiChain inv chol (fun _ => 1) ν q lik pr key (Teki.Config.init (some [0, 1]) T it 0) constrain anyNan n ω) 1))
      (fun i => ∫ x, x i ∂tempered (gauss (0 : Fin 1 → ℝ) 1) (misfit (1 : Matrix (Fin 1) (Fin 1) ℝ) 1 fun _ => 1) 1) := by
  have hlaw' : ∀ v, dataLaw lik v = gauss ((1 : Matrix (Fin 1) (Fin 1) ℝ) *ᵥ v) 1 := fun v => by rw [one_mulVec]; exact hlaw v
  obtain ⟨h2, h4, em, eP⟩ := prior_moments hpr PosDef.one hprior
  have h := (C126_recursion (H := 1) hg hq hlik hpr PosDef.one hlaw' (fun _ => 1) key constrain anyNan hnan one_pos hν.le h2 h4 (by rw [eP]; exact PosDef.one) [0, 1] (by simp) rfl
    (by intro j hj; obtain rfl : j = 0 := by simp at hj; omega
        simp) T it (k := 1) (by simp)).1
  rw [em, eP, tekiLimit_one hν.le] at h
  have e1 : ((1 / (2 + ν)) • fun _ : Fin 1 => (1 : ℝ)) = fun _ => 1 / (2 + ν) := by funext; simp
  rw [e1] at h
  have hp : (fun i => ∫ x, x i ∂tempered (gauss (0 : Fin 1 → ℝ) 1) (misfit (1 : Matrix (Fin 1) (Fin 1) ℝ) 1 fun _ => 1) 1) = fun _ => 1 / 2 := by
    obtain ⟨hpos, ht⟩ := tekiLimit_tempered (H := (1 : Matrix (Fin 1) (Fin 1) ℝ)) (R := 1) (data := fun _ => 1) (T := fun j => [0, 1].getD j 0) PosDef.one 0 PosDef.one rfl 1
      fun j hj => by obtain rfl : j = 0 := by omega
                     simp
    have ht' : gauss _ _ = tempered (gauss (0 : Fin 1 → ℝ) 1) (misfit (1 : Matrix (Fin 1) (Fin 1) ℝ) 1 fun _ => 1) 1 := ht
    funext i
    rw [← ht', gauss_mean' _ hpos, tekiLimit_one le_rfl]
    simp
  refine ⟨hp, h, fun h' => ?_⟩
  rw [hp] at h'
  have := congrFun (InProb.unique h h') 0
  have h3 : (2 : ℝ) + ν ≠ 0 := by linarith
  field_simp at this
  linarith

/-! ## A case that meets the hypotheses -/

theorem gauss_std (d : ℕ) : stdNormal d = gauss 0 1 := by
  have h := stdNormal_map_affine (0 : Fin d → ℝ) (1 : Matrix (Fin d) (Fin d) ℝ) (by simp)
  rw [transpose_one, Matrix.mul_one] at h
  rw [← h]
  simp

/-- Two unknowns with a standard normal prior, one datum: their sum plus normal noise. -/
example : ∃ (inv : ∀ d, Matrix (Fin d) (Fin d) ℝ → Matrix (Fin d) (Fin d) ℝ) (chol : Matrix (Fin 1) (Fin 1) ℝ → Option (Matrix (Fin 1) (Fin 1) ℝ)) (q : ℝ → ℝ) (lik : (Fin 2 → ℝ) → Tape → Fin 1 → ℝ) (pr : Tape → Fin 2 → ℝ),
    GoodRoutines inv chol ∧ IsNormalDraw q ∧ (Measurable fun z : (Fin 2 → ℝ) × Tape => lik z.1 z.2) ∧ Measurable pr ∧ (∀ v, dataLaw lik v = gauss (!![1, 1] *ᵥ v) 1) ∧ ideal.map pr = gauss 0 1 := by
  obtain ⟨q, hq⟩ := exists_isNormalDraw
  refine ⟨fun _ A => A⁻¹, fun A => if 0 < A 0 0 then some (Real.sqrt (A 0 0) • 1) else none, q, fun x τ => !![1, 1] *ᵥ x + normalAt q 1 τ [], fun τ => normalAt q 2 τ [], ⟨fun _ _ _ => rfl, ?_, fun d i j => measurable_inv d i j, ?_⟩, hq, ?_, ?_, fun v => ?_, ?_⟩
  · intro A hA
    have h0 : 0 < A 0 0 := hA.diag_pos
    refine ⟨Real.sqrt (A 0 0) • 1, if_pos h0, ?_⟩
    ext i j
    fin_cases i; fin_cases j
    simp [Real.mul_self_sqrt h0.le]
  · intro i j
    have h1 : ∀ A : Fin 1 → Fin 1 → ℝ, (if 0 < A 0 0 then some (Real.sqrt (A 0 0) • (1 : Matrix (Fin 1) (Fin 1) ℝ)) else none).getD 0 i j = Real.sqrt (A 0 0) := fun A => by
      fin_cases i; fin_cases j
      split_ifs with h
      · simp
      · simp [Real.sqrt_eq_zero'.2 (not_lt.1 h)]
    simp only [h1]
    fun_prop
  · have h1 : Measurable fun v : Fin 2 → ℝ => (!![1, 1] : Matrix (Fin 1) (Fin 2) ℝ) *ᵥ v := by simpa only [add_zero] using measurable_affine (!![1, 1] : Matrix (Fin 1) (Fin 2) ℝ) 0
    exact (h1.comp measurable_fst).add ((measurable_normalAt (d := 1) hq []).comp measurable_snd)
  · exact measurable_normalAt hq []
  · have h1 := gauss_shift (!![1, 1] *ᵥ v) (PosDef.one (n := Fin 1) (R := ℝ))
    rw [h1, ← gauss_std, ← map_normalAt (d := 1) hq [], Measure.map_map (measurable_const_add _) (measurable_normalAt hq [])]
    rfl
  · rw [map_normalAt hq [], gauss_std]

end Mocat.Props
