import Verif.Lemmas.InProb
import Verif.Lemmas.GaussCov
import Mathlib.Topology.Algebra.Ring.Real
/-! Means and covariances of ensembles moved by random affine maps with independent noise, as the ensembles grow. -/
namespace Mocat.Spec
open MeasureTheory ProbabilityTheory Filter Topology Matrix
open scoped ENNReal

/-! ## Algebra of sample covariances -/

section
variable {n a b c : ℕ}

theorem sampleCov_transpose (f : Fin n → Fin a → ℝ) (g : Fin n → Fin b → ℝ) : (sampleCov f g)ᵀ = sampleCov g f := by
  ext i j
  simp only [transpose_apply, sampleCov]
  congr 1
  exact Finset.sum_congr rfl fun k _ => mul_comm _ _

theorem sampleCov_add_left (f f' : Fin n → Fin a → ℝ) (g : Fin n → Fin b → ℝ) : sampleCov (fun k => f k + f' k) g = sampleCov f g + sampleCov f' g := by
  ext i j
  simp only [sampleCov, Matrix.add_apply, Pi.add_apply]
  rw [← add_div, ← Finset.sum_add_distrib, Finset.sum_add_distrib]
  congr 1
  refine Finset.sum_congr rfl fun k _ => ?_
  rw [add_div]
  ring

theorem sampleCov_mulVec_left (A : Matrix (Fin c) (Fin a) ℝ) (f : Fin n → Fin a → ℝ) (g : Fin n → Fin b → ℝ) : sampleCov (fun k => A *ᵥ f k) g = A * sampleCov f g := by
  ext i j
  simp only [sampleCov, Matrix.mul_apply, mulVec, dotProduct]
  have h1 : ∀ k, ∑ l, A i l * f k l - (∑ m, ∑ l, A i l * f m l) / n = ∑ l, A i l * (f k l - (∑ m, f m l) / n) := fun k => by
    rw [Finset.sum_comm, Finset.sum_div, ← Finset.sum_sub_distrib]
    refine Finset.sum_congr rfl fun l _ => ?_
    rw [← Finset.mul_sum]
    ring
  simp only [h1, Finset.sum_mul]
  rw [Finset.sum_comm, Finset.sum_div]
  refine Finset.sum_congr rfl fun l _ => ?_
  rw [mul_div_assoc', Finset.mul_sum]
  congr 1
  exact Finset.sum_congr rfl fun k _ => by ring

theorem sampleCov_const_left (v : Fin a → ℝ) (g : Fin n → Fin b → ℝ) : sampleCov (fun _ => v) g = 0 := by
  ext i j
  simp only [sampleCov, Matrix.zero_apply]
  rcases Nat.eq_zero_or_pos n with rfl | hn
  · simp
  · have hn' : (n : ℝ) ≠ 0 := by positivity
    have : v i - (∑ _l : Fin n, v i) / n = 0 := by simp [hn']
    simp only [this, zero_mul, Finset.sum_const_zero, zero_div]

theorem sampleCov_affine (A : Matrix (Fin c) (Fin a) ℝ) (B : Matrix (Fin c) (Fin b) ℝ) (v : Fin c → ℝ) (f : Fin n → Fin a → ℝ) (g : Fin n → Fin b → ℝ) :
    sampleCov (fun k => A *ᵥ f k + B *ᵥ g k + v) (fun k => A *ᵥ f k + B *ᵥ g k + v)
      = A * sampleCov f f * Aᵀ + A * sampleCov f g * Bᵀ + (A * sampleCov f g * Bᵀ)ᵀ + B * sampleCov g g * Bᵀ := by
  have hl : ∀ {m : ℕ} (h : Fin n → Fin m → ℝ), sampleCov (fun k => A *ᵥ f k + B *ᵥ g k + v) h = A * sampleCov f h + B * sampleCov g h := fun h => by
    rw [sampleCov_add_left (fun k => A *ᵥ f k + B *ᵥ g k) (fun _ => v), sampleCov_add_left, sampleCov_const_left, add_zero, sampleCov_mulVec_left, sampleCov_mulVec_left]
  have hr : ∀ {m : ℕ} (h : Fin n → Fin m → ℝ), sampleCov h (fun k => A *ᵥ f k + B *ᵥ g k + v) = sampleCov h f * Aᵀ + sampleCov h g * Bᵀ := fun h => by
    rw [← sampleCov_transpose, hl, transpose_add, transpose_mul, transpose_mul, sampleCov_transpose, sampleCov_transpose]
  rw [hl, hr, hr, transpose_mul, transpose_mul, sampleCov_transpose, transpose_transpose]
  simp only [Matrix.mul_add, ← Matrix.mul_assoc]
  abel

theorem sampleMean_affine (hn : 0 < n) (A : Matrix (Fin c) (Fin a) ℝ) (B : Matrix (Fin c) (Fin b) ℝ) (v : Fin c → ℝ) (f : Fin n → Fin a → ℝ) (g : Fin n → Fin b → ℝ) :
    sampleMean (fun k => A *ᵥ f k + B *ᵥ g k + v) = A *ᵥ sampleMean f + B *ᵥ sampleMean g + v := by
  have hn' : (n : ℝ) ≠ 0 := by positivity
  funext i
  simp only [sampleMean, Pi.add_apply, mulVec, dotProduct, Finset.sum_add_distrib]
  rw [Finset.sum_comm, Finset.sum_comm (f := fun k l => B i l * g k l), add_div, add_div, Finset.sum_div, Finset.sum_div]
  congr 1
  · congr 1
    · exact Finset.sum_congr rfl fun l _ => by rw [← Finset.mul_sum, mul_div_assoc]
    · exact Finset.sum_congr rfl fun l _ => by rw [← Finset.mul_sum, mul_div_assoc]
  · simp [hn']

end

section
variable {Ω : ℕ → Type*} [∀ n, MeasurableSpace (Ω n)] {μ : ∀ n, Measure (Ω n)} {d a c : ℕ}

/-- Mean and covariance of the ensembles converge in probability. -/
structure Settles (μ : ∀ n, Measure (Ω n)) (x : ∀ n, Ω n → Fin n → Fin d → ℝ) (m : Fin d → ℝ) (P : Matrix (Fin d) (Fin d) ℝ) : Prop where
  mean : InProb μ (fun n ω => sampleMean (x n ω)) m
  cov : InProb μ (fun n ω => sampleCov (x n ω) (x n ω)) P

section
variable {V : Type*} [TopologicalSpace V]

theorem InProb.matMul {a b c : ℕ} {f : ∀ n, Ω n → Matrix (Fin a) (Fin b) ℝ} {g : ∀ n, Ω n → Matrix (Fin b) (Fin c) ℝ} {A : Matrix (Fin a) (Fin b) ℝ} {B : Matrix (Fin b) (Fin c) ℝ}
    (hf : InProb μ f A) (hg : InProb μ g B) : InProb μ (fun n ω => f n ω * g n ω) (A * B) :=
  (hf.prod hg).comp (φ := fun z : Matrix (Fin a) (Fin b) ℝ × Matrix (Fin b) (Fin c) ℝ => z.1 * z.2) (continuous_fst.matrix_mul continuous_snd).continuousAt

theorem InProb.matAdd {a b : ℕ} {f g : ∀ n, Ω n → Matrix (Fin a) (Fin b) ℝ} {A B : Matrix (Fin a) (Fin b) ℝ}
    (hf : InProb μ f A) (hg : InProb μ g B) : InProb μ (fun n ω => f n ω + g n ω) (A + B) :=
  (hf.prod hg).comp (φ := fun z : Matrix (Fin a) (Fin b) ℝ × Matrix (Fin a) (Fin b) ℝ => z.1 + z.2) (continuous_fst.add continuous_snd).continuousAt

theorem InProb.matTranspose {a b : ℕ} {f : ∀ n, Ω n → Matrix (Fin a) (Fin b) ℝ} {A : Matrix (Fin a) (Fin b) ℝ} (hf : InProb μ f A) : InProb μ (fun n ω => (f n ω)ᵀ) Aᵀ :=
  hf.comp (φ := fun z : Matrix (Fin a) (Fin b) ℝ => zᵀ) continuous_id.matrix_transpose.continuousAt

theorem InProb.matVec {a b : ℕ} {f : ∀ n, Ω n → Matrix (Fin a) (Fin b) ℝ} {g : ∀ n, Ω n → Fin b → ℝ} {A : Matrix (Fin a) (Fin b) ℝ} {v : Fin b → ℝ}
    (hf : InProb μ f A) (hg : InProb μ g v) : InProb μ (fun n ω => f n ω *ᵥ g n ω) (A *ᵥ v) :=
  (hf.prod hg).comp (φ := fun z : Matrix (Fin a) (Fin b) ℝ × (Fin b → ℝ) => z.1 *ᵥ z.2) (continuous_fst.matrix_mulVec continuous_snd).continuousAt

theorem InProb.vecAdd {a : ℕ} {f g : ∀ n, Ω n → Fin a → ℝ} {u v : Fin a → ℝ} (hf : InProb μ f u) (hg : InProb μ g v) : InProb μ (fun n ω => f n ω + g n ω) (u + v) :=
  (hf.prod hg).comp (φ := fun z : (Fin a → ℝ) × (Fin a → ℝ) => z.1 + z.2) (continuous_fst.add continuous_snd).continuousAt

end

/-- The ensembles after random affine moves. -/
theorem Settles.affine {x : ∀ n, Ω n → Fin n → Fin d → ℝ} {m : Fin d → ℝ} {P : Matrix (Fin d) (Fin d) ℝ} (hx : Settles μ x m P) {z : ∀ n, Ω n → Fin n → Fin a → ℝ}
    {A : ∀ n, Ω n → Matrix (Fin c) (Fin d) ℝ} {A₀ : Matrix (Fin c) (Fin d) ℝ} (hA : InProb μ A A₀) {v : ∀ n, Ω n → Fin c → ℝ} {v₀ : Fin c → ℝ} (hv : InProb μ v v₀)
    {B : ∀ n, Ω n → Matrix (Fin c) (Fin a) ℝ} {Q : Matrix (Fin c) (Fin c) ℝ} (h1 : InProb μ (fun n ω => B n ω *ᵥ sampleMean (z n ω)) 0)
    (h2 : InProb μ (fun n ω => B n ω * sampleCov (z n ω) (z n ω) * (B n ω)ᵀ) Q) (h3 : InProb μ (fun n ω => sampleCov (x n ω) (z n ω) * (B n ω)ᵀ) 0) :
    Settles μ (fun n ω i => A n ω *ᵥ x n ω i + B n ω *ᵥ z n ω i + v n ω) (A₀ *ᵥ m + v₀) (A₀ * P * A₀ᵀ + Q) := by
  refine ⟨?_, ?_⟩
  · have := ((hA.matVec hx.mean).vecAdd h1).vecAdd hv
    rw [add_zero] at this
    refine this.congr ?_
    filter_upwards [eventually_gt_atTop 0] with n hn ω
    exact (sampleMean_affine hn _ _ _ _ _).symm
  · have h4 : InProb μ (fun n ω => A n ω * sampleCov (x n ω) (z n ω) * (B n ω)ᵀ) 0 := by
      have := hA.matMul h3
      rw [Matrix.mul_zero] at this
      simpa only [Matrix.mul_assoc] using this
    have h5 := h4.matTranspose
    rw [transpose_zero] at h5
    have := ((((hA.matMul hx.cov).matMul hA.matTranspose).matAdd h4).matAdd h5).matAdd h2
    rw [add_zero, add_zero] at this
    exact this.congr (.of_forall fun n ω => (sampleCov_affine _ _ _ _ _).symm)

/-- The same when the map of the noise converges. -/
theorem Settles.affine' {x : ∀ n, Ω n → Fin n → Fin d → ℝ} {m : Fin d → ℝ} {P : Matrix (Fin d) (Fin d) ℝ} (hx : Settles μ x m P) {z : ∀ n, Ω n → Fin n → Fin a → ℝ}
    {R : Matrix (Fin a) (Fin a) ℝ} (hz : Settles μ z 0 R) (hxz : InProb μ (fun n ω => sampleCov (x n ω) (z n ω)) 0)
    {A : ∀ n, Ω n → Matrix (Fin c) (Fin d) ℝ} {A₀ : Matrix (Fin c) (Fin d) ℝ} (hA : InProb μ A A₀) {v : ∀ n, Ω n → Fin c → ℝ} {v₀ : Fin c → ℝ} (hv : InProb μ v v₀)
    {B : ∀ n, Ω n → Matrix (Fin c) (Fin a) ℝ} {B₀ : Matrix (Fin c) (Fin a) ℝ} (hB : InProb μ B B₀) :
    Settles μ (fun n ω i => A n ω *ᵥ x n ω i + B n ω *ᵥ z n ω i + v n ω) (A₀ *ᵥ m + v₀) (A₀ * P * A₀ᵀ + B₀ * R * B₀ᵀ) := by
  refine hx.affine hA hv ?_ ((hB.matMul hz.cov).matMul hB.matTranspose) ?_
  · have := hB.matVec hz.mean
    rwa [mulVec_zero] at this
  · have := hxz.matMul hB.matTranspose
    rwa [Matrix.zero_mul] at this

/-! ## Independent noise -/

variable {E : Type*} [MeasurableSpace E] {ρ : Measure E} [IsProbabilityMeasure ρ]

/-- `z n` are `n` independent draws from `ρ`, independent of `x n`. -/
structure Fresh (μ : ∀ n, Measure (Ω n)) {X : ℕ → Type*} [∀ n, MeasurableSpace (X n)] (x : ∀ n, Ω n → X n) (z : ∀ n, Ω n → Fin n → E) (ρ : Measure E) : Prop where
  measurable_x : ∀ n, Measurable (x n)
  measurable_z : ∀ n, Measurable (z n)
  law : ∀ n, (μ n).map (fun ω => (x n ω, z n ω)) = ((μ n).map (x n)).prod (Measure.pi fun _ : Fin n => ρ)

theorem Fresh.map_z [∀ n, IsProbabilityMeasure (μ n)] {X : ℕ → Type*} [∀ n, MeasurableSpace (X n)] {x : ∀ n, Ω n → X n} {z : ∀ n, Ω n → Fin n → E} (h : Fresh μ x z ρ) (n : ℕ) :
    (μ n).map (z n) = Measure.pi fun _ : Fin n => ρ := by
  have : IsProbabilityMeasure ((μ n).map (x n)) := Measure.isProbabilityMeasure_map (h.measurable_x n).aemeasurable
  have h1 := congrArg (Measure.map Prod.snd) (h.law n)
  rw [Measure.map_map measurable_snd ((h.measurable_x n).prodMk (h.measurable_z n)), Measure.map_snd_prod, measure_univ, one_smul] at h1
  exact h1

variable {ξ : E → Fin a → ℝ} (hξ : Measurable ξ) (h2 : ∀ i, MemLp (fun e => ξ e i) 2 ρ) (h4 : ∀ i j, MemLp (fun e => ξ e i * ξ e j) 2 ρ) [∀ n, IsProbabilityMeasure (μ n)]
include hξ h2

omit [IsProbabilityMeasure ρ] in
theorem measurable_coord (i : Fin a) : Measurable fun e => ξ e i := by
  have := h2
  exact (measurable_pi_apply i).comp hξ

include h4 in
theorem Fresh.settles {X : ℕ → Type*} [∀ n, MeasurableSpace (X n)] {x : ∀ n, Ω n → X n} {z : ∀ n, Ω n → Fin n → E} (h : Fresh μ x z ρ) :
    Settles μ (fun n ω i => ξ (z n ω i)) (fun i => ∫ e, ξ e i ∂ρ) (covMatrix ρ ξ ξ) := by
  have hm := measurable_coord hξ h2
  refine ⟨InProb.pi fun j => ?_, InProb.matrix fun i j => ?_⟩
  · have h1 := lln (h2 j)
    have e : ∀ n, (Measure.pi fun _ : Fin n => ρ) = (μ n).map (z n) := fun n => (h.map_z n).symm
    simp only [e] at h1
    exact (inProb_map h.measurable_z fun n => (Finset.measurable_sum _ fun i _ => (hm j).comp (measurable_pi_apply i)).div_const _).1 h1
  · have h1 := lln_scov (h2 i) (h2 j) (h4 i j)
    have e : ∀ n, (Measure.pi fun _ : Fin n => ρ) = (μ n).map (z n) := fun n => (h.map_z n).symm
    simp only [e] at h1
    have mz : ∀ n j, Measurable fun (z : Fin n → E) (k : Fin n) => ξ (z k) j := fun n j => measurable_pi_lambda _ fun k => (hm j).comp (measurable_pi_apply k)
    exact (inProb_map h.measurable_z fun n => measurable_scov (mz n i) (mz n j)).1 h1

theorem Fresh.cross {x : ∀ n, Ω n → Fin n → Fin d → ℝ} {z : ∀ n, Ω n → Fin n → E} (h : Fresh μ x z ρ) {P : Matrix (Fin d) (Fin d) ℝ}
    (hx : InProb μ (fun n ω => sampleCov (x n ω) (x n ω)) P) : InProb μ (fun n ω => sampleCov (x n ω) fun i => ξ (z n ω i)) 0 := by
  have hm := measurable_coord hξ h2
  have mx : ∀ n i, Measurable fun (x : Fin n → Fin d → ℝ) (k : Fin n) => x k i := fun n i => measurable_pi_lambda _ fun k => (measurable_pi_apply i).comp (measurable_pi_apply k)
  have mz : ∀ n j, Measurable fun (z : Fin n → E) (k : Fin n) => ξ (z k) j := fun n j => measurable_pi_lambda _ fun k => (hm j).comp (measurable_pi_apply k)
  refine InProb.matrix fun i j => ?_
  have : ∀ n, IsProbabilityMeasure ((μ n).map (x n)) := fun n => Measure.isProbabilityMeasure_map (h.measurable_x n).aemeasurable
  have h1 : InProb (fun n => (μ n).map (x n)) (fun n (s : Fin n → Fin d → ℝ) => scov (fun k => s k i) fun k => s k i) (P i i) :=
    (inProb_map h.measurable_x fun n => measurable_scov (mx n i) (mx n i)).2 (hx.entry i i)
  have h3 := scov_cross (a := fun n (s : Fin n → Fin d → ℝ) k => s k i) (fun n => mx n i) h1 (hm j) (h2 j)
  simp only [← h.law] at h3
  exact (inProb_map (fun n => (h.measurable_x n).prodMk (h.measurable_z n)) fun n =>
    measurable_scov ((mx n i).comp measurable_fst) ((mz n j).comp measurable_snd)).1 h3

end

end Mocat.Spec
