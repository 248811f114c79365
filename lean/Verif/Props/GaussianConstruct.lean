import Verif.Model.GaussianConstruct
import Verif.Props.Covariance
/-!
# C159: Gaussian scenarios are built with the mean and covariance asked for
-/
namespace Mocat.Props
open Matrix Mocat.Gaussian Mocat.Covariance Mocat.GaussianConstruct

variable {d : ℕ}

/-- Arguments of matching dimension. -/
def meanArg : Option (Fin d → ℝ) → MeanArg
  | none => .none
  | some m => .arr (List.ofFn m)

def covArg : Option (Cov d) → CovArg
  | none => .none
  | some (.vec v) => .arr (List.ofFn v)
  | some (.mat m) => .mat d m

/-- The quadratic form of the normal distribution asked for: mean 0 and identity covariance unless given. -/
noncomputable def askedQuadratic (mean : Option (Fin d → ℝ)) (cov : Option (Cov d)) (x : Fin d → ℝ) : ℝ :=
  let y := x - mean.getD 0
  match cov with
  | none => ∑ i, y i ^ 2
  | some (.vec v) => ∑ i, y i ^ 2 / v i
  | some (.mat m) => y ⬝ᵥ (m⁻¹ *ᵥ y)

/-- The covariance given is one. -/
def CovOK : Option (Cov d) → Prop
  | none => True
  | some (.vec v) => ∀ i, 0 < v i
  | some (.mat m) => m.PosDef

theorem broadcast_self (n : ℕ) : broadcast n n = some n := by simp [broadcast]

theorem broadcast_one (n : ℕ) : broadcast n 1 = some n := by
  unfold broadcast; split_ifs <;> simp_all

theorem entry_ofFn (x : Fin d → ℝ) (i : Fin d) : entry (List.ofFn x) i = x i := by
  unfold entry
  simp only [List.length_ofFn]
  split_ifs with h
  · subst h
    have : i = 0 := Subsingleton.elim _ _
    subst this
    simp
  · simp [List.getD]

theorem entry_replicate (n : ℕ) (c : ℝ) (i : ℕ) (h : n = 1 ∨ i < n) : entry (List.replicate n c) i = c := by
  unfold entry
  simp only [List.length_replicate]
  split_ifs with h1
  · subst h1; simp
  · have h2 : i < n := h.resolve_left h1
    simp [List.getD, h2]

/-- The potential when everything has length `d` or 1. -/
theorem potential_diag (D : ℕ) (m s : List ℝ) (x m' s' : Fin d → ℝ) (hml : m.length = d ∨ m.length = 1)
    (hsl : s.length = d ∨ s.length = 1) (hm : ∀ i : Fin d, entry m i = m' i) (hs : ∀ i : Fin d, entry s i = s' i) :
    GaussianConstruct.potential ⟨D, m, .inl s⟩ (List.ofFn x) = some (1 / 2 * ∑ i, ((x i - m' i) * s' i) ^ 2) := by
  have h1 : broadcast d m.length = some d := by
    rcases hml with h | h <;> rw [h]
    · exact broadcast_self d
    · exact broadcast_one d
  have h2 : broadcast d s.length = some d := by
    rcases hsl with h | h <;> rw [h]
    · exact broadcast_self d
    · exact broadcast_one d
  simp only [GaussianConstruct.potential, List.length_ofFn, h1, Option.bind_some, h2, Option.map_some, Option.some.injEq]
  rw [Finset.sum_range]
  norm_num
  exact Finset.sum_congr rfl fun i _ => by rw [entry_ofFn, hm, hs]

theorem potential_full (D : ℕ) (m : List ℝ) (s : Matrix (Fin d) (Fin d) ℝ) (x m' : Fin d → ℝ)
    (hml : m.length = d ∨ m.length = 1) (hm : ∀ i : Fin d, entry m i = m' i) :
    GaussianConstruct.potential ⟨D, m, .inr ⟨d, s⟩⟩ (List.ofFn x) = some (0.5 * ∑ i, ((x - m') ᵥ* sᵀ) i ^ 2) := by
  have h1 : broadcast d m.length = some d := by
    rcases hml with h | h <;> rw [h]
    · exact broadcast_self d
    · exact broadcast_one d
  simp only [GaussianConstruct.potential, List.length_ofFn, h1, Option.bind_some, if_true, Option.some.injEq]
  have : (fun j : Fin d => entry (List.ofFn x) j - entry m j) = x - m' := by
    funext j; simp only [entry_ofFn, hm, Pi.sub_apply]
  rw [this]

variable (chol : ∀ d, Matrix (Fin d) (Fin d) ℝ → Matrix (Fin d) (Fin d) ℝ)

/-- C159 (partial: the argument `dim` is left at its default 1, or is the dimension of the arrays given): for every combination
of mean and covariance of dimension `d`, given or not, the constructor succeeds, the scenario has dimension `d`, and its
potential is half the quadratic form of the normal distribution asked for. Missing: other values of `dim`, see below. -/
theorem C159_partial (hchol : IsCholesky (chol d)) (dim : ℕ) (mean : Option (Fin d → ℝ)) (cov : Option (Cov d))
    (hdim : dim = d ∨ (dim = 1 ∧ (mean.isSome ∨ cov.isSome))) (hc : CovOK cov) :
    ∃ o, GaussianConstruct.new chol dim (meanArg mean) (covArg cov) = some o ∧ o.dim = d ∧
      ∀ x : Fin d → ℝ, GaussianConstruct.potential o (List.ofFn x) = some (1 / 2 * askedQuadratic mean cov x) := by
  have hlen : dim = d ∨ dim = 1 := hdim.imp id And.left
  obtain ⟨o, ho, hod, hom, hop⟩ : ∃ o, GaussianConstruct.new chol dim (meanArg mean) (covArg cov) = some o ∧ o.dim = d ∧
      ((o.mean.length = d ∨ o.mean.length = 1) ∧ ∀ i : Fin d, entry o.mean i = mean.getD 0 i) ∧
      o.precSqrt = (match covArg cov with
        | .none => .inl ((List.replicate dim (1 : ℝ)).map fun v => 1 / √v)
        | .arr v => .inl (v.map fun v => 1 / √v)
        | .mat d m => .inr ⟨d, (chol d m)⁻¹⟩) := by
    have hz : (List.replicate dim (0 : ℝ)).length = d ∨ (List.replicate dim (0 : ℝ)).length = 1 := by simpa using hlen
    have he : ∀ i : Fin d, entry (List.replicate dim (0 : ℝ)) i = 0 := fun i =>
      entry_replicate _ _ _ (hlen.symm.imp id fun h : dim = d => h ▸ i.isLt)
    rcases mean with _ | m
    · rcases cov with _ | (v | m)
      · refine ⟨_, rfl, ?_, ⟨hz, he⟩, rfl⟩
        rcases hdim with h | ⟨-, h⟩
        · exact h
        · simp at h
      · exact ⟨_, rfl, by simp, ⟨hz, he⟩, rfl⟩
      · exact ⟨_, rfl, rfl, ⟨hz, he⟩, rfl⟩
    · exact ⟨_, rfl, by simp, ⟨Or.inl (by simp [meanArg]), fun i => entry_ofFn m i⟩, rfl⟩
  refine ⟨o, ho, hod, fun x => ?_⟩
  obtain ⟨D, om, os⟩ := o
  simp only at hom hop
  subst hop
  rcases cov with _ | (v | m)
  · simp only [covArg, List.map_replicate]
    rw [potential_diag D om _ x (mean.getD 0) (fun _ => 1) hom.1 (by simpa using hlen) hom.2 fun i => by
      rw [entry_replicate _ _ _ (hlen.symm.imp id fun h : dim = d => h ▸ i.isLt)]; simp]
    simp [askedQuadratic]
  · simp only [covArg, List.map_ofFn]
    rw [potential_diag D om _ x (mean.getD 0) (fun i => 1 / √(v i)) hom.1 (Or.inl (by simp)) hom.2 fun i => by
      rw [entry_ofFn]; rfl]
    have hv : ∀ i, 0 < v i := hc
    simp only [askedQuadratic, Pi.sub_apply]
    congr 2
    refine Finset.sum_congr rfl fun i _ => ?_
    rw [mul_pow, div_pow, Real.sq_sqrt (hv i).le]
    ring
  · simp only [covArg]
    rw [potential_full D om _ x (mean.getD 0) hom.1 hom.2]
    have := C27_toy_matrix (chol d) hchol m hc (mean.getD 0) x
    simp only [toyPotential, resetCovariance] at this
    rw [this]
    rfl

/-- A covariance with one entry is stretched along the mean: the covariance is that number times the identity. -/
theorem C159_stretched (dim : ℕ) (m : Fin d → ℝ) (v : ℝ) (hv : 0 < v) :
    ∃ o, GaussianConstruct.new chol dim (.arr (List.ofFn m)) (.arr [v]) = some o ∧ o.dim = d ∧
      ∀ x : Fin d → ℝ, GaussianConstruct.potential o (List.ofFn x)
        = some (1 / 2 * askedQuadratic (some m) (some (.vec fun _ => v)) x) := by
  refine ⟨_, rfl, by simp, fun x => ?_⟩
  simp only [List.map_cons, List.map_nil]
  rw [potential_diag _ _ _ x m (fun _ => 1 / √v) (Or.inl (by simp)) (Or.inr (by simp)) (entry_ofFn m) fun i => by simp [entry]]
  simp only [askedQuadratic, Pi.sub_apply, Option.getD_some]
  congr 2
  refine Finset.sum_congr rfl fun i _ => ?_
  rw [mul_pow, div_pow, Real.sq_sqrt hv.le]
  ring

/-- C159 fails for `Gaussian(n, mean=jnp.array([m]))`: the scenario is one-dimensional with precision `n` in place of 1, the
missing covariance having been filled up with `n` ones. -/
theorem C159_fails_precision (n : ℕ) (m : ℝ) :
    ∃ o, GaussianConstruct.new chol n (.arr [m]) .none = some o ∧ o.dim = 1 ∧
      ∀ x : ℝ, GaussianConstruct.potential o [x] = some (1 / 2 * (n * (x - m) ^ 2)) := by
  refine ⟨_, rfl, rfl, fun x => ?_⟩
  have hb : broadcast 1 n = some n := by unfold broadcast; split_ifs <;> simp_all
  simp only [GaussianConstruct.potential, List.length_cons, List.length_nil, zero_add, broadcast_self, Option.bind_some,
    List.map_replicate, List.length_replicate, hb, Option.map_some, Option.some.injEq]
  have hs : ∀ i ∈ Finset.range n,
      ((entry [x] i - entry [m] i) * entry (List.replicate n (1 / √(1 : ℝ))) i) ^ 2 = (x - m) ^ 2 := by
    intro i hi
    rw [entry_replicate n _ i (Or.inr (Finset.mem_range.1 hi))]
    simp [entry]
  rw [Finset.sum_congr rfl hs, Finset.sum_const, Finset.card_range, nsmul_eq_mul]
  norm_num

/-- C159 fails for a mean of length `k` and another `dim` than 1 or `k`: the scenario is built, but its potential raises at every
point of its dimension. -/
theorem C159_fails_raises (n k : ℕ) (hn : n ≠ 1) (hk : k ≠ 1) (hnk : n ≠ k) (m : Fin k → ℝ) :
    ∃ o, GaussianConstruct.new chol n (.arr (List.ofFn m)) .none = some o ∧ o.dim = k ∧
      ∀ x : Fin k → ℝ, GaussianConstruct.potential o (List.ofFn x) = none := by
  refine ⟨_, rfl, by simp, fun x => ?_⟩
  have hb : broadcast k n = none := by simp [broadcast, hn, hk, hnk.symm]
  simp [GaussianConstruct.potential, broadcast_self, hb]

/-- C159 fails for a mean that is a float, which the signature allows. -/
theorem C159_fails_float (dim : ℕ) (c : ℝ) (cov : CovArg) : GaussianConstruct.new chol dim (.float c) cov = none := rfl

/-! ## Concrete cases -/

/-- `Gaussian(mean=jnp.array([1., 2.]))` is the standard normal around that point. -/
example (hchol : IsCholesky (chol 2)) : ∃ o, GaussianConstruct.new chol 1 (.arr [1, 2]) .none = some o ∧
    GaussianConstruct.potential o [4, 6] = some (25 / 2) := by
  obtain ⟨o, h1, -, h3⟩ := C159_partial chol hchol 1 (some ![1, 2]) none (Or.inr ⟨rfl, Or.inl rfl⟩) trivial
  refine ⟨o, h1, ?_⟩
  have := h3 ![4, 6]
  simp only [askedQuadratic, Option.getD_some, Fin.sum_univ_two] at this
  norm_num at this
  simpa using this

/-- `Gaussian(3, mean=jnp.array([0.]))` is three times as concentrated as asked. -/
example : ∃ o, GaussianConstruct.new chol 3 (.arr [0]) .none = some o ∧ GaussianConstruct.potential o [2] = some 6 ∧
    1 / 2 * askedQuadratic (d := 1) (some 0) none (fun _ => 2) = 2 := by
  obtain ⟨o, h1, -, h3⟩ := C159_fails_precision chol 3 0
  refine ⟨o, h1, ?_, ?_⟩
  · rw [h3]; norm_num
  · norm_num [askedQuadratic]

end Mocat.Props
