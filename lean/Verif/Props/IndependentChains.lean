import Verif.Props.Continue
import Verif.Lemmas.ErrorBars
import Verif.Lemmas.Subtape
/-!
# C161: chains run with separate keys are independent copies, and error bars computed across chains are honest
-/
namespace Mocat.Props
open Mocat Mocat.Mcmc Mocat.Ideal Mocat.Meas Mocat.Segments MeasureTheory ProbabilityTheory Filter Topology
open scoped ENNReal

variable {d : ℕ}

/-! ## Specification -/

/-- The average over the first `R` chains of the number `g` computed from each chain. -/
noncomputable def chainsMean {α : Type*} (g : List α → ℝ) (chains : ℕ → List α) (R : ℕ) : ℝ := (∑ r ∈ Finset.range R, g (chains r)) / R

/-- Its standard error as estimated from the `R` numbers: their standard deviation divided by the root of `R`. -/
noncomputable def chainsError {α : Type*} (g : List α → ℝ) (chains : ℕ → List α) (R : ℕ) : ℝ :=
  Real.sqrt ((∑ r ∈ Finset.range R, (g (chains r) - chainsMean g chains R) ^ 2) / R) / Real.sqrt R

/-- Across many chains the average has the expectation `truth`, converges to it with probability one, and the interval of `z` standard errors about it contains `truth` with the probability that a standard normal variable
lies between `-z` and `z`, in the limit. -/
structure HonestAcross {α : Type*} (g : List α → ℝ) (truth : ℝ) (chains : ℕ → Tape → List α) : Prop where
  unbiased : ∀ R : ℕ, 1 ≤ R → ∫ ω, chainsMean g (fun r => chains r ω) R ∂ideal = truth
  consistent : ∀ᵐ ω ∂ideal, Tendsto (fun R => chainsMean g (fun r => chains r ω) R) atTop (𝓝 truth)
  covers : ∀ z : ℝ, 0 ≤ z → Tendsto (fun R => ideal {ω | |chainsMean g (fun r => chains r ω) R - truth| ≤ z * chainsError g (fun r => chains r ω) R}) atTop (𝓝 (gaussianReal 0 1 (Set.Icc (-z) z)))

/-- `g` of a list of `n` rows depends on the rows in a measurable way. -/
def MeasurableOn {α : Type*} [MeasurableSpace α] (g : List α → ℝ) (n : ℕ) : Prop := Measurable fun v : Fin n → α => g (List.ofFn v)

/-! ## Proofs -/

section
variable {α D : Type*} [MeasurableSpace α] [MeasurableSpace D] {draw : Keys.Key → Tape → D} {next : Keys.Key → Keys.Key} {step : α → D → α} {δ : Measure D}

/-- The first `n + 1` states as a vector. -/
def pathVec (draw : Keys.Key → Tape → D) (next : Keys.Key → Keys.Key) (step : α → D → α) (n : ℕ) (k : Keys.Key) (x : α) (ω : Tape) : Fin (n + 1) → α :=
  fun i => tapeIter draw next step i k x ω

omit [MeasurableSpace α] [MeasurableSpace D] in
theorem ofFn_pathVec (n : ℕ) (k : Keys.Key) (x : α) (ω : Tape) : List.ofFn (pathVec draw next step n k x ω) = (List.range (n + 1)).map fun i => tapeIter draw next step i k x ω := by
  refine List.ext_getElem (by simp) fun i h1 h2 => ?_
  rw [List.getElem_ofFn, List.getElem_map, List.getElem_range]
  rfl

theorem measurable_pathVec (hd : Draws draw next δ) (hs : Measurable (Function.uncurry step)) (n : ℕ) (k : Keys.Key) (x : α) : Measurable (pathVec draw next step n k x) :=
  measurable_pi_lambda _ fun i => (measurable_tapeIter hd hs i k).comp (measurable_prodMk_left (x := x))

omit [MeasurableSpace α] in
theorem pathVec_dependsOn (hd : Draws draw next δ) (step : α → D → α) (n : ℕ) (k : Keys.Key) (x : α) : DependsOn (pathVec draw next step n k x) (below k) := fun _ _ h =>
  funext fun i => tapeIter_dependsOn hd step i k x h

omit [MeasurableSpace α] in
theorem rowsIn_ofFn (A : ℕ → Set α) {n : ℕ} (v : Fin n → α) : RowsIn A (List.ofFn v) ↔ ∀ i : Fin n, v i ∈ A i := by
  constructor
  · intro h i
    exact h i (v i) (by simp)
  · intro h i y hy
    obtain ⟨hi, rfl⟩ := List.getElem?_eq_some_iff.1 hy
    simpa using h ⟨i, by simpa using hi⟩

/-- The law of the rows does not depend on the key. -/
theorem pathVec_law [SFinite δ] (hd : Draws draw next δ) (hs : Measurable (Function.uncurry step)) (n : ℕ) (k k' : Keys.Key) (x : α) :
    ideal.map (pathVec draw next step n k x) = ideal.map (pathVec draw next step n k' x) := by
  have : IsFiniteMeasure (ideal.map (pathVec draw next step n k x)) := Measure.isFiniteMeasure_map _ _
  have hbox : ∀ {A : ℕ → Set α}, (∀ i, MeasurableSet (A i)) → ∀ k, ideal.map (pathVec draw next step n k x) (Set.univ.pi fun i : Fin (n + 1) => A i)
      = ideal {ω | RowsIn A ((List.range (n + 1)).map fun i => tapeIter draw next step i k x ω)} := fun {A} hA k => by
    rw [Measure.map_apply (measurable_pathVec hd hs n k x) (MeasurableSet.univ_pi fun i => hA i)]
    congr 1
    ext ω
    rw [Set.mem_preimage, Set.mem_univ_pi, Set.mem_ofPred_eq, ← ofFn_pathVec, rowsIn_ofFn]
  have hall : ∀ {A : ℕ → Set α}, (∀ i, MeasurableSet (A i)) → ideal.map (pathVec draw next step n k x) (Set.univ.pi fun i : Fin (n + 1) => A i)
      = ideal.map (pathVec draw next step n k' x) (Set.univ.pi fun i : Fin (n + 1) => A i) := fun {A} hA => by
    rw [hbox hA, hbox hA]
    have h1 := continued_law (rows := fun k n x ω => (List.range n).map fun i => tapeIter draw next step i k x ω) hd hs (fun _ _ _ _ => rfl) [(k, n)] (List.pairwise_singleton _ _) k hA x
    have h2 := continued_law (rows := fun k n x ω => (List.range n).map fun i => tapeIter draw next step i k x ω) hd hs (fun _ _ _ _ => rfl) [(k, n)] (List.pairwise_singleton _ _) k' hA x
    simpa using h1.symm.trans h2
  refine ext_of_generate_finite _ generateFrom_pi.symm isPiSystem_pi ?_ ?_
  · rintro _ ⟨s, hs', rfl⟩
    have := hall (A := fun i => if h : i < n + 1 then s ⟨i, h⟩ else Set.univ) fun i => by
      by_cases h : i < n + 1
      · simp only [h, dif_pos]; exact hs' _ (Set.mem_univ _)
      · simp only [h, dif_neg, not_false_iff]; exact MeasurableSet.univ
    have e : (fun i : Fin (n + 1) => (fun i : ℕ => if h : i < n + 1 then s ⟨i, h⟩ else Set.univ) (i : ℕ)) = s := funext fun i => dif_pos i.2
    rwa [e] at this
  · have := hall (A := fun _ => Set.univ) fun _ => MeasurableSet.univ
    simpa using this

theorem rows_indep (hd : Draws draw next δ) (hs : Measurable (Function.uncurry step)) {ι : Type*} (I : Finset ι) (keys : ι → Keys.Key) (hk : ∀ a b, a ≠ b → Disjoint (below (keys a)) (below (keys b)))
    (n : ι → ℕ) (x : ι → α) {A : ι → ℕ → Set α} (hA : ∀ a i, MeasurableSet (A a i)) :
    ideal {ω | ∀ a ∈ I, RowsIn (A a) ((List.range (n a + 1)).map fun i => tapeIter draw next step i (keys a) (x a) ω)}
      = ∏ a ∈ I, ideal {ω | RowsIn (A a) ((List.range (n a + 1)).map fun i => tapeIter draw next step i (keys a) (x a) ω)} := by
  have e : ∀ a, {ω | RowsIn (A a) ((List.range (n a + 1)).map fun i => tapeIter draw next step i (keys a) (x a) ω)} = pathVec draw next step (n a) (keys a) (x a) ⁻¹' Set.univ.pi fun i : Fin (n a + 1) => A a i := fun a => by
    ext ω
    rw [Set.mem_preimage, Set.mem_univ_pi, Set.mem_ofPred_eq, ← ofFn_pathVec, rowsIn_ofFn]
  rw [← biInter I (S := fun a => below (keys a)) (fun a _ b _ h => hk a b h) (fun a _ => ?_) fun a _ ω ω' h => ?_]
  · congr 1
    ext ω
    simp
  · rw [e]
    exact measurable_pathVec hd hs _ _ _ (MeasurableSet.univ_pi fun i => hA a i)
  · rw [e]
    simp only [Set.mem_preimage]
    rw [pathVec_dependsOn hd step (n a) (keys a) (x a) h]

theorem honest [SFinite δ] (hd : Draws draw next δ) (hs : Measurable (Function.uncurry step)) {rows : Keys.Key → Tape → List α} {n : ℕ} {x : α}
    (hrows : ∀ key ω, rows key ω = (List.range (n + 1)).map fun i => tapeIter draw next step i key x ω) (keys : ℕ → Keys.Key) (hk : ∀ a b, a ≠ b → Disjoint (below (keys a)) (below (keys b)))
    {g : List α → ℝ} (hg : MeasurableOn g (n + 1)) (key : Keys.Key) (h2 : MemLp (fun ω => g (rows key ω)) 2 ideal) (hne : ¬∃ c, ∀ᵐ ω ∂ideal, g (rows key ω) = c) :
    HonestAcross g (∫ ω, g (rows key ω) ∂ideal) fun r ω => rows (keys r) ω := by
  set Z : ℕ → Tape → Fin (n + 1) → α := fun r => pathVec draw next step n (keys r) x with hZd
  set f : (Fin (n + 1) → α) → ℝ := fun v => g (List.ofFn v) with hfd
  have hf : Measurable f := hg
  have hZ : ∀ r, Measurable (Z r) := fun r => measurable_pathVec hd hs n _ x
  have hind : iIndepFun Z ideal := iIndepFun_of_dependsOn (S := fun r => below (keys r)) hk hZ fun r => pathVec_dependsOn hd step n _ x
  obtain ⟨μ, hμ⟩ : ∃ μ, μ = ideal.map (pathVec draw next step n key x) := ⟨_, rfl⟩
  have hlaw : ∀ r, ideal.map (Z r) = μ := fun r => by rw [hμ]; exact pathVec_law hd hs n _ _ x
  have mk : Measurable (pathVec draw next step n key x) := measurable_pathVec hd hs n key x
  have eg : ∀ ω, g (rows key ω) = f (pathVec draw next step n key x ω) := fun ω => by rw [hrows, ← ofFn_pathVec]
  have er : ∀ r ω, g (rows (keys r) ω) = f (Z r ω) := fun r ω => by rw [hrows, ← ofFn_pathVec]
  simp only [eg] at h2 hne ⊢
  have hf2 : MemLp f 2 μ := by rw [hμ]; exact (memLp_map_measure_iff hf.aestronglyMeasurable mk.aemeasurable).2 h2
  have : IsProbabilityMeasure μ := by rw [hμ]; exact Measure.isProbabilityMeasure_map mk.aemeasurable
  have et : ∫ ω, f (pathVec draw next step n key x ω) ∂ideal = ∫ v, f v ∂μ := by rw [hμ, integral_map mk.aemeasurable hf.aestronglyMeasurable]
  rw [et]
  obtain ⟨θ, hθ⟩ : ∃ θ, θ = ∫ v, f v ∂μ := ⟨_, rfl⟩
  rw [← hθ]
  have havg : ∀ R ω, chainsMean g (fun r => rows (keys r) ω) R = ErrorBars.avg (fun _ => 1) f Z R ω := fun R ω => by
    simp only [chainsMean, ErrorBars.avg, er, one_mul, Finset.sum_const, Finset.card_range, nsmul_eq_mul, mul_one]
  have hse : ∀ R ω, chainsError g (fun r => rows (keys r) ω) R = ErrorBars.se (fun _ => 1) f Z R ω := fun R ω => by
    simp only [chainsError, ErrorBars.se, havg, er, one_mul, Finset.sum_const, Finset.card_range, nsmul_eq_mul, mul_one]
    rw [Real.sqrt_div (Finset.sum_nonneg fun _ _ => sq_nonneg _), div_div, Real.mul_self_sqrt (Nat.cast_nonneg R)]
  have hw2 : MemLp (fun _ : Fin (n + 1) → α => (1 : ℝ)) 2 μ := memLp_const 1
  have hone : ∫ _ : Fin (n + 1) → α, (1 : ℝ) ∂μ = 1 := by simp
  have hpos : 0 < ∫ _ : Fin (n + 1) → α, (1 : ℝ) ∂μ := by rw [hone]; exact one_pos
  have hθ' : ∫ v, 1 * f v ∂μ = θ * ∫ _ : Fin (n + 1) → α, (1 : ℝ) ∂μ := by rw [hone, mul_one, hθ]; simp only [one_mul]
  have hwf2 : MemLp (fun v => 1 * f v) 2 μ := by simpa only [one_mul] using hf2
  refine ⟨fun R hR => ?_, ?_, fun z hz => ?_⟩
  · simp only [chainsMean, er]
    have hi : ∀ r, Integrable (fun ω => f (Z r ω)) ideal := fun r => by
      have := (integrable_map_measure (μ := ideal) (f := Z r) hf.aestronglyMeasurable (hZ r).aemeasurable).1 (by rw [hlaw]; exact hf2.integrable one_le_two)
      exact this
    have h1 : ∀ r, ∫ ω, f (Z r ω) ∂ideal = θ := fun r => by
      rw [hθ, ← hlaw r, integral_map (hZ r).aemeasurable hf.aestronglyMeasurable]
    rw [integral_div, integral_finsetSum _ fun r _ => hi r]
    simp only [h1, Finset.sum_const, Finset.card_range, nsmul_eq_mul]
    have : (R : ℝ) ≠ 0 := by positivity
    field_simp
  · filter_upwards [ErrorBars.avg_tendsto hZ hind (fun r => hlaw (r + 1)) measurable_const hf (hw2.integrable one_le_two) (hwf2.integrable one_le_two) hpos hθ'] with ω hω
    rw [← tendsto_add_atTop_iff_nat 1]
    simpa only [havg] using hω
  · refine ErrorBars.standardised (w := fun _ => 1) hZ hind (fun r => hlaw (r + 1)) measurable_const hf hw2 hwf2 hpos hθ' ?_ measurableSet_Icc ?_ fun R ω h1 h2 => ?_
    · refine lt_of_le_of_ne (integral_nonneg fun z => sq_nonneg _) fun h0 => hne ⟨θ, ?_⟩
      have hG2 : MemLp (fun v => 1 * (f v - θ)) 2 μ := by simp only [one_mul]; exact hf2.sub (memLp_const θ)
      have h1 := (integral_eq_zero_iff_of_nonneg (fun z => sq_nonneg _) hG2.integrable_sq).1 h0.symm
      rw [hμ] at h1
      filter_upwards [ae_of_ae_map mk.aemeasurable h1] with ω hω
      have : f (pathVec draw next step n key x ω) - θ = 0 := by simpa using hω
      linarith
    · rw [frontier_Icc (by linarith)]
      exact (Set.toFinite {-z, z}).measure_zero _
    · rw [Set.mem_ofPred_eq, havg, hse, Set.mem_Icc, ← abs_le, abs_div, abs_of_pos h2, div_le_iff₀ h2]

end

/-! ## Properties -/

/-- C161, `RandomWalk` with `Metropolis`: the rows of chains run with separate keys are independent, whatever their lengths and starting points. -/
theorem C161_independent {q : ℝ → ℝ} (hq : IsNormalDraw q) {S : Set (Fin d → ℝ)} (hS : MeasurableSet S) {V : (Fin d → ℝ) → ℝ} (hV : Measurable V) (step : ℝ) (al : Fl) (t : ℝ)
    {ι : Type*} (I : Finset ι) (keys : ι → Keys.Key) (hk : ∀ a b, a ≠ b → Disjoint (below (keys a)) (below (keys b))) (n : ι → ℕ) (x : ι → Fin d → ℝ) {A : ι → ℕ → Set (Fin d → ℝ)} (hA : ∀ a i, MeasurableSet (A a i)) :
    ideal {ω | ∀ a ∈ I, RowsIn (A a) (walkRows S V q step (n a + 1 : ℕ) (x a) al t (keys a) ω)} = ∏ a ∈ I, ideal {ω | RowsIn (A a) (walkRows S V q step (n a + 1 : ℕ) (x a) al t (keys a) ω)} := by
  have e : ∀ a ω, walkRows S V q step (n a + 1 : ℕ) (x a) al t (keys a) ω = _ := fun a ω => rw_run S V step (x a) al t (keys a) (Nat.succ_pos (n a)) ω
  simp only [e]
  exact rows_indep (rwDraws_draws hq) (measurable_rwMove hS hV step) I keys hk n x hA

/-- C161, `RandomWalk` with `Metropolis`: chains with the same starting point have the same law, whatever their keys. -/
theorem C161_same_law {q : ℝ → ℝ} (hq : IsNormalDraw q) {S : Set (Fin d → ℝ)} (hS : MeasurableSet S) {V : (Fin d → ℝ) → ℝ} (hV : Measurable V) (step : ℝ) (al : Fl) (t : ℝ)
    (n : ℕ) (x : Fin d → ℝ) (key key' : Keys.Key) {A : ℕ → Set (Fin d → ℝ)} (hA : ∀ i, MeasurableSet (A i)) :
    ideal {ω | RowsIn A (walkRows S V q step (n + 1) x al t key ω)} = ideal {ω | RowsIn A (walkRows S V q step (n + 1) x al t key' ω)} := by
  have h1 := C157_continue hq hS hV step al t [(key, n)] (List.pairwise_singleton _ _) key hA x
  have h2 := C157_continue hq hS hV step al t [(key, n)] (List.pairwise_singleton _ _) key' hA x
  simpa using h1.symm.trans h2

/-- C161, `RandomWalk` with `Metropolis`: the average over `R` chains with separate keys of any number computed from a chain has the expectation of that number for one chain, converges to it, and its usual standard error
across chains gives intervals of the nominal coverage as the number of chains grows. -/
theorem C161_error_bars {q : ℝ → ℝ} (hq : IsNormalDraw q) {S : Set (Fin d → ℝ)} (hS : MeasurableSet S) {V : (Fin d → ℝ) → ℝ} (hV : Measurable V) (step : ℝ) (al : Fl) (t : ℝ)
    (keys : ℕ → Keys.Key) (hk : ∀ a b, a ≠ b → Disjoint (below (keys a)) (below (keys b))) (n : ℕ) (x : Fin d → ℝ) {g : List (Fin d → ℝ) → ℝ} (hg : MeasurableOn g (n + 1)) (key : Keys.Key)
    (h2 : MemLp (fun ω => g (walkRows S V q step (n + 1) x al t key ω)) 2 ideal) (hne : ¬∃ c, ∀ᵐ ω ∂ideal, g (walkRows S V q step (n + 1) x al t key ω) = c) :
    HonestAcross g (∫ ω, g (walkRows S V q step (n + 1) x al t key ω) ∂ideal) fun r ω => walkRows S V q step (n + 1) x al t (keys r) ω :=
  honest (rows := fun key ω => walkRows S V q step (n + 1) x al t key ω) (rwDraws_draws hq) (measurable_rwMove hS hV step) (fun key ω => rw_run S V step x al t key (Nat.succ_pos n) ω) keys hk hg key h2 hne

/-- C161, `Underdamped` with infinite friction and `Metropolis` (Hamiltonian Monte Carlo; overdamped Langevin for one leapfrog step): independence. -/
theorem C161_independent_langevin {prior lik : (Fin d → ℝ) → ℝ × (Fin d → ℝ)} {T : ℝ} {q : ℝ → ℝ} (hq : IsNormalDraw q) (hg : Measurable (gradField prior lik T)) (hU : Measurable (potAt prior lik T)) (L : ℕ) (step : ℝ)
    (p : Fin d → ℝ) (al : Fl) (t : ℝ) {ι : Type*} (I : Finset ι) (keys : ι → Keys.Key) (hk : ∀ a b, a ≠ b → Disjoint (below (keys a)) (below (keys b))) (n : ι → ℕ) (x : ι → Fin d → ℝ)
    {A : ι → ℕ → Set (Fin d → ℝ)} (hA : ∀ a i, MeasurableSet (A a i)) :
    ideal {ω | ∀ a ∈ I, RowsIn (A a) (hamiltonianRows prior lik T q L step p al t (keys a) (n a + 1) (x a) ω)} = ∏ a ∈ I, ideal {ω | RowsIn (A a) (hamiltonianRows prior lik T q L step p al t (keys a) (n a + 1) (x a) ω)} := by
  have e : ∀ a ω, hamiltonianRows prior lik T q L step p al t (keys a) (n a + 1) (x a) ω = _ := fun a ω => ud_run prior lik T L step (x a, p) al t (keys a) (Nat.succ_pos (n a)) ω
  simp only [e]
  exact rows_indep (udDrawsAt_draws hq) (measurable_udMove hg hU L ⟨step, none⟩) I keys hk n x hA

/-- C161 for the same samplers: error bars across chains. -/
theorem C161_error_bars_langevin {prior lik : (Fin d → ℝ) → ℝ × (Fin d → ℝ)} {T : ℝ} {q : ℝ → ℝ} (hq : IsNormalDraw q) (hgr : Measurable (gradField prior lik T)) (hU : Measurable (potAt prior lik T)) (L : ℕ) (step : ℝ)
    (p : Fin d → ℝ) (al : Fl) (t : ℝ) (keys : ℕ → Keys.Key) (hk : ∀ a b, a ≠ b → Disjoint (below (keys a)) (below (keys b))) (n : ℕ) (x : Fin d → ℝ) {g : List (Fin d → ℝ) → ℝ} (hg : MeasurableOn g (n + 1)) (key : Keys.Key)
    (h2 : MemLp (fun ω => g (hamiltonianRows prior lik T q L step p al t key (n + 1) x ω)) 2 ideal) (hne : ¬∃ c, ∀ᵐ ω ∂ideal, g (hamiltonianRows prior lik T q L step p al t key (n + 1) x ω) = c) :
    HonestAcross g (∫ ω, g (hamiltonianRows prior lik T q L step p al t key (n + 1) x ω) ∂ideal) fun r ω => hamiltonianRows prior lik T q L step p al t (keys r) (n + 1) x ω :=
  honest (rows := fun key ω => hamiltonianRows prior lik T q L step p al t key (n + 1) x ω) (udDrawsAt_draws hq) (measurable_udMove hgr hU L ⟨step, none⟩) (fun key ω => ud_run prior lik T L step (x, p) al t key (Nat.succ_pos n) ω)
    keys hk hg key h2 hne

/-- C161 fails for chains run with the same key: they are the same chain, so that the spread across any number of them is zero, whatever the error of their average. -/
theorem C161_same_key {q : ℝ → ℝ} (S : Set (Fin d → ℝ)) (V : (Fin d → ℝ) → ℝ) (step : ℝ) (al : Fl) (t : ℝ) (key : Keys.Key) (n : ℕ) (x : Fin d → ℝ) (g : List (Fin d → ℝ) → ℝ) (R : ℕ) (hR : 1 ≤ R) (ω : Tape) :
    chainsMean g (fun _ => walkRows S V q step (n + 1) x al t key ω) R = g (walkRows S V q step (n + 1) x al t key ω)
      ∧ chainsError g (fun _ => walkRows S V q step (n + 1) x al t key ω) R = 0 := by
  have hR' : (R : ℝ) ≠ 0 := by positivity
  have h : chainsMean g (fun _ => walkRows S V q step (n + 1) x al t key ω) R = g (walkRows S V q step (n + 1) x al t key ω) := by
    simp only [chainsMean, Finset.sum_const, Finset.card_range, nsmul_eq_mul]
    field_simp
  exact ⟨h, by simp [chainsError, h]⟩

/-- Keys split from one key are separate: `keys r` is the `r`-th key of `random.split(key, ·)`. -/
theorem split_separate (key : Keys.Key) (a b : ℕ) (h : a ≠ b) : Disjoint (below (a :: key)) (below (b :: key)) := below_disjoint h

/-- The last value of a run of two rows on a flat target is not constant. -/
theorem flat_not_constant {q : ℝ → ℝ} (hq : IsNormalDraw q) (key : Keys.Key) (x : Fin 1 → ℝ) :
    ¬∃ c, ∀ᵐ ω ∂ideal, Real.arctan (((walkRows Set.univ (fun _ => 0) q 1 (1 + 1) x (Fl.fin 1) 0 key ω).getLast?.getD 0) 0) = c := by
  rintro ⟨c, hc⟩
  have e : ∀ ω, (walkRows Set.univ (fun _ => 0) q 1 (1 + 1) x (Fl.fin 1) 0 key ω).getLast?.getD 0 = rwMove Set.univ (fun _ => 0) 1 x (rwDraws q 1 key ω) := fun ω => by
    have := rw_run (q := q) Set.univ (fun _ => 0) 1 x (Fl.fin 1) 0 key (n := 1 + 1) (by omega) ω
    rw [walkRows]
    erw [this]
    rfl
  simp only [e] at hc
  have hd := rwDraws_draws (d := 1) hq
  have hm : Measurable fun z => Real.arctan (rwMove Set.univ (fun _ => 0) 1 x z 0) :=
    Real.continuous_arctan.measurable.comp ((measurable_pi_apply 0).comp ((measurable_rwMove MeasurableSet.univ measurable_const 1).comp measurable_prodMk_left))
  have h1 : ∀ᵐ z ∂((stdNormal 1).prod unif), Real.arctan (rwMove Set.univ (fun _ => 0) 1 x z 0) = c := by
    rw [← hd.law key]
    exact (ae_map_iff (hd.measurable key).aemeasurable (hm (measurableSet_singleton c))).2 hc
  have h2 : ∀ᵐ z ∂((stdNormal 1).prod unif), z.2 < 1 := by
    have : ∀ᵐ u ∂unif, u < 1 := by
      unfold unif
      filter_upwards [ae_restrict_mem measurableSet_Ico] with u hu using hu.2
    exact Measure.quasiMeasurePreserving_snd.ae this
  have h3 : ∀ᵐ z ∂((stdNormal 1).prod unif), z.1 0 = Real.tan c - x 0 := by
    filter_upwards [h1, h2] with z h1 h2
    have ha : accOn Set.univ (fun _ => 0) x (rwProp (Real.sqrt 1) (x, z.1)) = 1 := by simp [accOn]
    rw [rwMove, ha, if_pos h2] at h1
    have := congrArg Real.tan h1
    rw [Real.tan_arctan, rwProp, Real.sqrt_one, one_mul] at this
    linarith
  have h4 : ∀ᵐ y ∂(gaussianReal 0 1), y = Real.tan c - x 0 := by
    have hmp : MeasurePreserving (fun z : (Fin 1 → ℝ) × ℝ => z.1 0) ((stdNormal 1).prod unif) (gaussianReal 0 1) :=
      (measurePreserving_eval (fun _ : Fin 1 => gaussianReal 0 1) 0).comp measurePreserving_fst
    rw [← hmp.map_eq]
    exact (ae_map_iff hmp.measurable.aemeasurable (measurableSet_singleton _)).2 h3
  have : NullSingletonClass (gaussianReal 0 1) := nullSingletonClass_gaussianReal one_ne_zero
  have h5 : (gaussianReal 0 1) Set.univ = 0 := by
    have := measure_mono_null (s := Set.univ) (t := {y | y = Real.tan c - x 0} ∪ {y | ¬ y = Real.tan c - x 0}) (μ := gaussianReal 0 1) (fun y _ => em _)
      (measure_union_null (measure_singleton _) h4)
    exact this
  simp at h5

/-- Chains with the keys of one split on a flat target. -/
example {q : ℝ → ℝ} (hq : IsNormalDraw q) (key : Keys.Key) (x : Fin 1 → ℝ) :=
  C161_error_bars hq MeasurableSet.univ measurable_const 1 (Fl.fin 1) 0 (fun r => r :: key) (split_separate key) 1 x (g := fun l => Real.arctan ((l.getLast?.getD 0) 0))
    (Real.continuous_arctan.measurable.comp (by simp; fun_prop)) key
    (by
      refine MemLp.of_bound ?_ (Real.pi / 2) (ae_of_all _ fun ω => ?_)
      · have h := measurable_pathVec (rwDraws_draws (d := 1) hq) (measurable_rwMove MeasurableSet.univ (V := fun _ => 0) measurable_const 1) 1 key x
        have e : ∀ ω, walkRows Set.univ (fun _ => 0) q 1 (1 + 1) x (Fl.fin 1) 0 key ω = List.ofFn (pathVec (rwDraws q 1) Keys.rwNext (rwMove Set.univ (fun _ => 0) 1) 1 key x ω) := fun ω => by
          rw [ofFn_pathVec]; exact rw_run (q := q) Set.univ (fun _ => 0) 1 x (Fl.fin 1) 0 key (n := 1 + 1) (by omega) ω
        simp only [e]
        have h1 : Measurable fun v : Fin 2 → Fin 1 → ℝ => Real.arctan (((List.ofFn v).getLast?.getD 0) 0) :=
          Real.continuous_arctan.measurable.comp (by simp; fun_prop)
        exact (h1.comp h).aestronglyMeasurable
      · rw [Real.norm_eq_abs, abs_le]
        exact ⟨(Real.neg_pi_div_two_lt_arctan _).le, (Real.arctan_lt_pi_div_two _).le⟩)
    (flat_not_constant hq key x)

end Mocat.Props
