import Verif.Props.ChainDiagnostics
import Verif.Props.ChainConvergence
import Verif.Props.AbcImportanceLaw
import Verif.Lemmas.Segments
/-!
# C157: longer runs extend shorter ones, and a run can be continued from its last row
-/
namespace Mocat.Props
open Mocat Mocat.Mcmc Mocat.Abc Mocat.Ideal Mocat.Meas Mocat.Segments MeasureTheory ProbabilityTheory
open scoped ENNReal

variable {d : ℕ}

/-! ## Specification -/

/-- Row `i` (counted from 0) is in `A i`, for each row. -/
def RowsIn {α : Type*} (A : ℕ → Set α) (rows : List α) : Prop := ∀ i x, rows[i]? = some x → x ∈ A i

/-- The rows obtained by a program that makes one run after the other, each with its own key and started at the last value of the run before, and drops the first row of each run because it repeats that value: an entry `(key, n)`
is a run of `n + 1` rows, `rows key (n + 1) x ω`. The list starts after the value `x` at which the first run starts. -/
def continuedRows {α : Type*} (rows : Keys.Key → ℕ → α → Tape → List α) : List (Keys.Key × ℕ) → α → Tape → List α
  | [], _, _ => []
  | (key, n) :: rest, x, ω => (rows key (n + 1) x ω).tail ++ continuedRows rows rest ((rows key (n + 1) x ω).getLast?.getD x) ω

/-- The rows of a run of `n` samples of `Underdamped` with infinite friction, `L` leapfrog steps and `Metropolis`, started at `x` with momenta `p`. -/
noncomputable def hamiltonianRows (prior lik : (Fin d → ℝ) → ℝ × (Fin d → ℝ)) (T : ℝ) (q : ℝ → ℝ) (L : ℕ) (step : ℝ) (p : Fin d → ℝ) (al : Fl) (t : ℝ) (key : Keys.Key) (n : ℕ) (x : Fin d → ℝ) (ω : Tape) :
    List (Fin d → ℝ) :=
  (runFrom (underdamped Keys.split Keys.splitN (normalAt q d ω) (fun x _ => prior x) (fun x _ => lik x) T L) (metropolis Keys.split fun k => ω (k, 0)) n (udState prior lik T (x, p) al t) ⟨key, 0, ⟨step, none⟩⟩).map
    fun s => s.payload.value

/-! ## Proofs -/

theorem range_prefix {α : Type*} (f : ℕ → α) {a b : ℕ} (h : a ≤ b) : (List.range a).map f <+: (List.range b).map f := by
  obtain ⟨c, rfl⟩ := Nat.exists_eq_add_of_le h
  rw [List.range_add, List.map_append]
  exact List.prefix_append _ _

theorem tapeIter_list {X D : Type*} (draw : Keys.Key → Tape → D) (next : Keys.Key → Keys.Key) (step : X → D → X) (n : ℕ) (k : Keys.Key) (r : List (Keys.Key × ℕ)) (x : X) (ω : Tape) :
    segPath draw next step ((k, n) :: r) x ω = ((List.range (n + 1)).map fun i => tapeIter draw next step i k x ω).tail ++ segPath draw next step r (tapeIter draw next step n k x ω) ω := by
  induction n generalizing k x with
  | zero => simp [segPath, tapeIter]
  | succ n ih =>
    rw [segPath, ih, List.range_succ_eq_map (n := n + 1), List.map_cons, List.tail_cons, List.map_map]
    have e : ((fun i => tapeIter draw next step i k x ω) ∘ Nat.succ) = fun i => tapeIter draw next step i (next k) (step x (draw k ω)) ω := by
      funext i; rfl
    rw [e, List.range_succ_eq_map, List.map_cons, List.tail_cons]
    rfl

section
variable {α D : Type*} {draw : Keys.Key → Tape → D} {next : Keys.Key → Keys.Key} {step : α → D → α} {rows : Keys.Key → ℕ → α → Tape → List α}

theorem continuedRows_eq (hrows : ∀ key n x ω, rows key (n + 1) x ω = (List.range (n + 1)).map fun i => tapeIter draw next step i key x ω) (segs : List (Keys.Key × ℕ)) (x : α) (ω : Tape) :
    continuedRows rows segs x ω = segPath draw next step segs x ω := by
  induction segs generalizing x with
  | nil => simp [continuedRows, segPath]
  | cons p r ih =>
    obtain ⟨k, n⟩ := p
    rw [continuedRows, hrows, ih, tapeIter_list]
    congr 2
    simp [List.range_succ]

theorem rowsIn_cons {α : Type*} (A : ℕ → Set α) (x : α) (l : List α) : RowsIn A (x :: l) ↔ x ∈ A 0 ∧ RowsIn (fun i => A (i + 1)) l := by
  constructor
  · intro h
    exact ⟨h 0 x (by simp), fun i y hy => h (i + 1) y (by simpa using hy)⟩
  · rintro ⟨h0, h⟩ i y hy
    cases i with
    | zero => simp at hy; rw [← hy]; exact h0
    | succ i => exact h i y (by simpa using hy)

variable [MeasurableSpace α] [MeasurableSpace D] {δ : Measure D} [SFinite δ]

theorem prob_seg (hd : Draws draw next δ) (hs : Measurable (Function.uncurry step)) (hrows : ∀ key n x ω, rows key (n + 1) x ω = (List.range (n + 1)).map fun i => tapeIter draw next step i key x ω)
    (segs : List (Keys.Key × ℕ)) (hdis : segs.Pairwise fun p p' => Disjoint (below p.1) (below p'.1)) {A : ℕ → Set α} (hA : ∀ i, MeasurableSet (A i)) (x : α) :
    ideal {ω | RowsIn A (continuedRows rows segs x ω)} = pathOp δ step (total segs) A x := by
  rw [← law hd hs segs hdis hA x]
  have hb : Measurable fun ω => boxInd A (segPath draw next step segs x ω) := (measurable_box hd hs segs hA).comp (measurable_prodMk_left (x := x))
  have e : {ω | RowsIn A (continuedRows rows segs x ω)} = (fun ω => boxInd A (segPath draw next step segs x ω)) ⁻¹' {1} := by
    ext ω
    rw [Set.mem_ofPred_eq, continuedRows_eq hrows, Set.mem_preimage, Set.mem_singleton_iff]
    by_cases h : RowsIn A (segPath draw next step segs x ω)
    · exact iff_of_true h ((boxInd_eq _ _).trans (if_pos h))
    · refine iff_of_false h ?_
      rw [(boxInd_eq _ _).trans (if_neg h)]
      exact zero_ne_one
  have hm : MeasurableSet {ω | RowsIn A (continuedRows rows segs x ω)} := by rw [e]; exact hb (measurableSet_singleton 1)
  rw [← lintegral_indicator_one hm]
  refine lintegral_congr fun ω => ?_
  by_cases h : RowsIn A (segPath draw next step segs x ω)
  · rw [(boxInd_eq _ _).trans (if_pos h), Set.indicator_of_mem (by rw [Set.mem_ofPred_eq, continuedRows_eq hrows]; exact h)]; rfl
  · rw [(boxInd_eq _ _).trans (if_neg h), Set.indicator_of_notMem (by rw [Set.mem_ofPred_eq, continuedRows_eq hrows]; exact h)]

theorem continued_law (hd : Draws draw next δ) (hs : Measurable (Function.uncurry step)) (hrows : ∀ key n x ω, rows key (n + 1) x ω = (List.range (n + 1)).map fun i => tapeIter draw next step i key x ω)
    (segs : List (Keys.Key × ℕ)) (hdis : segs.Pairwise fun p p' => Disjoint (below p.1) (below p'.1)) (key : Keys.Key) {A : ℕ → Set α} (hA : ∀ i, MeasurableSet (A i)) (x : α) :
    ideal {ω | RowsIn A (x :: continuedRows rows segs x ω)} = ideal {ω | RowsIn A (rows key ((segs.map fun p => p.2).sum + 1) x ω)} := by
  have h1 := prob_seg hd hs hrows segs hdis (fun i => hA (i + 1)) x
  have h2 := prob_seg hd hs hrows [(key, (segs.map fun p => p.2).sum)] (List.pairwise_singleton _ _) (fun i => hA (i + 1)) x
  have e : ∀ ω, rows key ((segs.map fun p => p.2).sum + 1) x ω = x :: continuedRows rows [(key, (segs.map fun p => p.2).sum)] x ω := fun ω => by
    rw [continuedRows, continuedRows, List.append_nil, hrows, List.range_succ_eq_map, List.map_cons, List.tail_cons]
    rfl
  have ht : total [(key, (segs.map fun p => p.2).sum)] = total segs := by simp [total]
  rw [ht, ← h1] at h2
  simp only [e, rowsIn_cons]
  by_cases hx : x ∈ A 0
  · simp only [hx, true_and]
    exact h2.symm
  · simp [hx]

end

/-! ## Properties -/

/-- C157: a run with a larger `n` and otherwise the same inputs starts with the rows of the shorter run, for every sampler and correction that leave the counter alone; in particular with `RMMetropolis`. -/
theorem C157_prefix {K σ π : Type*} (smp : Sampler K σ π) (corr : Correction K σ π) (hs : KeepsIter smp) (hc : CorrKeepsIter corr) {n m : ℤ} (h : n ≤ m) (s0 : State σ) (e0 : Extra K π) :
    runFrom smp corr n s0 e0 <+: runFrom smp corr m s0 e0 := by
  rw [C12_mcmc smp corr hs hc, C12_mcmc smp corr hs hc]
  exact range_prefix _ (by omega)

/-- C157 for `ImportanceABC` and `VanillaABC` with a threshold. -/
theorem C157_importance {D : Type*} {S : Set (Fin d → ℝ)} {V : (Fin d → ℝ) → ℝ} {pri prop : Tape → Fin d → ℝ} {sim : (Fin d → ℝ) → Tape → D} {dist : D → Fl} {key : Keys.Key} {thr : Fl}
    (lw : Fl → Row (Fin d → ℝ) D → Fl) {n m : ℕ} (hn : 1 ≤ n) (h : n ≤ m) (ω : Tape) :
    importanceRun Keys.split Keys.split4 (tapeScenario S V pri sim dist ω) (fun k => prop (subtape k ω)) lw n none key thr
      <+: importanceRun Keys.split Keys.split4 (tapeScenario S V pri sim dist ω) (fun k => prop (subtape k ω)) lw m none key thr := by
  rw [abc_run_eq lw n hn ω, abc_run_eq lw m (hn.trans h) ω]
  exact range_prefix _ h

/-- C157: runs of `RandomWalk` with `Metropolis`, each continued from the last value of the run before with a key of its own, together have the law of one long run with any key. -/
theorem C157_continue {q : ℝ → ℝ} (hq : IsNormalDraw q) {S : Set (Fin d → ℝ)} (hS : MeasurableSet S) {V : (Fin d → ℝ) → ℝ} (hV : Measurable V) (step : ℝ) (al : Fl) (t : ℝ)
    (segs : List (Keys.Key × ℕ)) (hdis : segs.Pairwise fun p p' => Disjoint (below p.1) (below p'.1)) (key : Keys.Key) {A : ℕ → Set (Fin d → ℝ)} (hA : ∀ i, MeasurableSet (A i)) (x : Fin d → ℝ) :
    ideal {ω | RowsIn A (x :: continuedRows (fun k n x => walkRows S V q step n x al t k) segs x ω)} = ideal {ω | RowsIn A (walkRows S V q step ((segs.map fun p => p.2).sum + 1) x al t key ω)} :=
  continued_law (rows := fun k n x => walkRows S V q step n x al t k) (rwDraws_draws hq) (measurable_rwMove hS hV step) (fun k n x ω => rw_run S V step x al t k (Nat.succ_pos n) ω) segs hdis key hA x

/-- C157: the same for `Underdamped` with infinite friction (Hamiltonian Monte Carlo, and overdamped Langevin for one leapfrog step), whatever the momenta at the start of each run. -/
theorem C157_continue_langevin {prior lik : (Fin d → ℝ) → ℝ × (Fin d → ℝ)} {T : ℝ} {q : ℝ → ℝ} (hq : IsNormalDraw q) (hg : Measurable (gradField prior lik T)) (hU : Measurable (potAt prior lik T)) (L : ℕ) (step : ℝ)
    (p : Fin d → ℝ) (al : Fl) (t : ℝ) (segs : List (Keys.Key × ℕ)) (hdis : segs.Pairwise fun p p' => Disjoint (below p.1) (below p'.1)) (key : Keys.Key) {A : ℕ → Set (Fin d → ℝ)} (hA : ∀ i, MeasurableSet (A i))
    (x : Fin d → ℝ) :
    ideal {ω | RowsIn A (x :: continuedRows (hamiltonianRows prior lik T q L step p al t) segs x ω)} = ideal {ω | RowsIn A (hamiltonianRows prior lik T q L step p al t key ((segs.map fun p => p.2).sum + 1) x ω)} :=
  continued_law (udDrawsAt_draws hq) (measurable_udMove hg hU L ⟨step, none⟩) (fun k n x ω => ud_run prior lik T L step (x, p) al t k (Nat.succ_pos n) ω) segs hdis key hA x

/-- Three runs with the keys of one split. -/
example {q : ℝ → ℝ} (hq : IsNormalDraw q) (key : Keys.Key) (x : Fin 1 → ℝ) {A : ℕ → Set (Fin 1 → ℝ)} (hA : ∀ i, MeasurableSet (A i)) :=
  C157_continue hq MeasurableSet.univ (V := fun x => x 0 ^ 2 / 2) (by fun_prop) 1 (Fl.fin 1) 0 [(0 :: key, 10), (1 :: key, 20), (2 :: key, 5)]
    (by simp only [List.pairwise_cons, List.mem_cons, List.not_mem_nil, or_false]
        refine ⟨?_, ?_, by simp, List.Pairwise.nil⟩
        · rintro p (rfl | rfl) <;> exact below_disjoint (by decide)
        · rintro p rfl; exact below_disjoint (by decide)) key hA x

/-- Two Hamiltonian Monte Carlo runs on the standard normal. -/
example : ∃ q, IsNormalDraw q ∧ ∀ (key : Keys.Key) (x : Fin 1 → ℝ) (A : ℕ → Set (Fin 1 → ℝ)), (∀ i, MeasurableSet (A i)) →
    ideal {ω | RowsIn A (x :: continuedRows (hamiltonianRows (fun x => (x 0 ^ 2 / 2, x)) (fun _ => (0, 0)) 1 q 5 (1 / 2) 0 (Fl.fin 1) 0) [(0 :: key, 10), (1 :: key, 20)] x ω)}
      = ideal {ω | RowsIn A (hamiltonianRows (fun x => (x 0 ^ 2 / 2, x)) (fun _ => (0, 0)) 1 q 5 (1 / 2) 0 (Fl.fin 1) 0 key 31 x ω)} := by
  obtain ⟨q, hq⟩ := exists_isNormalDraw
  refine ⟨q, hq, fun key x A hA => C157_continue_langevin hq (by unfold gradField; fun_prop) (by unfold potAt; fun_prop) 5 (1 / 2) 0 (Fl.fin 1) 0 _ ?_ key hA x⟩
  simp only [List.pairwise_cons, List.mem_cons, List.not_mem_nil, or_false]
  refine ⟨?_, by simp, List.Pairwise.nil⟩
  rintro p rfl
  exact below_disjoint (by decide)

end Mocat.Props
