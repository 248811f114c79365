import Mathlib.Probability.Independence.Basic
import Mathlib.Data.Nat.Choose.Basic
/-!
# The draws, among independent draws with one law, that fall in a set
-/
namespace Mocat.Accepted
open MeasureTheory ProbabilityTheory
open scoped ENNReal

variable {Ω α : Type*}

/-- The list has length `k` and its entry `i` is in `A i`, for each `i`. -/
def Fits (A : ℕ → Set α) (k : ℕ) (l : List α) : Prop := l.length = k ∧ ∀ i x, l[i]? = some x → x ∈ A i

open Classical in
/-- The entries among the first `n` that are in `G`, in order. -/
noncomputable def kept (X : ℕ → Ω → α) (G : Set α) (n : ℕ) (ω : Ω) : List α := ((List.range n).map fun i => X i ω).filter fun x => x ∈ G

theorem kept_succ_mem {X : ℕ → Ω → α} {G : Set α} {n : ℕ} {ω : Ω} (h : X n ω ∈ G) : kept X G (n + 1) ω = kept X G n ω ++ [X n ω] := by
  simp [kept, List.range_succ, List.filter_append, h]

theorem kept_succ_not {X : ℕ → Ω → α} {G : Set α} {n : ℕ} {ω : Ω} (h : X n ω ∉ G) : kept X G (n + 1) ω = kept X G n ω := by
  simp [kept, List.range_succ, List.filter_append, h]

theorem fits_append {A : ℕ → Set α} {k : ℕ} {l : List α} {x : α} : Fits A (k + 1) (l ++ [x]) ↔ Fits A k l ∧ x ∈ A k := by
  unfold Fits
  constructor
  · rintro ⟨h1, h2⟩
    have hl : l.length = k := by simpa using h1
    refine ⟨⟨hl, fun i y hy => h2 i y ?_⟩, h2 k x ?_⟩
    · rw [List.getElem?_append_left (List.getElem?_eq_some_iff.1 hy).1]; exact hy
    · rw [List.getElem?_append_right hl.le, hl]; simp
  · rintro ⟨⟨h1, h2⟩, h3⟩
    refine ⟨by simp [h1], fun i y hy => ?_⟩
    rcases lt_or_ge i l.length with hi | hi
    · rw [List.getElem?_append_left hi] at hy; exact h2 i y hy
    · rw [List.getElem?_append_right hi] at hy
      rcases Nat.eq_or_lt_of_le hi with hi' | hi'
      · rw [← hi'] at hy
        simp only [Nat.sub_self, List.getElem?_cons_zero, Option.some.injEq] at hy
        rw [← hi', h1, ← hy]; exact h3
      · rw [List.getElem?_eq_none (by simp; omega)] at hy
        exact absurd hy (by simp)

/-- The event that the draws kept fit `A`. -/
def Ev (X : ℕ → Ω → α) (G : Set α) (A : ℕ → Set α) (n k : ℕ) : Set Ω := {ω | Fits A k (kept X G n ω)}

theorem ev_zero (X : ℕ → Ω → α) (G : Set α) (A : ℕ → Set α) (k : ℕ) : Ev X G A 0 k = if k = 0 then Set.univ else ∅ := by
  ext ω
  by_cases h : k = 0 <;> simp [Ev, Fits, kept, h]
  exact fun h' => h h'.symm

theorem ev_succ_zero (X : ℕ → Ω → α) (G : Set α) (A : ℕ → Set α) (n : ℕ) : Ev X G A (n + 1) 0 = Ev X G A n 0 ∩ X n ⁻¹' Gᶜ := by
  ext ω
  simp only [Ev, Set.mem_ofPred_eq, Set.mem_inter_iff, Set.mem_preimage, Set.mem_compl_iff]
  by_cases h : X n ω ∈ G
  · rw [kept_succ_mem h]
    simp [Fits, h]
  · rw [kept_succ_not h]
    simp [h]

theorem ev_succ_succ (X : ℕ → Ω → α) (G : Set α) (A : ℕ → Set α) (n k : ℕ) :
    Ev X G A (n + 1) (k + 1) = (Ev X G A n (k + 1) ∩ X n ⁻¹' Gᶜ) ∪ (Ev X G A n k ∩ X n ⁻¹' (A k ∩ G)) := by
  ext ω
  simp only [Ev, Set.mem_ofPred_eq, Set.mem_inter_iff, Set.mem_union, Set.mem_preimage, Set.mem_compl_iff]
  by_cases h : X n ω ∈ G
  · rw [kept_succ_mem h, fits_append]
    simp [h]
  · rw [kept_succ_not h]
    simp [h]

variable [MeasurableSpace Ω] [MeasurableSpace α] {P : Measure Ω} {μ : Measure α} {X : ℕ → Ω → α} {G : Set α} {A : ℕ → Set α}

omit [MeasurableSpace Ω] in
theorem measurable_coord (n m : ℕ) (h : n < m) {B : Set α} (hB : MeasurableSet B) : MeasurableSet[⨆ i ∈ Set.Iio m, MeasurableSpace.comap (X i) inferInstance] (X n ⁻¹' B) := by
  have h1 : MeasurableSpace.comap (X n) inferInstance ≤ ⨆ i ∈ Set.Iio m, MeasurableSpace.comap (X i) inferInstance :=
    le_iSup₂ (f := fun i (_ : i ∈ Set.Iio m) => MeasurableSpace.comap (X i) (inferInstance : MeasurableSpace α)) n h
  exact h1 _ ⟨B, hB, rfl⟩

omit [MeasurableSpace Ω] in
theorem past_mono (n : ℕ) : (⨆ i ∈ Set.Iio n, MeasurableSpace.comap (X i) (inferInstance : MeasurableSpace α)) ≤ ⨆ i ∈ Set.Iio (n + 1), MeasurableSpace.comap (X i) inferInstance :=
  biSup_mono fun _ hi => lt_trans hi (Nat.lt_succ_self n)

omit [MeasurableSpace Ω] in
theorem measurable_ev (hG : MeasurableSet G) (hA : ∀ i, MeasurableSet (A i)) (n k : ℕ) :
    MeasurableSet[⨆ i ∈ Set.Iio n, MeasurableSpace.comap (X i) inferInstance] (Ev X G A n k) := by
  induction n generalizing k with
  | zero =>
    rw [ev_zero]
    split_ifs
    · exact @MeasurableSet.univ _ (_)
    · exact @MeasurableSet.empty _ (_)
  | succ n ih =>
    cases k with
    | zero =>
      rw [ev_succ_zero]
      exact @MeasurableSet.inter _ (_) _ _ (past_mono n _ (ih 0)) (measurable_coord n _ (Nat.lt_succ_self n) hG.compl)
    | succ k =>
      rw [ev_succ_succ]
      exact @MeasurableSet.union _ (_) _ _ (@MeasurableSet.inter _ (_) _ _ (past_mono n _ (ih (k + 1))) (measurable_coord n _ (Nat.lt_succ_self n) hG.compl))
        (@MeasurableSet.inter _ (_) _ _ (past_mono n _ (ih k)) (measurable_coord n _ (Nat.lt_succ_self n) ((hA k).inter hG)))

theorem split (hX : ∀ i, Measurable (X i)) (hind : iIndepFun X P) (hlaw : ∀ i, P.map (X i) = μ) (hG : MeasurableSet G) (hA : ∀ i, MeasurableSet (A i)) (n k : ℕ) {B : Set α} (hB : MeasurableSet B) :
    P (Ev X G A n k ∩ X n ⁻¹' B) = P (Ev X G A n k) * μ B := by
  have h := indep_iSup_of_disjoint (fun i => (hX i).comap_le) hind (S := Set.Iio n) (T := {n}) (by simp)
  rw [(Indep_iff _ _ P).1 h _ _ (measurable_ev hG hA n k) ?_, ← hlaw n, Measure.map_apply (hX n) hB]
  have h1 : MeasurableSpace.comap (X n) inferInstance ≤ ⨆ i ∈ ({n} : Set ℕ), MeasurableSpace.comap (X i) inferInstance :=
    le_iSup₂ (f := fun i (_ : i ∈ ({n} : Set ℕ)) => MeasurableSpace.comap (X i) (inferInstance : MeasurableSpace α)) n rfl
  exact h1 _ ⟨B, hB, rfl⟩

/-- The probability that `k` of `n` draws are kept and that they fit `A`. -/
theorem prob [IsProbabilityMeasure P] (hX : ∀ i, Measurable (X i)) (hind : iIndepFun X P) (hlaw : ∀ i, P.map (X i) = μ) (hG : MeasurableSet G) (hA : ∀ i, MeasurableSet (A i)) (n k : ℕ) :
    P (Ev X G A n k) = (n.choose k : ℝ≥0∞) * (∏ i ∈ Finset.range k, μ (A i ∩ G)) * μ Gᶜ ^ (n - k) := by
  induction n generalizing k with
  | zero =>
    rw [ev_zero]
    cases k with
    | zero => simp
    | succ k => simp
  | succ n ih =>
    cases k with
    | zero =>
      rw [ev_succ_zero, split hX hind hlaw hG hA n 0 hG.compl, ih 0]
      simp [pow_succ]
    | succ k =>
      rw [ev_succ_succ, measure_union, split hX hind hlaw hG hA n (k + 1) hG.compl, split hX hind hlaw hG hA n k ((hA k).inter hG), ih, ih]
      · rw [Nat.choose_succ_succ, Nat.cast_add, Finset.prod_range_succ, Nat.add_sub_add_right, add_mul, add_mul, add_comm]
        congr 1
        · ring
        · rcases Nat.lt_or_ge n (k + 1) with h | h
          · rw [Nat.choose_eq_zero_of_lt h]; simp
          · rw [show n - k = n - (k + 1) + 1 by omega, pow_succ]; ring
      · rw [Set.disjoint_left]
        rintro ω ⟨_, h1⟩ ⟨_, _, h2⟩
        exact h1 h2
      · have hle : (⨆ i ∈ Set.Iio n, MeasurableSpace.comap (X i) (inferInstance : MeasurableSpace α)) ≤ (inferInstance : MeasurableSpace Ω) := iSup₂_le fun i _ => (hX i).comap_le
        exact (hle _ (measurable_ev hG hA n k)).inter (hX n ((hA k).inter hG))

end Mocat.Accepted
