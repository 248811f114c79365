import Verif.Model.Loop
/-! Helper lemmas for `while_loop_stacked`. -/
namespace Mocat.Loop
variable {σ ε : Type*}

/-- One step of the body on carries. -/
def step (bodyFun : σ → ε → σ × ε) (c : σ × ε) : σ × ε := bodyFun c.1 c.2

/-- An ordinary bounded while loop recording the visited states. -/
def boundedWhile (condFun : σ → ε → Bool) (bodyFun : σ → ε → σ × ε) : ℕ → σ × ε → List σ
  | 0, _ => []
  | k + 1, c => if condFun c.1 c.2 then
      (step bodyFun c).1 :: boundedWhile condFun bodyFun k (step bodyFun c) else []

theorem scan_dead (condFun : σ → ε → Bool) (bodyFun : σ → ε → σ × ε) (init c : σ × ε)
    (m j k : ℕ) (h : m + 1 < j) :
    scan (updateKernel condFun bodyFun init) (c, m) ((List.range' j k))
      = ((if k = 0 then c else init, m), List.replicate k init.1) := by
  induction k generalizing c j with
  | zero => simp [scan]
  | succ k ih =>
    have hj : ¬ j ≤ m + 1 := by omega
    simp only [List.range'_succ, scan, updateKernel, updateCond, hj, if_false, Bool.false_eq_true]
    rw [ih init (j + 1) (by omega)]
    simp [List.replicate_succ]

theorem scan_live (condFun : σ → ε → Bool) (bodyFun : σ → ε → σ × ε) (init c : σ × ε) (m k : ℕ) :
    scan (updateKernel condFun bodyFun init) (c, m) ((List.range' (m + 1) k))
      = (let l := boundedWhile condFun bodyFun k c
         ((if l.length < k then init else (step bodyFun)^[k] c, m + l.length),
          l ++ List.replicate (k - l.length) init.1)) := by
  induction k generalizing c m with
  | zero => simp [scan, boundedWhile]
  | succ k ih =>
    simp only [List.range'_succ, scan, updateKernel, updateCond, le_refl, if_true]
    by_cases hc : condFun c.1 c.2 = true
    · simp only [hc, if_true, boundedWhile]
      rw [ih (bodyFun c.1 c.2) (m + 1)]
      simp [step, Nat.add_sub_add_right, Nat.add_assoc, Nat.add_comm 1]
    · simp only [hc, Bool.false_eq_true, if_false, boundedWhile]
      rw [scan_dead _ _ _ _ _ _ _ (by omega)]
      simp [List.replicate_succ]

theorem arange_eq (hi : ℤ) : arangeFromOne hi = List.range' 1 hi.toNat := by
  rw [arangeFromOne, List.range'_eq_map_range]
  apply List.map_congr_left; intros; omega

theorem boundedWhile_length_le (condFun : σ → ε → Bool) (bodyFun : σ → ε → σ × ε) (k : ℕ) (c : σ × ε) :
    (boundedWhile condFun bodyFun k c).length ≤ k := by
  induction k generalizing c with
  | zero => simp [boundedWhile]
  | succ k ih => simp only [boundedWhile]; split <;> simp [ih]

theorem raw_eq (condFun : σ → ε → Bool) (bodyFun : σ → ε → σ × ε) (c : σ × ε) (maxIter : ℤ) :
    whileLoopStackedRaw condFun bodyFun c maxIter
      = (let l := boundedWhile condFun bodyFun maxIter.toNat c
         (l ++ List.replicate (maxIter.toNat - l.length) c.1,
          if l.length < maxIter.toNat then c else (step bodyFun)^[maxIter.toNat] c, l.length)) := by
  have := scan_live condFun bodyFun c c 0 maxIter.toNat
  simp only [whileLoopStackedRaw, arange_eq]
  rw [show (1:ℕ) = 0 + 1 from rfl, this]
  simp

theorem whileLoopStacked_eq (condFun : σ → ε → Bool) (bodyFun : σ → ε → σ × ε) (c : σ × ε) (maxIter : ℤ) :
    whileLoopStacked condFun bodyFun c maxIter = boundedWhile condFun bodyFun maxIter.toNat c := by
  simp [whileLoopStacked, raw_eq]

/-- Declarative description of `boundedWhile`. -/
theorem boundedWhile_spec (condFun : σ → ε → Bool) (bodyFun : σ → ε → σ × ε) (k : ℕ) (c : σ × ε) :
    let l := boundedWhile condFun bodyFun k c
    l = (List.range l.length).map (fun i => ((step bodyFun)^[i + 1] c).1)
    ∧ (∀ i < l.length, condFun ((step bodyFun)^[i] c).1 ((step bodyFun)^[i] c).2 = true)
    ∧ (l.length < k → condFun ((step bodyFun)^[l.length] c).1 ((step bodyFun)^[l.length] c).2 = false) := by
  induction k generalizing c with
  | zero => simp [boundedWhile]
  | succ k ih =>
    simp only [boundedWhile]
    by_cases hc : condFun c.1 c.2 = true
    · obtain ⟨h1, h2, h3⟩ := ih (step bodyFun c)
      simp only [hc, if_true, List.length_cons]
      refine ⟨?_, ?_, ?_⟩
      · rw [List.range_succ_eq_map, List.map_cons, List.map_map]
        conv_lhs => rw [h1]
        simp [Function.comp_def]
      · intro i hi
        cases i with
        | zero => simpa using hc
        | succ i => exact h2 i (by omega)
      · intro hlt
        exact h3 (by omega)
    · simp [hc]

end Mocat.Loop
