import Verif.Lemmas.TapeMoves
/-!
# Chains made of several stretches, each with its own key
-/
namespace Mocat.Segments
open Mocat Mocat.Ideal MeasureTheory
open scoped ENNReal

variable {X D : Type*}

/-- The states after each step: `n` steps with the draws of the first key, then those of the second, ... -/
def segPath (draw : Keys.Key → Tape → D) (next : Keys.Key → Keys.Key) (step : X → D → X) : List (Keys.Key × ℕ) → X → Tape → List X
  | [], _, _ => []
  | (_, 0) :: r, x, ω => segPath draw next step r x ω
  | (k, n + 1) :: r, x, ω => step x (draw k ω) :: segPath draw next step ((next k, n) :: r) (step x (draw k ω)) ω
  termination_by l => (l.length, (l.head?.map (·.2)).getD 0)

/-- 1 if entry `i` of the list is in `A i` for each `i`, 0 otherwise. -/
noncomputable def boxInd : (ℕ → Set X) → List X → ℝ≥0∞
  | _, [] => 1
  | A, x :: l => (A 0).indicator 1 x * boxInd (fun i => A (i + 1)) l

theorem boxInd_eq (A : ℕ → Set X) (l : List X) : open Classical in boxInd A l = if ∀ i x, l[i]? = some x → x ∈ A i then 1 else 0 := by
  classical
  induction l generalizing A with
  | nil => simp [boxInd]
  | cons y l ih =>
    rw [boxInd, ih]
    by_cases h0 : y ∈ A 0
    · rw [Set.indicator_of_mem h0, Pi.one_apply, one_mul]
      refine if_congr ⟨fun h i x hx => ?_, fun h i x hx => h (i + 1) x (by simpa using hx)⟩ rfl rfl
      cases i with
      | zero => simp at hx; rw [← hx]; exact h0
      | succ i => exact h i x (by simpa using hx)
    · rw [Set.indicator_of_notMem h0, zero_mul, if_neg]
      exact fun h => h0 (h 0 y (by simp))

/-- Total number of steps. -/
def total (segs : List (Keys.Key × ℕ)) : ℕ := (segs.map (·.2)).sum

/-- The sites the stretches may read. -/
def sites (segs : List (Keys.Key × ℕ)) : Set Site := {s | ∃ p ∈ segs, s ∈ below p.1}

variable [MeasurableSpace X] [MeasurableSpace D] {draw : Keys.Key → Tape → D} {next : Keys.Key → Keys.Key} {δ : Measure D} {step : X → D → X}

/-- The probability that `m` steps from `x` visit `A 0`, `A 1`, ... -/
noncomputable def pathOp (δ : Measure D) (step : X → D → X) : ℕ → (ℕ → Set X) → X → ℝ≥0∞
  | 0, _, _ => 1
  | m + 1, A, x => ∫⁻ z, (A 0).indicator 1 (step x z) * pathOp δ step m (fun i => A (i + 1)) (step x z) ∂δ

theorem measurable_box (hd : Draws draw next δ) (hs : Measurable (Function.uncurry step)) (segs : List (Keys.Key × ℕ)) {A : ℕ → Set X} (hA : ∀ i, MeasurableSet (A i)) :
    Measurable fun z : X × Tape => boxInd A (segPath draw next step segs z.1 z.2) := by
  induction segs generalizing A with
  | nil => simp only [segPath, boxInd]; exact measurable_const
  | cons p r ih =>
    obtain ⟨k, n⟩ := p
    induction n generalizing k A with
    | zero => simp only [segPath]; exact ih hA
    | succ n ihn =>
      simp only [segPath, boxInd]
      have h1 : Measurable fun z : X × Tape => step z.1 (draw k z.2) := hs.comp (measurable_fst.prodMk ((hd.measurable k).comp measurable_snd))
      have h2 := (ihn (fun i => hA (i + 1)) (next k)).comp (h1.prodMk measurable_snd)
      exact ((measurable_one.indicator (hA 0)).comp h1).mul h2

omit [MeasurableSpace X] in
theorem box_dependsOn (hd : Draws draw next δ) (step : X → D → X) (segs : List (Keys.Key × ℕ)) (A : ℕ → Set X) (x : X) : DependsOn (fun ω => boxInd A (segPath draw next step segs x ω)) (sites segs) := by
  induction segs generalizing A x with
  | nil => intro _ _ _; simp [segPath]
  | cons p r ih =>
    obtain ⟨k, n⟩ := p
    induction n generalizing k A x with
    | zero =>
      intro ω ω' h
      simp only [segPath]
      exact ih A x fun s hs => h s (by obtain ⟨p, hp, hps⟩ := hs; exact ⟨p, List.mem_cons_of_mem _ hp, hps⟩)
    | succ n ihn =>
      intro ω ω' h
      obtain ⟨T, h1, h2, -⟩ := hd.reads k
      simp only [segPath, boxInd]
      rw [h1 fun s hs => h s ⟨(k, n + 1), List.mem_cons_self, h2 hs⟩]
      congr 1
      refine ihn _ _ (next k) fun s hs => h s ?_
      obtain ⟨p, hp, hps⟩ := hs
      rcases List.mem_cons.1 hp with rfl | hp
      · exact ⟨(k, n + 1), List.mem_cons_self, hd.next k hps⟩
      · exact ⟨p, List.mem_cons_of_mem _ hp, hps⟩

theorem measurable_pathOp [SFinite δ] (hs : Measurable (Function.uncurry step)) (m : ℕ) {A : ℕ → Set X} (hA : ∀ i, MeasurableSet (A i)) : Measurable (pathOp δ step m A) := by
  induction m generalizing A with
  | zero => exact measurable_const
  | succ m ih =>
    have h : Measurable fun y : X => (A 0).indicator (1 : X → ℝ≥0∞) y * pathOp δ step m (fun i => A (i + 1)) y := (measurable_one.indicator (hA 0)).mul (ih fun i => hA (i + 1))
    exact Measurable.lintegral_prod_right (h.comp hs)

/-- The law of the path does not depend on the keys, nor on how the steps are divided among them, if no two keys share draws. -/
theorem law [SFinite δ] (hd : Draws draw next δ) (hs : Measurable (Function.uncurry step)) (segs : List (Keys.Key × ℕ)) (hdis : segs.Pairwise fun p p' => Disjoint (below p.1) (below p'.1))
    {A : ℕ → Set X} (hA : ∀ i, MeasurableSet (A i)) (x : X) : ∫⁻ ω, boxInd A (segPath draw next step segs x ω) ∂ideal = pathOp δ step (total segs) A x := by
  induction segs generalizing A x with
  | nil => simp [segPath, boxInd, total, pathOp]
  | cons p r ih =>
    obtain ⟨k, n⟩ := p
    induction n generalizing k A x with
    | zero =>
      simp only [segPath]
      rw [ih (List.pairwise_cons.1 hdis).2 hA x]
      simp [total]
    | succ n ihn =>
      have ht : total ((k, n + 1) :: r) = total ((next k, n) :: r) + 1 := by simp [total]; omega
      obtain ⟨hk, hr⟩ := List.pairwise_cons.1 hdis
      have hdis' : ((next k, n) :: r).Pairwise fun p p' => Disjoint (below p.1) (below p'.1) := List.pairwise_cons.2 ⟨fun p hp => (hk p hp).mono_left (hd.next k), hr⟩
      obtain ⟨T, h1, h2, h3⟩ := hd.reads k
      have hT : Disjoint T (sites ((next k, n) :: r)) := by
        rw [Set.disjoint_left]
        rintro s hsT ⟨p, hp, hps⟩
        rcases List.mem_cons.1 hp with rfl | hp
        · exact Set.disjoint_left.1 h3 hsT hps
        · exact Set.disjoint_left.1 (hk p hp) (h2 hsT) hps
      have hsx : Measurable fun z => step x z := hs.comp measurable_prodMk_left
      have hm : Measurable fun ω => step x (draw k ω) := hsx.comp (hd.measurable k)
      have hg : Measurable (Function.uncurry fun (y : X) (ω : Tape) => (A 0).indicator (1 : X → ℝ≥0∞) y * boxInd (fun i => A (i + 1)) (segPath draw next step ((next k, n) :: r) y ω)) :=
        ((measurable_one.indicator (hA 0)).comp measurable_fst).mul (measurable_box hd hs _ fun i => hA (i + 1))
      have e := fresh hT (f := fun ω => step x (draw k ω))
        (g := fun y ω => (A 0).indicator (1 : X → ℝ≥0∞) y * boxInd (fun i => A (i + 1)) (segPath draw next step ((next k, n) :: r) y ω)) hm
        (fun ω ω' hω => by simp only; rw [h1 hω]) hg (fun y ω ω' hω => by
          have := box_dependsOn hd step ((next k, n) :: r) (fun i => A (i + 1)) y hω
          simp only at this ⊢
          rw [this])
      simp only [segPath, boxInd]
      rw [e, ht, pathOp]
      have e1 : ∀ y, ∫⁻ ω', (A 0).indicator (1 : X → ℝ≥0∞) y * boxInd (fun i => A (i + 1)) (segPath draw next step ((next k, n) :: r) y ω') ∂ideal
          = (A 0).indicator (1 : X → ℝ≥0∞) y * pathOp δ step (total ((next k, n) :: r)) (fun i => A (i + 1)) y := fun y => by
        have hb : Measurable fun ω' => boxInd (fun i => A (i + 1)) (segPath draw next step ((next k, n) :: r) y ω') :=
          (measurable_box hd hs ((next k, n) :: r) fun i => hA (i + 1)).comp (measurable_prodMk_left (x := y))
        rw [lintegral_const_mul _ hb, ihn (fun i => hA (i + 1)) y (next k) hdis']
      simp_rw [e1]
      have h : Measurable fun y : X => (A 0).indicator (1 : X → ℝ≥0∞) y * pathOp δ step (total ((next k, n) :: r)) (fun i => A (i + 1)) y :=
        (measurable_one.indicator (hA 0)).mul (measurable_pathOp hs _ fun i => hA (i + 1))
      have e2 := lintegral_map (μ := ideal) (h.comp hsx) (hd.measurable k)
      rw [hd.law k] at e2
      exact e2.symm

end Mocat.Segments
