import Verif.Props.OnlineLaw
import Verif.Props.OnlineSmoothing
/-!
# C137: smoothing one observation at a time by backward simulation, before the lag

The draws come from an ideal generator (`Verif.Spec.Tape`).
-/
namespace Mocat.Props
open Mocat Mocat.Filtering Mocat.Backward Mocat.Metrics Mocat.Ideal Mocat.Meas MeasureTheory
open Mocat.Smc (Red Q redStep redValue redWeight StepLaw stepSites critLt lse logEss lseMean Spread Apart share)
open scoped ENNReal

variable {X : Type} {n dy : ℕ}

/-! ## A step of the filter in two halves -/

/-- The resampling half. -/
noncomputable def resRed (cat : (Fin n → Fl) → ℝ → Fin n) (thr : ℝ) (key : Keys.Key) (R : Red n X) (ω : Tape) : Red n X :=
  redStep (fun w => cat fun i => .fin (w i)) (critLt n thr) (fun i => (key, (i : ℕ))) (fun _ _ => 0) (fun _ x _ => x) R ω

/-- The half that moves and weights the particles. -/
noncomputable def moveRed (cat : (Fin n → Fl) → ℝ → Fin n) (f : Tape → Filter X Keys.Key dy) (G : X → ℝ → X → Obs dy → ℝ → ℝ) (t : ℝ) (o : Obs dy × ℝ × Keys.Key) (R : Red n X) (ω : Tape) : Red n X :=
  redStep (fun w => cat fun i => .fin (w i)) ∅ (fun i => (o.2.2, n + (i : ℕ))) (fun x x' => G x t x' o.1 o.2.1) (fun i x ω => (f ω).proposalSample x t o.1 o.2.1 ((i : ℕ) :: o.2.2)) R ω

theorem resRed_eq (cat : (Fin n → Fl) → ℝ → Fin n) (thr : ℝ) (key : Keys.Key) (R : Red n X) (ω : Tape) :
    resRed cat thr key R ω = (fun i => redValue (fun w => cat fun i => .fin (w i)) (critLt n thr) (fun i => (key, (i : ℕ))) R ω i, redWeight (critLt n thr) R, R.2.2) := by
  unfold resRed redStep
  simp

theorem filterStep_split (cat : (Fin n → Fl) → ℝ → Fin n) (f : Tape → Filter X Keys.Key dy) (G : X → ℝ → X → Obs dy → ℝ → ℝ) (thr t : ℝ) (o : Obs dy × ℝ × Keys.Key) (R : Red n X) (ω : Tape) :
    filterStep cat f G thr t o R ω = moveRed cat f G t o (resRed cat thr o.2.2 R ω) ω := by
  rw [resRed_eq]
  unfold filterStep moveRed redStep
  simp only [redValue, redWeight, Set.mem_empty_iff_false, if_false]

theorem res_law [MeasurableSpace X] (thr : ℝ) (key : Keys.Key) :
    StepLaw (n := n) (X := X) (critLt n thr) (fun i => (key, (i : ℕ))) (fun _ _ => 0) (fun _ x _ => x) (fun _ => ∅) (fun h x => h x) := by
  refine ⟨Smc.measurableSet_critLt thr, measurable_const, fun i => measurable_fst, fun i x ω ω' _ => rfl, fun i => Set.notMem_empty _, fun i x h hh => ?_, fun hh => hh⟩
  simp

section
variable [MeasurableSpace X] {cat : (Fin n → Fl) → ℝ → Fin n} (hcat : IsCategoricalReal fun (w : Fin n → ℝ) u => cat (fun i => .fin (w i)) u) (thr : ℝ) (key : Keys.Key)

include hcat in
theorem measurable_resRed : Measurable fun z : Red n X × Tape => resRed cat thr key z.1 z.2 := Smc.measurable_redStep hcat (res_law (X := X) thr key)

include hcat in
theorem measurable_resRed_at (R : Red n X) : Measurable (resRed cat thr key R) := by
  have h : Measurable fun ω : Tape => (R, ω) := measurable_prodMk_left
  have h2 := (measurable_resRed (X := X) hcat thr key).comp h
  exact h2

theorem resRed_dependsOn (R : Red n X) : DependsOn (resRed cat thr key R) (stepSites (n := n) (fun i => (key, (i : ℕ))) (fun _ => ∅)) := Smc.redStep_dependsOn (res_law (X := X) thr key) R

include hcat in
theorem lintegral_resRed [NeZero n] {h : X → ℝ≥0∞} (hh : Measurable h) (R : Red n X) : ∫⁻ ω, Q h (resRed cat thr key R ω) ∂ideal = Q h R := Smc.lintegral_Q_redStep hcat (res_law (X := X) thr key) hh R

end

theorem res_apart (key : Keys.Key) : Apart (n := n) (fun i => (key, (i : ℕ))) (fun _ => ∅) := by
  intro i j hij
  have : (i : ℕ) ≠ j := fun h => hij (Fin.ext h)
  simpa using this

theorem move_apart (κ : Keys.Key) : Apart (n := n) (fun i => (κ, n + (i : ℕ))) (fun i => below ((i : ℕ) :: κ)) := by
  have hnot : ∀ i j : ℕ, ((κ, i) : Site) ∉ below (j :: κ) := by
    rintro i j ⟨p, hp⟩
    have := congrArg List.length hp
    simp at this
    omega
  intro i j hij
  have hne : (i : ℕ) ≠ j := fun h => hij (Fin.ext h)
  rw [Set.disjoint_insert_left, Set.disjoint_insert_right]
  refine ⟨?_, hnot _ _, below_disjoint hne⟩
  rw [Set.mem_insert_iff, not_or]
  refine ⟨fun h => hne ?_, hnot _ _⟩
  have := congrArg Prod.snd h
  simp at this
  exact this

theorem halves_disjoint (κ : Keys.Key) : Disjoint (stepSites (n := n) (fun i => (κ, (i : ℕ))) (fun _ => ∅)) (stepSites (n := n) (fun i => (κ, n + (i : ℕ))) (fun i => below ((i : ℕ) :: κ))) := by
  rw [Set.disjoint_left]
  rintro s ⟨i, rfl | h⟩ ⟨j, h2 | ⟨p, hp⟩⟩
  · have := congrArg Prod.snd h2
    simp at this
    omega
  · have := congrArg List.length hp
    simp at this
    omega
  · exact h.elim
  · exact h.elim

theorem moveSites (κ : Keys.Key) : stepSites (n := n) (fun i => (κ, n + (i : ℕ))) (fun i => below ((i : ℕ) :: κ)) ⊆ below κ := by
  rintro s ⟨i, rfl | hs⟩
  · exact ⟨[], rfl⟩
  · exact mem_below_cons hs

theorem resSites (κ : Keys.Key) : stepSites (n := n) (fun i => (κ, (i : ℕ))) (fun _ => ∅) ⊆ below κ := by
  rintro s ⟨i, rfl | hs⟩
  · exact ⟨[], rfl⟩
  · exact hs.elim

section
variable [MeasurableSpace X] [NeZero n] {cat : (Fin n → Fl) → ℝ → Fin n} (hcat : IsCategoricalReal fun (w : Fin n → ℝ) u => cat (fun i => .fin (w i)) u) (thr : ℝ) (key : Keys.Key) {A : ℝ}

omit [MeasurableSpace X] in
theorem spread_resRed (hA : 0 ≤ A) {R : Red n X} (hsp : Spread A R) (ω : Tape) : Spread A (resRed cat thr key R ω) := by
  have := Smc.spread_redStep (cat := fun w => cat fun i => .fin (w i)) (C := critLt n thr) (σ := fun i => (key, (i : ℕ))) (G := fun _ _ => (0 : ℝ)) (mv := fun _ x _ => x) hA hsp (W := 1) (fun _ _ => by simp) ω
  rw [mul_one] at this
  exact this

include hcat in
theorem lintegral_sq_resRed {h : X → ℝ≥0∞} (hh : Measurable h) {B : ℝ≥0∞} (hB : ∀ x, h x ≤ B) {R : Red n X} (hsp : Spread A R) :
    ∫⁻ ω, Q h (resRed cat thr key R ω) ^ 2 ∂ideal ≤ Q h R ^ 2 + (ENNReal.ofReal A * B) ^ 2 / n := by
  have h3 := Smc.lintegral_sq_redStep hcat (res_law (X := X) thr key) (res_apart key) hh hB (W := 1) (fun _ _ => by simp) R hsp
  rw [ENNReal.ofReal_one, mul_one] at h3
  exact h3

end

/-! ## The record of the filter -/

/-- What one call does to the record of the filter: the last ensemble is resampled in place, and a new one follows it. -/
noncomputable def advance (cat : (Fin n → Fl) → ℝ → Fin n) (f : Tape → Filter X Keys.Key dy) (G : X → ℝ → X → Obs dy → ℝ → ℝ) (thr : ℝ) (k : ℕ) (t : ℝ) (o : Obs dy × ℝ × Keys.Key) (W : Hist n X) (ω : Tape) : Hist n X :=
  Function.update (Function.update W k (resRed cat thr o.2.2 (W k) ω)) (k + 1) (moveRed cat f G t o (resRed cat thr o.2.2 (W k) ω) ω)

/-- The record after the remaining calls. -/
noncomputable def recordRun (cat : (Fin n → Fl) → ℝ → Fin n) (f : Tape → Filter X Keys.Key dy) (G : X → ℝ → X → Obs dy → ℝ → ℝ) (thr : ℝ) : ℕ → ℝ → List (Obs dy × ℝ × Keys.Key) → Hist n X → Tape → Hist n X
  | _, _, [], W, _ => W
  | k, t, o :: os, W, ω => recordRun cat f G thr (k + 1) o.2.1 os (advance cat f G thr k t o W ω) ω

section
variable [MeasurableSpace X] {cat : (Fin n → Fl) → ℝ → Fin n} {f : Tape → Filter X Keys.Key dy} {G0 : X → Obs dy → ℝ → ℝ} {G : X → ℝ → X → Obs dy → ℝ → ℝ}
  {Γ0 : Obs dy → ℝ → Measure X} {Γ : X → ℝ → Obs dy → ℝ → Measure X} (hF : FilterLaw f G0 G Γ0 Γ)
include hF

theorem move_law (t : ℝ) (o : Obs dy × ℝ × Keys.Key) :
    StepLaw (n := n) ∅ (fun i => (o.2.2, n + (i : ℕ))) (fun x x' => G x t x' o.1 o.2.1) (fun i x ω => (f ω).proposalSample x t o.1 o.2.1 ((i : ℕ) :: o.2.2))
      (fun i => below ((i : ℕ) :: o.2.2)) (fun h x => ∫⁻ x', h x' ∂(Γ x t o.1 o.2.1)) := by
  refine ⟨MeasurableSet.empty, hF.measurable_logWeight t _ _, fun i => hF.measurable_proposal _ _ _ _, fun i x => hF.reads_proposal _ _ _ _ _, fun i => ?_,
    fun i x h hh => hF.law_proposal _ _ _ _ _ hh, fun hh => hF.kernel _ _ _ hh⟩
  rintro ⟨p, hp⟩
  have := congrArg List.length hp
  simp at this
  omega

theorem measurable_moveRed (hcat : IsCategoricalReal fun (w : Fin n → ℝ) u => cat (fun i => .fin (w i)) u) (t : ℝ) (o : Obs dy × ℝ × Keys.Key) : Measurable fun z : Red n X × Tape => moveRed cat f G t o z.1 z.2 :=
  Smc.measurable_redStep hcat (move_law hF t o)

theorem moveRed_dependsOn (t : ℝ) (o : Obs dy × ℝ × Keys.Key) (R : Red n X) :
    DependsOn (moveRed cat f G t o R) (stepSites (n := n) (fun i => (o.2.2, n + (i : ℕ))) (fun i => below ((i : ℕ) :: o.2.2))) := Smc.redStep_dependsOn (move_law hF t o) R

theorem lintegral_moveRed [NeZero n] (hcat : IsCategoricalReal fun (w : Fin n → ℝ) u => cat (fun i => .fin (w i)) u) (t : ℝ) (o : Obs dy × ℝ × Keys.Key) {h : X → ℝ≥0∞} (hh : Measurable h) (R : Red n X) :
    ∫⁻ ω, Q h (moveRed cat f G t o R ω) ∂ideal = Q (fun x => ∫⁻ x', h x' ∂(Γ x t o.1 o.2.1)) R := Smc.lintegral_Q_redStep hcat (move_law hF t o) hh R

theorem lintegral_sq_moveRed [NeZero n] (hcat : IsCategoricalReal fun (w : Fin n → ℝ) u => cat (fun i => .fin (w i)) u) (t : ℝ) (o : Obs dy × ℝ × Keys.Key) {h : X → ℝ≥0∞} (hh : Measurable h) {B : ℝ≥0∞}
    (hB : ∀ x, h x ≤ B) {A w : ℝ} (hw : ∀ x x', Real.exp (G x t x' o.1 o.2.1) ≤ w) (R : Red n X) (hsp : Spread A R) :
    ∫⁻ ω, Q h (moveRed cat f G t o R ω) ^ 2 ∂ideal ≤ Q (fun x => ∫⁻ x', h x' ∂(Γ x t o.1 o.2.1)) R ^ 2 + (ENNReal.ofReal A * ENNReal.ofReal w * B) ^ 2 / n :=
  Smc.lintegral_sq_redStep hcat (move_law hF t o) (move_apart o.2.2) hh hB hw R hsp

omit [MeasurableSpace X] hF in
theorem spread_moveRed [NeZero n] (t : ℝ) (o : Obs dy × ℝ × Keys.Key) {A w : ℝ} (hA : 0 ≤ A) (hw : ∀ x x', Real.exp (G x t x' o.1 o.2.1) ≤ w) {R : Red n X} (hsp : Spread A R) (ω : Tape) :
    Spread (A * w) (moveRed cat f G t o R ω) := Smc.spread_redStep hA hsp hw ω

theorem measurable_advance (hcat : IsCategoricalReal fun (w : Fin n → ℝ) u => cat (fun i => .fin (w i)) u) (thr : ℝ) (k : ℕ) (t : ℝ) (o : Obs dy × ℝ × Keys.Key) :
    Measurable fun z : Hist n X × Tape => advance cat f G thr k t o z.1 z.2 := by
  have h1 : Measurable fun z : Hist n X × Tape => (z.1 k, z.2) := ((measurable_pi_apply k).comp measurable_fst).prodMk measurable_snd
  have h2 := (measurable_resRed (X := X) hcat thr o.2.2).comp h1
  have h4 := (measurable_moveRed hF hcat t o).comp (h2.prodMk measurable_snd)
  have h5 := (measurable_update' (a := k)).comp (measurable_fst.prodMk h2)
  have h6 := (measurable_update' (a := k + 1)).comp (h5.prodMk h4)
  exact h6

theorem advance_dependsOn (thr : ℝ) (k : ℕ) (t : ℝ) (o : Obs dy × ℝ × Keys.Key) (W : Hist n X) : DependsOn (advance cat f G thr k t o W) (below o.2.2) := by
  intro ω ω' hω
  have e1 : resRed cat thr o.2.2 (W k) ω = resRed cat thr o.2.2 (W k) ω' := resRed_dependsOn thr o.2.2 (W k) fun s hs => hω s (resSites _ hs)
  have e2 : moveRed cat f G t o (resRed cat thr o.2.2 (W k) ω') ω = moveRed cat f G t o (resRed cat thr o.2.2 (W k) ω') ω' := moveRed_dependsOn hF t o _ fun s hs => hω s (moveSites _ hs)
  unfold advance
  rw [e1, e2]

theorem measurable_recordRun (hcat : IsCategoricalReal fun (w : Fin n → ℝ) u => cat (fun i => .fin (w i)) u) (thr : ℝ) (os : List (Obs dy × ℝ × Keys.Key)) (k : ℕ) (t : ℝ) {W : Tape → Hist n X}
    (hW : Measurable W) : Measurable fun ω => recordRun cat f G thr k t os (W ω) ω := by
  induction os generalizing k t W with
  | nil => exact hW
  | cons o os ih =>
    have h1 := (measurable_advance hF hcat thr k t o).comp (hW.prodMk measurable_id)
    exact ih (k + 1) o.2.1 h1

theorem recordRun_dependsOn (thr : ℝ) (os : List (Obs dy × ℝ × Keys.Key)) (k : ℕ) (t : ℝ) {W : Tape → Hist n X} {S : Set Site} (hWS : DependsOn W S) (hS : ∀ o ∈ os, below o.2.2 ⊆ S) :
    DependsOn (fun ω => recordRun cat f G thr k t os (W ω) ω) S := by
  induction os generalizing k t W with
  | nil => exact hWS
  | cons o os ih =>
    refine ih (k + 1) o.2.1 (W := fun ω => advance cat f G thr k t o (W ω) ω) (fun ω ω' hω => ?_) fun o' ho' => hS o' (List.mem_cons_of_mem _ ho')
    have e1 := hWS hω
    have e2 := advance_dependsOn (cat := cat) hF thr k t o (W ω') fun s hs => hω s (hS o List.mem_cons_self hs)
    simp only at e1 e2 ⊢
    rw [e1, e2]

section
variable [NeZero n] (hcat : IsCategoricalReal fun (w : Fin n → ℝ) u => cat (fun i => .fin (w i)) u) {trans : X → ℝ → X → ℝ → ℝ}
  (htr : ∀ t t', Measurable fun z : X × X => trans z.1 t z.2 t') {ρ : ℝ → Obs dy → ℝ → Measure X}
  (hΓ : ∀ x t y t', Γ x t y t' = (ρ t y t').withDensity fun x' => ENNReal.ofReal (Real.exp (-trans x t x' t'))) (thr : ℝ)
  (τ : ℕ → ℝ) (p0 : ℕ → X) (o : Obs dy × ℝ × Keys.Key) (k : ℕ) (t : ℝ) (ht : τ k = t) (hτ1 : τ (k + 1) = o.2.1) {φ : (ℕ → X) → ℝ≥0∞} (hφ : Measurable φ)

omit hF [MeasurableSpace X] [NeZero n] in
theorem Qback_advance (W : Hist n X) (ω : Tape) :
    Q (fun x => back trans τ φ (advance cat f G thr k t o W ω) (k + 1) (Function.update p0 (k + 1) x)) (advance cat f G thr k t o W ω (k + 1))
      = Q (fun x => back trans τ φ (Function.update W k (resRed cat thr o.2.2 (W k) ω)) (k + 1) (Function.update p0 (k + 1) x)) (moveRed cat f G t o (resRed cat thr o.2.2 (W k) ω) ω) :=
  Qback_update trans τ φ _ k _ p0

omit [NeZero n] in
include hcat htr hφ in
theorem measurable_Qmove (W : Hist n X) :
    Measurable (Function.uncurry fun (R : Red n X) (ω : Tape) => Q (fun x => back trans τ φ (Function.update W k R) (k + 1) (Function.update p0 (k + 1) x)) (moveRed cat f G t o R ω)) := by
  have h1 : Measurable fun z : Red n X × Tape => Function.update W k z.1 := (measurable_update W).comp measurable_fst
  have h2 : Measurable fun z : Red n X × Tape => moveRed cat f G t o z.1 z.2 := measurable_moveRed hF hcat t o
  have h3 := (measurable_Qback (n := n) htr τ hφ (k + 1) p0).comp (h1.prodMk h2)
  exact h3

omit hF in
include htr hΓ hφ ht hτ1 in
/-- From a given resampled ensemble: the state after it integrated out. -/
theorem Qback_kernel (W : Hist n X) (R : Red n X) :
    Q (fun x => ∫⁻ x', back trans τ φ (Function.update W k R) (k + 1) (Function.update p0 (k + 1) x') ∂(Γ x t o.1 o.2.1)) R
      = Q (fun x => back trans τ (fun q => ∫⁻ x', φ (Function.update q (k + 1) x') ∂(Γ (q k) t o.1 o.2.1)) W k (Function.update p0 k x)) R := by
  have h := Q_back htr τ hφ (Function.update W k R) k p0 (ρ t o.1 o.2.1) (Γ := fun x => Γ x t o.1 o.2.1) fun x => by rw [hΓ, ht, hτ1]
  have e : ∀ l < k, Function.update W k R l = W l := fun l hl => Function.update_of_ne (by omega) _ _
  rw [Function.update_self] at h
  rw [h]
  simp only [back_hist trans τ _ k e]

omit [NeZero n] in
include hφ in
theorem measurable_kernelPath : Measurable fun q : ℕ → X => ∫⁻ x', φ (Function.update q (k + 1) x') ∂(Γ (q k) t o.1 o.2.1) := by
  have hg : Measurable fun z : (ℕ → X) × X => φ (Function.update z.1 (k + 1) z.2) := hφ.comp (measurable_update' (a := k + 1))
  have h1 : Measurable fun p : ℕ → X => (p, p k) := measurable_id.prodMk (measurable_pi_apply k)
  exact (measurable_kernel_prod hF t o.1 o.2.1 hg).comp h1

include hφ in
theorem kernelPath_le {B : ℝ≥0∞} (hB : ∀ p, φ p ≤ B) {w : ℝ} (hw : ∀ x x', Real.exp (G x t x' o.1 o.2.1) ≤ w) (q : ℕ → X) :
    ∫⁻ x', φ (Function.update q (k + 1) x') ∂(Γ (q k) t o.1 o.2.1) ≤ ENNReal.ofReal w * B := by
  have hu : Measurable fun x : X => Function.update q (k + 1) x := measurable_update q
  exact Smc.op_le (n := 1) (move_law hF t o) hw (hφ.comp hu) (fun _ => hB _) (q k)

include hcat htr hΓ ht hτ1 hφ

/-- One call, from a given record: the expected backward average. -/
theorem record_step_at (W : Hist n X) :
    ∫⁻ ω, Q (fun x => back trans τ φ (advance cat f G thr k t o W ω) (k + 1) (Function.update p0 (k + 1) x)) (advance cat f G thr k t o W ω (k + 1)) ∂ideal
      = Q (fun x => back trans τ (fun q => ∫⁻ x', φ (Function.update q (k + 1) x') ∂(Γ (q k) t o.1 o.2.1)) W k (Function.update p0 k x)) (W k) := by
  have hψ := measurable_kernelPath hF o k t hφ
  have hres : Measurable fun ω => resRed cat thr o.2.2 (W k) ω := measurable_resRed_at hcat thr o.2.2 (W k)
  rw [lintegral_congr fun ω => Qback_advance thr τ p0 o k t W ω]
  have h0 := fresh (halves_disjoint (n := n) o.2.2) (f := fun ω => resRed cat thr o.2.2 (W k) ω)
    (g := fun R ω => Q (fun x => back trans τ φ (Function.update W k R) (k + 1) (Function.update p0 (k + 1) x)) (moveRed cat f G t o R ω)) hres
    (resRed_dependsOn thr o.2.2 (W k)) (measurable_Qmove hF hcat htr τ p0 o k t hφ W)
    (fun R ω ω' hω => congrArg (Q _) (moveRed_dependsOn hF t o R hω))
  rw [h0]
  have h1 : ∀ R : Red n X, ∫⁻ ω', Q (fun x => back trans τ φ (Function.update W k R) (k + 1) (Function.update p0 (k + 1) x)) (moveRed cat f G t o R ω') ∂ideal
      = Q (fun x => back trans τ (fun q => ∫⁻ x', φ (Function.update q (k + 1) x') ∂(Γ (q k) t o.1 o.2.1)) W k (Function.update p0 k x)) R := fun R =>
    (lintegral_moveRed hF hcat t o (measurable_back_at htr τ hφ _ _ _ _) R).trans (Qback_kernel htr hΓ τ p0 o k t ht hτ1 hφ W R)
  rw [lintegral_congr fun ω => h1 _]
  exact lintegral_resRed hcat thr o.2.2 (measurable_back_at htr τ hψ W k p0 k) (W k)

omit [NeZero n] hΓ ht hτ1 in
theorem record_sq_fresh (W : Hist n X) :
    ∫⁻ ω, Q (fun x => back trans τ φ (advance cat f G thr k t o W ω) (k + 1) (Function.update p0 (k + 1) x)) (advance cat f G thr k t o W ω (k + 1)) ^ 2 ∂ideal
      = ∫⁻ ω, ∫⁻ ω', Q (fun x => back trans τ φ (Function.update W k (resRed cat thr o.2.2 (W k) ω)) (k + 1) (Function.update p0 (k + 1) x)) (moveRed cat f G t o (resRed cat thr o.2.2 (W k) ω) ω') ^ 2 ∂ideal ∂ideal := by
  have hres : Measurable fun ω => resRed cat thr o.2.2 (W k) ω := measurable_resRed_at hcat thr o.2.2 (W k)
  rw [lintegral_congr fun ω => congrArg (· ^ 2) (Qback_advance thr τ p0 o k t W ω)]
  exact fresh (halves_disjoint (n := n) o.2.2) (f := fun ω => resRed cat thr o.2.2 (W k) ω)
    (g := fun R ω => Q (fun x => back trans τ φ (Function.update W k R) (k + 1) (Function.update p0 (k + 1) x)) (moveRed cat f G t o R ω) ^ 2) hres
    (resRed_dependsOn thr o.2.2 (W k)) ((measurable_Qmove hF hcat htr τ p0 o k t hφ W).pow_const 2)
    (fun R ω ω' hω => congrArg (fun R' => Q _ R' ^ 2) (moveRed_dependsOn hF t o R hω))

theorem record_sq_move {B : ℝ≥0∞} (hB : ∀ p, φ p ≤ B) {A w : ℝ} (hw : ∀ x x', Real.exp (G x t x' o.1 o.2.1) ≤ w) (W : Hist n X) (R : Red n X) (hsp : Spread A R) :
    ∫⁻ ω, Q (fun x => back trans τ φ (Function.update W k R) (k + 1) (Function.update p0 (k + 1) x)) (moveRed cat f G t o R ω) ^ 2 ∂ideal
      ≤ Q (fun x => back trans τ (fun q => ∫⁻ x', φ (Function.update q (k + 1) x') ∂(Γ (q k) t o.1 o.2.1)) W k (Function.update p0 k x)) R ^ 2
        + (ENNReal.ofReal A * ENNReal.ofReal w * B) ^ 2 / n := by
  have h2 := lintegral_sq_moveRed hF hcat t o (h := fun x => back trans τ φ (Function.update W k R) (k + 1) (Function.update p0 (k + 1) x))
    (measurable_back_at htr τ hφ _ _ _ _) (fun x => back_le trans τ hB _ (k + 1) _) hw R hsp
  rw [Qback_kernel htr hΓ τ p0 o k t ht hτ1 hφ W] at h2
  exact h2

omit hΓ ht hτ1 in
theorem record_sq_res {B : ℝ≥0∞} (hB : ∀ p, φ p ≤ B) {A w : ℝ} (hw : ∀ x x', Real.exp (G x t x' o.1 o.2.1) ≤ w) (W : Hist n X) (hsp : Spread A (W k)) :
    ∫⁻ ω, Q (fun x => back trans τ (fun q => ∫⁻ x', φ (Function.update q (k + 1) x') ∂(Γ (q k) t o.1 o.2.1)) W k (Function.update p0 k x)) (resRed cat thr o.2.2 (W k) ω) ^ 2 ∂ideal
      ≤ Q (fun x => back trans τ (fun q => ∫⁻ x', φ (Function.update q (k + 1) x') ∂(Γ (q k) t o.1 o.2.1)) W k (Function.update p0 k x)) (W k) ^ 2
        + (ENNReal.ofReal A * ENNReal.ofReal w * B) ^ 2 / n := by
  have hψ := measurable_kernelPath hF o k t hφ
  have hψB := kernelPath_le hF o k t hφ hB hw
  have h3 := lintegral_sq_resRed hcat thr o.2.2 (measurable_back_at htr τ hψ W k p0 k) (fun x => back_le trans τ hψB W k _) hsp
  rw [← mul_assoc] at h3
  exact h3

/-- One call, from a given record: the second moment of the backward average. -/
theorem record_step_sq_at {B : ℝ≥0∞} (hB : ∀ p, φ p ≤ B) {A w : ℝ} (hA : 0 ≤ A) (hw : ∀ x x', Real.exp (G x t x' o.1 o.2.1) ≤ w) (W : Hist n X) (hsp : Spread A (W k)) :
    ∫⁻ ω, Q (fun x => back trans τ φ (advance cat f G thr k t o W ω) (k + 1) (Function.update p0 (k + 1) x)) (advance cat f G thr k t o W ω (k + 1)) ^ 2 ∂ideal
      ≤ Q (fun x => back trans τ (fun q => ∫⁻ x', φ (Function.update q (k + 1) x') ∂(Γ (q k) t o.1 o.2.1)) W k (Function.update p0 k x)) (W k) ^ 2
        + 2 * ((ENNReal.ofReal A * ENNReal.ofReal w * B) ^ 2 / n) := by
  rw [record_sq_fresh hF hcat htr thr τ p0 o k t hφ W]
  refine (lintegral_mono fun ω => record_sq_move hF hcat htr hΓ τ p0 o k t ht hτ1 hφ hB hw W _ (spread_resRed thr o.2.2 hA hsp ω)).trans ?_
  rw [lintegral_add_right _ measurable_const, lintegral_const, measure_univ, mul_one, two_mul, ← add_assoc]
  exact add_le_add_left (record_sq_res hF hcat htr thr τ p0 o k t hφ hB hw W hsp) _

omit hΓ ht hτ1 [NeZero n] in
theorem measurable_Qadvance :
    Measurable (Function.uncurry fun (W : Hist n X) (ω : Tape) => Q (fun x => back trans τ φ (advance cat f G thr k t o W ω) (k + 1) (Function.update p0 (k + 1) x)) (advance cat f G thr k t o W ω (k + 1))) := by
  have h1 := measurable_advance (cat := cat) hF hcat thr k t o
  have h2 := (measurable_Qback (n := n) htr τ hφ (k + 1) p0).comp (h1.prodMk ((measurable_pi_apply (k + 1)).comp h1))
  exact h2

theorem record_step {W : Tape → Hist n X} (hW : Measurable W) {S : Set Site} (hWS : DependsOn W S) (hd : Disjoint S (below o.2.2)) :
    ∫⁻ ω, Q (fun x => back trans τ φ (advance cat f G thr k t o (W ω) ω) (k + 1) (Function.update p0 (k + 1) x)) (advance cat f G thr k t o (W ω) ω (k + 1)) ∂ideal
      = ∫⁻ ω, Q (fun x => back trans τ (fun q => ∫⁻ x', φ (Function.update q (k + 1) x') ∂(Γ (q k) t o.1 o.2.1)) (W ω) k (Function.update p0 k x)) (W ω k) ∂ideal := by
  have h0 := fresh hd (f := W) (g := fun a ω => Q (fun x => back trans τ φ (advance cat f G thr k t o a ω) (k + 1) (Function.update p0 (k + 1) x)) (advance cat f G thr k t o a ω (k + 1))) hW hWS
    (measurable_Qadvance hF hcat htr thr τ p0 o k t hφ) (fun a ω ω' hω => by
      have e := advance_dependsOn (cat := cat) hF thr k t o a hω
      simp only [e])
  rw [h0]
  exact lintegral_congr fun ω => record_step_at hF hcat htr hΓ thr τ p0 o k t ht hτ1 hφ (W ω)

theorem record_step_sq {B : ℝ≥0∞} (hB : ∀ p, φ p ≤ B) {A w : ℝ} (hA : 0 ≤ A) (hw : ∀ x x', Real.exp (G x t x' o.1 o.2.1) ≤ w) {W : Tape → Hist n X} (hW : Measurable W) {S : Set Site} (hWS : DependsOn W S)
    (hd : Disjoint S (below o.2.2)) (hsp : ∀ ω, Spread A (W ω k)) :
    ∫⁻ ω, Q (fun x => back trans τ φ (advance cat f G thr k t o (W ω) ω) (k + 1) (Function.update p0 (k + 1) x)) (advance cat f G thr k t o (W ω) ω (k + 1)) ^ 2 ∂ideal
      ≤ ∫⁻ ω, Q (fun x => back trans τ (fun q => ∫⁻ x', φ (Function.update q (k + 1) x') ∂(Γ (q k) t o.1 o.2.1)) (W ω) k (Function.update p0 k x)) (W ω k) ^ 2 ∂ideal
        + 2 * ((ENNReal.ofReal A * ENNReal.ofReal w * B) ^ 2 / n) := by
  have h0 := fresh hd (f := W) (g := fun a ω => Q (fun x => back trans τ φ (advance cat f G thr k t o a ω) (k + 1) (Function.update p0 (k + 1) x)) (advance cat f G thr k t o a ω (k + 1)) ^ 2) hW hWS
    ((measurable_Qadvance hF hcat htr thr τ p0 o k t hφ).pow_const 2) (fun a ω ω' hω => by
      have e := advance_dependsOn (cat := cat) hF thr k t o a hω
      simp only [e])
  rw [h0]
  refine (lintegral_mono fun ω => record_step_sq_at hF hcat htr hΓ thr τ p0 o k t ht hτ1 hφ hB hA hw (W ω) (hsp ω)).trans (le_of_eq ?_)
  rw [lintegral_add_right _ measurable_const, lintegral_const, measure_univ, mul_one]

end

/-! ## All calls -/

section
variable [NeZero n] (hcat : IsCategoricalReal fun (w : Fin n → ℝ) u => cat (fun i => .fin (w i)) u) {trans : X → ℝ → X → ℝ → ℝ}
  (htr : ∀ t t', Measurable fun z : X × X => trans z.1 t z.2 t') {ρ : ℝ → Obs dy → ℝ → Measure X}
  (hΓ : ∀ x t y t', Γ x t y t' = (ρ t y t').withDensity fun x' => ENNReal.ofReal (Real.exp (-trans x t x' t'))) (thr : ℝ)
include hcat htr hΓ

/-- From a random record: the expected backward average after the remaining calls. -/
theorem record_forward {h : (ℕ → X) → ℝ≥0∞} (hh : Measurable h) (τ : ℕ → ℝ) (p0 : ℕ → X) (os : List (Obs dy × ℝ × Keys.Key)) (hos : os.Pairwise fun a b => Disjoint (below a.2.2) (below b.2.2))
    (k : ℕ) (t : ℝ) (ht : τ k = t) (hτ : ∀ j (hj : j < os.length), τ (k + 1 + j) = os[j].2.1) {W : Tape → Hist n X} (hW : Measurable W) {S : Set Site} (hWS : DependsOn W S)
    (hS : ∀ o ∈ os, Disjoint S (below o.2.2)) :
    ∫⁻ ω, Q (fun x => back trans τ h (recordRun cat f G thr k t os (W ω) ω) (k + os.length) (Function.update p0 (k + os.length) x)) (recordRun cat f G thr k t os (W ω) ω (k + os.length)) ∂ideal
      = ∫⁻ ω, Q (fun x => back trans τ (futurePath Γ h k t (os.map fun o => (o.1, o.2.1))) (W ω) k (Function.update p0 k x)) (W ω k) ∂ideal := by
  induction os generalizing k t W S with
  | nil => rfl
  | cons o os ih =>
    rw [List.pairwise_cons] at hos
    have hW' := (measurable_advance (cat := cat) hF hcat thr k t o).comp (hW.prodMk measurable_id)
    have hWS' : DependsOn (fun ω => advance cat f G thr k t o (W ω) ω) (S ∪ below o.2.2) := fun ω ω' hω => by
      have e1 := hWS fun s hs => hω s (Or.inl hs)
      have e2 := advance_dependsOn (cat := cat) hF thr k t o (W ω') fun s hs => hω s (Or.inr hs)
      simp only at e1 e2 ⊢
      rw [e1, e2]
    have hτ1 : τ (k + 1) = o.2.1 := hτ 0 (by simp)
    have h1 := ih hos.2 (k + 1) o.2.1 hτ1 (fun j hj => by
      have := hτ (j + 1) (by simpa using hj)
      rw [show k + 1 + (j + 1) = k + 1 + 1 + j by omega] at this
      simpa using this) hW' hWS' fun o' ho' =>
      Set.disjoint_union_left.mpr ⟨hS o' (List.mem_cons_of_mem _ ho'), hos.1 o' ho'⟩
    have hlen : k + 1 + os.length = k + (o :: os).length := by simp; omega
    rw [hlen] at h1
    refine Eq.trans h1 ?_
    exact record_step hF hcat htr hΓ thr τ p0 o k t ht hτ1 (measurable_futurePath hF hh _ _ _) hW hWS (hS o List.mem_cons_self)

/-- From a random record: the second moment of the backward average after the remaining calls. -/
theorem record_second_moment {h : (ℕ → X) → ℝ≥0∞} (hh : Measurable h) {B : ℝ≥0∞} (hB : ∀ p, h p ≤ B) {w : ℝ} (hw0 : 0 ≤ w) (τ : ℕ → ℝ) (p0 : ℕ → X) (os : List (Obs dy × ℝ × Keys.Key))
    (hw : ∀ o ∈ os, ∀ t x x', Real.exp (G x t x' o.1 o.2.1) ≤ w) (hos : os.Pairwise fun a b => Disjoint (below a.2.2) (below b.2.2))
    (k : ℕ) (t : ℝ) (ht : τ k = t) (hτ : ∀ j (hj : j < os.length), τ (k + 1 + j) = os[j].2.1) {W : Tape → Hist n X} (hW : Measurable W) {S : Set Site} (hWS : DependsOn W S)
    (hS : ∀ o ∈ os, Disjoint S (below o.2.2)) {A : ℝ} (hA : 0 ≤ A) (hsp : ∀ ω, Spread A (W ω k)) :
    ∫⁻ ω, Q (fun x => back trans τ h (recordRun cat f G thr k t os (W ω) ω) (k + os.length) (Function.update p0 (k + os.length) x)) (recordRun cat f G thr k t os (W ω) ω (k + os.length)) ^ 2 ∂ideal
      ≤ ∫⁻ ω, Q (fun x => back trans τ (futurePath Γ h k t (os.map fun o => (o.1, o.2.1))) (W ω) k (Function.update p0 k x)) (W ω k) ^ 2 ∂ideal
        + 2 * (os.length * ((ENNReal.ofReal (A * w ^ os.length) * B) ^ 2 / n)) := by
  induction os generalizing k t W S A with
  | nil => simp [recordRun, futurePath]
  | cons o os ih =>
    rw [List.pairwise_cons] at hos
    have hW' := (measurable_advance (cat := cat) hF hcat thr k t o).comp (hW.prodMk measurable_id)
    have hWS' : DependsOn (fun ω => advance cat f G thr k t o (W ω) ω) (S ∪ below o.2.2) := fun ω ω' hω => by
      have e1 := hWS fun s hs => hω s (Or.inl hs)
      have e2 := advance_dependsOn (cat := cat) hF thr k t o (W ω') fun s hs => hω s (Or.inr hs)
      simp only at e1 e2 ⊢
      rw [e1, e2]
    have hτ1 : τ (k + 1) = o.2.1 := hτ 0 (by simp)
    have hwo : ∀ x x', Real.exp (G x t x' o.1 o.2.1) ≤ w := fun x x' => hw o List.mem_cons_self t x x'
    have h1 := ih (fun o' ho' => hw o' (List.mem_cons_of_mem _ ho')) hos.2 (k + 1) o.2.1 hτ1 (fun j hj => by
      have := hτ (j + 1) (by simpa using hj)
      rw [show k + 1 + (j + 1) = k + 1 + 1 + j by omega] at this
      simpa using this) hW' hWS' (fun o' ho' =>
      Set.disjoint_union_left.mpr ⟨hS o' (List.mem_cons_of_mem _ ho'), hos.1 o' ho'⟩) (mul_nonneg hA hw0) (fun ω => by
        have e : advance cat f G thr k t o (W ω) ω (k + 1) = moveRed cat f G t o (resRed cat thr o.2.2 (W ω k) ω) ω := Function.update_self _ _ _
        simp only [Function.comp_apply, id]
        rw [e]
        exact spread_moveRed t o hA hwo (spread_resRed thr o.2.2 hA (hsp ω) ω) ω)
    have hlen : k + 1 + os.length = k + (o :: os).length := by simp; omega
    rw [hlen] at h1
    have hφB : ∀ p, futurePath Γ h (k + 1) o.2.1 (os.map fun o => (o.1, o.2.1)) p ≤ ENNReal.ofReal (w ^ os.length) * B := fun p => by
      have := futurePath_le hF (W := w) (os.map fun o => (o.1, o.2.1)) (fun o' ho' => by
        obtain ⟨o'', ho'', rfl⟩ := List.mem_map.mp ho'
        exact hw o'' (List.mem_cons_of_mem _ ho'')) hw0 hh hB (k + 1) o.2.1 p
      rwa [List.length_map] at this
    have h2 := record_step_sq hF hcat htr hΓ thr τ p0 o k t ht hτ1 (measurable_futurePath hF hh (os.map fun o => (o.1, o.2.1)) (k + 1) o.2.1) hφB hA hwo hW hWS (hS o List.mem_cons_self) hsp
    refine h1.trans ((add_le_add_left h2 _).trans (le_of_eq ?_))
    rw [add_assoc]
    congr 1
    rw [List.length_cons, ← mul_add]
    congr 1
    have e1 : A * w * w ^ os.length = A * w ^ (os.length + 1) := by ring
    have e2 : ENNReal.ofReal A * ENNReal.ofReal w * (ENNReal.ofReal (w ^ os.length) * B) = ENNReal.ofReal (A * w ^ (os.length + 1)) * B := by
      rw [← mul_assoc, ← ENNReal.ofReal_mul hA, ← ENNReal.ofReal_mul (mul_nonneg hA hw0), e1]
    rw [e1, e2]
    push_cast
    ring

/-- The first two moments, over the calls, of the backward average of a bounded function of the path. -/
theorem record_moments (y0 : Obs dy) (t0 : ℝ) (key : Keys.Key) (os : List (Obs dy × ℝ × Keys.Key)) (hk2 : os.Pairwise fun o o' => Disjoint (below o.2.2) (below o'.2.2)) (hS : ∀ o ∈ os, Disjoint (below key) (below o.2.2))
    (τ : ℕ → ℝ) (hτ0 : τ 0 = t0) (hτk : ∀ j (hj : j < os.length), τ (0 + 1 + j) = os[j].2.1) (p0 : ℕ → X)
    {w : ℝ} (hw0 : 0 ≤ w) (hw : ∀ x, Real.exp (G0 x y0 t0) ≤ w) (hw' : ∀ o ∈ os.map (fun o => (o.1, o.2.1)), ∀ t x x', Real.exp (G x t x' o.1 o.2) ≤ w)
    {h : List X → ℝ≥0∞} {b : ℝ} (hh : PathMeasurable h) (hb0 : 0 ≤ b) (hhb : ∀ l, h l ≤ ENNReal.ofReal b)
    {WL : Tape → Hist n X} (hWL : WL = fun ω => recordRun cat f G thr 0 t0 os (fun _ => startRed f G0 y0 t0 key ω) ω) :
    ∫⁻ ω, Q (fun x => back trans τ (onPath h os.length) (WL ω) os.length (Function.update p0 os.length x)) (WL ω os.length) ∂ideal = ∫⁻ x, pathIntegral Γ h t0 (os.map fun o => (o.1, o.2.1)) [] x ∂(Γ0 y0 t0) ∧
    ∫⁻ ω, Q (fun x => back trans τ (onPath h os.length) (WL ω) os.length (Function.update p0 os.length x)) (WL ω os.length) ^ 2 ∂ideal
      ≤ (∫⁻ x, pathIntegral Γ h t0 (os.map fun o => (o.1, o.2.1)) [] x ∂(Γ0 y0 t0)) ^ 2 + ENNReal.ofReal (b ^ 2 * ((2 * os.length + 1) * (w ^ (os.length + 1)) ^ 2 / n)) := by
  subst hWL
  have hn : (0 : ℝ) < n := by exact_mod_cast Nat.pos_of_ne_zero (NeZero.ne n)
  have hW0m : Measurable fun ω => (fun _ => startRed f G0 y0 t0 key ω : Hist n X) := measurable_pi_lambda _ fun _ => measurable_startRed hF y0 t0 key
  have hW0d : DependsOn (fun ω => (fun _ => startRed f G0 y0 t0 key ω : Hist n X)) (below key) := fun ω ω' hω => funext fun _ => startRed_dependsOn hF y0 t0 key hω
  have hwos : ∀ o ∈ os, ∀ t x x', Real.exp (G x t x' o.1 o.2.1) ≤ w := fun o ho => hw' (o.1, o.2.1) (List.mem_map.mpr ⟨o, ho, rfl⟩)
  have hspread : ∀ ω, Spread w (startRed (n := n) f G0 y0 t0 key ω) := fun ω => Smc.spread_startAt (g := fun x => G0 x y0 t0) hw (fun i : Fin n => (f ω).initialSample y0 t0 ((i : ℕ) :: key))
  have hu : Measurable fun x : X => Function.update p0 0 x := measurable_update p0
  have hφ : Measurable (onPath h os.length) := measurable_onPath hh os.length
  have hfm : Measurable fun x => futurePath Γ (onPath h os.length) 0 t0 (os.map fun o => (o.1, o.2.1)) (Function.update p0 0 x) := (measurable_futurePath hF hφ _ 0 t0).comp hu
  have hfe : ∀ x, futurePath Γ (onPath h os.length) 0 t0 (os.map fun o => (o.1, o.2.1)) (Function.update p0 0 x) = pathIntegral Γ h t0 (os.map fun o => (o.1, o.2.1)) [] x := fun x => by
    rw [futurePath_eq Γ h os.length _ 0 (by simp) t0]
    simp
  have e4 := record_forward hF hcat htr hΓ thr hφ τ p0 os hk2 0 t0 hτ0 hτk hW0m hW0d hS
  rw [Nat.zero_add] at e4
  have e5 := record_second_moment hF hcat htr hΓ thr hφ (fun p => hhb _) hw0 τ p0 os hwos hk2 0 t0 hτ0 hτk hW0m hW0d hS hw0 hspread
  rw [Nat.zero_add] at e5
  have e6 := start_second_moment (n := n) hF y0 t0 key hw hfm (fun x => futurePath_le hF (os.map fun o => (o.1, o.2.1)) hw' hw0 hφ (fun p => hhb _) 0 t0 _)
  refine ⟨e4.trans ((lintegral_startRed hF y0 t0 key hfm).trans (lintegral_congr hfe)), e5.trans ((add_le_add_left e6 _).trans (le_of_eq ?_))⟩
  rw [lintegral_congr hfe, add_assoc]
  congr 1
  rw [List.length_map]
  have e7 : ENNReal.ofReal w * (ENNReal.ofReal (w ^ os.length) * ENNReal.ofReal b) = ENNReal.ofReal (w ^ (os.length + 1) * b) := by
    rw [← mul_assoc, ← ENNReal.ofReal_mul hw0, ← pow_succ', ← ENNReal.ofReal_mul (by positivity)]
  have e8 : ENNReal.ofReal (w * w ^ os.length) * ENNReal.ofReal b = ENNReal.ofReal (w ^ (os.length + 1) * b) := by
    rw [← pow_succ', ← ENNReal.ofReal_mul (by positivity)]
  have e9 : (ENNReal.ofReal (w ^ (os.length + 1) * b)) ^ 2 / n = ENNReal.ofReal ((w ^ (os.length + 1) * b) ^ 2 / n) := by
    rw [ENNReal.ofReal_div_of_pos hn, ENNReal.ofReal_natCast, ENNReal.ofReal_pow (by positivity)]
  rw [e7, e8, e9, show b ^ 2 * ((2 * os.length + 1) * (w ^ (os.length + 1)) ^ 2 / n) = (2 * os.length + 1) * ((w ^ (os.length + 1) * b) ^ 2 / n) by ring, ENNReal.ofReal_mul (by positivity),
    ENNReal.ofReal_add (by positivity) zero_le_one, ENNReal.ofReal_mul (by norm_num), ENNReal.ofReal_natCast, ENNReal.ofReal_one, ENNReal.ofReal_ofNat]
  ring

end

end

/-! ## The calls in terms of the record -/

section
open Mocat.Online

theorem mapLast_append {α : Type*} (g : α → α) (l : List α) (a : α) : mapLast g (l ++ [a]) = l ++ [g a] := by
  induction l with
  | nil => rfl
  | cons b l ih =>
    cases l with
    | nil => rfl
    | cons c l => simpa [mapLast] using ih

theorem mapLast_range {α : Type*} (g : α → α) (L : ℕ) (F F' : ℕ → α) (hlt : ∀ s < L, F' s = F s) (hL : F' L = g (F L)) :
    mapLast g ((List.range (L + 1)).map F) = (List.range (L + 1)).map F' := by
  rw [List.range_succ, List.map_append, List.map_append, List.map_singleton, List.map_singleton, mapLast_append, hL]
  congr 1
  exact List.map_congr_left fun s hs => (hlt s (List.mem_range.mp hs)).symm

/-- The particles of a filter hold the record `W` up to time index `L`. -/
structure Stores (p : Particles X n dy) (W : Hist n X) (L : ℕ) (ts : List ℝ) : Prop where
  value : p.value = (List.range (L + 1)).map fun s => (W s).1
  logWeight : p.logWeight = (List.range (L + 1)).map fun s j => Fl.fin ((W s).2.1 j)
  t : p.t = ts
  len : ts.length = L + 1
  ess : p.ess.getLast? = some (essLogWeight fun j => .fin ((W L).2.1 j))

theorem getLast?_range {α : Type*} (L : ℕ) (F : ℕ → α) : ((List.range (L + 1)).map F).getLast? = some (F L) := by
  rw [List.range_succ, List.map_append]
  simp

section
variable [MeasurableSpace X] [NeZero n] {cat : (Fin n → Fl) → ℝ → Fin n} {f : Tape → Filter X Keys.Key dy} {G0 : X → Obs dy → ℝ → ℝ} {G : X → ℝ → X → Obs dy → ℝ → ℝ}
  {Γ0 : Obs dy → ℝ → Measure X} {Γ : X → ℝ → Obs dy → ℝ → Measure X} (hF : FilterLaw f G0 G Γ0 Γ)
include hF

theorem propagate_stores (thr : ℝ) {p : Particles X n dy} {W : Hist n X} {L : ℕ} {ts : List ℝ} (h : Stores p W L ts) {t : ℝ} (ht : ts.getLast? = some t) (o : Obs dy × ℝ × Keys.Key) (ω : Tape) :
    ∃ p', propagate (tapeEnv cat ω) (f ω) thr false p o.1 o.2.1 o.2.2 = some p' ∧ Stores p' (advance cat f G thr L t o W ω) (L + 1) (ts ++ [o.2.1]) := by
  have hadd : ∀ a b, Fl.add (.fin a) (.fin b) = .fin (a + b) := fun _ _ => rfl
  obtain ⟨R, hR⟩ : ∃ R, R = resRed cat thr o.2.2 (W L) ω := ⟨_, rfl⟩
  obtain ⟨M, hM⟩ : ∃ M, M = moveRed cat f G t o R ω := ⟨_, rfl⟩
  have hadv : advance cat f G thr L t o W ω = Function.update (Function.update W L R) (L + 1) M := by rw [hM, hR]; rfl
  have hM1 : M.1 = fun i => (f ω).proposalSample (R.1 i) t o.1 o.2.1 ((i : ℕ) :: o.2.2) := by
    rw [hM]
    simp only [moveRed, redStep, redValue, Set.mem_empty_iff_false, if_false]
  have hM2 : M.2.1 = fun i => R.2.1 i + G (R.1 i) t (M.1 i) o.1 o.2.1 := by
    rw [hM]
    simp only [moveRed, redStep, redValue, redWeight, Set.mem_empty_iff_false, if_false]
  have hold : ∀ s < L, Function.update (Function.update W L R) (L + 1) M s = W s := fun s hs => by
    rw [Function.update_of_ne (by omega), Function.update_of_ne (by omega)]
  have hLv : Function.update (Function.update W L R) (L + 1) M L = R := by rw [Function.update_of_ne (by omega), Function.update_self]
  have hL1 : Function.update (Function.update W L R) (L + 1) M (L + 1) = M := Function.update_self _ _ _
  have hstep : ∀ out : Particles X n dy, out.value = (List.range (L + 1)).map (fun s => (Function.update (Function.update W L R) (L + 1) M s).1) →
      out.logWeight = (List.range (L + 1)).map (fun s j => Fl.fin ((Function.update (Function.update W L R) (L + 1) M s).2.1 j)) → out.t = ts →
      (open Classical in if Fl.lt (essLogWeight fun j => .fin ((W L).2.1 j)) (.fin (thr * n)) then resampleParticles (tapeEnv cat ω) p (fun j => .fin ((W L).2.1 j)) o.2.2 false else p) = out →
      ∃ p', propagate (tapeEnv cat ω) (f ω) thr false p o.1 o.2.1 o.2.2 = some p' ∧ Stores p' (Function.update (Function.update W L R) (L + 1) M) (L + 1) (ts ++ [o.2.1]) := by
    intro out e1 e2 e3 e4
    have l1 : out.value.getLast? = some R.1 := by rw [e1, getLast?_range, hLv]
    have l2 : out.logWeight.getLast? = some fun j => Fl.fin (R.2.1 j) := by rw [e2, getLast?_range, hLv]
    have l3 : p.logWeight.getLast? = some fun j => Fl.fin ((W L).2.1 j) := by rw [h.logWeight, getLast?_range]
    have l4 : out.t.getLast? = some t := by rw [e3, ht]
    unfold propagate
    simp only [h.ess, l3, Option.bind_eq_bind, Option.bind_some, e4, l1, l2, l4, hF.logWeight, hadd]
    have k1 : (fun i => (f ω).proposalSample (R.1 i) t o.1 o.2.1 ((tapeEnv cat ω).splitN n o.2.2 i)) = M.1 := hM1.symm
    have k2 : (fun i => Fl.fin (R.2.1 i + G (R.1 i) t ((f ω).proposalSample (R.1 i) t o.1 o.2.1 ((tapeEnv cat ω).splitN n o.2.2 i)) o.1 o.2.1)) = fun i => Fl.fin (M.2.1 i) := by
      rw [hM2, hM1]
      rfl
    refine ⟨_, rfl, ⟨?_, ?_, ?_, ?_, ?_⟩⟩
    · simp only [k1]
      rw [e1, List.range_succ (n := L + 1), List.map_append, List.map_singleton, hL1]
    · simp only [k2]
      rw [e2, List.range_succ (n := L + 1), List.map_append, List.map_singleton, hL1]
    · simp only [e3]
    · simp [h.len]
    · simp only [k2, List.getLast?_append, List.getLast?_singleton, Option.some_or, hL1]
  rw [hadv]
  have hcrit := ess_crit (dy := dy) (W L) t (fun _ => 0) thr
  simp only [sliceOf] at hcrit
  by_cases hc : (W L).2.1 ∈ critLt n thr
  · have hRv : R = (fun i : Fin n => (W L).1 (cat (fun j => .fin ((W L).2.1 j)) (ω (o.2.2, (i : ℕ)))), (fun _ : Fin n => (0 : ℝ)), (W L).2.2) := by
      rw [hR, resRed_eq]
      simp only [redValue, redWeight, if_pos hc]
    refine hstep (resampleParticles (tapeEnv cat ω) p (fun j => .fin ((W L).2.1 j)) o.2.2 false) ?_ ?_ h.t (if_pos (hcrit.mpr hc))
    · simp only [resampleParticles, h.value, Bool.false_eq_true, if_false]
      refine mapLast_range _ L _ _ (fun s hs => by rw [hold s hs]) ?_
      rw [hLv, hRv]
      rfl
    · simp only [resampleParticles, h.logWeight]
      refine mapLast_range _ L _ _ (fun s hs => by rw [hold s hs]) ?_
      rw [hLv, hRv]
  · have hRv : R = W L := by
      rw [hR, resRed_eq]
      simp only [redValue, redWeight, if_neg hc]
    have hall : ∀ s ∈ List.range (L + 1), Function.update (Function.update W L R) (L + 1) M s = W s := fun s hs => by
      rcases Nat.lt_succ_iff_lt_or_eq.mp (List.mem_range.mp hs) with h1 | rfl
      · exact hold s h1
      · rw [hLv, hRv]
    refine hstep _ ?_ ?_ h.t (if_neg fun h0 => hc (hcrit.mp h0))
    · rw [h.value]
      exact List.map_congr_left fun s hs => by rw [hall s hs]
    · rw [h.logWeight]
      exact List.map_congr_left fun s hs => by rw [hall s hs]

omit [MeasurableSpace X] [NeZero n] hF in
theorem pathBack_congr {m : ℕ} [NeZero m] (r : Rand Keys.Key m n) (trans : X → ℝ → X → ℝ → ℝ) {p q : Marginals X n} {T : ℕ} (maxRej : ℤ) (bound inflation : ℝ) {k1 k2 : ℕ → Keys.Key}
    (h : ∀ s < T, p.value s = q.value s ∧ p.t s = q.t s ∧ p.logWeight s = q.logWeight s ∧ k1 s = k2 s) (k : ℕ) (hk : k < T) :
    pathBack r trans p T maxRej bound inflation k1 k = pathBack r trans q T maxRej bound inflation k2 k := by
  induction k with
  | zero =>
    obtain ⟨-, -, h3, h4⟩ := h (T - 1) (by omega)
    rw [pathBack, pathBack, h3, h4]
  | succ k ih =>
    obtain ⟨a1, a2, a3, a4⟩ := h (T - 1 - (k + 1)) (by omega)
    obtain ⟨b1, b2, -, -⟩ := h (T - 1 - k) (by omega)
    rw [pathBack, pathBack, ih (by omega), b1]
    unfold stepIdx
    rw [show T - 1 - (k + 1) + 1 = T - 1 - k by omega, a1, a2, a3, a4, b2]

omit [MeasurableSpace X] hF in
/-- Backward simulation from stored particles. -/
theorem backSim_stores {trans : X → ℝ → X → ℝ → ℝ} {maxRej : ℤ} {bound inflation : ℝ} (hb : 0 < maxRej → ∀ x t x' t', Real.exp (-trans x t x' t') ≤ bound) (c : Cfg X Keys.Key n dy) (ω : Tape)
    (hc1 : c.env = tapeEnv cat ω) (hc2 : c.rand = tapeRand cat ω) (hc3 : c.trans = trans) (hc4 : c.maxRej = maxRej) (hc5 : c.initBound = bound) (hc6 : c.inflation = inflation)
    {p : Particles X n dy} {W : Hist n X} {L : ℕ} {ts : List ℝ} (h : Stores p W L ts) (key : Keys.Key) (p0 : ℕ → X) (τ : ℕ → ℝ) (hτ : ∀ s (hs : s < ts.length), τ s = ts[s]) :
    ∃ ev, backSim c p 0 key = some ((List.range (L + 1)).map fun s i => pathFrom cat trans τ maxRej bound inflation key i L p0 W ω L s, ev) := by
  have l1 : p.value.getLast? = some (W L).1 := by rw [h.value, getLast?_range]
  have l2 : p.logWeight.getLast? = some fun j => Fl.fin ((W L).2.1 j) := by rw [h.logWeight, getLast?_range]
  obtain ⟨t, l3⟩ : ∃ t, p.t.getLast? = some t := ⟨_, List.getLast?_eq_some_getLast (List.ne_nil_of_length_pos (by rw [h.t, h.len]; omega))⟩
  have hlen : p.value.length = L + 1 := by rw [h.value]; simp
  unfold backSim marginalsFrom
  simp only [l1, l2, l3, Option.bind_eq_bind, Option.bind_some, hlen, Nat.sub_zero, hc1, hc2, hc3, hc4, hc5, hc6]
  refine ⟨_, congrArg some (Prod.ext ?_ rfl)⟩
  rw [returned_pathBack _ _ _ _ (by omega)]
  refine List.map_congr_left fun s hs => funext fun i => ?_
  rw [List.mem_range] at hs
  have hv : ∀ s < L + 1, p.value.getD (0 + s) (W L).1 = (W s).1 := fun s hs => by
    rw [Nat.zero_add, List.getD_eq_getElem _ _ (by omega)]
    simp [h.value]
  rw [pathFrom_eq τ inflation hb key i L p0 W ω L le_rfl s (by omega) (by omega), Nat.add_sub_cancel]
  refine (congrFun (hv s hs) _).trans ?_
  refine congrArg (W s).1 (congrFun (pathBack_congr (tapeRand cat ω) trans maxRej bound inflation (fun s hs => ⟨hv s hs, ?_, ?_, ?_⟩) (L - s) (by omega)) i)
  · have h1 : s < p.t.length := by rw [h.t, h.len]; omega
    have h2 := hτ s (by rw [h.len]; omega)
    simp only [margOf]
    rw [Nat.zero_add, List.getD_eq_getElem _ _ h1, h2]
    simp [h.t]
  · have h1 : s < p.logWeight.length := by rw [h.logWeight]; simpa using hs
    simp only [margOf]
    rw [Nat.zero_add, List.getD_eq_getElem _ _ h1]
    simp [h.logWeight]
  · rw [dif_pos hs]
    rfl

/-- The smoother after the remaining calls, all before the lag. -/
theorem calls_stores {trans : X → ℝ → X → ℝ → ℝ} {maxRej : ℤ} {bound inflation : ℝ} (hb : 0 < maxRej → ∀ x t x' t', Real.exp (-trans x t x' t') ≤ bound) (thr : ℝ) (lag : ℕ) (ω : Tape)
    (os : List (Obs dy × ℝ × Keys.Key)) (p0 : ℕ → X) (t0 : ℝ) {s : Smoother X n dy} {W : Hist n X} {L : ℕ} {ts : List ℝ} {t : ℝ} (h : Stores s.marginal W L ts) (hst : s.t = ts) (ht : ts.getLast? = some t)
    (hlag : L + os.length + 1 ≤ lag) :
    ∃ s', calls true ⟨tapeEnv cat ω, tapeRand cat ω, trans, f ω, lag, thr, maxRej, bound, inflation⟩ s os = some s' ∧
      ∀ o, os.getLast? = some o → s'.logWeight = (fun _ => .fin 0) ∧
        s'.value = (List.range (L + os.length + 1)).map fun u i => pathFrom cat trans (fun u => (ts ++ os.map fun o => o.2.1).getD u t0) maxRej bound inflation (2 :: o.2.2) i (L + os.length) p0
          (recordRun cat f G thr L t (os.map fun o => (o.1, o.2.1, 1 :: o.2.2)) W ω) ω (L + os.length) u := by
  induction os generalizing s W L ts t with
  | nil => exact ⟨s, rfl, fun o ho => by simp at ho⟩
  | cons o os ih =>
    obtain ⟨mf, e1, hmf⟩ := propagate_stores (cat := cat) hF thr h ht (o.1, o.2.1, 1 :: o.2.2) ω
    obtain ⟨c, hc⟩ : ∃ c : Cfg X Keys.Key n dy, c = ⟨tapeEnv cat ω, tapeRand cat ω, trans, f ω, lag, thr, maxRej, bound, inflation⟩ := ⟨_, rfl⟩
    have hlen : (ts ++ [o.2.1]).length = L + 1 + 1 := hmf.len
    obtain ⟨ev, e2⟩ := backSim_stores (cat := cat) hb c ω (by rw [hc]) (by rw [hc]) (by rw [hc]) (by rw [hc]) (by rw [hc]) (by rw [hc]) hmf (2 :: o.2.2) p0 (fun u => (ts ++ (o :: os).map fun o => o.2.1).getD u t0) (fun u hu => by
      simp only at hu
      have h1 : ts ++ (o :: os).map (fun o => o.2.1) = (ts ++ [o.2.1]) ++ os.map fun o => o.2.1 := by simp
      simp only
      rw [h1, List.getD_eq_getElem _ _ (by rw [List.length_append]; omega), List.getElem_append_left hu])
    have hno : ¬ c.lag + 1 ≤ (s.t ++ [o.2.1]).length := by
      rw [hst, hlen, hc]
      simp at hlag ⊢
      omega
    obtain ⟨s1, hs1⟩ : ∃ s1 : Smoother X n dy, s1 = ⟨(List.range (L + 1 + 1)).map fun u i => pathFrom cat trans (fun u => (ts ++ (o :: os).map fun o => o.2.1).getD u t0) maxRej bound inflation (2 :: o.2.2) i (L + 1) p0
          (advance cat f G thr L t (o.1, o.2.1, 1 :: o.2.2) W ω) ω (L + 1) u, fun _ => .fin 0, s.t ++ [o.2.1], s.y ++ [o.1], s.evals ++ [ev.sum], mf⟩ := ⟨_, rfl⟩
    have hcall : propagateSmoother true c s o.1 o.2.1 o.2.2 = some s1 := by
      have e1' : propagate c.env c.filter c.thr false s.marginal o.1 o.2.1 (c.env.splitN 4 o.2.2 1) = some mf := by rw [hc]; exact e1
      have e3 : c.env.splitN 4 o.2.2 2 = 2 :: o.2.2 := by rw [hc]; rfl
      rw [propagateSmoother, if_pos rfl, propagateBs]
      simp only [e1', e3, e2, Option.bind_eq_bind, Option.bind_some, if_neg hno, hs1]
    obtain ⟨s', e3, e4⟩ := ih (s := s1) (W := advance cat f G thr L t (o.1, o.2.1, 1 :: o.2.2) W ω) (L := L + 1) (ts := ts ++ [o.2.1]) (t := o.2.1) (by rw [hs1]; exact hmf) (by rw [hs1, hst]) (by simp)
      (by simp at hlag; omega)
    refine ⟨s', ?_, fun o' ho' => ?_⟩
    · obtain ⟨y, t', k⟩ := o
      rw [← hc] at e3 ⊢
      rw [calls, hcall]
      exact e3
    · cases hos : os with
      | nil =>
        subst hos
        obtain rfl : o = o' := by simpa using ho'
        obtain rfl : s' = s1 := by
          simp only [calls, Option.some.injEq] at e3
          exact e3.symm
        refine ⟨by rw [hs1], ?_⟩
        rw [hs1]
        rfl
      | cons a l =>
        rw [← hos]
        have ho2 : os.getLast? = some o' := by rw [hos] at ho' ⊢; rwa [List.getLast?_cons_cons] at ho'
        obtain ⟨q1, q2⟩ := e4 o' ho2
        refine ⟨q1, ?_⟩
        rw [q2, show L + 1 + os.length = L + (o :: os).length by simp; omega, show ts ++ [o.2.1] ++ os.map (fun o => o.2.1) = ts ++ (o :: os).map fun o => o.2.1 by simp]
        rfl

end

end

/-! ## C137 -/

section
open Mocat.Online
variable [MeasurableSpace X] [NeZero n] {cat : (Fin n → Fl) → ℝ → Fin n} {f : Tape → Filter X Keys.Key dy} {G0 : X → Obs dy → ℝ → ℝ} {G : X → ℝ → X → Obs dy → ℝ → ℝ}
  {Γ0 : Obs dy → ℝ → Measure X} {Γ : X → ℝ → Obs dy → ℝ → Measure X} (hF : FilterLaw f G0 G Γ0 Γ)

/-- The times, the first one and those of the calls. -/
theorem times_eq (t0 : ℝ) (os : List (Obs dy × ℝ × Keys.Key)) (j : ℕ) (hj : j < os.length) : (t0 :: os.map fun o => o.2.1).getD (0 + 1 + j) t0 = os[j].2.1 := by
  rw [show 0 + 1 + j = j + 1 by omega, List.getD_cons_succ, List.getD_eq_getElem _ _ (by simpa using hj), List.getElem_map]

include hF in
/-- The runs of `C137_proper`, with the measurability of their trajectories. -/
theorem smoother_runs (hcat : IsCategorical cat) (hcatR : IsCategoricalReal fun (w : Fin n → ℝ) u => cat (fun i => .fin (w i)) u) {trans : X → ℝ → X → ℝ → ℝ}
    (htr : ∀ t t', Measurable fun z : X × X => trans z.1 t z.2 t') {ρ : ℝ → Obs dy → ℝ → Measure X}
    (hΓ : ∀ x t y t', Γ x t y t' = (ρ t y t').withDensity fun x' => ENNReal.ofReal (Real.exp (-trans x t x' t')))
    (thr : ℝ) (y0 : Obs dy) (t0 : ℝ) (k0 : Keys.Key) (os : List (Obs dy × ℝ × Keys.Key)) (hne : os ≠ []) (hk : (k0 :: os.map fun o => o.2.2).Pairwise Unrelated) (lag : ℕ) (hlag : os.length + 1 ≤ lag)
    (maxRej : ℤ) (bound inflation : ℝ) (hb : 0 < maxRej → ∀ x t x' t', Real.exp (-trans x t x' t') ≤ bound)
    {w : ℝ} (hw0 : 0 ≤ w) (hw : ∀ x, Real.exp (G0 x y0 t0) ≤ w) (hw' : ∀ o ∈ os, ∀ t x x', Real.exp (G x t x' o.1 o.2.1) ≤ w) :
    ∃ out : Tape → Smoother X n dy,
      (∀ ω, (ofParticles (initiateParticles (tapeEnv cat ω) (f ω) k0 y0 t0)).bind
        (fun s => calls true ⟨tapeEnv cat ω, tapeRand cat ω, trans, f ω, lag, thr, maxRej, bound, inflation⟩ s os) = some (out ω)) ∧
      (∀ ω, (out ω).value.length = os.length + 1) ∧ (∀ ω, (out ω).logWeight = fun _ => .fin 0) ∧
      (∀ h : List X → ℝ≥0∞, PathMeasurable h → ∀ i, Measurable fun ω => h ((out ω).value.map fun x => x i)) ∧
      ∀ (g : List X → ℝ) (B : ℝ), PathMeasurable (fun l => ENNReal.ofReal (g l)) → (∀ l, 0 ≤ g l) → (∀ l, g l ≤ B) →
        ∀ z, z = (∫⁻ x, pathIntegral Γ (fun _ => 1) t0 (os.map fun o => (o.1, o.2.1)) [] x ∂(Γ0 y0 t0)).toReal →
        ∀ s, s = (∫⁻ x, pathIntegral Γ (fun l => ENNReal.ofReal (g l)) t0 (os.map fun o => (o.1, o.2.1)) [] x ∂(Γ0 y0 t0)).toReal / z →
        0 < z ∧ ∫⁻ ω, ENNReal.ofReal (((∑ i, g ((out ω).value.map fun x => x i)) / n - s) ^ 2) ∂ideal
            ≤ ENNReal.ofReal (B ^ 2 / n + 4 * (2 * os.length + 1) * (w ^ (os.length + 1) * B / z) ^ 2 / n) ∧
          ∀ i, |∫ ω, g ((out ω).value.map fun x => x i) ∂ideal - s| ≤ 2 * Real.sqrt ((2 * os.length + 1) / n) * (w ^ (os.length + 1) * B / z) := by
  rw [List.pairwise_cons] at hk
  obtain ⟨os', hos'⟩ : ∃ os', os' = os.map fun o => (o.1, o.2.1, 1 :: o.2.2) := ⟨_, rfl⟩
  have hlen : os'.length = os.length := by rw [hos']; simp
  have hmap : os'.map (fun o => (o.1, o.2.1)) = os.map fun o => (o.1, o.2.1) := by rw [hos', List.map_map]; rfl
  have htimes : os'.map (fun o => o.2.1) = os.map fun o => o.2.1 := by rw [hos', List.map_map]; rfl
  have hmem : ∀ o' ∈ os', ∃ o ∈ os, o' = (o.1, o.2.1, 1 :: o.2.2) := fun o' ho' => by
    rw [hos'] at ho'
    obtain ⟨o, h1, h2⟩ := List.mem_map.mp ho'
    exact ⟨o, h1, h2.symm⟩
  have hk2 : os'.Pairwise fun a b => Disjoint (below a.2.2) (below b.2.2) := by
    rw [hos', List.pairwise_map]
    exact (List.pairwise_map.mp hk.2).imp fun h => Set.disjoint_of_subset (fun s hs => mem_below_cons hs) (fun s hs => mem_below_cons hs) h.disjoint
  have hS : ∀ o ∈ os', Disjoint (below k0) (below o.2.2) := fun o' ho' => by
    obtain ⟨o, ho, rfl⟩ := hmem o' ho'
    exact Set.disjoint_of_subset_right (fun s hs => mem_below_cons hs) (hk.1 _ (List.mem_map.mpr ⟨o, ho, rfl⟩)).disjoint
  obtain ⟨τ, hτ⟩ : ∃ τ : ℕ → ℝ, τ = fun u => (t0 :: os.map fun o => o.2.1).getD u t0 := ⟨_, rfl⟩
  obtain ⟨WL, hWL⟩ : ∃ WL : Tape → Hist n X, WL = fun ω => recordRun cat f G thr 0 t0 os' (fun _ => startRed f G0 y0 t0 k0 ω) ω := ⟨_, rfl⟩
  obtain ⟨p0, -⟩ : ∃ p0 : ℕ → X, p0 = fun _ => (f fun _ => 0).initialSample y0 t0 [] := ⟨_, rfl⟩
  obtain ⟨o1, ho1⟩ : ∃ o1, os.getLast? = some o1 := ⟨_, List.getLast?_eq_some_getLast hne⟩
  have ho1m : o1 ∈ os := List.mem_of_getLast? ho1
  have hout : ∀ ω, ∃ s', (ofParticles (initiateParticles (tapeEnv cat ω) (f ω) k0 y0 t0)).bind
        (fun s => calls true ⟨tapeEnv cat ω, tapeRand cat ω, trans, f ω, lag, thr, maxRej, bound, inflation⟩ s os) = some s' ∧
      s'.logWeight = (fun _ => .fin 0) ∧
      s'.value = (List.range (os'.length + 1)).map fun u i => pathFrom cat trans τ maxRej bound inflation (2 :: o1.2.2) i os'.length p0 (WL ω) ω os'.length u := fun ω => by
    have hp : initiateParticles (tapeEnv cat ω) (f ω) k0 y0 t0
        = ⟨[(startRed (n := n) f G0 y0 t0 k0 ω).1], [fun j => .fin ((startRed (n := n) f G0 y0 t0 k0 ω).2.1 j)], [t0], .rows [y0], [essLogWeight fun j => .fin ((startRed (n := n) f G0 y0 t0 k0 ω).2.1 j)]⟩ := by
      simp only [initiateParticles, hF.initialLogWeight]
      rfl
    rw [hp]
    obtain ⟨s', e1, e2⟩ := calls_stores (cat := cat) hF hb thr lag ω os p0 t0 (W := fun _ => startRed (n := n) f G0 y0 t0 k0 ω) (L := 0) (ts := [t0]) (t := t0)
      (s := ⟨[(startRed (n := n) f G0 y0 t0 k0 ω).1], fun j => .fin ((startRed (n := n) f G0 y0 t0 k0 ω).2.1 j), [t0], [y0], [0],
        ⟨[(startRed (n := n) f G0 y0 t0 k0 ω).1], [fun j => .fin ((startRed (n := n) f G0 y0 t0 k0 ω).2.1 j)], [t0], .rows [y0], [essLogWeight fun j => .fin ((startRed (n := n) f G0 y0 t0 k0 ω).2.1 j)]⟩⟩)
      ⟨rfl, rfl, rfl, rfl, rfl⟩ rfl rfl (by omega)
    obtain ⟨e3, e4⟩ := e2 o1 ho1
    refine ⟨s', e1, e3, ?_⟩
    rw [e4, hτ, hWL, hlen, hos', Nat.zero_add]
    rfl
  choose out h1 h2 h3 using hout
  have hWm : Measurable WL := by
    rw [hWL]
    exact measurable_recordRun hF hcatR thr os' 0 t0 (measurable_pi_lambda _ fun _ => measurable_startRed hF y0 t0 k0)
  have hWd : DependsOn WL {s | s ∈ below k0 ∨ ∃ o ∈ os', s ∈ below o.2.2} := by
    rw [hWL]
    refine recordRun_dependsOn hF thr os' 0 t0 (fun ω ω' hω => funext fun _ => startRed_dependsOn hF y0 t0 k0 fun s hs => hω s (Or.inl hs)) fun o ho s hs => Or.inr ⟨o, ho, hs⟩
  have hdis : Disjoint {s | s ∈ below k0 ∨ ∃ o ∈ os', s ∈ below o.2.2} (below (2 :: o1.2.2)) := by
    rw [Set.disjoint_left]
    rintro s (hs | ⟨o', ho', hs⟩) hs2
    · exact Set.disjoint_left.mp (hk.1 _ (List.mem_map.mpr ⟨o1, ho1m, rfl⟩)).disjoint hs (mem_below_cons hs2)
    · obtain ⟨o, ho, rfl⟩ := hmem o' ho'
      by_cases hoo : o = o1
      · rw [hoo] at hs
        exact Set.disjoint_left.mp (below_disjoint (k := o1.2.2) (show (1 : ℕ) ≠ 2 by omega)) hs hs2
      · have : Std.Symm fun a b : Obs dy × ℝ × Keys.Key => Unrelated a.2.2 b.2.2 := ⟨fun a b h => ⟨h.2, h.1⟩⟩
        have hu := List.Pairwise.forall (List.pairwise_map.mp hk.2) ho ho1m hoo
        exact Set.disjoint_left.mp hu.disjoint (mem_below_cons hs) (mem_below_cons hs2)
  have hτk : ∀ j (hj : j < os'.length), τ (0 + 1 + j) = os'[j].2.1 := fun j hj => by
    rw [hτ, ← htimes]
    exact times_eq t0 os' j hj
  have hw2 : ∀ o ∈ os'.map (fun o => (o.1, o.2.1)), ∀ t x x', Real.exp (G x t x' o.1 o.2) ≤ w := fun o ho => by
    rw [hmap] at ho
    obtain ⟨o', ho', rfl⟩ := List.mem_map.mp ho
    exact hw' o' ho'
  refine ⟨out, h1, fun ω => by rw [h3, hlen]; simp, h2, fun h hh i => ?_, fun g B hg hg0 hgB z hz s hs => ?_⟩
  · have e : (fun ω => h ((out ω).value.map fun x => x i)) = fun ω => onPath h os'.length (pathFrom cat trans τ maxRej bound inflation (2 :: o1.2.2) i os'.length p0 (WL ω) ω os'.length) := by
      funext ω
      rw [h3, onPath, List.map_map]
      rfl
    rw [e]
    have h4 : Measurable fun ω => (WL ω, ω) := hWm.prodMk measurable_id
    exact (measurable_onPath hh os'.length).comp ((measurable_pathFrom τ inflation hb (2 :: o1.2.2) i hcatR htr os'.length p0 os'.length).comp h4)
  have hB0 : 0 ≤ B := (hg0 []).trans (hgB [])
  have h1m : PathMeasurable fun _ : List X => (1 : ℝ≥0∞) := fun k => measurable_const
  have hgB' : ∀ l, ENNReal.ofReal (g l) ≤ ENNReal.ofReal B := fun l => ENNReal.ofReal_le_ofReal (hgB l)
  have h11 : ∀ _ : List X, (1 : ℝ≥0∞) ≤ ENNReal.ofReal 1 := fun _ => by rw [ENNReal.ofReal_one]
  obtain ⟨Z1, Z2⟩ := record_moments hF hcatR htr hΓ thr y0 t0 k0 os' hk2 hS τ (by simp [hτ]) hτk p0 hw0 hw hw2 h1m zero_le_one h11 hWL
  obtain ⟨Y1, Y2⟩ := record_moments hF hcatR htr hΓ thr y0 t0 k0 os' hk2 hS τ (by simp [hτ]) hτk p0 hw0 hw hw2 hg hB0 hgB' hWL
  have ha := pathIntegral_finite hF hw0 hw hw2 hg hgB'
  have hzt := pathIntegral_finite hF hw0 hw hw2 h1m h11
  rw [one_pow, one_mul] at Z2
  have hge : ∀ i ω, g ((out ω).value.map fun x => x i)
      = (onPath (fun l => ENNReal.ofReal (g l)) os'.length (pathFrom cat trans τ maxRej bound inflation (2 :: o1.2.2) i os'.length p0 (WL ω) ω os'.length)).toReal := fun i ω => by
    rw [h3, onPath, ENNReal.toReal_ofReal (hg0 _), List.map_map]
    rfl
  obtain ⟨hz0, hmse, hbias⟩ := mse_core (m := n) τ inflation hb (2 :: o1.2.2) hcat hcatR htr (measurable_onPath hg os'.length) hB0 (fun p => hgB' _) os'.length p0 hWm hWd hdis (by positivity) ha hzt Y1 Y2 Z1 Z2
  rw [hmap, ← hz] at hz0
  rw [hmap, ← hz, ← hs] at hmse
  simp only [hge]
  refine ⟨hz0, hmse.trans (ENNReal.ofReal_le_ofReal (le_of_eq ?_)), fun i => ?_⟩
  · rw [← hlen]
    field_simp
  · have h4 := hbias i
    rw [hmap, ← hz, ← hs] at h4
    refine h4.trans (le_of_eq ?_)
    rw [mul_div_right_comm, Real.sqrt_mul (by positivity), Real.sqrt_sq (by positivity), ← hlen]
    ring

include hF in
/-- C137 for any filter whose proposals are properly weighted for the kernels `Γ` (with density `exp (-trans)`) and whose weights are at most `w`. -/
theorem C137_proper (hcat : IsCategorical cat) (hcatR : IsCategoricalReal fun (w : Fin n → ℝ) u => cat (fun i => .fin (w i)) u) {trans : X → ℝ → X → ℝ → ℝ}
    (htr : ∀ t t', Measurable fun z : X × X => trans z.1 t z.2 t') {ρ : ℝ → Obs dy → ℝ → Measure X}
    (hΓ : ∀ x t y t', Γ x t y t' = (ρ t y t').withDensity fun x' => ENNReal.ofReal (Real.exp (-trans x t x' t')))
    (thr : ℝ) (y0 : Obs dy) (t0 : ℝ) (k0 : Keys.Key) (os : List (Obs dy × ℝ × Keys.Key)) (hne : os ≠ []) (hk : (k0 :: os.map fun o => o.2.2).Pairwise Unrelated) (lag : ℕ) (hlag : os.length + 1 ≤ lag)
    (maxRej : ℤ) (bound inflation : ℝ) (hb : 0 < maxRej → ∀ x t x' t', Real.exp (-trans x t x' t') ≤ bound)
    {w : ℝ} (hw0 : 0 ≤ w) (hw : ∀ x, Real.exp (G0 x y0 t0) ≤ w) (hw' : ∀ o ∈ os, ∀ t x x', Real.exp (G x t x' o.1 o.2.1) ≤ w) :
    ∃ out : Tape → Smoother X n dy,
      (∀ ω, (ofParticles (initiateParticles (tapeEnv cat ω) (f ω) k0 y0 t0)).bind
        (fun s => calls true ⟨tapeEnv cat ω, tapeRand cat ω, trans, f ω, lag, thr, maxRej, bound, inflation⟩ s os) = some (out ω)) ∧
      (∀ ω, (out ω).value.length = os.length + 1) ∧ (∀ ω, (out ω).logWeight = fun _ => .fin 0) ∧
      ∀ (g : List X → ℝ) (B : ℝ), PathMeasurable (fun l => ENNReal.ofReal (g l)) → (∀ l, 0 ≤ g l) → (∀ l, g l ≤ B) →
        ∀ z, z = (∫⁻ x, pathIntegral Γ (fun _ => 1) t0 (os.map fun o => (o.1, o.2.1)) [] x ∂(Γ0 y0 t0)).toReal →
        ∀ s, s = (∫⁻ x, pathIntegral Γ (fun l => ENNReal.ofReal (g l)) t0 (os.map fun o => (o.1, o.2.1)) [] x ∂(Γ0 y0 t0)).toReal / z →
        0 < z ∧ ∫⁻ ω, ENNReal.ofReal (((∑ i, g ((out ω).value.map fun x => x i)) / n - s) ^ 2) ∂ideal
            ≤ ENNReal.ofReal (B ^ 2 / n + 4 * (2 * os.length + 1) * (w ^ (os.length + 1) * B / z) ^ 2 / n) ∧
          ∀ i, |∫ ω, g ((out ω).value.map fun x => x i) ∂ideal - s| ≤ 2 * Real.sqrt ((2 * os.length + 1) / n) * (w ^ (os.length + 1) * B / z) := by
  obtain ⟨out, h1, h2, h3, -, h4⟩ := smoother_runs hF hcat hcatR htr hΓ thr y0 t0 k0 os hne hk lag hlag maxRej bound inflation hb hw0 hw hw'
  exact ⟨out, h1, h2, h3, h4⟩

end

/-! ## The bootstrap filter -/

open Mocat.Online in
/-- C137 for the bootstrap filter: smoothing one observation at a time with backward simulation, before the lag is reached. After the last call the average of `g` over the `n` trajectories has a mean squared
distance of order `1/n` from the smoothing expectation of `g` given all observations so far, and one trajectory has bias of order `1/√n`. `hw`: the likelihoods of the observations are at most `w`. -/
theorem C137_bootstrap [MeasurableSpace X] [NeZero n] {cat : (Fin n → Fl) → ℝ → Fin n} {mo : Tape → Ssm.Model X (Obs dy) Keys.Key} {μ0 : ℝ → Measure X} {M : X → ℝ → ℝ → Measure X} {lik : X → Obs dy → ℝ → ℝ}
    (hm : ModelLaw mo μ0 M lik) (hcat : IsCategorical cat) (hcatR : IsCategoricalReal fun (w : Fin n → ℝ) u => cat (fun i => .fin (w i)) u) {trans : X → ℝ → X → ℝ → ℝ}
    (htp : ∀ ω, (mo ω).transitionPotential = trans) (htr : ∀ t t', Measurable fun z : X × X => trans z.1 t z.2 t') {ρ : ℝ → ℝ → Measure X}
    (hM : ∀ x t t', M x t t' = (ρ t t').withDensity fun x' => ENNReal.ofReal (Real.exp (-trans x t x' t')))
    (thr : ℝ) (y0 : Obs dy) (t0 : ℝ) (k0 : Keys.Key) (os : List (Obs dy × ℝ × Keys.Key)) (hne : os ≠ []) (hk : (k0 :: os.map fun o => o.2.2).Pairwise Unrelated) (lag : ℕ) (hlag : os.length + 1 ≤ lag)
    (maxRej : ℤ) (bound inflation : ℝ) (hb : 0 < maxRej → ∀ x t x' t', Real.exp (-trans x t x' t') ≤ bound) {w : ℝ} (hw : ∀ o ∈ (y0, t0) :: os.map (fun o => (o.1, o.2.1)), ∀ x, Real.exp (-lik x o.1 o.2) ≤ w) :
    ∃ out : Tape → Smoother X n dy,
      (∀ ω, (ofParticles (initiateParticles (tapeEnv cat ω) (bootstrap (mo ω)) k0 y0 t0)).bind
        (fun s => calls true ⟨tapeEnv cat ω, tapeRand cat ω, (mo ω).transitionPotential, bootstrap (mo ω), lag, thr, maxRej, bound, inflation⟩ s os) = some (out ω)) ∧
      (∀ ω, (out ω).value.length = os.length + 1) ∧ (∀ ω, (out ω).logWeight = fun _ => .fin 0) ∧
      ∀ (g : List X → ℝ) (B : ℝ), PathMeasurable (fun l => ENNReal.ofReal (g l)) → (∀ l, 0 ≤ g l) → (∀ l, g l ≤ B) →
        ∀ z, z = (∫⁻ x, ENNReal.ofReal (Real.exp (-lik x y0 t0)) * smoothingExpectation M lik (fun _ => 1) t0 (os.map fun o => (o.1, o.2.1)) [] x ∂(μ0 t0)).toReal →
        ∀ s, s = (∫⁻ x, ENNReal.ofReal (Real.exp (-lik x y0 t0)) * smoothingExpectation M lik (fun l => ENNReal.ofReal (g l)) t0 (os.map fun o => (o.1, o.2.1)) [] x ∂(μ0 t0)).toReal / z →
        0 < z ∧ ∫⁻ ω, ENNReal.ofReal (((∑ i, g ((out ω).value.map fun x => x i)) / n - s) ^ 2) ∂ideal
            ≤ ENNReal.ofReal (B ^ 2 / n + 4 * (2 * os.length + 1) * (w ^ (os.length + 1) * B / z) ^ 2 / n) ∧
          ∀ i, |∫ ω, g ((out ω).value.map fun x => x i) ∂ideal - s| ≤ 2 * Real.sqrt ((2 * os.length + 1) / n) * (w ^ (os.length + 1) * B / z) := by
  have hΓ : ∀ x t y t', (M x t t').withDensity (fun x' => ENNReal.ofReal (Real.exp (-lik x' y t')))
      = ((ρ t t').withDensity fun x' => ENNReal.ofReal (Real.exp (-lik x' y t'))).withDensity fun x' => ENNReal.ofReal (Real.exp (-trans x t x' t')) := fun x t y t' => by
    have h1 := measurable_likDensity hm y t'
    have h2 : Measurable fun x' => ENNReal.ofReal (Real.exp (-trans x t x' t')) := by
      have h3 : Measurable fun x' : X => trans x t x' t' := (htr t t').comp measurable_prodMk_left
      exact ENNReal.measurable_ofReal.comp (Real.measurable_exp.comp h3.neg)
    rw [hM, ← withDensity_mul _ h2 h1, ← withDensity_mul _ h1 h2, mul_comm]
  have hw0 : 0 ≤ w := (Real.exp_pos _).le.trans (hw _ List.mem_cons_self ((mo fun _ => 0).initialSample t0 []))
  obtain ⟨out, h1, h2, h2', h3⟩ := C137_proper (bootstrap_law hm) hcat hcatR htr (ρ := fun t y t' => (ρ t t').withDensity fun x' => ENNReal.ofReal (Real.exp (-lik x' y t'))) hΓ
    thr y0 t0 k0 os hne hk lag hlag maxRej bound inflation hb hw0 (hw _ List.mem_cons_self) (fun o ho _ _ x' => hw (o.1, o.2.1) (List.mem_cons_of_mem _ (List.mem_map.mpr ⟨o, ho, rfl⟩)) x')
  have he : ∀ {h : List X → ℝ≥0∞}, PathMeasurable h → ∫⁻ x, pathIntegral (fun x t y t' => (M x t t').withDensity fun x' => ENNReal.ofReal (Real.exp (-lik x' y t'))) h t0 (os.map fun o => (o.1, o.2.1)) [] x
      ∂((μ0 t0).withDensity fun x => ENNReal.ofReal (Real.exp (-lik x y0 t0)))
      = ∫⁻ x, ENNReal.ofReal (Real.exp (-lik x y0 t0)) * smoothingExpectation M lik h t0 (os.map fun o => (o.1, o.2.1)) [] x ∂(μ0 t0) := fun {h} hh => by
    rw [lintegral_withDensity_eq_lintegral_mul _ (measurable_likDensity hm y0 t0) (measurable_pathIntegral (bootstrap_law hm) hh t0 _ [])]
    refine lintegral_congr fun x => ?_
    rw [Pi.mul_apply, pathIntegral_bootstrap hm hh]
  refine ⟨out, fun ω => by rw [htp ω]; exact h1 ω, h2, h2', fun g B hg hg0 hgB z hz s hs => ?_⟩
  exact h3 g B hg hg0 hgB z (hz.trans (by rw [he fun k => measurable_const])) s (hs.trans (by rw [he hg]))

/-! ## Nonlinear Gaussian models -/

section
open Matrix Mocat.NonlinearGaussian Mocat.Spec Mocat.Covariance Mocat.MatGauss Mocat.Online
variable {d e : ℕ} {chol : Chol} (hchol : IsCholeskyAll chol) {mo : NLG d e} (hm : ProperNLG mo) (htr : ∀ t t', Measurable fun x => mo.transFun x t t') {q : ℝ → ℝ} (hq : IsNormalDraw q)
include hchol hm htr hq

/-- C137 for nonlinear Gaussian models with the bootstrap filter: for every bounded function of the path there is a constant, fixed before the number of particles. -/
theorem C137_nonlinear_gaussian (y0 : Obs e) (t0 : ℝ) (k0 : Keys.Key) (os : List (Obs e × ℝ × Keys.Key)) (hne : os ≠ []) (hk : (k0 :: os.map fun o => o.2.2).Pairwise Unrelated) (g : List (Fin d → ℝ) → ℝ) (B : ℝ)
    (hg : PathMeasurable fun l => ENNReal.ofReal (g l)) (hg0 : ∀ l, 0 ≤ g l) (hgB : ∀ l, g l ≤ B) :
    ∃ C : ℝ, ∀ (n : ℕ) [NeZero n] (cat : (Fin n → Fl) → ℝ → Fin n), IsCategorical cat → (IsCategoricalReal fun (w : Fin n → ℝ) u => cat (fun i => .fin (w i)) u) →
      ∀ (lag : ℕ) (_ : os.length + 1 ≤ lag) (thr : ℝ) (maxRej : ℤ) (bound inflation : ℝ) (_ : 0 < maxRej → Real.sqrt (((chol d mo.transCov)ᵀ * chol d mo.transCov).det⁻¹ / (2 * Real.pi) ^ d) ≤ bound),
      ∃ out : Tape → Smoother (Fin d → ℝ) n e,
        (∀ ω, (ofParticles (initiateParticles (tapeEnv cat ω) (bootstrap (reKeyModel (normalsAt q ω) (mo.model chol))) k0 y0 t0)).bind
          (fun s => calls true ⟨tapeEnv cat ω, tapeRand cat ω, (mo.model chol).transitionPotential, bootstrap (reKeyModel (normalsAt q ω) (mo.model chol)), lag, thr, maxRej, bound, inflation⟩ s os) = some (out ω)) ∧
        (∀ ω, (out ω).value.length = os.length + 1) ∧ (∀ ω, (out ω).logWeight = fun _ => .fin 0) ∧
        let S := fun h : List (Fin d → ℝ) → ℝ≥0∞ => ∫⁻ x, ENNReal.ofReal (Real.exp (-covPotential chol mo.likCov (x ᵥ* mo.likMatᵀ) y0))
          * smoothingExpectation (fun x t t' => gauss (mo.transFun x t t') ((chol d mo.transCov)ᵀ * chol d mo.transCov)) (fun x y _ => covPotential chol mo.likCov (x ᵥ* mo.likMatᵀ) y) h t0
            (os.map fun o => (o.1, o.2.1)) [] x
          ∂(gauss mo.initialMean mo.initialCov)
        let s := (S fun l => ENNReal.ofReal (g l)).toReal / (S fun _ => 1).toReal
        0 < (S fun _ => 1).toReal ∧
        ∫⁻ ω, ENNReal.ofReal (((∑ i, g ((out ω).value.map fun x => x i)) / n - s) ^ 2) ∂ideal ≤ ENNReal.ofReal ((B ^ 2 + C) / n) ∧
        ∀ i, |∫ ω, g ((out ω).value.map fun x => x i) ∂ideal - s| ≤ Real.sqrt (C / n) := by
  set S := fun h : List (Fin d → ℝ) → ℝ≥0∞ => ∫⁻ x, ENNReal.ofReal (Real.exp (-covPotential chol mo.likCov (x ᵥ* mo.likMatᵀ) y0))
    * smoothingExpectation (fun x t t' => gauss (mo.transFun x t t') ((chol d mo.transCov)ᵀ * chol d mo.transCov)) (fun x y _ => covPotential chol mo.likCov (x ᵥ* mo.likMatᵀ) y) h t0
      (os.map fun o => (o.1, o.2.1)) [] x
    ∂(gauss mo.initialMean mo.initialCov) with hS
  set w := Real.exp (-Gaussian.negLogZ e (some (1 / mo.likCov.det))) with hw
  have hB0 : 0 ≤ B := (hg0 []).trans (hgB [])
  refine ⟨4 * (2 * os.length + 1) * (w ^ (os.length + 1) * B / (S fun _ => 1).toReal) ^ 2, fun n _ cat hcat hcatR lag hlag thr maxRej bound inflation hb => ?_⟩
  have hdens := fun x t t' x' => covPotential_density hchol hm.trans (mo.transFun x t t') x'
  obtain ⟨out, h1, h2, h2', h3⟩ := C137_bootstrap (n := n) (nlg_modelLaw hchol hm htr hq) hcat hcatR (trans := (mo.model chol).transitionPotential) (fun _ => rfl) (fun t t' => by
      have h1 := (measurable_gaussianPotential_mat (chol d mo.transCov)⁻¹ (1 / mo.transCov.det)).comp (measurable_snd.prodMk ((htr t t').comp (measurable_fst (β := Fin d → ℝ))))
      exact h1) (ρ := fun _ _ => volume) (fun x t t' => by
      unfold gauss
      congr 1
      funext x'
      rw [← hdens]
      rfl)
    thr y0 t0 k0 os hne hk lag hlag maxRej bound inflation (fun h0 x t x' t' => by
      refine (le_of_eq (hdens x t t' x')).trans (le_trans ?_ (hb h0))
      unfold gaussDensity
      refine mul_le_of_le_one_right (Real.sqrt_nonneg _) (Real.exp_le_one_iff.2 ?_)
      have hP : ((chol d mo.transCov)ᵀ * chol d mo.transCov).PosSemidef := by
        have := posSemidef_conjTranspose_mul_self (chol d mo.transCov)
        rwa [conjTranspose_eq_transpose_of_trivial] at this
      have := hP.inv.dotProduct_mulVec_nonneg (x' - mo.transFun x t t')
      simp only [star_trivial] at this
      linarith) (w := w) (fun o _ x => Real.exp_le_exp.mpr (neg_le_neg (neg_potential_le o.1 (x ᵥ* mo.likMatᵀ) _ _)))
  obtain ⟨hz, hmse, hbias⟩ := h3 g B hg hg0 hgB _ rfl _ rfl
  refine ⟨out, h1, h2, h2', hz, hmse.trans (ENNReal.ofReal_le_ofReal (le_of_eq ?_)), fun i => (hbias i).trans (le_of_eq ?_)⟩
  · rw [add_div]
  · have hw0 : 0 ≤ w := (Real.exp_pos _).le
    have hn : (0 : ℝ) ≤ n := Nat.cast_nonneg n
    rw [show 4 * (2 * (os.length : ℝ) + 1) * (w ^ (os.length + 1) * B / (S fun _ => 1).toReal) ^ 2 / n = (2 * (w ^ (os.length + 1) * B / (S fun _ => 1).toReal)) ^ 2 * ((2 * os.length + 1) / n) by ring,
      Real.sqrt_mul (by positivity), Real.sqrt_sq (by positivity)]
    ring

end

/-! ## A case that meets the hypotheses -/

section
open Matrix Mocat.NonlinearGaussian Mocat.Spec Mocat.Covariance Mocat.MatGauss Mocat.Online

/-- A nonlinear model in dimension 2, two calls after the first observation with lag 5: the smoothing probability that the first coordinate rises from the first time to the last, with up to 7 rejections. -/
example (y0 y1 y2 : Obs 2) : ∃ (chol : Chol) (q : ℝ → ℝ) (bound C : ℝ), ∀ (n : ℕ) [NeZero n], ∃ (cat : (Fin n → Fl) → ℝ → Fin n) (out : Tape → Smoother (Fin 2 → ℝ) n 2),
    (∀ ω, (ofParticles (initiateParticles (tapeEnv cat ω) (bootstrap (reKeyModel (normalsAt q ω) ((⟨0, 1, fun x t t' i => Real.sin (x i) + (t' - t), covEx, 1, 1⟩ : NLG 2 2).model chol))) [0] y0 0)).bind
      (fun s => calls true ⟨tapeEnv cat ω, tapeRand cat ω, ((⟨0, 1, fun x t t' i => Real.sin (x i) + (t' - t), covEx, 1, 1⟩ : NLG 2 2).model chol).transitionPotential,
        bootstrap (reKeyModel (normalsAt q ω) ((⟨0, 1, fun x t t' i => Real.sin (x i) + (t' - t), covEx, 1, 1⟩ : NLG 2 2).model chol)), 5, 1 / 2, 7, bound, 2⟩ s [(y1, 1, [1]), (y2, 3, [2])]) = some (out ω)) ∧
    let S := fun h : List (Fin 2 → ℝ) → ℝ≥0∞ => ∫⁻ x, ENNReal.ofReal (Real.exp (-covPotential chol 1 (x ᵥ* (1 : Matrix (Fin 2) (Fin 2) ℝ)ᵀ) y0))
      * smoothingExpectation (fun x t t' => gauss (fun i => Real.sin (x i) + (t' - t)) ((chol 2 covEx)ᵀ * chol 2 covEx)) (fun x y _ => covPotential chol 1 (x ᵥ* (1 : Matrix (Fin 2) (Fin 2) ℝ)ᵀ) y) h 0
        [(y1, 1), (y2, 3)] [] x ∂(gauss 0 1)
    ∫⁻ ω, ENNReal.ofReal (((∑ i, {z : (Fin 2 → ℝ) × (Fin 2 → ℝ) | z.1 0 < z.2 0}.indicator (fun _ => (1 : ℝ)) (((out ω).value.map fun x => x i).getD 0 0, ((out ω).value.map fun x => x i).getD 2 0)) / n
      - (S fun l => ENNReal.ofReal ({z : (Fin 2 → ℝ) × (Fin 2 → ℝ) | z.1 0 < z.2 0}.indicator (fun _ => (1 : ℝ)) (l.getD 0 0, l.getD 2 0))).toReal / (S fun _ => 1).toReal) ^ 2) ∂ideal
      ≤ ENNReal.ofReal (C / n) := by
  obtain ⟨chol, hchol⟩ := exists_isCholeskyAll
  obtain ⟨q, hq⟩ := exists_isNormalDraw
  have hA : MeasurableSet {z : (Fin 2 → ℝ) × (Fin 2 → ℝ) | z.1 0 < z.2 0} := measurableSet_lt ((measurable_pi_apply 0).comp measurable_fst) ((measurable_pi_apply 0).comp measurable_snd)
  obtain ⟨C, hC⟩ := C137_nonlinear_gaussian hchol (mo := ⟨0, 1, fun x t t' i => Real.sin (x i) + (t' - t), covEx, 1, 1⟩) ⟨PosDef.one, covEx_posDef, PosDef.one⟩ (fun t t' => by fun_prop) hq
    y0 0 [0] [(y1, 1, [1]), (y2, 3, [2])] (by simp) (by simp [Unrelated, List.suffix_cons_iff]) _ 1 (pathMeasurable_indicator hA 0 0 2) (fun l => Set.indicator_nonneg (fun _ _ => zero_le_one) _)
    (fun l => Set.indicator_le_self' (fun _ _ => zero_le_one) _)
  refine ⟨chol, q, Real.sqrt (((chol 2 covEx)ᵀ * chol 2 covEx).det⁻¹ / (2 * Real.pi) ^ 2), 1 ^ 2 + C, fun n _ => ?_⟩
  obtain ⟨out, h1, -, -, -, h4, -⟩ := hC n invCdf isCategorical_invCdf isCategoricalReal_invCdfReal 5 (by simp) (1 / 2) 7 _ 2 (fun _ => le_rfl)
  exact ⟨invCdf, out, h1, h4⟩

end

end Mocat.Props
