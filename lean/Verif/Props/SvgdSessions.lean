import Verif.Model.SvgdSessions
import Mathlib.Tactic.NormNum
import Mathlib.Tactic.Positivity
import Mathlib.Analysis.Complex.ExponentialBounds
/-!
# C118: the kernel parameters an SVGD run uses
-/
namespace Mocat.Props
open Mocat.Svgd Mocat.SvgdSessions

/-! ## Specification -/

/-- What the caller last assigned to attribute `name` of object `c`, if anything. -/
def lastAssigned (c : ℕ) (name : String) : List Event → Option (Option Fl)
  | [] => none
  | .assign c' name' v :: es => (lastAssigned c name es).or (if c' = c ∧ name' = name then some v else none)
  | .run _ _ :: es => lastAssigned c name es

/-- No sampler without kernel of its own ran with object `c` as its kernel parameters. -/
def NoAdaptive (c : ℕ) (es : List Event) : Prop := ∀ s e, Event.run s e ∈ es → s.cell = c → s.adapts = false

/-! ## C118 -/

theorem history_lookup (h : ℕ → KParams) (es : List Event) (c : ℕ) (name : String) (hes : NoAdaptive c es) :
    history h es c name = (lastAssigned c name es).getD (h c name) := by
  induction es generalizing h with
  | nil => rfl
  | cons e es ih =>
    have hes' : NoAdaptive c es := fun s i hm hc => hes s i (List.mem_cons_of_mem _ hm) hc
    have hh : history h (e :: es) = history (handle h e) es := rfl
    rw [hh, ih _ hes']
    cases e with
    | assign c' name' v =>
      simp only [lastAssigned, handle]
      cases lastAssigned c name es with
      | some w => rfl
      | none =>
        simp only [Option.none_or, Option.getD_none]
        by_cases hc : c' = c
        · subst hc
          by_cases hn : name' = name
          · subst hn; simp
          · simp [hn, Ne.symm hn]
        · simp [hc, Ne.symm hc]
    | run s i =>
      simp only [lastAssigned, handle]
      by_cases hc : s.cell = c
      · have := hes s i List.mem_cons_self hc
        subst hc
        simp [adapt, this]
      · rw [Function.update_of_ne (Ne.symm hc)]

/-- C118: whatever happened before, all updates of a run of an SVGD sampler that was given its kernel use, for every kernel parameter, the value the caller last assigned (else the original one) in the `kernel_params` given, else in the
kernel's own parameters. Required: no sampler without kernel was run with the same object as its `kernel_params` (`C118_fails_shared`). -/
theorem C118_own_kernel_partial {K S : Type*} {n d : ℕ} (env : Env K KParams S n d) (h : ℕ → KParams) (es : List Event) (kernel : ℕ) (kernelParams : Option ℕ) (fresh : ℕ)
    (hes : NoAdaptive (kernelParams.getD kernel) es) (batchsize : ℕ) (vals : Fin n → Fin d → ℝ) (key : K) (k : ℕ) (name : String) :
    (after env (history h es) (construct (some kernel) kernelParams fresh) batchsize vals key k).2.kernelParams name =
      (lastAssigned (kernelParams.getD kernel) name es).getD (h (kernelParams.getD kernel) name) := by
  rw [← history_lookup h es _ name hes]
  induction k with
  | zero => rfl
  | succ k ih =>
    rw [← ih]
    unfold after
    rw [Function.iterate_succ_apply']
    rfl

/-- C118: a sampler without kernel of its own uses for each update the bandwidth that the mean rule gives for the current ensemble, whatever happened before. -/
theorem C118_default_kernel {K S : Type*} {n d : ℕ} (env : Env K KParams S n d) (h : ℕ → KParams) (kernelParams : Option ℕ) (fresh : ℕ)
    (batchsize : ℕ) (vals : Fin n → Fin d → ℝ) (key : K) (k : ℕ) :
    (after env h (construct none kernelParams fresh) batchsize vals key k).2.kernelParams "bandwidth" =
      some (meanBandwidth (after env h (construct none kernelParams fresh) batchsize vals key k).1.value) := by
  cases k with
  | zero => simp [after, start, startup, adapt, construct]
  | succ k =>
    unfold after
    rw [Function.iterate_succ_apply']
    simp [update, adapt, construct]

/-- C118 fails: `kernel_params` given without a kernel are not used: the bandwidth in them is overwritten, in the caller's own object. -/
theorem C118_fails_ignored (h : ℕ → KParams) (c fresh : ℕ) (e : Ensemble) :
    construct none (some c) fresh = ⟨c, true⟩ ∧ handle h (.run (construct none (some c) fresh) e) c "bandwidth" = some (meanBandwidth e.vals) := by
  refine ⟨rfl, ?_⟩
  simp [handle, construct, adapt]

/-- Two particles, at 0 and 1. -/
def twoParticles : Ensemble := ⟨2, 1, fun i _ => (i : ℝ)⟩

theorem twoParticles_bandwidth : ∃ b : ℝ, meanBandwidth twoParticles.vals = .fin b ∧ b ≠ 2 := by
  have hlog : (0.6931471803 : ℝ) < Real.log 2 := Real.log_two_gt_d9
  have hs : (1 : ℝ) < Real.sqrt (2 * Real.log ((2 : ℕ) : ℝ)) := by
    rw [Real.lt_sqrt (by norm_num)]
    push_cast
    linarith
  refine ⟨((∑ i : Fin 2, ∑ j : Fin 2, l2Distance (twoParticles.vals i) (twoParticles.vals j)) / ((2 : ℕ) : ℝ) ^ 2) / Real.sqrt (2 * Real.log ((2 : ℕ) : ℝ)), ?_, ?_⟩
  · change fdiv _ _ = _
    unfold fdiv
    rw [if_neg (by positivity)]
    rfl
  · have : (∑ i : Fin 2, ∑ j : Fin 2, l2Distance (twoParticles.vals i) (twoParticles.vals j)) = 2 := by
      change (∑ i : Fin 2, ∑ j : Fin 2, l2Distance (fun _ : Fin 1 => ((i : ℕ) : ℝ)) (fun _ : Fin 1 => ((j : ℕ) : ℝ))) = 2
      simp [Fin.sum_univ_two, l2Distance]
      norm_num
    rw [this]
    intro h
    rw [div_eq_iff (by positivity)] at h
    push_cast at h hs
    linarith

/-- C118 fails: two samplers given the same `kernel_params`, the first without a kernel. A run of the first changes what the second uses: its bandwidth was set to 2 and never touched by the caller since. -/
theorem C118_fails_shared {K S : Type*} {n d : ℕ} (env : Env K KParams S n d) (batchsize : ℕ) (vals : Fin n → Fin d → ℝ) (key : K) :
    ∃ (h : ℕ → KParams) (es : List Event) (kernel c fresh : ℕ), (lastAssigned c "bandwidth" es).getD (h c "bandwidth") = some (.fin 2) ∧
      (after env (history h es) (construct (some kernel) (some c) fresh) batchsize vals key 0).2.kernelParams "bandwidth" ≠ some (.fin 2) := by
  refine ⟨fun _ _ => none, [.assign 0 "bandwidth" (some (.fin 2)), .run (construct none (some 0) 1) twoParticles], 2, 0, 3, by simp [lastAssigned], ?_⟩
  obtain ⟨b, hb, hne⟩ := twoParticles_bandwidth
  have : (after env (history (fun _ _ => none) [.assign 0 "bandwidth" (some (.fin 2)), .run (construct none (some 0) 1) twoParticles]) (construct (some 2) (some 0) 3) batchsize vals key 0).2.kernelParams
      "bandwidth" = some (.fin b) := by
    simp [after, start, startup, adapt, construct, history, handle, hb]
  rw [this]
  intro h
  injection h with h
  injection h with h
  exact hne h

/-- The hypothesis of `C118_own_kernel_partial` is met by a history in which two samplers with kernels share their parameters, and one without kernel has its own. -/
example (c fresh : ℕ) (hc : c ≠ fresh) (e : Ensemble) :
    NoAdaptive c [.assign c "bandwidth" (some (.fin 2)), .run (construct (some c) none fresh) e, .run (construct none none fresh) e, .run (construct (some 7) (some c) fresh) e] := by
  intro s i hm hs
  simp only [List.mem_cons, Event.run.injEq, List.not_mem_nil, or_false, reduceCtorEq, false_or] at hm
  rcases hm with ⟨rfl, -⟩ | ⟨rfl, -⟩ | ⟨rfl, -⟩
  · rfl
  · exact absurd hs.symm hc
  · rfl

end Mocat.Props
