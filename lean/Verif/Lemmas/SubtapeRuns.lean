import Verif.Lemmas.ErrorBars
import Verif.Lemmas.Subtape
import Verif.Lemmas.SmcLaw
/-!
# Runs with separate keys as independent copies

A program that is handed a key is a function of the part of the tape of that key (`subtape`), so runs with separate keys are independent with a common law.
-/
namespace Mocat.Ideal
open Mocat Mocat.Meas MeasureTheory ProbabilityTheory Filter Topology
open scoped ENNReal

theorem subtape_subtape (k κ : Keys.Key) (ω : Tape) : subtape k (subtape κ ω) = subtape (k ++ κ) ω := by
  funext s
  simp only [subtape, List.append_assoc]

theorem ae_subtape (κ : Keys.Key) {P : Tape → Prop} (h : ∀ᵐ τ ∂ideal, P τ) : ∀ᵐ ω ∂ideal, P (subtape κ ω) := by
  rw [← map_subtape κ] at h
  exact ae_of_ae_map (measurable_subtape κ).aemeasurable h

theorem keyAt_append (n : ℕ) (a κ : Keys.Key) (k : ℕ) : Smc.keyAt n (a ++ κ) k = Smc.keyAt n a k ++ κ := by
  induction k with
  | zero => rfl
  | succ k ih => rw [Smc.keyAt, ih]; rfl

theorem tapeIter_subtape {D X : Type*} {draw : Keys.Key → Tape → D} {next : Keys.Key → Keys.Key} {κ : Keys.Key} {ω : Tape} (hd : ∀ k, draw (k ++ κ) ω = draw k (subtape κ ω)) (hn : ∀ k, next (k ++ κ) = next k ++ κ)
    (step : X → D → X) (m : ℕ) (k : Keys.Key) (x : X) : tapeIter draw next step m (k ++ κ) x ω = tapeIter draw next step m k x (subtape κ ω) := by
  induction m generalizing k x with
  | zero => rfl
  | succ m ih =>
    rw [tapeIter, tapeIter, hn, hd]
    exact ih _ _

/-! ## Weighted averages over runs -/

/-- The average of the numbers `m`, with weights `L`, of the first `R` runs. -/
noncomputable def runsMean (L m : ℕ → ℝ) (R : ℕ) : ℝ := (∑ r ∈ Finset.range R, L r * m r) / ∑ r ∈ Finset.range R, L r

/-- Its estimated standard error. -/
noncomputable def runsError (L m : ℕ → ℝ) (R : ℕ) : ℝ := Real.sqrt (∑ r ∈ Finset.range R, (L r * (m r - runsMean L m R)) ^ 2) / ∑ r ∈ Finset.range R, L r

section
variable {Ω Ω' : Type*} [MeasurableSpace Ω] [MeasurableSpace Ω']

/-- As the number of runs grows, the weighted average converges to `truth` with probability one, and the interval of `z` standard errors about it contains `truth` with the probability that a standard normal variable lies
between `-z` and `z`, in the limit. -/
structure HonestRuns (P : Measure Ω) (truth : ℝ) (L m : ℕ → Ω → ℝ) : Prop where
  consistent : ∀ᵐ ω ∂P, Tendsto (fun R => runsMean (fun r => L r ω) (fun r => m r ω) R) atTop (𝓝 truth)
  covers : ∀ z : ℝ, 0 ≤ z → Tendsto (fun R => P {ω | |runsMean (fun r => L r ω) (fun r => m r ω) R - truth| ≤ z * runsError (fun r => L r ω) (fun r => m r ω) R}) atTop (𝓝 (gaussianReal 0 1 (Set.Icc (-z) z)))

/-- Runs that are one function of independent inputs `T r` with a common law `P'`. -/
theorem honestRuns_of_copies {P : Measure Ω} [IsProbabilityMeasure P] {P' : Measure Ω'} [IsProbabilityMeasure P'] {L m : ℕ → Ω → ℝ} {l n : Ω' → ℝ} (hl : Measurable l) (hn : Measurable n) (hl2 : MemLp l 2 P') (hn2 : MemLp n 2 P')
    {T : ℕ → Ω → Ω'} (hT : ∀ r, Measurable (T r)) (hTi : iIndepFun T P) (hTl : ∀ r, P.map (T r) = P') (hL : ∀ r ω, L r ω = l (T r ω)) (hN : ∀ r ω, L r ω * m r ω = n (T r ω)) (hln : ∀ ω, l ω = 0 → n ω = 0) {θ : ℝ}
    (hpos : 0 < ∫ ω, l ω ∂P') (hθ : ∫ ω, n ω ∂P' = θ * ∫ ω, l ω ∂P') (hne : ¬∀ᵐ ω ∂P', n ω - θ * l ω = 0) : HonestRuns P θ L m := by
  set v : Ω' → ℝ × ℝ := fun ω => (l ω, n ω) with hv
  have hvm : Measurable v := hl.prodMk hn
  set Z : ℕ → Ω → ℝ × ℝ := fun r ω => v (T r ω) with hZd
  have hZ : ∀ r, Measurable (Z r) := fun r => hvm.comp (hT r)
  have hind : iIndepFun Z P := hTi.comp (fun _ => v) fun _ => hvm
  obtain ⟨μ, hμ⟩ : ∃ μ, μ = P'.map v := ⟨_, rfl⟩
  have hlaw : ∀ r, P.map (Z r) = μ := fun r => by
    rw [hμ, ← hTl r, Measure.map_map hvm (hT r)]
    rfl
  have hf : Measurable fun z : ℝ × ℝ => z.2 / z.1 := measurable_snd.div measurable_fst
  have ewf : ∀ ω, (v ω).1 * ((v ω).2 / (v ω).1) = n ω := fun ω => by
    by_cases h : l ω = 0
    · simp [hv, h, hln ω h]
    · simp only [hv]; field_simp
  have hwfm : Measurable fun z : ℝ × ℝ => z.1 * (z.2 / z.1) := measurable_fst.mul hf
  have hw2 : MemLp (fun z : ℝ × ℝ => z.1) 2 μ := by rw [hμ]; exact (memLp_map_measure_iff measurable_fst.aestronglyMeasurable hvm.aemeasurable).2 hl2
  have hwf2 : MemLp (fun z : ℝ × ℝ => z.1 * (z.2 / z.1)) 2 μ := by
    rw [hμ]
    refine (memLp_map_measure_iff hwfm.aestronglyMeasurable hvm.aemeasurable).2 ?_
    have e : (fun z : ℝ × ℝ => z.1 * (z.2 / z.1)) ∘ v = n := funext ewf
    rw [e]
    exact hn2
  have e1 : ∫ z, z.1 ∂μ = ∫ ω, l ω ∂P' := by rw [hμ, integral_map hvm.aemeasurable measurable_fst.aestronglyMeasurable]
  have e2 : ∫ z, z.1 * (z.2 / z.1) ∂μ = ∫ ω, n ω ∂P' := by
    rw [hμ, integral_map hvm.aemeasurable hwfm.aestronglyMeasurable]
    simp only [ewf]
  have hpos' : 0 < ∫ z : ℝ × ℝ, z.1 ∂μ := by rw [e1]; exact hpos
  have hθ' : ∫ z : ℝ × ℝ, z.1 * (z.2 / z.1) ∂μ = θ * ∫ z : ℝ × ℝ, z.1 ∂μ := by rw [e1, e2, hθ]
  have hLm : ∀ r ω, L r ω * m r ω = (Z r ω).1 * ((Z r ω).2 / (Z r ω).1) := fun r ω => by rw [hN, ewf]
  have havg : ∀ R ω, runsMean (fun r => L r ω) (fun r => m r ω) R = ErrorBars.avg (fun z : ℝ × ℝ => z.1) (fun z => z.2 / z.1) Z R ω := fun R ω => by
    simp only [runsMean, ErrorBars.avg, hLm]
    simp only [hL]
    rfl
  have hse : ∀ R ω, runsError (fun r => L r ω) (fun r => m r ω) R = ErrorBars.se (fun z : ℝ × ℝ => z.1) (fun z => z.2 / z.1) Z R ω := fun R ω => by
    simp only [runsError, ErrorBars.se, havg, mul_sub, hLm]
    simp only [hL]
    rfl
  refine ⟨?_, fun z hz => ?_⟩
  · filter_upwards [ErrorBars.avg_tendsto hZ hind (fun r => hlaw (r + 1)) measurable_fst hf (by rw [hμ]; exact (integrable_map_measure measurable_fst.aestronglyMeasurable hvm.aemeasurable).2 (hl2.integrable one_le_two))
      (by rw [hμ]; refine (integrable_map_measure hwfm.aestronglyMeasurable hvm.aemeasurable).2 ?_
          have e : (fun z : ℝ × ℝ => z.1 * (z.2 / z.1)) ∘ v = n := funext ewf
          rw [e]; exact hn2.integrable one_le_two) hpos' hθ'] with ω hω
    rw [← tendsto_add_atTop_iff_nat 1]
    simpa only [havg] using hω
  · refine ErrorBars.standardised (w := fun z : ℝ × ℝ => z.1) hZ hind (fun r => hlaw (r + 1)) measurable_fst hf hw2 hwf2 hpos' hθ' ?_ measurableSet_Icc ?_ fun R ω h1 h2 => ?_
    · refine lt_of_le_of_ne (integral_nonneg fun z => sq_nonneg _) fun h0 => hne ?_
      have hG2 : MemLp (fun z : ℝ × ℝ => z.1 * (z.2 / z.1 - θ)) 2 μ := by
        have e : (fun z : ℝ × ℝ => z.1 * (z.2 / z.1 - θ)) = fun z => z.1 * (z.2 / z.1) - θ * z.1 := by funext z; ring
        rw [e]
        exact hwf2.sub (hw2.const_mul θ)
      have h1 := (integral_eq_zero_iff_of_nonneg (fun z => sq_nonneg _) hG2.integrable_sq).1 h0.symm
      rw [hμ] at h1
      filter_upwards [ae_of_ae_map hvm.aemeasurable h1] with ω hω
      have h3 : (v ω).1 * ((v ω).2 / (v ω).1 - θ) = 0 := by simpa using hω
      rw [mul_sub, ewf, mul_comm _ θ] at h3
      exact h3
    · rw [frontier_Icc (by linarith)]
      exact (Set.toFinite {-z, z}).measure_zero _
    · rw [Set.mem_ofPred_eq, havg, hse, Set.mem_Icc, ← abs_le, abs_div, abs_of_pos h2, div_le_iff₀ h2]

end

theorem honestRuns {L m : ℕ → Tape → ℝ} {l n : Tape → ℝ} (hl : Measurable l) (hn : Measurable n) (hl2 : MemLp l 2 ideal) (hn2 : MemLp n 2 ideal) (keys : ℕ → Keys.Key)
    (hk : ∀ a b, a ≠ b → Disjoint (below (keys a)) (below (keys b))) (hL : ∀ r ω, L r ω = l (subtape (keys r) ω)) (hN : ∀ r ω, L r ω * m r ω = n (subtape (keys r) ω)) (hln : ∀ ω, l ω = 0 → n ω = 0) {θ : ℝ}
    (hpos : 0 < ∫ ω, l ω ∂ideal) (hθ : ∫ ω, n ω ∂ideal = θ * ∫ ω, l ω ∂ideal) (hne : ¬∀ᵐ ω ∂ideal, n ω - θ * l ω = 0) : HonestRuns ideal θ L m :=
  honestRuns_of_copies hl hn hl2 hn2 (fun r => measurable_subtape (keys r)) (iIndepFun_of_dependsOn (S := fun r => below (keys r)) hk (fun r => measurable_subtape (keys r)) fun _ _ _ h => subtape_dependsOn _ h)
    (fun r => map_subtape (keys r)) hL hN hln hpos hθ hne

/-- Plain averages. -/
theorem honestRuns_one {m : ℕ → Tape → ℝ} {n : Tape → ℝ} (hn : Measurable n) (hn2 : MemLp n 2 ideal) (keys : ℕ → Keys.Key) (hk : ∀ a b, a ≠ b → Disjoint (below (keys a)) (below (keys b)))
    (hN : ∀ r ω, m r ω = n (subtape (keys r) ω)) (hne : ¬∀ᵐ ω ∂ideal, n ω = ∫ τ, n τ ∂ideal) : HonestRuns ideal (∫ τ, n τ ∂ideal) (fun _ _ => 1) m := by
  refine honestRuns (l := fun _ => 1) (n := n) measurable_const hn (memLp_const 1) hn2 keys hk (fun _ _ => rfl) (fun r ω => by rw [one_mul, hN]) (fun _ h => absurd h one_ne_zero) (by simp) (by simp) ?_
  intro h
  exact hne (h.mono fun ω hω => by linarith)

end Mocat.Ideal
