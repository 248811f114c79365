import Verif.Lemmas.SmcAdaptiveMoves
/-! The next temperature is a measurable function of the ensemble. -/
namespace Mocat.Smc
open Mocat Mocat.Ideal Mocat.Meas Mocat.Utils MeasureTheory Filter Topology
open scoped ENNReal

/-- A loop state that depends measurably on a parameter, after a fixed number of iterations. -/
structure MeasB {Θ : Type*} [MeasurableSpace Θ] (s : Θ → BState) (c : ℕ) : Prop where
  lo : Measurable fun θ => (s θ).lo
  hi : Measurable fun θ => (s θ).hi
  flo : Measurable fun θ => (s θ).flo
  fhi : Measurable fun θ => (s θ).fhi
  iter : ∀ θ, (s θ).iter = c

section
variable {Θ : Type*} [MeasurableSpace Θ]

theorem MeasB.step {f : Θ → ℝ → ℝ} (hf : Measurable fun z : Θ × ℝ => f z.1 z.2) {inc : Θ → Prop} (hinc : MeasurableSet {θ | inc θ}) {s : Θ → BState} {c : ℕ} (hs : MeasB s c) :
    MeasB (fun θ => (s θ).step (f θ) (inc θ)) (c + 1) := by
  classical
  have hn : Measurable fun θ => (s θ).lo - (s θ).flo * ((s θ).hi - (s θ).lo) / ((s θ).fhi - (s θ).flo) := hs.lo.sub ((hs.flo.mul (hs.hi.sub hs.lo)).div (hs.fhi.sub hs.flo))
  have he : Measurable fun θ => f θ ((s θ).lo - (s θ).flo * ((s θ).hi - (s θ).lo) / ((s θ).fhi - (s θ).flo)) := hf.comp (measurable_id.prodMk hn)
  have hset : MeasurableSet {θ | if inc θ then f θ ((s θ).lo - (s θ).flo * ((s θ).hi - (s θ).lo) / ((s θ).fhi - (s θ).flo)) > 0
      else f θ ((s θ).lo - (s θ).flo * ((s θ).hi - (s θ).lo) / ((s θ).fhi - (s θ).flo)) < 0} := by
    have e : {θ | if inc θ then f θ ((s θ).lo - (s θ).flo * ((s θ).hi - (s θ).lo) / ((s θ).fhi - (s θ).flo)) > 0
      else f θ ((s θ).lo - (s θ).flo * ((s θ).hi - (s θ).lo) / ((s θ).fhi - (s θ).flo)) < 0}
      = ({θ | inc θ} ∩ {θ | 0 < f θ ((s θ).lo - (s θ).flo * ((s θ).hi - (s θ).lo) / ((s θ).fhi - (s θ).flo))})
        ∪ ({θ | inc θ}ᶜ ∩ {θ | f θ ((s θ).lo - (s θ).flo * ((s θ).hi - (s θ).lo) / ((s θ).fhi - (s θ).flo)) < 0}) := by
      ext θ
      by_cases h : inc θ <;> simp [h]
    rw [e]
    exact (hinc.inter (measurableSet_lt measurable_const he)).union (hinc.compl.inter (measurableSet_lt he measurable_const))
  exact ⟨Measurable.ite hset hs.lo hn, Measurable.ite hset hn hs.hi, Measurable.ite hset hs.flo he, Measurable.ite hset he hs.fhi, fun θ => by simp only [BState.step, hs.iter]⟩

theorem MeasB.stop {s : Θ → BState} {c : ℕ} (hs : MeasB s c) (maxIter : ℕ) (tol : ℝ) : MeasurableSet {θ | (s θ).stop maxIter tol} := by
  have e : {θ | (s θ).stop maxIter tol} = {θ | min |(s θ).flo| |(s θ).fhi| < tol} ∪ ({θ | maxIter ≤ c} ∪ (({θ | (s θ).flo < 0} ∩ {θ | (s θ).fhi < 0}) ∪ ({θ | 0 < (s θ).flo} ∩ {θ | 0 < (s θ).fhi}))) := by
    ext θ
    simp [BState.stop, hs.iter]
  rw [e]
  exact (measurableSet_lt (hs.flo.abs.min hs.fhi.abs) measurable_const).union ((MeasurableSet.const _).union
    (((measurableSet_lt hs.flo measurable_const).inter (measurableSet_lt hs.fhi measurable_const)).union ((measurableSet_lt measurable_const hs.flo).inter (measurableSet_lt measurable_const hs.fhi))))

theorem MeasB.loop {f : Θ → ℝ → ℝ} (hf : Measurable fun z : Θ × ℝ => f z.1 z.2) {inc : Θ → Prop} (hinc : MeasurableSet {θ | inc θ}) (maxIter : ℕ) (tol : ℝ) (fuel : ℕ) {s : Θ → BState} {c : ℕ}
    (hs : MeasB s c) (hc : maxIter ≤ c + fuel) : Measurable (fun θ => (bisectLoop (f θ) (inc θ) maxIter tol (s θ)).lo) ∧ Measurable (fun θ => (bisectLoop (f θ) (inc θ) maxIter tol (s θ)).hi)
      ∧ Measurable (fun θ => (bisectLoop (f θ) (inc θ) maxIter tol (s θ)).flo) ∧ Measurable (fun θ => (bisectLoop (f θ) (inc θ) maxIter tol (s θ)).fhi) := by
  classical
  induction fuel generalizing s c with
  | zero =>
    have e : ∀ θ, bisectLoop (f θ) (inc θ) maxIter tol (s θ) = s θ := fun θ => by
      rw [bisectLoop, dif_pos]
      exact Or.inr (Or.inl (by rw [hs.iter]; omega))
    simp only [e]
    exact ⟨hs.lo, hs.hi, hs.flo, hs.fhi⟩
  | succ fuel ih =>
    obtain ⟨h1, h2, h3, h4⟩ := ih (hs.step hf hinc) (by omega)
    have e : ∀ θ, bisectLoop (f θ) (inc θ) maxIter tol (s θ) = if (s θ).stop maxIter tol then s θ else bisectLoop (f θ) (inc θ) maxIter tol ((s θ).step (f θ) (inc θ)) := fun θ => by
      rw [bisectLoop]
      split <;> rfl
    have hm := hs.stop maxIter tol
    simp only [e, apply_ite BState.lo, apply_ite BState.hi, apply_ite BState.flo, apply_ite BState.fhi]
    exact ⟨Measurable.ite hm hs.lo h1, Measurable.ite hm hs.hi h2, Measurable.ite hm hs.flo h3, Measurable.ite hm hs.fhi h4⟩

end

/-- The next temperature of an adaptive run, as a function of the temperature, the log weights and the likelihood potentials. -/
noncomputable def nextOf {n : ℕ} (p : Params) (M T : ℝ) (lw l : Fin n → ℝ) : ℝ := nextTemperatureAdaptive p M T (Real.exp (logEss lw)) lw l

theorem measurable_nextOf {n : ℕ} (p : Params) (M : ℝ) : Measurable fun z : ℝ × (Fin n → ℝ) × (Fin n → ℝ) => nextOf p M z.1 z.2.1 z.2.2 := by
  classical
  obtain ⟨f, hf⟩ : ∃ f : ℝ × (Fin n → ℝ) × (Fin n → ℝ) → ℝ → ℝ,
    f = fun z x => logEss (fun i => z.2.1 i - (x - z.1) * z.2.2 i) - Real.log (Real.exp (logEss z.2.1) * p.essThresholdRetain) := ⟨_, rfl⟩
  have hfm : Measurable fun w : (ℝ × (Fin n → ℝ) × (Fin n → ℝ)) × ℝ => f w.1 w.2 := by
    rw [hf]
    have h1 : Measurable fun w : (ℝ × (Fin n → ℝ) × (Fin n → ℝ)) × ℝ => fun i => w.1.2.1 i - (w.2 - w.1.1) * w.1.2.2 i := by
      refine measurable_pi_lambda _ fun i => ?_
      fun_prop
    have h2 : Measurable fun w : (ℝ × (Fin n → ℝ) × (Fin n → ℝ)) × ℝ => Real.log (Real.exp (logEss w.1.2.1) * p.essThresholdRetain) :=
      Real.measurable_log.comp ((Real.measurable_exp.comp (measurable_logEss.comp (measurable_fst.comp (measurable_snd.comp measurable_fst)))).mul_const _)
    exact (measurable_logEss.comp h1).sub h2
  have hfa : Measurable fun z : ℝ × (Fin n → ℝ) × (Fin n → ℝ) => f z z.1 := hfm.comp (measurable_id.prodMk measurable_fst)
  have hfb : Measurable fun z : ℝ × (Fin n → ℝ) × (Fin n → ℝ) => f z M := hfm.comp (measurable_id.prodMk measurable_const)
  have hinit : MeasB (fun z : ℝ × (Fin n → ℝ) × (Fin n → ℝ) => bisectInit (f z) z.1 M) 0 := ⟨measurable_fst, measurable_const, hfa, hfb, fun _ => rfl⟩
  obtain ⟨h1, h2, h3, h4⟩ := hinit.loop hfm (inc := fun z => f z M > f z z.1) (measurableSet_lt hfa hfb) p.maxBisectionIter p.bisectionTol p.maxBisectionIter (by omega)
  subst hf
  unfold nextOf nextTemperatureAdaptive
  exact Measurable.ite (measurableSet_le h3.abs h4.abs) h1 h2

end Mocat.Smc
