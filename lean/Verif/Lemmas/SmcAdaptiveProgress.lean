import Verif.Lemmas.SmcAdaptivePositive
/-! How far the search for the next temperature gets. -/
namespace Mocat.Smc
open Mocat Mocat.Ideal Mocat.Meas Mocat.Spec Mocat.Utils Mocat.Props MeasureTheory Filter Topology

/-- What the search is given: a function that starts at `L`, is positive up to `δ` from the lower end and bounded below by `-C`. -/
structure Falling (f : ℝ → ℝ) (T M L δ C : ℝ) : Prop where
  start : f T = L
  pos : 0 < L
  below : 0 ≤ C
  step : 0 < δ
  near : ∀ x, T ≤ x → x ≤ M → x ≤ T + δ → 0 < f x
  bound : ∀ x, T ≤ x → x ≤ M → -C ≤ f x

/-- What the iterates of the search look like. -/
structure Bracket (f : ℝ → ℝ) (T M L δ C τ : ℝ) (s : BState) : Prop where
  loT : T ≤ s.lo
  le : s.lo ≤ s.hi
  hiM : s.hi ≤ M
  flo : 0 ≤ s.flo
  fhi : s.fhi ≤ 0
  fhi_eq : s.fhi = f s.hi
  lo : T + L / (L + C) * δ ≤ s.lo ∨ (s.lo = T ∧ s.flo = L ∧ (-τ < s.fhi ∨ s.hi - T ≤ (M - T) * (L / (L + τ)) ^ s.iter))

theorem Bracket.far {f : ℝ → ℝ} {T M L δ C τ : ℝ} (hf : Falling f T M L δ C) {s : BState} (hs : Bracket f T M L δ C τ s) : T + δ < s.hi := by
  by_contra hc
  have := hf.near s.hi (hs.loT.trans hs.le) hs.hiM (not_lt.1 hc)
  rw [← hs.fhi_eq] at this
  linarith [hs.fhi]

theorem Bracket.next {f : ℝ → ℝ} {T M L δ C τ : ℝ} (hf : Falling f T M L δ C) (hτ : 0 < τ) {inc : Prop} (hinc : ¬ inc) {s : BState} (hs : Bracket f T M L δ C τ s)
    (hkeep : s.fhi ≤ -τ ∨ ∀ x y, T ≤ x → x ≤ y → y ≤ M → f y ≤ f x) : Bracket f T M L δ C τ (s.step f inc) := by
  have hL := hf.pos
  have hC := hf.below
  have hδ := hf.step
  obtain ⟨θ, hθ⟩ : ∃ θ, θ = s.flo / (s.flo - s.fhi) := ⟨_, rfl⟩
  have hθ0 : 0 ≤ θ := by rw [hθ]; exact div_nonneg hs.flo (by linarith [hs.flo, hs.fhi])
  have hθ1 : θ ≤ 1 := by rw [hθ]; exact div_le_one_of_le₀ (by linarith [hs.fhi]) (by linarith [hs.flo, hs.fhi])
  obtain ⟨x, hx⟩ : ∃ x, x = s.lo - s.flo * (s.hi - s.lo) / (s.fhi - s.flo) := ⟨_, rfl⟩
  have hxθ : x = s.lo + θ * (s.hi - s.lo) := by
    rw [hx, hθ, ← neg_sub s.flo s.fhi, div_neg]
    ring
  have hxlo : s.lo ≤ x := by rw [hxθ]; linarith [mul_nonneg hθ0 (sub_nonneg.2 hs.le)]
  have hxhi : x ≤ s.hi := by rw [hxθ]; nlinarith [mul_le_mul_of_nonneg_right hθ1 (sub_nonneg.2 hs.le)]
  have hTx : T ≤ x := hs.loT.trans hxlo
  have hxM : x ≤ M := hxhi.trans hs.hiM
  have hfar := hs.far hf
  have hb : -C ≤ s.fhi := by rw [hs.fhi_eq]; exact hf.bound _ (hs.loT.trans hs.le) hs.hiM
  have hstep : s.step f inc = if f x < 0 then ⟨s.lo, x, s.flo, f x, s.iter + 1⟩ else ⟨x, s.hi, f x, s.fhi, s.iter + 1⟩ := by
    simp only [BState.step, ← hx, if_neg hinc]
    split <;> rfl
  rw [hstep]
  split
  · rename_i hneg
    refine ⟨hs.loT, hxlo, hxM, hs.flo, hneg.le, rfl, ?_⟩
    rcases hs.lo with h | ⟨h, h1, h2⟩
    · exact Or.inl h
    · refine Or.inr ⟨h, h1, ?_⟩
      by_cases hc : -τ < s.fhi
      · left
        rcases hkeep with hk | hk
        · linarith
        · refine hc.trans_le ?_
          rw [hs.fhi_eq]
          exact hk _ _ hTx hxhi hs.hiM
      · right
        have h3 : s.hi - T ≤ (M - T) * (L / (L + τ)) ^ s.iter := h2.resolve_left hc
        have hθh : θ ≤ L / (L + τ) := by
          rw [hθ, h1, div_le_div_iff₀ (by linarith [hs.fhi]) (by linarith)]
          nlinarith
        simp only
        rw [hxθ, h, pow_succ]
        have h4 : 0 ≤ s.hi - T := by linarith [hs.le, hs.loT]
        calc T + θ * (s.hi - T) - T = θ * (s.hi - T) := by ring
          _ ≤ L / (L + τ) * (s.hi - T) := mul_le_mul_of_nonneg_right hθh h4
          _ ≤ L / (L + τ) * ((M - T) * (L / (L + τ)) ^ s.iter) := mul_le_mul_of_nonneg_left h3 (by positivity)
          _ = _ := by ring
  · rename_i hneg
    refine ⟨hTx, hxhi, hs.hiM, not_lt.1 hneg, hs.fhi, hs.fhi_eq, Or.inl ?_⟩
    simp only
    rcases hs.lo with h | ⟨h, h1, -⟩
    · linarith
    · rw [hxθ, h]
      have hθC : L / (L + C) ≤ θ := by
        rw [hθ, h1, div_le_div_iff₀ (by linarith) (by linarith [hs.fhi])]
        nlinarith
      have h5 : L / (L + C) * δ ≤ θ * (s.hi - T) := mul_le_mul hθC (by linarith) hδ.le hθ0
      linarith

/-- The search stays at the lower end only if the function is not lower at the upper end. -/
theorem search_progress {f : ℝ → ℝ} {T M L δ C τ tol : ℝ} (hTM : T ≤ M) (hf : Falling f T M L δ C) (hτ : 0 < τ) (hτL : τ ≤ L) (htol : tol ≤ L) (maxIter : ℕ)
    (hkeep : τ ≤ tol ∨ ∀ x y, T ≤ x → x ≤ y → y ≤ M → f y ≤ f x) (hN : (M - T) * (L / (L + τ)) ^ maxIter ≤ δ) :
    let res := if |(bisect f T M maxIter tol).flo| ≤ |(bisect f T M maxIter tol).fhi| then (bisect f T M maxIter tol).lo else (bisect f T M maxIter tol).hi
    (f T ≤ f M ∧ res = T) ∨ M ≤ res ∨ T + L / (L + C) * δ ≤ res := by
  intro res
  have hL := hf.pos
  have hC := hf.below
  have hδ := hf.step
  have hfrac : L / (L + C) ≤ 1 := div_le_one_of_le₀ (by linarith) (by linarith)
  by_cases hfM : 0 < f M
  · have h0 : 0 < f T := by rw [hf.start]; exact hL
    have hres : res = if f T ≤ f M then T else M := by
      simp only [res]
      rw [C28_same_sign f T M (mul_pos h0 hfM)]
      simp only [abs_of_pos h0, abs_of_pos hfM]
    by_cases hc : f T ≤ f M
    · exact Or.inl ⟨hc, by rw [hres, if_pos hc]⟩
    · refine Or.inr (Or.inl ?_)
      rw [hres, if_neg hc]
  · refine Or.inr (Or.inr ?_)
    rw [not_lt] at hfM
    have hinc : ¬ f M > f T := by rw [hf.start]; linarith
    obtain ⟨hr, hstop⟩ := bisectLoop_reaches f (f M > f T) maxIter tol (bisectInit f T M) _ .refl
    have key : ∀ s, Reaches f (f M > f T) maxIter tol (bisectInit f T M) s → Bracket f T M L δ C τ s := fun s hs => by
      induction hs with
      | refl => exact ⟨le_rfl, hTM, le_rfl, by rw [show (bisectInit f T M).flo = f T from rfl, hf.start]; exact hL.le, hfM, rfl, Or.inr ⟨rfl, hf.start, Or.inr (by simp [bisectInit])⟩⟩
      | @step t _ hns ih =>
        refine ih.next hf hτ hinc (hkeep.imp_left fun h => ?_)
        by_contra hc
        refine hns (Or.inl ?_)
        refine lt_of_le_of_lt (min_le_right _ _) ?_
        rw [abs_of_nonpos ih.fhi]
        linarith
    have hs := key _ hr
    rw [show bisectLoop f (f M > f T) maxIter tol (bisectInit f T M) = bisect f T M maxIter tol from rfl] at hs hstop
    simp only [res]
    generalize bisect f T M maxIter tol = s at hs hstop
    have hfar := hs.far hf
    have hhi : T + L / (L + C) * δ ≤ s.hi := by nlinarith
    by_cases hc : |s.flo| ≤ |s.fhi|
    · rw [if_pos hc]
      rcases hs.lo with h | ⟨h, h1, h2⟩
      · exact h
      · exfalso
        rw [abs_of_nonneg hs.flo, abs_of_nonpos hs.fhi, h1] at hc
        have h5 : s.hi - T ≤ (M - T) * (L / (L + τ)) ^ s.iter := h2.resolve_left (by linarith)
        have h6 : maxIter ≤ s.iter := by
          rcases hstop with h7 | h7 | ⟨h7, -⟩ | ⟨-, h7⟩
          · exfalso
            rw [abs_of_nonneg hs.flo, abs_of_nonpos hs.fhi, h1, min_eq_left hc] at h7
            linarith
          · exact h7
          · linarith [hs.flo]
          · linarith [hs.fhi]
        have h7 : (M - T) * (L / (L + τ)) ^ s.iter ≤ (M - T) * (L / (L + τ)) ^ maxIter :=
          mul_le_mul_of_nonneg_left (pow_le_pow_of_le_one (by positivity) (div_le_one_of_le₀ (by linarith) (by linarith)) h6) (by linarith)
        linarith
    · rw [if_neg hc]
      exact hhi

end Mocat.Smc
