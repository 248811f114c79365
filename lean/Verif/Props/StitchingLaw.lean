import Verif.Props.Stitching
/-!
# C139: stitching to smoothed trajectories converges

The draws come from an ideal generator (`Verif.Spec.Tape`).
-/
namespace Mocat.Props
open Mocat Mocat.Filtering Mocat.Backward Mocat.Online Mocat.Metrics Mocat.Ideal Mocat.Meas MeasureTheory
open scoped ENNReal

variable {X : Type} {n dy : ℕ}

/-- The average over a finite choice. -/
theorem integral_choice {J : Tape → Fin n} (hJ : ∀ j, MeasurableSet {ω | J ω = j}) (G : Fin n → ℝ) : ∫ ω, G (J ω) ∂ideal = ∑ j, ideal.real {ω | J ω = j} * G j := by
  classical
  have e : (fun ω => G (J ω)) = fun ω => ∑ j, Set.indicator {ω | J ω = j} (fun _ => G j) ω := by
    funext ω
    rw [Finset.sum_eq_single (J ω)]
    · simp
    · intro j _ hj
      exact Set.indicator_of_notMem (fun h => hj h.symm) _
    · intro h
      exact absurd (Finset.mem_univ _) h
  rw [e, integral_finsetSum _ fun j _ => (integrable_const (G j)).indicator (hJ j)]
  refine Finset.sum_congr rfl fun j _ => ?_
  rw [integral_indicator_const _ (hJ j), smul_eq_mul]

/-- The ratio of transition densities at the first step of a path. -/
noncomputable def ratioAt (trans : X → ℝ → X → ℝ → ℝ) (t t' : ℝ) (x0 : X) : List X → ℝ
  | r0 :: r1 :: _ => transDens trans t t' x0 r1 / transDens trans t t' r0 r1
  | _ => 0

theorem transDens_pos (trans : X → ℝ → X → ℝ → ℝ) (t t' : ℝ) (x x' : X) : 0 < transDens trans t t' x x' := Real.exp_pos _

theorem ratioAt_nonneg (trans : X → ℝ → X → ℝ → ℝ) (t t' : ℝ) (x0 : X) (l : List X) : 0 ≤ ratioAt trans t t' x0 l := by
  match l with
  | [] => exact le_rfl
  | [_] => exact le_rfl
  | _ :: _ :: _ => exact (div_pos (transDens_pos _ _ _ _ _) (transDens_pos _ _ _ _ _)).le

theorem ratioAt_le {trans : X → ℝ → X → ℝ → ℝ} {t t' : ℝ} {x0 : X} {R : ℝ} (hR : ∀ r x', transDens trans t t' x0 x' ≤ R * transDens trans t t' r x') (l : List X) : ratioAt trans t t' x0 l ≤ R := by
  have hR0 : 0 ≤ R := by
    have := (transDens_pos trans t t' x0 x0).le.trans (hR x0 x0)
    exact nonneg_of_mul_nonneg_left this (transDens_pos _ _ _ _ _)
  match l with
  | [] => exact hR0
  | [_] => exact hR0
  | r0 :: r1 :: _ => exact (div_le_iff₀ (transDens_pos _ _ _ _ _)).mpr (hR r0 r1)

section
variable [MeasurableSpace X] {trans : X → ℝ → X → ℝ → ℝ} (htr : ∀ t t', Measurable fun z : X × X => trans z.1 t z.2 t')
include htr

theorem measurable_ratioAt (t t' : ℝ) (x0 : X) (k : ℕ) : Measurable fun v : Fin k → X => ratioAt trans t t' x0 (List.ofFn v) := by
  match k with
  | 0 => simp only [List.ofFn_zero, ratioAt]; exact measurable_const
  | 1 => simp only [List.ofFn_succ, List.ofFn_zero, ratioAt]; exact measurable_const
  | k + 2 =>
    simp only [List.ofFn_succ, ratioAt, transDens]
    have h1 : Measurable fun v : Fin (k + 2) → X => trans x0 t (v (Fin.succ 0)) t' := by
      have h3 : Measurable fun v : Fin (k + 2) → X => (x0, v (Fin.succ 0)) := measurable_const.prodMk (measurable_pi_apply _)
      exact (htr t t').comp h3
    have h2 : Measurable fun v : Fin (k + 2) → X => trans (v 0) t (v (Fin.succ 0)) t' := by
      have h3 : Measurable fun v : Fin (k + 2) → X => (v 0, v (Fin.succ 0)) := (measurable_pi_apply _).prodMk (measurable_pi_apply _)
      exact (htr t t').comp h3
    exact (Real.measurable_exp.comp h1.neg).div (Real.measurable_exp.comp h2.neg)

theorem pathMeasurable_ratio (t t' : ℝ) (x0 : X) : PathMeasurable fun l => ENNReal.ofReal (ratioAt trans t t' x0 l) := fun k => ENNReal.measurable_ofReal.comp (measurable_ratioAt htr t t' x0 k)

theorem pathMeasurable_weighted (t t' : ℝ) (x0 : X) {g : List X → ℝ} (hg : PathMeasurable fun l => ENNReal.ofReal (g l)) (hg0 : ∀ l, 0 ≤ g l) :
    PathMeasurable fun l => ENNReal.ofReal (g (x0 :: l.tail) * ratioAt trans t t' x0 l) := fun k => by
  simp only [ENNReal.ofReal_mul (hg0 _)]
  refine Measurable.mul ?_ (ENNReal.measurable_ofReal.comp (measurable_ratioAt htr t t' x0 k))
  match k with
  | 0 => simp only [List.ofFn_zero]; exact measurable_const
  | k + 1 =>
    have e : (fun v : Fin (k + 1) → X => ENNReal.ofReal (g (x0 :: (List.ofFn v).tail))) = (fun v : Fin (k + 1) → X => ENNReal.ofReal (g (List.ofFn v))) ∘ fun v => Fin.cons x0 fun j : Fin k => v j.succ := by
      funext v
      simp only [List.ofFn_succ, List.tail_cons, Function.comp_apply, Fin.cons_zero, Fin.cons_succ]
    rw [e]
    refine (hg (k + 1)).comp (measurable_pi_lambda _ fun j => ?_)
    refine Fin.cases ?_ (fun j => ?_) j
    · simp only [Fin.cons_zero]; exact measurable_const
    · simp only [Fin.cons_succ]; exact measurable_pi_apply _

omit htr in
/-- A constant factor and a change of the states so far. -/
theorem pathIntegral_scale (Γ : X → ℝ → Obs dy → ℝ → Measure X) {h1 h2 : List X → ℝ≥0∞} {c : ℝ≥0∞} (hc : c ≠ ∞) (os : List (Obs dy × ℝ)) (t : ℝ) (l1 l2 : List X) (x : X)
    (h : ∀ l, h1 (l1 ++ x :: l) = c * h2 (l2 ++ x :: l)) : pathIntegral Γ h1 t os l1 x = c * pathIntegral Γ h2 t os l2 x := by
  induction os generalizing t l1 l2 x with
  | nil => exact h []
  | cons o os ih =>
    simp only [pathIntegral]
    rw [← lintegral_const_mul' _ _ hc]
    refine lintegral_congr fun x' => ih o.2 _ _ x' fun l => ?_
    simpa using h (x' :: l)

/-- Weighting by the ratio at the first step replaces the first state by `x0`. -/
theorem pathIntegral_ratio {f : Tape → Filter X Keys.Key dy} {G0 : X → Obs dy → ℝ → ℝ} {G : X → ℝ → X → Obs dy → ℝ → ℝ} {Γ0 : Obs dy → ℝ → Measure X} {Γ : X → ℝ → Obs dy → ℝ → Measure X}
    (hF : FilterLaw f G0 G Γ0 Γ) {ρ : ℝ → Obs dy → ℝ → Measure X} (hΓ : ∀ x t y t', Γ x t y t' = (ρ t y t').withDensity fun x' => ENNReal.ofReal (Real.exp (-trans x t x' t')))
    {g : List X → ℝ} (hg : PathMeasurable fun l => ENNReal.ofReal (g l)) (hg0 : ∀ l, 0 ≤ g l) (t : ℝ) (o : Obs dy × ℝ) (os : List (Obs dy × ℝ)) (x0 x : X) :
    pathIntegral Γ (fun l => ENNReal.ofReal (g (x0 :: l.tail) * ratioAt trans t o.2 x0 l)) t (o :: os) [] x = pathIntegral Γ (fun l => ENNReal.ofReal (g l)) t (o :: os) [] x0 := by
  obtain ⟨y, t'⟩ := o
  simp only [pathIntegral, List.nil_append]
  have hd : ∀ x, Measurable fun x' => ENNReal.ofReal (Real.exp (-trans x t x' t')) := fun x =>
    ENNReal.measurable_ofReal.comp (Real.measurable_exp.comp ((htr t t').comp measurable_prodMk_left).neg)
  have hm1 := measurable_pathIntegral hF (pathMeasurable_weighted htr t t' x0 hg hg0) t' os [x]
  have hm2 := measurable_pathIntegral hF hg t' os [x0]
  rw [hΓ x, hΓ x0, lintegral_withDensity_eq_lintegral_mul _ (hd x) hm1, lintegral_withDensity_eq_lintegral_mul _ (hd x0) hm2]
  refine lintegral_congr fun x' => ?_
  simp only [Pi.mul_apply]
  rw [pathIntegral_scale Γ (h2 := fun l => ENNReal.ofReal (g l)) (c := ENNReal.ofReal (transDens trans t t' x0 x' / transDens trans t t' x x')) ENNReal.ofReal_ne_top os t' [x] [x0] x' (fun l => by
    simp only [List.cons_append, List.nil_append, List.tail_cons, ratioAt]
    rw [mul_comm, ENNReal.ofReal_mul (div_pos (transDens_pos _ _ _ _ _) (transDens_pos _ _ _ _ _)).le]), ← mul_assoc, ← ENNReal.ofReal_mul (Real.exp_pos _).le]
  congr 2
  have := (transDens_pos trans t t' x x').ne'
  have e : Real.exp (-trans x t x' t') = transDens trans t t' x x' := rfl
  rw [e, mul_div_cancel₀ _ this]
  rfl

/-- Positive transition densities: if the paths from some state have positive weight, so have those from `x0`. -/
theorem pathIntegral_pos {f : Tape → Filter X Keys.Key dy} {G0 : X → Obs dy → ℝ → ℝ} {G : X → ℝ → X → Obs dy → ℝ → ℝ} {Γ0 : Obs dy → ℝ → Measure X} {Γ : X → ℝ → Obs dy → ℝ → Measure X}
    (hF : FilterLaw f G0 G Γ0 Γ) {ρ : ℝ → Obs dy → ℝ → Measure X} (hΓ : ∀ x t y t', Γ x t y t' = (ρ t y t').withDensity fun x' => ENNReal.ofReal (Real.exp (-trans x t x' t')))
    (t : ℝ) (o : Obs dy × ℝ) (os : List (Obs dy × ℝ)) (x0 : X) (h0 : pathIntegral Γ (fun _ => 1) t (o :: os) [] x0 = 0) (x : X) : pathIntegral Γ (fun _ => 1) t (o :: os) [] x = 0 := by
  obtain ⟨y, t'⟩ := o
  simp only [pathIntegral, List.nil_append] at h0 ⊢
  have hd : ∀ x, Measurable fun x' => ENNReal.ofReal (Real.exp (-trans x t x' t')) := fun x =>
    ENNReal.measurable_ofReal.comp (Real.measurable_exp.comp ((htr t t').comp measurable_prodMk_left).neg)
  have hm := fun l : List X => measurable_pathIntegral hF (h := fun _ => 1) (fun k => measurable_const) t' os l
  have e : ∀ x', pathIntegral Γ (fun _ => 1) t' os [x] x' = pathIntegral Γ (fun _ => 1) t' os [x0] x' := fun x' => by
    rw [pathIntegral_scale Γ (h2 := fun _ => 1) (c := 1) ENNReal.one_ne_top os t' [x] [x0] x' fun l => by simp, one_mul]
  simp only [e]
  rw [hΓ x0, lintegral_withDensity_eq_lintegral_mul _ (hd x0) (hm _), lintegral_eq_zero_iff ((hd x0).mul (hm _))] at h0
  rw [hΓ x, lintegral_withDensity_eq_lintegral_mul _ (hd x) (hm _), lintegral_eq_zero_iff ((hd x).mul (hm _))]
  filter_upwards [h0] with x' hx'
  simp only [Pi.mul_apply, Pi.zero_apply, mul_eq_zero] at hx' ⊢
  exact Or.inr (hx'.resolve_left (ENNReal.ofReal_pos.mpr (Real.exp_pos _)).ne')

end

/-- The weighted average of a bounded function, from the mean squared errors of numerator and denominator. -/
theorem mse_quotient {Ω : Type*} [MeasurableSpace Ω] (μ : Measure Ω) {A1 A2 r : Ω → ℝ} (hA2 : Measurable A2) {a1 a2 B e1 e2 : ℝ} (ha2 : 0 < a2) (he1 : 0 ≤ e1) (he2 : 0 ≤ e2) (hr0 : ∀ ω, 0 ≤ r ω) (hrB : ∀ ω, r ω ≤ B)
    (hr : ∀ ω, A1 ω = r ω * A2 ω) (h1 : ∫⁻ ω, ENNReal.ofReal ((A1 ω - a1) ^ 2) ∂μ ≤ ENNReal.ofReal e1) (h2 : ∫⁻ ω, ENNReal.ofReal ((A2 ω - a2) ^ 2) ∂μ ≤ ENNReal.ofReal e2) :
    ∫⁻ ω, ENNReal.ofReal ((r ω - a1 / a2) ^ 2) ∂μ ≤ ENNReal.ofReal (2 / a2 ^ 2 * (B ^ 2 * e2 + e1)) := by
  have hpt : ∀ ω, ENNReal.ofReal ((r ω - a1 / a2) ^ 2) ≤ ENNReal.ofReal (2 / a2 ^ 2 * B ^ 2) * ENNReal.ofReal ((A2 ω - a2) ^ 2) + ENNReal.ofReal (2 / a2 ^ 2) * ENNReal.ofReal ((A1 ω - a1) ^ 2) := fun ω => by
    rw [← ENNReal.ofReal_mul (by positivity), ← ENNReal.ofReal_mul (by positivity), ← ENNReal.ofReal_add (by positivity) (by positivity)]
    refine ENNReal.ofReal_le_ofReal ?_
    have e : r ω - a1 / a2 = ((A1 ω - a1) - r ω * (A2 ω - a2)) / a2 := by
      rw [hr ω]
      field_simp
      ring
    have h3 : ((A1 ω - a1) - r ω * (A2 ω - a2)) ^ 2 ≤ 2 * (A1 ω - a1) ^ 2 + 2 * (r ω * (A2 ω - a2)) ^ 2 := by nlinarith [sq_nonneg ((A1 ω - a1) + r ω * (A2 ω - a2))]
    have h4 : (r ω * (A2 ω - a2)) ^ 2 ≤ B ^ 2 * (A2 ω - a2) ^ 2 := by
      rw [mul_pow]
      exact mul_le_mul_of_nonneg_right (pow_le_pow_left₀ (hr0 ω) (hrB ω) 2) (sq_nonneg _)
    rw [e, div_pow, div_le_iff₀ (by positivity)]
    have : (2 / a2 ^ 2 * B ^ 2 * (A2 ω - a2) ^ 2 + 2 / a2 ^ 2 * (A1 ω - a1) ^ 2) * a2 ^ 2 = 2 * (A1 ω - a1) ^ 2 + 2 * (B ^ 2 * (A2 ω - a2) ^ 2) := by
      field_simp
      ring
    rw [this]
    linarith
  have hm : Measurable fun ω => ENNReal.ofReal (2 / a2 ^ 2 * B ^ 2) * ENNReal.ofReal ((A2 ω - a2) ^ 2) := (ENNReal.measurable_ofReal.comp ((hA2.sub_const a2).pow_const 2)).const_mul _
  refine (lintegral_mono hpt).trans ?_
  rw [lintegral_add_left hm, lintegral_const_mul' _ _ ENNReal.ofReal_ne_top, lintegral_const_mul' _ _ ENNReal.ofReal_ne_top]
  refine (add_le_add (mul_le_mul_right h2 _) (mul_le_mul_right h1 _)).trans (le_of_eq ?_)
  rw [← ENNReal.ofReal_mul (by positivity), ← ENNReal.ofReal_mul (by positivity), ← ENNReal.ofReal_add (by positivity) (by positivity)]
  congr 1
  ring

section
variable [MeasurableSpace X] [NeZero n] {cat : (Fin n → Fl) → ℝ → Fin n} {f : Tape → Filter X Keys.Key dy} {G0 : X → Obs dy → ℝ → ℝ} {G : X → ℝ → X → Obs dy → ℝ → ℝ} {Γ0 : Obs dy → ℝ → Measure X}
  {Γ : X → ℝ → Obs dy → ℝ → Measure X} (hF : FilterLaw f G0 G Γ0 Γ)

include hF in
theorem pathIntegral_le {os : List (Obs dy × ℝ)} {t0 w : ℝ} (hw0 : 0 ≤ w) (hw' : ∀ o ∈ os, ∀ t x x', Real.exp (G x t x' o.1 o.2) ≤ w) {h : List X → ℝ≥0∞} {b : ℝ} (hh : PathMeasurable h) (hhb : ∀ l, h l ≤ ENNReal.ofReal b)
    (x : X) : pathIntegral Γ h t0 os [] x ≠ ∞ := by
  have h1 := futurePath_le hF os hw' hw0 (measurable_onPath hh os.length) (fun p => hhb _) 0 t0 (fun _ => x)
  rw [futurePath_eq Γ h os.length os 0 (by simp) t0] at h1
  have h2 : pathIntegral Γ h t0 os [] x ≤ ENNReal.ofReal (w ^ os.length) * ENNReal.ofReal b := by simpa using h1
  exact (h2.trans_lt (ENNReal.mul_lt_top ENNReal.ofReal_lt_top ENNReal.ofReal_lt_top)).ne

omit [MeasurableSpace X] [NeZero n] in
theorem ratio_path (trans : X → ℝ → X → ℝ → ℝ) (t t' : ℝ) (x0 : X) {v : List (Fin n → X)} (hv : 1 < v.length) (j : Fin n) :
    ratioAt trans t t' x0 (v.map fun x => x j) = transDens trans t t' x0 (v[1] j) / transDens trans t t' (v[0] j) (v[1] j) ∧ ((v.map fun x => x j).tail) = (v.drop 1).map fun x => x j := by
  match v with
  | [] => simp at hv
  | [_] => simp at hv
  | a :: b :: v => exact ⟨rfl, rfl⟩

include hF in
/-- C139, convergence, for any filter whose proposals are properly weighted for the kernels `Γ` (with density `exp (-trans)`) and whose weights are at most `w`: a smoother with backward simulation has processed the observations `o :: os` after
the first one, and `fixed_lag_stitching` stitches its trajectories, with draws `ω'` of its own, to an early block that ends at the first time, where trajectory `i` is in state `x0`. Given the smoother's trajectories, the mean of `g` of
trajectory `i` from the stitching time on has a mean squared distance of order `1/n` from the expectation of `g` of the path that starts in `x0`, given the observations. `hR`: the ratios of transition densities are at most `R`. -/
theorem C139_converges (hcat : IsCategorical cat) (hcatR : IsCategoricalReal fun (w : Fin n → ℝ) u => cat (fun i => .fin (w i)) u) {trans : X → ℝ → X → ℝ → ℝ}
    (htr : ∀ t t', Measurable fun z : X × X => trans z.1 t z.2 t') {ρ : ℝ → Obs dy → ℝ → Measure X}
    (hΓ : ∀ x t y t', Γ x t y t' = (ρ t y t').withDensity fun x' => ENNReal.ofReal (Real.exp (-trans x t x' t')))
    (thr : ℝ) (y0 : Obs dy) (t0 : ℝ) (k0 : Keys.Key) (o : Obs dy × ℝ × Keys.Key) (os : List (Obs dy × ℝ × Keys.Key)) (hk : (k0 :: (o :: os).map fun o => o.2.2).Pairwise Unrelated) (lag : ℕ)
    (hlag : (o :: os).length + 1 ≤ lag) (maxRej : ℤ) (bound inflation : ℝ) (hb : 0 < maxRej → ∀ x t x' t', Real.exp (-trans x t x' t') ≤ bound)
    {w : ℝ} (hw0 : 0 ≤ w) (hw : ∀ x, Real.exp (G0 x y0 t0) ≤ w) (hw' : ∀ o' ∈ o :: os, ∀ t x x', Real.exp (G x t x' o'.1 o'.2.1) ≤ w) (key : Keys.Key)
    (early : List (Fin n → X)) (he : 0 < early.length) (i : Fin n) {R : ℝ} (hR : ∀ r x', transDens trans t0 o.2.1 (early[early.length - 1] i) x' ≤ R * transDens trans t0 o.2.1 r x') :
    ∃ (out : Tape → Smoother X n dy) (stitched : Tape → Tape → List (Fin n → X)),
      (∀ ω, (ofParticles (initiateParticles (tapeEnv cat ω) (f ω) k0 y0 t0)).bind
        (fun s => calls true ⟨tapeEnv cat ω, tapeRand cat ω, trans, f ω, lag, thr, maxRej, bound, inflation⟩ s (o :: os)) = some (out ω)) ∧
      (∀ ω ω', ∃ cost, fixedLagStitching ⟨tapeEnv cat ω', tapeRand cat ω', trans, f ω', lag, thr, maxRej, bound, inflation⟩ early t0 (out ω).value (out ω).logWeight o.2.1 key = some (stitched ω ω', cost)) ∧
      ∀ (g : List X → ℝ) (B : ℝ), PathMeasurable (fun l => ENNReal.ofReal (g l)) → (∀ l, 0 ≤ g l) → (∀ l, g l ≤ B) →
        let obs := (o :: os).map fun o => (o.1, o.2.1)
        let z := (∫⁻ x, pathIntegral Γ (fun _ => 1) t0 obs [] x ∂(Γ0 y0 t0)).toReal
        let z0 := (Γ0 y0 t0 Set.univ).toReal
        let zx := (pathIntegral Γ (fun _ => 1) t0 obs [] (early[early.length - 1] i)).toReal
        let s := (pathIntegral Γ (fun l => ENNReal.ofReal (g l)) t0 obs [] (early[early.length - 1] i)).toReal / zx
        0 < z ∧ 0 < z0 ∧ 0 < zx ∧
        ∫⁻ ω, ENNReal.ofReal ((∫ ω', g (((stitched ω ω').drop (early.length - 1)).map fun x => x i) ∂ideal - s) ^ 2) ∂ideal
          ≤ ENNReal.ofReal (4 * (B * R * (z / (z0 * zx))) ^ 2 * (1 + 4 * (2 * (o :: os).length + 1) * (w ^ ((o :: os).length + 1) / z) ^ 2) / n) := by
  obtain ⟨out, h1, h2, h3, hmeas, hmse⟩ := smoother_runs hF hcat hcatR htr hΓ thr y0 t0 k0 (o :: os) (by simp) hk lag hlag maxRej bound inflation hb hw0 hw hw'
  obtain ⟨x0, hx0⟩ : ∃ x0, x0 = early[early.length - 1] i := ⟨_, rfl⟩
  have hlen : ∀ ω, 1 < (out ω).value.length := fun ω => by rw [h2]; simp
  obtain ⟨J, hJ⟩ : ∃ J : Tape → Tape → Fin n → Fin n, J = fun ω ω' => (stitchInds (⟨tapeEnv cat ω', tapeRand cat ω', trans, f ω', lag, thr, maxRej, bound, inflation⟩ : Cfg X Keys.Key n dy) early[early.length - 1]
    ((out ω).value[0]'(by have := hlen ω; omega)) ((out ω).value[1]'(hlen ω)) (out ω).logWeight t0 o.2.1 key).1 := ⟨_, rfl⟩
  refine ⟨out, fun ω ω' => early ++ ((out ω).value.drop 1).map (fun v => v ∘ J ω ω'), h1, fun ω ω' => ⟨_, by rw [hJ]; exact stitching_eq _ early (out ω).value t0 o.2.1 (out ω).logWeight key he (hlen ω)⟩, ?_⟩
  intro g B hg hg0 hgB obs z z0 zx s
  rw [← hx0] at hR
  have hB0 : 0 ≤ B := (hg0 []).trans (hgB [])
  have hn : (0 : ℝ) < n := Nat.cast_pos.mpr (Nat.pos_of_ne_zero (NeZero.ne n))
  have hR0 : 0 ≤ R := (ratioAt_nonneg trans t0 o.2.1 x0 []).trans (ratioAt_le hR [])
  have hw2 : ∀ o' ∈ obs, ∀ t x x', Real.exp (G x t x' o'.1 o'.2) ≤ w := fun o' ho' => by
    obtain ⟨o'', ho'', rfl⟩ := List.mem_map.mp ho'
    exact hw' o'' ho''
  -- the two averages
  set g1 : List X → ℝ := fun l => g (x0 :: l.tail) * ratioAt trans t0 o.2.1 x0 l with hg1
  set g2 : List X → ℝ := fun l => ratioAt trans t0 o.2.1 x0 l with hg2
  have hg2n : ∀ l, 0 ≤ g2 l := fun l => ratioAt_nonneg _ _ _ _ _
  have hg2R : ∀ l, g2 l ≤ R := fun l => ratioAt_le hR l
  have hg1n : ∀ l, 0 ≤ g1 l := fun l => mul_nonneg (hg0 _) (hg2n l)
  have hg1B : ∀ l, g1 l ≤ B * R := fun l => mul_le_mul (hgB _) (hg2R l) (hg2n l) hB0
  have hpm1 := pathMeasurable_weighted htr t0 o.2.1 x0 hg hg0
  have hpm2 := pathMeasurable_ratio htr t0 o.2.1 x0
  obtain ⟨hz, m1, -⟩ := hmse g1 (B * R) hpm1 hg1n hg1B z rfl _ rfl
  obtain ⟨-, m2, -⟩ := hmse g2 R hpm2 hg2n hg2R z rfl _ rfl
  -- their limits
  have hx1 : ∀ x, pathIntegral Γ (fun l => ENNReal.ofReal (g1 l)) t0 obs [] x = pathIntegral Γ (fun l => ENNReal.ofReal (g l)) t0 obs [] x0 := fun x =>
    pathIntegral_ratio htr hF hΓ hg hg0 t0 (o.1, o.2.1) (os.map fun o : Obs dy × ℝ × Keys.Key => (o.1, o.2.1)) x0 x
  have hx2 : ∀ x, pathIntegral Γ (fun l => ENNReal.ofReal (g2 l)) t0 obs [] x = pathIntegral Γ (fun _ => 1) t0 obs [] x0 := fun x => by
    have h := pathIntegral_ratio (g := fun _ => 1) htr hF hΓ (fun k => measurable_const) (fun _ => zero_le_one) t0 (o.1, o.2.1) (os.map fun o : Obs dy × ℝ × Keys.Key => (o.1, o.2.1)) x0 x
    simp only [one_mul, ENNReal.ofReal_one] at h
    exact h
  have i1 : (∫⁻ x, pathIntegral Γ (fun l => ENNReal.ofReal (g1 l)) t0 obs [] x ∂(Γ0 y0 t0)).toReal = (pathIntegral Γ (fun l => ENNReal.ofReal (g l)) t0 obs [] x0).toReal * z0 := by
    rw [lintegral_congr hx1, lintegral_const, ENNReal.toReal_mul]
  have i2 : (∫⁻ x, pathIntegral Γ (fun l => ENNReal.ofReal (g2 l)) t0 obs [] x ∂(Γ0 y0 t0)).toReal = zx * z0 := by
    rw [lintegral_congr hx2, lintegral_const, ENNReal.toReal_mul, hx0]
  -- positivity
  have hzx : 0 < zx := by
    refine ENNReal.toReal_pos (fun h0 => ?_) (pathIntegral_le hF hw0 hw2 (h := fun _ => 1) (b := 1) (fun k => measurable_const) (fun _ => by simp) _)
    have h4 : ∀ x, pathIntegral Γ (fun _ => 1) t0 obs [] x = 0 := pathIntegral_pos htr hF hΓ t0 (o.1, o.2.1) (os.map fun o : Obs dy × ℝ × Keys.Key => (o.1, o.2.1)) _ h0
    have h5 : z = 0 := by
      show (∫⁻ x, pathIntegral Γ (fun _ => 1) t0 obs [] x ∂(Γ0 y0 t0)).toReal = 0
      rw [lintegral_congr h4, lintegral_zero, ENNReal.toReal_zero]
    exact hz.ne' h5
  have hz0t : Γ0 y0 t0 Set.univ ≠ ∞ := by
    have h4 := pathIntegral_finite hF (y0 := y0) (t0 := t0) (os := []) (h := fun _ => 1) (b := 1) hw0 hw (fun o' ho' => absurd ho' (by simp)) (fun k => measurable_const) (fun _ => by simp)
    simpa [pathIntegral] using h4
  have hz0 : 0 < z0 := by
    refine ENNReal.toReal_pos (fun h0 => ?_) hz0t
    have h5 : z = 0 := by
      show (∫⁻ x, pathIntegral Γ (fun _ => 1) t0 obs [] x ∂(Γ0 y0 t0)).toReal = 0
      rw [Measure.measure_univ_eq_zero.mp h0, lintegral_zero_measure, ENNReal.toReal_zero]
    exact hz.ne' h5
  refine ⟨hz, hz0, hzx, ?_⟩
  -- the mean given the trajectories
  have hpath : ∀ ω j, g2 ((out ω).value.map fun x => x j) = transDens trans t0 o.2.1 x0 (((out ω).value[1]'(hlen ω)) j) / transDens trans t0 o.2.1 (((out ω).value[0]'(by have := hlen ω; omega)) j) (((out ω).value[1]'(hlen ω)) j) ∧
      (((out ω).value.map fun x => x j).tail) = ((out ω).value.drop 1).map fun x => x j := fun ω j => ratio_path trans t0 o.2.1 x0 (hlen ω) j
  have hin : ∀ ω, ∫ ω', g (((early ++ ((out ω).value.drop 1).map (fun v => v ∘ J ω ω')).drop (early.length - 1)).map fun x => x i) ∂ideal
      = (∑ j, g1 ((out ω).value.map fun x => x j)) / ∑ j, g2 ((out ω).value.map fun x => x j) := fun ω => by
    have e1 : ∀ ω', ((early ++ ((out ω).value.drop 1).map (fun v => v ∘ J ω ω')).drop (early.length - 1)).map (fun x => x i) = x0 :: ((out ω).value.drop 1).map fun x => x (J ω ω' i) := fun ω' => by
      rw [List.drop_append_of_le_length (by omega), List.drop_eq_getElem_cons (by omega), List.drop_of_length_le (by omega), hx0]
      simp only [List.cons_append, List.nil_append, List.map_cons, List.map_map]
      rfl
    simp only [e1]
    have hs1 := fun j => stitch_one hcat (maxRej := maxRej) (bound := bound) (t := t0) (t' := o.2.1) (fun h x x' => hb h x t0 x' o.2.1)
      (c := fun ω' => (⟨tapeEnv cat ω', tapeRand cat ω', trans, f ω', lag, thr, maxRej, bound, inflation⟩ : Cfg X Keys.Key n dy)) (fun _ => rfl) (fun _ => rfl) (fun _ => rfl) (fun _ => rfl) (fun _ => rfl)
      early[early.length - 1] ((out ω).value[0]'(by have := hlen ω; omega)) ((out ω).value[1]'(hlen ω)) (lw := (out ω).logWeight) (w := fun _ => 1) (fun j => by rw [h3]; simp [Fl.exp])
      (by simp [Nat.pos_of_ne_zero (NeZero.ne n)]) key i j
    have e2 := integral_choice (J := fun ω' => J ω ω' i) (fun j => by rw [hJ]; exact (hs1 j).2) fun j => g (x0 :: ((out ω).value.drop 1).map fun x => x j)
    rw [e2, Finset.sum_div]
    refine Finset.sum_congr rfl fun j _ => ?_
    have e3 : ideal.real {ω' | J ω ω' i = j} = stitchProb (fun _ => 1) (transDens trans t0 o.2.1) x0 ((out ω).value[0]'(by have := hlen ω; omega)) ((out ω).value[1]'(hlen ω)) j := by
      rw [hJ, hx0]
      exact (hs1 j).1
    rw [e3]
    simp only [stitchProb, one_mul, (hpath ω _).1]
    simp only [hg1]
    rw [(hpath ω j).2]
    have e4 : ratioAt trans t0 o.2.1 x0 ((out ω).value.map fun x => x j) = g2 ((out ω).value.map fun x => x j) := rfl
    rw [e4, (hpath ω j).1]
    ring
  have hpos : ∀ ω j, 0 < g2 ((out ω).value.map fun x => x j) := fun ω j => by
    rw [(hpath ω j).1]
    exact div_pos (transDens_pos _ _ _ _ _) (transDens_pos _ _ _ _ _)
  have hS2 : ∀ ω, 0 < ∑ j, g2 ((out ω).value.map fun x => x j) := fun ω => Finset.sum_pos (fun j _ => hpos ω j) ⟨0, Finset.mem_univ 0⟩
  simp only [hin]
  have hA2m : Measurable fun ω => (∑ j, g2 ((out ω).value.map fun x => x j)) / n := by
    refine (Finset.measurable_sum _ fun j _ => ?_).div_const _
    have e5 : (fun ω => g2 ((out ω).value.map fun x => x j)) = fun ω => (ENNReal.ofReal (g2 ((out ω).value.map fun x => x j))).toReal := by
      funext ω
      rw [ENNReal.toReal_ofReal (hg2n _)]
    rw [e5]
    exact (hmeas _ hpm2 j).ennreal_toReal
  obtain ⟨K, hK⟩ : ∃ K, K = 1 + 4 * (2 * ((o :: os).length : ℝ) + 1) * (w ^ ((o :: os).length + 1) / z) ^ 2 := ⟨_, rfl⟩
  have hK0 : 0 ≤ K := by rw [hK]; positivity
  have hbnd : ∀ b : ℝ, b ^ 2 / n + 4 * (2 * ((o :: os).length : ℝ) + 1) * (w ^ ((o :: os).length + 1) * b / z) ^ 2 / n = b ^ 2 * K / n := fun b => by
    rw [hK]
    ring
  rw [hbnd] at m1 m2
  have key1 := mse_quotient ideal (A1 := fun ω => (∑ j, g1 ((out ω).value.map fun x => x j)) / n) (A2 := fun ω => (∑ j, g2 ((out ω).value.map fun x => x j)) / n)
    (r := fun ω => (∑ j, g1 ((out ω).value.map fun x => x j)) / ∑ j, g2 ((out ω).value.map fun x => x j)) hA2m (B := B) (e1 := (B * R) ^ 2 * K / n) (e2 := R ^ 2 * K / n) (a2 := zx * z0 / z)
    (a1 := (pathIntegral Γ (fun l => ENNReal.ofReal (g l)) t0 obs [] x0).toReal * z0 / z) (by positivity) (by positivity) (by positivity)
    (fun ω => div_nonneg (Finset.sum_nonneg fun j _ => hg1n _) (hS2 ω).le)
    (fun ω => by
      rw [div_le_iff₀ (hS2 ω), Finset.mul_sum]
      exact Finset.sum_le_sum fun j _ => mul_le_mul_of_nonneg_right (hgB _) (hg2n _))
    (fun ω => by have := (hS2 ω).ne'; field_simp) (by rw [i1] at m1; exact m1) (by rw [i2] at m2; exact m2)
  have hs : (pathIntegral Γ (fun l => ENNReal.ofReal (g l)) t0 obs [] x0).toReal * z0 / z / (zx * z0 / z) = s := by
    have e6 : s = (pathIntegral Γ (fun l => ENNReal.ofReal (g l)) t0 obs [] x0).toReal / zx := by rw [hx0]
    rw [e6]
    field_simp
  rw [hs] at key1
  refine key1.trans (ENNReal.ofReal_le_ofReal (le_of_eq ?_))
  rw [← hK]
  field_simp
  ring

end

/-- C139, convergence, with the bootstrap filter: `M` are the model's transition laws, with density `exp (-trans)`, `lik` its likelihood potential. The limit is the expectation of `g` of the path under the model's smoothing distribution given
that it starts in the state where the early block ends. -/
theorem C139_bootstrap [MeasurableSpace X] [NeZero n] {cat : (Fin n → Fl) → ℝ → Fin n} {mo : Tape → Ssm.Model X (Obs dy) Keys.Key} {μ0 : ℝ → Measure X} {M : X → ℝ → ℝ → Measure X} {lik : X → Obs dy → ℝ → ℝ}
    (hm : ModelLaw mo μ0 M lik) (hcat : IsCategorical cat) (hcatR : IsCategoricalReal fun (w : Fin n → ℝ) u => cat (fun i => .fin (w i)) u) {trans : X → ℝ → X → ℝ → ℝ}
    (htp : ∀ ω, (mo ω).transitionPotential = trans) (htr : ∀ t t', Measurable fun z : X × X => trans z.1 t z.2 t') {ρ : ℝ → ℝ → Measure X}
    (hM : ∀ x t t', M x t t' = (ρ t t').withDensity fun x' => ENNReal.ofReal (Real.exp (-trans x t x' t')))
    (thr : ℝ) (y0 : Obs dy) (t0 : ℝ) (k0 : Keys.Key) (o : Obs dy × ℝ × Keys.Key) (os : List (Obs dy × ℝ × Keys.Key)) (hk : (k0 :: (o :: os).map fun o => o.2.2).Pairwise Unrelated) (lag : ℕ)
    (hlag : (o :: os).length + 1 ≤ lag) (maxRej : ℤ) (bound inflation : ℝ) (hb : 0 < maxRej → ∀ x t x' t', Real.exp (-trans x t x' t') ≤ bound)
    {w : ℝ} (hw : ∀ o' ∈ (y0, t0) :: (o :: os).map (fun o => (o.1, o.2.1)), ∀ x, Real.exp (-lik x o'.1 o'.2) ≤ w) (key : Keys.Key)
    (early : List (Fin n → X)) (he : 0 < early.length) (i : Fin n) {R : ℝ} (hR : ∀ r x', transDens trans t0 o.2.1 (early[early.length - 1] i) x' ≤ R * transDens trans t0 o.2.1 r x') :
    ∃ (out : Tape → Smoother X n dy) (stitched : Tape → Tape → List (Fin n → X)),
      (∀ ω, (ofParticles (initiateParticles (tapeEnv cat ω) (bootstrap (mo ω)) k0 y0 t0)).bind
        (fun s => calls true ⟨tapeEnv cat ω, tapeRand cat ω, (mo ω).transitionPotential, bootstrap (mo ω), lag, thr, maxRej, bound, inflation⟩ s (o :: os)) = some (out ω)) ∧
      (∀ ω ω', ∃ cost, fixedLagStitching ⟨tapeEnv cat ω', tapeRand cat ω', (mo ω').transitionPotential, bootstrap (mo ω'), lag, thr, maxRej, bound, inflation⟩ early t0 (out ω).value (out ω).logWeight o.2.1 key
        = some (stitched ω ω', cost)) ∧
      ∀ (g : List X → ℝ) (B : ℝ), PathMeasurable (fun l => ENNReal.ofReal (g l)) → (∀ l, 0 ≤ g l) → (∀ l, g l ≤ B) →
        let obs := (o :: os).map fun o => (o.1, o.2.1)
        let z := (∫⁻ x, ENNReal.ofReal (Real.exp (-lik x y0 t0)) * smoothingExpectation M lik (fun _ => 1) t0 obs [] x ∂(μ0 t0)).toReal
        let z0 := (∫⁻ x, ENNReal.ofReal (Real.exp (-lik x y0 t0)) ∂(μ0 t0)).toReal
        let zx := (smoothingExpectation M lik (fun _ => 1) t0 obs [] (early[early.length - 1] i)).toReal
        let s := (smoothingExpectation M lik (fun l => ENNReal.ofReal (g l)) t0 obs [] (early[early.length - 1] i)).toReal / zx
        0 < z ∧ 0 < z0 ∧ 0 < zx ∧
        ∫⁻ ω, ENNReal.ofReal ((∫ ω', g (((stitched ω ω').drop (early.length - 1)).map fun x => x i) ∂ideal - s) ^ 2) ∂ideal
          ≤ ENNReal.ofReal (4 * (B * R * (z / (z0 * zx))) ^ 2 * (1 + 4 * (2 * (o :: os).length + 1) * (w ^ ((o :: os).length + 1) / z) ^ 2) / n) := by
  have hΓ : ∀ x t y t', (M x t t').withDensity (fun x' => ENNReal.ofReal (Real.exp (-lik x' y t')))
      = ((ρ t t').withDensity fun x' => ENNReal.ofReal (Real.exp (-lik x' y t'))).withDensity fun x' => ENNReal.ofReal (Real.exp (-trans x t x' t')) := fun x t y t' => by
    have h1 := measurable_likDensity hm y t'
    have h2 : Measurable fun x' => ENNReal.ofReal (Real.exp (-trans x t x' t')) := by
      have h3 : Measurable fun x' : X => trans x t x' t' := (htr t t').comp measurable_prodMk_left
      exact ENNReal.measurable_ofReal.comp (Real.measurable_exp.comp h3.neg)
    rw [hM, ← withDensity_mul _ h2 h1, ← withDensity_mul _ h1 h2, mul_comm]
  have hw0 : 0 ≤ w := (Real.exp_pos _).le.trans (hw _ List.mem_cons_self ((mo fun _ => 0).initialSample t0 []))
  obtain ⟨out, stitched, h1, h2, h3⟩ := C139_converges (bootstrap_law hm) hcat hcatR htr (ρ := fun t y t' => (ρ t t').withDensity fun x' => ENNReal.ofReal (Real.exp (-lik x' y t'))) hΓ
    thr y0 t0 k0 o os hk lag hlag maxRej bound inflation hb hw0 (hw _ List.mem_cons_self) (fun o' ho _ _ x' => hw (o'.1, o'.2.1) (List.mem_cons_of_mem _ (List.mem_map.mpr ⟨o', ho, rfl⟩)) x') key early he i hR
  refine ⟨out, stitched, fun ω => by rw [htp ω]; exact h1 ω, fun ω ω' => by rw [htp ω']; exact h2 ω ω', fun g B hg hg0 hgB => ?_⟩
  have h4 := h3 g B hg hg0 hgB
  have he1 : ∫⁻ x, pathIntegral (fun x t y t' => (M x t t').withDensity fun x' => ENNReal.ofReal (Real.exp (-lik x' y t'))) (fun _ => 1) t0 ((o :: os).map fun o => (o.1, o.2.1)) [] x
      ∂((μ0 t0).withDensity fun x => ENNReal.ofReal (Real.exp (-lik x y0 t0)))
      = ∫⁻ x, ENNReal.ofReal (Real.exp (-lik x y0 t0)) * smoothingExpectation M lik (fun _ => 1) t0 ((o :: os).map fun o => (o.1, o.2.1)) [] x ∂(μ0 t0) := by
    rw [lintegral_withDensity_eq_lintegral_mul _ (measurable_likDensity hm y0 t0) (measurable_pathIntegral (bootstrap_law hm) (fun k => measurable_const) t0 _ [])]
    refine lintegral_congr fun x => ?_
    rw [Pi.mul_apply, pathIntegral_bootstrap hm fun k => measurable_const]
  have he2 : ((μ0 t0).withDensity fun x => ENNReal.ofReal (Real.exp (-lik x y0 t0))) Set.univ = ∫⁻ x, ENNReal.ofReal (Real.exp (-lik x y0 t0)) ∂(μ0 t0) := by
    rw [withDensity_apply _ MeasurableSet.univ, Measure.restrict_univ]
  simp only at h4
  rw [he1, he2, pathIntegral_bootstrap hm fun k => measurable_const, pathIntegral_bootstrap hm hg] at h4
  exact h4

/-! ## A case that meets the hypotheses -/

/-- A chain on two states that keeps its state with probability `3/4`; observations favour `true`. -/
noncomputable def switchModel (dy : ℕ) (ω : Tape) : Ssm.Model Bool (Obs dy) Keys.Key where
  initialPotential _ _ := Real.log 2
  initialSample _ k := if ω (k, 0) < 1 / 4 then true else false
  transitionPotential x _ x' _ := if x = x' then -Real.log (3 / 4) else -Real.log (1 / 4)
  transitionSample x _ _ k := if ω (k, 0) < 1 / 4 then !x else x
  likelihoodPotential x _ _ := if x then 0 else 1
  likelihoodSample _ _ _ := fun _ => 0

theorem switch_modelLaw (dy : ℕ) : ModelLaw (switchModel dy) (fun _ => unif.map fun u => if u < 1 / 4 then true else false)
    (fun x _ _ => Measure.count.withDensity fun x' => ENNReal.ofReal (Real.exp (-(if x = x' then -Real.log (3 / 4) else -Real.log (1 / 4))))) (fun x _ _ => if x then 0 else 1) where
  likelihood _ := rfl
  measurable_lik _ _ := measurable_of_countable _
  measurable_initial t k := Measurable.ite (measurableSet_lt (measurable_pi_apply ((k, 0) : Site)) measurable_const) measurable_const measurable_const
  measurable_transition t t' k := Measurable.ite (measurableSet_lt ((measurable_pi_apply ((k, 0) : Site)).comp measurable_snd) measurable_const) ((measurable_of_countable Bool.not).comp measurable_fst) measurable_fst
  reads_initial t k := fun ω ω' h => by
    simp only [switchModel]
    rw [h _ ⟨[], rfl⟩]
  reads_transition x t t' k := fun ω ω' h => by
    simp only [switchModel]
    rw [h _ ⟨[], rfl⟩]
  law_initial t k := by
    have h1 : Measurable fun u : ℝ => if u < 1 / 4 then true else false := Measurable.ite (measurableSet_Iio : MeasurableSet {u : ℝ | u < 1 / 4}) measurable_const measurable_const
    refine Measure.ext fun A hA => ?_
    have h2 : Measurable fun ω => (switchModel dy ω).initialSample t k := h1.comp (measurable_pi_apply ((k, 0) : Site))
    rw [Measure.map_apply h1 hA, Measure.map_apply h2 hA]
    exact site (k, 0) (h1 hA)
  law_transition x t t' k := by
    have h1 : Measurable fun u : ℝ => if u < 1 / 4 then !x else x := Measurable.ite (measurableSet_Iio : MeasurableSet {u : ℝ | u < 1 / 4}) measurable_const measurable_const
    have hq : unif {u : ℝ | ¬ u < 1 / 4} = ENNReal.ofReal (3 / 4) := by
      have h2 : unif {u : ℝ | u < 1 / 4}ᶜ = 1 - unif {u : ℝ | u < 1 / 4} := prob_compl_eq_one_sub measurableSet_Iio
      rw [uniform_quarter, ← ENNReal.ofReal_one, ← ENNReal.ofReal_sub _ (by norm_num)] at h2
      refine h2.trans ?_
      norm_num
    have h2 : Measurable fun ω => (switchModel dy ω).transitionSample x t t' k := h1.comp (measurable_pi_apply ((k, 0) : Site))
    refine Measure.ext_of_singleton fun a => ?_
    rw [withDensity_apply _ (measurableSet_singleton a), Measure.restrict_singleton, lintegral_smul_measure, lintegral_dirac, Measure.count_singleton, one_smul,
      Measure.map_apply h2 (measurableSet_singleton a)]
    refine (site (k, 0) (h1 (measurableSet_singleton a))).trans ?_
    by_cases ha : x = a
    · subst ha
      rw [if_pos rfl, neg_neg, Real.exp_log (by norm_num), ← hq]
      congr 1
      ext u
      by_cases hu : u < 1 / 4 <;> simp
    · rw [if_neg ha, neg_neg, Real.exp_log (by norm_num), ← uniform_quarter]
      have ha' : (!x) = a := by cases x <;> cases a <;> simp_all
      congr 1
      ext u
      by_cases hu : u < 1 / 4 <;> simp [ha', ha]

/-- Two calls after the first observation, then stitching to an early block of two times: the probability of `true` at the last time. -/
example (y0 y1 y2 : Obs 1) : ∃ C s : ℝ, ∀ (n : ℕ) [NeZero n] (i : Fin n), ∃ (out : Tape → Smoother Bool n 1) (stitched : Tape → Tape → List (Fin n → Bool)),
    (∀ ω, (ofParticles (initiateParticles (tapeEnv invCdf ω) (bootstrap (switchModel 1 ω)) [0] y0 0)).bind
      (fun s => calls true ⟨tapeEnv invCdf ω, tapeRand invCdf ω, (switchModel 1 ω).transitionPotential, bootstrap (switchModel 1 ω), 5, 1 / 2, 7, 1, 2⟩ s [(y1, 1, [1]), (y2, 3, [2])]) = some (out ω)) ∧
    (∀ ω ω', ∃ cost, fixedLagStitching ⟨tapeEnv invCdf ω', tapeRand invCdf ω', (switchModel 1 ω').transitionPotential, bootstrap (switchModel 1 ω'), 5, 1 / 2, 7, 1, 2⟩ [fun _ => false, fun _ => true] 0 (out ω).value
      (out ω).logWeight 1 [3] = some (stitched ω ω', cost)) ∧
    ∫⁻ ω, ENNReal.ofReal ((∫ ω', (if (((stitched ω ω').drop 1).map fun x => x i).getD 2 false then 1 else 0) ∂ideal - s) ^ 2) ∂ideal ≤ ENNReal.ofReal (C / n) := by
  have key := fun (n : ℕ) [NeZero n] (i : Fin n) => C139_bootstrap (n := n) (switch_modelLaw 1) isCategorical_invCdf isCategoricalReal_invCdfReal (trans := fun x _ x' _ => if x = x' then -Real.log (3 / 4) else -Real.log (1 / 4))
    (fun _ => rfl) (fun _ _ => measurable_of_countable _) (ρ := fun _ _ => Measure.count) (fun _ _ _ => rfl) (1 / 2) y0 0 [0] (y1, 1, [1]) [(y2, 3, [2])] (by simp [Unrelated, List.suffix_cons_iff]) 5 (by simp) 7 1 2
    (fun _ x t x' t' => by by_cases h : x = x' <;> simp only [h, if_true, if_false, neg_neg] <;> rw [Real.exp_log (by norm_num)] <;> norm_num) (w := 1)
    (fun o _ x => by cases x <;> simp) [3] [fun _ => false, fun _ => true] (by simp) i (R := 3)
    (fun r x' => by
      have e1 : Real.exp (Real.log (3 / 4)) = 3 / 4 := Real.exp_log (by norm_num)
      have e2 : Real.exp (Real.log (1 / 4)) = 1 / 4 := Real.exp_log (by norm_num)
      cases r <;> cases x' <;> simp only [transDens, List.length_cons, List.length_nil, List.getElem_cons_succ, List.getElem_cons_zero, Bool.true_eq_false, Bool.false_eq_true, if_true, if_false, neg_neg] <;>
        norm_num [e1, e2])
  obtain ⟨z, hz⟩ : ∃ z, z = (∫⁻ x : Bool, ENNReal.ofReal (Real.exp (-(if x then 0 else 1))) * smoothingExpectation
    (fun x _ _ => Measure.count.withDensity fun x' => ENNReal.ofReal (Real.exp (-(if x = x' then -Real.log (3 / 4) else -Real.log (1 / 4))))) (fun x (_ : Obs 1) _ => if x then 0 else 1) (fun _ => 1) 0 [(y1, 1), (y2, 3)] [] x
      ∂(unif.map fun u => if u < 1 / 4 then true else false)).toReal := ⟨_, rfl⟩
  obtain ⟨z0, hz0⟩ : ∃ z0, z0 = (∫⁻ x : Bool, ENNReal.ofReal (Real.exp (-(if x then 0 else 1))) ∂(unif.map fun u => if u < 1 / 4 then true else false)).toReal := ⟨_, rfl⟩
  obtain ⟨zx, hzx⟩ : ∃ zx, zx = (smoothingExpectation
    (fun x _ _ => Measure.count.withDensity fun x' => ENNReal.ofReal (Real.exp (-(if x = x' then -Real.log (3 / 4) else -Real.log (1 / 4))))) (fun x (_ : Obs 1) _ => if x then 0 else 1) (fun _ => 1) 0 [(y1, 1), (y2, 3)] [] true).toReal := ⟨_, rfl⟩
  refine ⟨4 * (1 * 3 * (z / (z0 * zx))) ^ 2 * (1 + 4 * (2 * ((2 : ℕ) : ℝ) + 1) * (1 ^ (2 + 1) / z) ^ 2), (smoothingExpectation
    (fun x _ _ => Measure.count.withDensity fun x' => ENNReal.ofReal (Real.exp (-(if x = x' then -Real.log (3 / 4) else -Real.log (1 / 4))))) (fun x (_ : Obs 1) _ => if x then 0 else 1)
      (fun l => ENNReal.ofReal (if l.getD 2 false then 1 else 0)) 0 [(y1, 1), (y2, 3)] [] true).toReal / zx, fun n _ i => ?_⟩
  obtain ⟨out, stitched, h1, h2, h3⟩ := key n i
  obtain ⟨-, -, -, h4⟩ := h3 (fun l => if l.getD 2 false then 1 else 0) 1 (fun k => measurable_of_countable _) (fun l => by split_ifs <;> norm_num) (fun l => by split_ifs <;> norm_num)
  subst hz hz0 hzx
  exact ⟨out, stitched, h1, h2, h4⟩

end Mocat.Props
