import Verif.Lemmas.Ergodic
import Verif.Lemmas.InProb
/-!
# Averages of functions of two states of a chain, a fixed number of steps apart

The pairs of successive states form a chain with the same draws; it inherits an invariant law, irreducibility and regularity. Repeating this gives windows of any length.
-/
namespace Mocat.Ergodic
open Mocat Mocat.Ideal Mocat.Meas Mocat.Spec MeasureTheory ProbabilityTheory Filter Topology
open scoped ENNReal

universe u
variable {X : Type u} {D : Type*}

/-- The chain of pairs of successive states. -/
def lift (step : X → D → X) (z : X × X) (w : D) : X × X := (z.2, step z.2 w)

theorem tapeIter_lift (draw : Keys.Key → Tape → D) (nxt : Keys.Key → Keys.Key) (step : X → D → X) (j : ℕ) (k : Keys.Key) (a b : X) (ω : Tape) :
    tapeIter draw nxt (lift step) (j + 1) k (a, b) ω = (tapeIter draw nxt step j k b ω, tapeIter draw nxt step (j + 1) k b ω) := by
  induction j generalizing k a b with
  | zero => rfl
  | succ j ih => exact ih (nxt k) b (step b (draw k ω))

variable [MeasurableSpace X] [MeasurableSpace D] {δ : Measure D} [IsProbabilityMeasure δ] {step : X → D → X} (hs : Measurable (Function.uncurry step)) {π : Measure X} [IsProbabilityMeasure π]
  (hinv : ∀ f : X → ℝ≥0∞, Measurable f → ∫⁻ x, ∫⁻ w, f (step x w) ∂δ ∂π = ∫⁻ x, f x ∂π)

omit [IsProbabilityMeasure δ] [IsProbabilityMeasure π] in
include hs in
theorem measurable_lift : Measurable (Function.uncurry (lift step)) :=
  (measurable_snd.comp measurable_fst).prodMk (hs.comp ((measurable_snd.comp measurable_fst).prodMk measurable_snd))

omit [IsProbabilityMeasure π] in
include hs in
theorem lintegral_pairLaw {f : X × X → ℝ≥0∞} (hf : Measurable f) : ∫⁻ z, f z ∂(pairLaw δ step π) = ∫⁻ x, ∫⁻ w, f (x, step x w) ∂δ ∂π := by
  have hm : Measurable fun z : X × D => (z.1, step z.1 z.2) := measurable_fst.prodMk hs
  unfold pairLaw
  rw [lintegral_map hf hm]
  exact lintegral_prod _ (hf.comp hm).aemeasurable

include hs in
theorem pairLaw_prob : IsProbabilityMeasure (pairLaw δ step π) :=
  Measure.isProbabilityMeasure_map (show Measurable fun z : X × D => (z.1, step z.1 z.2) from measurable_fst.prodMk hs).aemeasurable

omit [IsProbabilityMeasure π] in
include hs hinv in
theorem lift_inv {f : X × X → ℝ≥0∞} (hf : Measurable f) : ∫⁻ z, ∫⁻ w, f (lift step z w) ∂δ ∂(pairLaw δ step π) = ∫⁻ z, f z ∂(pairLaw δ step π) := by
  have hm : Measurable fun z : X × D => f (z.1, step z.1 z.2) := hf.comp (measurable_fst.prodMk hs)
  have hg : Measurable fun y => ∫⁻ w, f (y, step y w) ∂δ := hm.lintegral_prod_right'
  rw [lintegral_pairLaw hs hf]
  exact (snd_pres (π := π) (δ := δ) hs hinv).lintegral_comp hg

include hs hinv in
theorem lift_irreducible (hirr : Irreducible δ step π) : Irreducible δ (lift step) (pairLaw δ step π) := by
  intro g hg h
  have hJ := pairLaw_prob (δ := δ) (π := π) hs
  have hp : Measurable fun z : X × D => (z.1, step z.1 z.2) := measurable_fst.prodMk hs
  have h1 : ∀ᵐ z ∂(pairLaw δ step π), ∀ᵐ w ∂δ, g z = g (z.2, step z.2 w) := Measure.ae_ae_of_ae_prod h
  have ma : Measurable fun z => Real.arctan (g z) := Real.continuous_arctan.measurable.comp hg
  obtain ⟨a, ha⟩ : ∃ a : X × X → ℝ, ∀ z, a z = Real.arctan (g z) := ⟨_, fun _ => rfl⟩
  have ma : Measurable a := by rw [show a = fun z => Real.arctan (g z) from funext ha]; exact ma
  obtain ⟨b, hb⟩ : ∃ b : X → ℝ, ∀ x, b x = ∫ w, a (x, step x w) ∂δ := ⟨_, fun _ => rfl⟩
  have mb : Measurable b := by
    rw [show b = fun x => ∫ w, a (x, step x w) ∂δ from funext hb]
    exact ((ma.comp hp).stronglyMeasurable.integral_prod_right' (ν := δ)).measurable
  have h2 : ∀ᵐ z ∂(pairLaw δ step π), a z = b z.2 ∧ ∀ᵐ w ∂δ, a (z.2, step z.2 w) = b z.2 := by
    filter_upwards [h1] with z hz
    have e : a z = b z.2 := by
      rw [hb]
      have : ∫ w, a (z.2, step z.2 w) ∂δ = ∫ _w, a z ∂δ := integral_congr_ae (by
        filter_upwards [hz] with w hw
        rw [ha, ha, hw])
      rw [this]
      simp
    refine ⟨e, ?_⟩
    filter_upwards [hz] with w hw
    rw [← e, ha, ha, hw]
  have hset : MeasurableSet {x | ∀ᵐ w ∂δ, a (x, step x w) = b x} := by
    have hB : MeasurableSet {z : X × D | a (z.1, step z.1 z.2) ≠ b z.1} := (measurableSet_eq_fun (ma.comp hp) (mb.comp measurable_fst)).compl
    have := measurable_measure_prodMk_left (ν := δ) hB
    exact this (measurableSet_singleton 0)
  have h4 : ∀ᵐ x ∂π, ∀ᵐ w ∂δ, a (x, step x w) = b x := by
    have hsp := snd_pres (π := π) (δ := δ) hs hinv
    rw [← hsp.map_eq]
    exact (ae_map_iff measurable_snd.aemeasurable hset).2 (h2.mono fun z hz => hz.2)
  have h5 : ∀ᵐ z ∂(π.prod δ), a (z.1, step z.1 z.2) = b z.1 := (Measure.ae_prod_iff_ae_ae (measurableSet_eq_fun (ma.comp hp) (mb.comp measurable_fst))).2 h4
  have h6 : ∀ᵐ z ∂(π.prod δ), a (z.1, step z.1 z.2) = b (step z.1 z.2) := by
    have h7 : ∀ᵐ z ∂(pairLaw δ step π), a z = b z.2 := h2.mono fun z hz => hz.1
    unfold pairLaw at h7
    exact ae_of_ae_map hp.aemeasurable h7
  obtain ⟨c, hc⟩ := hirr b mb (by filter_upwards [h5, h6] with z e1 e2; rw [← e1, e2])
  refine ⟨Real.tan c, ?_⟩
  have h8 : ∀ᵐ z ∂(pairLaw δ step π), b z.2 = c := (snd_pres (π := π) (δ := δ) hs hinv).quasiMeasurePreserving.ae hc
  filter_upwards [h2, h8] with z e1 e2
  rw [← e2, ← e1.1, ha, Real.tan_arctan]

omit [MeasurableSpace X] [IsProbabilityMeasure δ] in
theorem stepOp_iterate_mono {f g : X → ℝ≥0∞} (h : ∀ x, f x ≤ g x) (m : ℕ) (x : X) : (stepOp δ step)^[m] f x ≤ (stepOp δ step)^[m] g x := by
  induction m generalizing x with
  | zero => exact h x
  | succ m ih =>
    rw [Function.iterate_succ_apply', Function.iterate_succ_apply']
    exact lintegral_mono fun z => ih _

omit [MeasurableSpace X] [IsProbabilityMeasure δ] in
theorem stepOp_lift (F : X × X → ℝ≥0∞) (m : ℕ) (a b : X) : (stepOp δ (lift step))^[m + 1] F (a, b) = (stepOp δ step)^[m] (fun y => ∫⁻ w, F (y, step y w) ∂δ) b := by
  induction m generalizing a b with
  | zero => rfl
  | succ m ih =>
    rw [Function.iterate_succ_apply' _ (m + 1)]
    refine Eq.trans (lintegral_congr fun w => ih b (step b w)) ?_
    rw [Function.iterate_succ_apply']
    rfl

omit [IsProbabilityMeasure π] in
include hs in
theorem lift_regular {b : X} (h : Regular δ step π b) (a : X) : Regular δ (lift step) (pairLaw δ step π) (a, b) := by
  intro η hη
  obtain ⟨m, hm⟩ := h η hη
  refine ⟨m + 1, fun N hN h0 => ?_⟩
  have hG : Measurable fun z : X × D => N.indicator (1 : X × X → ℝ≥0∞) (z.1, step z.1 z.2) := (measurable_one.indicator hN).comp (measurable_fst.prodMk hs)
  have hG' : Measurable fun y => ∫⁻ w, N.indicator (1 : X × X → ℝ≥0∞) (y, step y w) ∂δ := hG.lintegral_prod_right'
  rw [stepOp_lift]
  have hN' : MeasurableSet {y | ∫⁻ w, N.indicator (1 : X × X → ℝ≥0∞) (y, step y w) ∂δ = 0}ᶜ := (hG' (measurableSet_singleton 0)).compl
  have h1 : π {y | ∫⁻ w, N.indicator (1 : X × X → ℝ≥0∞) (y, step y w) ∂δ = 0}ᶜ = 0 := by
    have h2 := lintegral_pairLaw (δ := δ) (π := π) hs (measurable_one.indicator hN)
    rw [lintegral_indicator_one hN, h0] at h2
    exact (lintegral_eq_zero_iff hG').1 h2.symm
  refine (stepOp_iterate_mono (fun y => ?_) m b).trans (hm _ hN' h1)
  by_cases hy : ∫⁻ w, N.indicator (1 : X × X → ℝ≥0∞) (y, step y w) ∂δ = 0
  · rw [hy]; exact bot_le
  · rw [Set.indicator_of_mem (show y ∈ {y | ∫⁻ w, N.indicator (1 : X × X → ℝ≥0∞) (y, step y w) ∂δ = 0}ᶜ from hy)]
    refine (lintegral_mono (g := fun _ => 1) fun w => Set.indicator_le_self' (fun _ _ => zero_le_one) _).trans ?_
    simp

include hs hinv in
/-- Windows of `l + 1` successive states. -/
theorem windows (hirr : Irreducible δ step π) {x0 : X} (hreg : Regular δ step π x0) (draw : Keys.Key → Tape → D) (nxt : Keys.Key → Keys.Key) (l : ℕ) :
    ∃ (Y : Type u) (_ : MeasurableSpace Y) (st : Y → D → Y) (J : Measure Y) (y0 : Y) (fst lst : Y → X), IsProbabilityMeasure J ∧ Measurable (Function.uncurry st) ∧
      (∀ f : Y → ℝ≥0∞, Measurable f → ∫⁻ x, ∫⁻ w, f (st x w) ∂δ ∂J = ∫⁻ x, f x ∂J) ∧ Irreducible δ st J ∧ Regular δ st J y0 ∧ Measurable fst ∧ Measurable lst ∧ (∀ y w, lst (st y w) = step (lst y) w) ∧
      (∀ j k ω, fst (tapeIter draw nxt st j k y0 ω) = tapeIter draw nxt step (j - l) k x0 ω ∧ lst (tapeIter draw nxt st j k y0 ω) = tapeIter draw nxt step j k x0 ω) ∧
      ∀ F : X × X → ℝ≥0∞, Measurable F → ∫⁻ y, F (fst y, lst y) ∂J = ∫⁻ x, (stepOp δ step)^[l] (fun y => F (x, y)) x ∂π := by
  induction l with
  | zero => exact ⟨X, inferInstance, step, π, x0, id, id, inferInstance, hs, hinv, hirr, hreg, measurable_id, measurable_id, fun _ _ => rfl, fun _ _ _ => ⟨rfl, rfl⟩, fun _ _ => rfl⟩
  | succ l ih =>
    obtain ⟨Y, mY, st, J, y0, fst, lst, hJ, hst, hin, hir, hre, hfst, hlst, hconj, hpath, hint⟩ := ih
    refine ⟨Y × Y, inferInstance, lift st, pairLaw δ st J, (y0, y0), fun z => fst z.1, fun z => lst z.2, pairLaw_prob hst, measurable_lift hst, fun f hf => lift_inv hst hin hf, lift_irreducible hst hin hir,
      lift_regular hst hre y0, hfst.comp measurable_fst, hlst.comp measurable_snd, fun y w => hconj _ _, fun j k ω => ?_, fun F hF => ?_⟩
    · cases j with
      | zero =>
        have := (hpath 0 k ω).1
        rw [Nat.zero_sub] at this ⊢
        exact ⟨this, (hpath 0 k ω).2⟩
      | succ j =>
        rw [tapeIter_lift, Nat.add_sub_add_right]
        exact ⟨(hpath j k ω).1, (hpath (j + 1) k ω).2⟩
    · have hm : Measurable fun z : Y × Y => F (fst z.1, lst z.2) := hF.comp ((hfst.comp measurable_fst).prodMk (hlst.comp measurable_snd))
      rw [lintegral_pairLaw hst hm]
      simp only [hconj]
      have hm2 : Measurable fun z : (X × X) × D => F (z.1.1, step z.1.2 z.2) := hF.comp ((measurable_fst.comp measurable_fst).prodMk (hs.comp ((measurable_snd.comp measurable_fst).prodMk measurable_snd)))
      rw [hint (fun z => ∫⁻ w, F (z.1, step z.2 w) ∂δ) hm2.lintegral_prod_right']
      exact lintegral_congr fun x => rfl

omit [IsProbabilityMeasure δ] [IsProbabilityMeasure π] in
include hinv in
theorem stepOp_iterate_inv [SFinite δ] (hs : Measurable (Function.uncurry step)) {f : X → ℝ≥0∞} (hf : Measurable f) (m : ℕ) : ∫⁻ x, (stepOp δ step)^[m] f x ∂π = ∫⁻ x, f x ∂π := by
  induction m with
  | zero => rfl
  | succ m ih =>
    rw [Function.iterate_succ_apply', ← ih]
    exact hinv _ (measurable_stepOp_iterate hs m hf)

omit [IsProbabilityMeasure π] in
include hs hinv in
/-- A chain that leaves its start with positive probability, for a place that has a density, is regular there. -/
theorem regular_of_leaves {x0 : X} {r : ℝ≥0∞} (hr : r < 1) {ν : Measure X} (hν : ν ≪ π) (hle : δ.map (step x0) ≤ r • Measure.dirac x0 + ν) : Regular δ step π x0 := by
  intro η hη
  have key : ∀ m, ∀ N, MeasurableSet N → π N = 0 → (stepOp δ step)^[m] (N.indicator 1) x0 ≤ r ^ m := by
    intro m N hN h0
    induction m with
    | zero => exact (Set.indicator_le_self' (fun _ _ => zero_le_one) _).trans (by simp)
    | succ m ih =>
      have hm : Measurable ((stepOp δ step)^[m] (N.indicator 1)) := measurable_stepOp_iterate hs m (measurable_one.indicator hN)
      have hz : ∀ᵐ x ∂ν, (stepOp δ step)^[m] (N.indicator 1) x = 0 := by
        have h1 := stepOp_iterate_inv (π := π) hinv hs (measurable_one.indicator hN) m
        rw [lintegral_indicator_one hN, h0] at h1
        exact hν.ae_le ((lintegral_eq_zero_iff hm).1 h1)
      rw [Function.iterate_succ_apply']
      generalize (stepOp δ step)^[m] (N.indicator 1) = u at hm hz ih
      have hx : Measurable (step x0) := hs.comp measurable_prodMk_left
      unfold stepOp
      rw [← lintegral_map hm hx]
      refine (lintegral_mono' hle le_rfl).trans ?_
      rw [lintegral_add_measure, lintegral_smul_measure, lintegral_dirac' _ hm, lintegral_congr_ae hz, lintegral_zero, add_zero, smul_eq_mul, pow_succ']
      gcongr
  obtain ⟨m, hm⟩ := ((ENNReal.tendsto_nhds_zero.mp (ENNReal.tendsto_pow_atTop_nhds_zero_of_lt_one hr)) η hη).exists
  exact ⟨m, fun N hN h0 => (key m N hN h0).trans hm⟩

/-- What does not depend on the number of steps is negligible when divided by it. -/
theorem inProb_div {Z : Tape → ℝ} (hZ : Measurable Z) : InProb (fun _ => ideal) (fun (n : ℕ) ω => Z ω / n) 0 := by
  rw [inProb_real]
  have h : TendstoInMeasure ideal (fun (n : ℕ) ω => Z ω / n) atTop fun _ => (0 : ℝ) :=
    tendstoInMeasure_of_tendsto_ae (fun n => (hZ.div_const _).aestronglyMeasurable) (.of_forall fun ω => tendsto_const_div_atTop_nhds_zero_nat (Z ω))
  rw [tendstoInMeasure_iff_dist] at h
  intro ε hε
  exact h ε hε

omit [IsProbabilityMeasure π] in
/-- The law of two states `l` steps apart. -/
theorem map_window {draw : Keys.Key → Tape → D} {nxt : Keys.Key → Keys.Key} (hd : Draws draw nxt δ) (hs : Measurable (Function.uncurry step)) {Y : Type u} [MeasurableSpace Y] {J : Measure Y} {fst lst : Y → X}
    (hf : Measurable fst) (hl : Measurable lst) (l : ℕ) (h : ∀ F : X × X → ℝ≥0∞, Measurable F → ∫⁻ y, F (fst y, lst y) ∂J = ∫⁻ x, (stepOp δ step)^[l] (fun y => F (x, y)) x ∂π) (k : Keys.Key) :
    J.map (fun y => (fst y, lst y)) = (π.prod ideal).map fun z : X × Tape => (z.1, tapeIter draw nxt step l k z.1 z.2) := by
  have mi : Measurable fun z : X × Tape => (z.1, tapeIter draw nxt step l k z.1 z.2) := measurable_fst.prodMk (measurable_tapeIter hd hs l k)
  refine Measure.ext_of_lintegral _ fun F hF => ?_
  rw [lintegral_map hF (hf.prodMk hl), h F hF, lintegral_map hF mi, lintegral_prod (fun z : X × Tape => F (z.1, tapeIter draw nxt step l k z.1 z.2)) (hF.comp mi).aemeasurable]
  refine lintegral_congr fun x => ?_
  exact (lintegral_tapeIter hd hs l k x (h := fun y => F (x, y)) (hF.comp measurable_prodMk_left)).symm

include hs hinv in
/-- Averages of functions of two states `l` steps apart, along `n` states. -/
theorem lag_average (hirr : Irreducible δ step π) {x0 : X} (hreg : Regular δ step π x0) {draw : Keys.Key → Tape → D} {nxt : Keys.Key → Keys.Key} (hd : Draws draw nxt δ) (l : ℕ) {F : X × X → ℝ}
    (hF : Measurable F) (k0 : Keys.Key) (hi : Integrable (fun z : X × Tape => F (z.1, tapeIter draw nxt step l k0 z.1 z.2)) (π.prod ideal)) (k : Keys.Key) :
    InProb (fun _ => ideal) (fun (n : ℕ) ω => (∑ j ∈ Finset.range (n - l), F (tapeIter draw nxt step j k x0 ω, tapeIter draw nxt step (j + l) k x0 ω)) / n)
      (∫ z : X × Tape, F (z.1, tapeIter draw nxt step l k0 z.1 z.2) ∂(π.prod ideal)) := by
  obtain ⟨Y, mY, st, J, y0, fst, lst, hJ, hst, hin, hir, hre, hfst, hlst, -, hpath, hint⟩ := windows hs hinv hirr hreg draw nxt l
  have mi : Measurable fun z : X × Tape => (z.1, tapeIter draw nxt step l k0 z.1 z.2) := measurable_fst.prodMk (measurable_tapeIter hd hs l k0)
  have hlaw := map_window (π := π) hd hs hfst hlst l hint k0
  have hG : Measurable fun y => F (fst y, lst y) := hF.comp (hfst.prodMk hlst)
  have hGi : Integrable (fun y => F (fst y, lst y)) J := by
    have h1 : Integrable F (J.map fun y => (fst y, lst y)) := by
      rw [hlaw]
      exact (integrable_map_measure hF.aestronglyMeasurable mi.aemeasurable).2 hi
    exact (integrable_map_measure hF.aestronglyMeasurable (hfst.prodMk hlst).aemeasurable).1 h1
  have hc : ∫ y, F (fst y, lst y) ∂J = ∫ z : X × Tape, F (z.1, tapeIter draw nxt step l k0 z.1 z.2) ∂(π.prod ideal) := by
    rw [← integral_map (f := F) (hfst.prodMk hlst).aemeasurable hF.aestronglyMeasurable, hlaw, integral_map mi.aemeasurable hF.aestronglyMeasurable]
  have h1 : InProb (fun _ => ideal) (fun (n : ℕ) ω => pathSum draw nxt st (fun y => F (fst y, lst y)) n k y0 ω / n) (∫ y, F (fst y, lst y) ∂J) :=
    inProb_real.2 fun ε hε => average_regular hd hst hin hir hG hGi hre hε k
  have mS : Measurable fun ω => pathSum draw nxt st (fun y => F (fst y, lst y)) l k y0 ω := (measurable_pathSum hd hst hG l k).comp measurable_prodMk_left
  have h2 := h1.sub (inProb_div mS)
  rw [sub_zero, hc] at h2
  refine h2.congr ?_
  filter_upwards [eventually_ge_atTop l] with n hn ω
  rw [← sub_div]
  congr 1
  unfold pathSum
  obtain ⟨m, rfl⟩ := Nat.exists_eq_add_of_le hn
  rw [Finset.sum_range_add, add_sub_cancel_left, Nat.add_sub_cancel_left]
  refine Finset.sum_congr rfl fun j _ => ?_
  beta_reduce
  rw [(hpath _ k ω).1, (hpath _ k ω).2, Nat.add_sub_cancel_left, add_comm l j]

/-! ## Runs that stay where they start -/

section
variable [MeasurableSingletonClass X]

open Classical in
/-- The chain with a second entry that is zero once it has left `x0`. -/
noncomputable def stay (step : X → D → X) (x0 : X) (z : X × ℝ) (w : D) : X × ℝ := (step z.1 w, z.2 * ({x0} : Set X).indicator (fun _ => 1) (step z.1 w))

omit [MeasurableSpace X] [MeasurableSpace D] [MeasurableSingletonClass X] in
theorem tapeIter_stay (draw : Keys.Key → Tape → D) (nxt : Keys.Key → Keys.Key) (step : X → D → X) (x0 : X) (m : ℕ) (k : Keys.Key) (x : X) (b : ℝ) (ω : Tape) :
    (tapeIter draw nxt (stay step x0) m k (x, b) ω).2 = b * ∏ j ∈ Finset.range m, ({x0} : Set X).indicator (fun _ => 1) (tapeIter draw nxt step (j + 1) k x ω) := by
  induction m generalizing k x b with
  | zero => simp [tapeIter]
  | succ m ih =>
    rw [Finset.prod_range_succ']
    refine (ih (nxt k) (step x (draw k ω)) _).trans ?_
    rw [mul_assoc, mul_comm (({x0} : Set X).indicator (fun _ => (1 : ℝ)) (step x (draw k ω)))]
    rfl

include hs in
theorem stay_pos {draw : Keys.Key → Tape → D} {nxt : Keys.Key → Keys.Key} (hd : Draws draw nxt δ) {x0 : X} (h : δ {w | step x0 w = x0} ≠ 0) (m : ℕ) (k : Keys.Key) :
    ideal {ω | ∀ j < m, tapeIter draw nxt step (j + 1) k x0 ω = x0} ≠ 0 := by
  have mx : Measurable fun x : X => ({x0} : Set X).indicator (fun _ => (1 : ℝ)) x := measurable_const.indicator (measurableSet_singleton x0)
  have hst : Measurable (Function.uncurry (stay step x0)) := by
    have h1 : Measurable fun z : (X × ℝ) × D => step z.1.1 z.2 := hs.comp ((measurable_fst.comp measurable_fst).prodMk measurable_snd)
    exact h1.prodMk ((measurable_snd.comp measurable_fst).mul (mx.comp h1))
  have hh : Measurable fun z : X × ℝ => ENNReal.ofReal z.2 := ENNReal.measurable_ofReal.comp measurable_snd
  have hset : MeasurableSet {w | step x0 w = x0} := (hs.comp measurable_prodMk_left : Measurable (step x0)) (measurableSet_singleton x0)
  have key : ∀ m, (δ {w | step x0 w = x0}) ^ m ≤ (stepOp δ (stay step x0))^[m] (fun z => ENNReal.ofReal z.2) (x0, 1) := by
    intro m
    induction m with
    | zero => simp
    | succ m ih =>
      rw [Function.iterate_succ_apply', pow_succ', mul_comm, ← lintegral_indicator_const hset]
      unfold stepOp at ih ⊢
      refine lintegral_mono fun w => ?_
      by_cases hw : step x0 w = x0
      · rw [Set.indicator_of_mem (show w ∈ {w | step x0 w = x0} from hw)]
        have : stay step x0 (x0, 1) w = (x0, 1) := by simp [stay, hw]
        rw [this]
        exact ih
      · rw [Set.indicator_of_notMem (show w ∉ {w | step x0 w = x0} from hw)]
        exact bot_le
  have hpos : (stepOp δ (stay step x0))^[m] (fun z => ENNReal.ofReal z.2) (x0, 1) ≠ 0 := fun e => by
    have := key m
    rw [e] at this
    exact pow_ne_zero m h (le_antisymm this bot_le)
  rw [← lintegral_tapeIter hd hst m k (x0, 1) hh] at hpos
  intro hz
  apply hpos
  refine (lintegral_eq_zero_iff (hh.comp ((measurable_tapeIter hd hst m k).comp measurable_prodMk_left))).2 ?_
  have hae : ∀ᵐ ω ∂ideal, ¬ ∀ j < m, tapeIter draw nxt step (j + 1) k x0 ω = x0 := by
    rw [ae_iff]
    simpa using hz
  filter_upwards [hae] with ω hω
  push Not at hω
  obtain ⟨j, hj, hne⟩ := hω
  show ENNReal.ofReal (tapeIter draw nxt (stay step x0) m k (x0, 1) ω).2 = 0
  have hzero : ({x0} : Set X).indicator (fun _ => (1 : ℝ)) (tapeIter draw nxt step (j + 1) k x0 ω) = 0 := Set.indicator_of_notMem (by simpa using hne) _
  rw [tapeIter_stay, Finset.prod_eq_zero (Finset.mem_range.2 hj) hzero]
  simp

end

end Mocat.Ergodic
