import Verif.Lemmas.Measure
import Verif.Props.Mcmc
/-! Helper lemmas for the invariance of random-walk Metropolis. -/
namespace Mocat.Mcmc
open Mocat Mocat.Props MeasureTheory Set Mocat.Meas
open scoped ENNReal

variable {K : Type*} {d : ℕ}

/-- A potential with values in `ℝ ∪ {+∞}`: `V` on the support `S`, `+∞` outside. -/
noncomputable def potOn (S : Set (Fin d → ℝ)) (V : (Fin d → ℝ) → ℝ) (x : Fin d → ℝ) : Fl :=
  open Classical in if x ∈ S then Fl.fin (V x) else Fl.pinf

/-- `exp (-potential)`. -/
noncomputable def densOn (S : Set (Fin d → ℝ)) (V : (Fin d → ℝ) → ℝ) (x : Fin d → ℝ) : ℝ≥0∞ :=
  S.indicator (fun x => ENNReal.ofReal (Real.exp (-V x))) x

/-- acceptance probability between two positions -/
noncomputable def accOn (S : Set (Fin d → ℝ)) (V : (Fin d → ℝ) → ℝ) (x y : Fin d → ℝ) : ℝ :=
  open Classical in
  if y ∈ S then (if x ∈ S then min 1 (Real.exp (-V y + V x)) else 1) else 0

theorem accOn_nonneg (S) (V : (Fin d → ℝ) → ℝ) (x y) : 0 ≤ accOn S V x y := by
  unfold accOn; split_ifs <;> positivity

theorem accOn_le_one (S) (V : (Fin d → ℝ) → ℝ) (x y) : accOn S V x y ≤ 1 := by
  unfold accOn; split_ifs
  · exact min_le_left _ _
  · exact le_refl _
  · exact zero_le_one

theorem accOn_eq (S : Set (Fin d → ℝ)) (V : (Fin d → ℝ) → ℝ) (x y) :
    (if (Fl.minimum (Fl.fin 1) (Fl.exp (Fl.add (Fl.neg (potOn S V y)) (potOn S V x)))).isNan then Fl.fin 0
      else Fl.minimum (Fl.fin 1) (Fl.exp (Fl.add (Fl.neg (potOn S V y)) (potOn S V x)))) = Fl.fin (accOn S V x y) := by
  by_cases hx : x ∈ S <;> by_cases hy : y ∈ S
  · have e : Fl.minimum (Fl.fin 1) (Fl.exp (Fl.add (Fl.neg (potOn S V y)) (potOn S V x)))
        = Fl.fin (min 1 (Real.exp (-V y + V x))) := by
      simp only [potOn, hx, hy, if_true, Fl.neg, Fl.add, Fl.exp, Fl.minimum]
      by_cases h : Real.exp (-V y + V x) < 1
      · rw [min_eq_right h.le]; exact if_pos h
      · rw [min_eq_left (not_lt.mp h)]; exact if_neg h
    rw [e]; simp [accOn, hx, hy, Fl.isNan]
  · simp [potOn, hx, hy, accOn, Fl.neg, Fl.add, Fl.exp, Fl.minimum, Fl.lt, Fl.isNan]
  · simp [potOn, hx, hy, accOn, Fl.neg, Fl.add, Fl.exp, Fl.minimum, Fl.lt, Fl.isNan]
  · simp [potOn, hx, hy, accOn, Fl.neg, Fl.add, Fl.exp, Fl.minimum, Fl.isNan]

/-- The accepted flow is symmetric. -/
theorem dens_mul_acc (S : Set (Fin d → ℝ)) (V : (Fin d → ℝ) → ℝ) (x y) :
    densOn S V x * ENNReal.ofReal (accOn S V x y) = min (densOn S V x) (densOn S V y) := by
  by_cases hx : x ∈ S <;> by_cases hy : y ∈ S <;> simp [densOn, accOn, hx, hy]
  rw [← ENNReal.ofReal_one, ← ENNReal.ofReal_min, ← ENNReal.ofReal_mul (Real.exp_pos _).le, ← ENNReal.ofReal_min, mul_min_of_nonneg _ _ (Real.exp_pos _).le,
    mul_one, ← Real.exp_add]
  congr 3
  ring_nf

theorem measurable_densOn {S : Set (Fin d → ℝ)} (hS : MeasurableSet S) {V : (Fin d → ℝ) → ℝ} (hV : Measurable V) :
    Measurable (densOn S V) :=
  (ENNReal.measurable_ofReal.comp (Real.measurable_exp.comp hV.neg)).indicator hS

theorem measurable_accOn {S : Set (Fin d → ℝ)} (hS : MeasurableSet S) {V : (Fin d → ℝ) → ℝ} (hV : Measurable V) :
    Measurable fun z : (Fin d → ℝ) × (Fin d → ℝ) => accOn S V z.1 z.2 := by
  unfold accOn
  refine Measurable.ite (measurable_snd hS) (Measurable.ite (measurable_fst hS) ?_ measurable_const) measurable_const
  exact measurable_const.min (Real.measurable_exp.comp ((hV.comp measurable_snd).neg.add (hV.comp measurable_fst)))

/-- proposal map with noise `ξ` -/
def rwProp (h : ℝ) (z : (Fin d → ℝ) × (Fin d → ℝ)) : Fin d → ℝ := fun i => z.1 i + h * z.2 i

theorem measurable_rwProp (h : ℝ) : Measurable (rwProp (d := d) h) := by
  unfold rwProp; fun_prop

theorem rw_balance {S : Set (Fin d → ℝ)} (hS : MeasurableSet S) {V : (Fin d → ℝ) → ℝ} (hV : Measurable V)
    (h : ℝ) (nu : Measure (Fin d → ℝ)) [IsProbabilityMeasure nu] (hsym : nu.map (fun x i => - x i) = nu)
    (f : (Fin d → ℝ) → ℝ≥0∞) (hf : Measurable f) :
    ∫⁻ x, ∫⁻ ξ, densOn S V x * ENNReal.ofReal (accOn S V x (rwProp h (x, ξ))) * f (rwProp h (x, ξ)) ∂nu
      = ∫⁻ x, ∫⁻ ξ, densOn S V x * ENNReal.ofReal (accOn S V x (rwProp h (x, ξ))) * f x ∂nu := by
  simp_rw [dens_mul_acc]
  have mw := measurable_densOn hS hV
  have mT := measurable_rwProp (d := d) h
  have m1 : Measurable fun z : (Fin d → ℝ) × (Fin d → ℝ) =>
      min (densOn S V z.1) (densOn S V (rwProp h z)) * f (rwProp h z) :=
    ((mw.comp measurable_fst).min (mw.comp mT)).mul (hf.comp mT)
  have m2 : Measurable fun z : (Fin d → ℝ) × (Fin d → ℝ) =>
      min (densOn S V z.1) (densOn S V (rwProp h z)) * f z.1 :=
    ((mw.comp measurable_fst).min (mw.comp mT)).mul (hf.comp measurable_fst)
  rw [lintegral_lintegral_swap (f := fun x ξ => min (densOn S V x) (densOn S V (rwProp h (x, ξ))) * f (rwProp h (x, ξ)))
      m1.aemeasurable]
  rw [lintegral_lintegral_swap (f := fun x ξ => min (densOn S V x) (densOn S V (rwProp h (x, ξ))) * f x)
      m2.aemeasurable]
  have key : ∀ ξ : Fin d → ℝ, ∫⁻ x, min (densOn S V x) (densOn S V (rwProp h (x, ξ))) * f (rwProp h (x, ξ))
      = ∫⁻ x, min (densOn S V x) (densOn S V (rwProp h (x, fun i => - ξ i))) * f x := by
    intro ξ
    rw [← lintegral_sub_right_eq_self _ (fun i => h * ξ i)]
    refine lintegral_congr fun x => ?_
    have e1 : rwProp h (x - fun i => h * ξ i, ξ) = x := by funext i; simp [rwProp]
    have e2 : rwProp h (x, fun i => - ξ i) = x - fun i => h * ξ i := by
      funext i; simp [rwProp]; ring
    rw [e1, e2, min_comm]
  simp_rw [key]
  have mG : Measurable fun ξ : Fin d → ℝ => ∫⁻ x, min (densOn S V x) (densOn S V (rwProp h (x, ξ))) * f x :=
    Measurable.lintegral_prod_left m2
  conv_rhs => rw [← hsym]
  rw [lintegral_map mG (by fun_prop)]

end Mocat.Mcmc
