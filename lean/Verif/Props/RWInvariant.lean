import Verif.Lemmas.RWInvariant
import Verif.Lemmas.Stream
/-!
# C16: random-walk Metropolis leaves `exp (-potential)` invariant
-/
namespace Mocat.Props
open Mocat Mocat.Mcmc MeasureTheory Set Mocat.Meas
open scoped ENNReal

variable {K : Type*} {d : ℕ}

/-- The target: the measure with density `exp (-potential)` with respect to Lebesgue measure, where the
potential is `V` on `S` and `+∞` outside `S`. -/
noncomputable def target (S : Set (Fin d → ℝ)) (V : (Fin d → ℝ) → ℝ) : Measure (Fin d → ℝ) :=
  volume.withDensity (S.indicator fun x => ENNReal.ofReal (Real.exp (-V x)))

/-- A state of a RandomWalk run at position `x` (with its potential). -/
noncomputable def rwState (S : Set (Fin d → ℝ)) (V : (Fin d → ℝ) → ℝ) (x : Fin d → ℝ) (alpha : Fl) (tuned : ℝ) :
    State (RWPayload d) := ⟨⟨x, potOn S V x⟩, alpha, tuned⟩

section
variable (S : Set (Fin d → ℝ)) (V : (Fin d → ℝ) → ℝ)
  (split3 : Split3 K) (normal : K → Fin d → ℝ) (split : K → K × K) (uniform : K → ℝ)

/-- RandomWalk with Metropolis on the scenario with potential `potOn S V`. -/
noncomputable def rwUpdate : State (RWPayload d) → Extra K ℝ → State (RWPayload d) × Extra K ℝ :=
  update (randomWalk split3 normal (fun x _ => potOn S V x)) (metropolis split uniform)

/-- The normal draw, the uniform draw of one update, as functions of its key. -/
def draws (k : K) : (Fin d → ℝ) × ℝ := (normal (split3 k).2.1, uniform (split (split3 k).1).2)

/-- The key with which the next update starts. -/
def nextKey (k : K) : K := (split (split3 k).1).1

theorem rwUpdate_eq (x : Fin d → ℝ) (al : Fl) (t : ℝ) (k : K) (i : ℕ) (step : ℝ) :
    ∃ al', rwUpdate S V split3 normal split uniform (rwState S V x al t) ⟨k, i, step⟩
      = (rwState S V (if (draws split3 normal split uniform k).2
            < accOn S V x (rwProp (Real.sqrt step) (x, (draws split3 normal split uniform k).1))
          then rwProp (Real.sqrt step) (x, (draws split3 normal split uniform k).1) else x) al' t,
        ⟨nextKey split3 split k, i + 1, step⟩) := by
  set smp := randomWalk split3 normal (fun x _ => potOn S V x) with hsmp
  have hupd : rwUpdate S V split3 normal split uniform (rwState S V x al t) ⟨k, i, step⟩
    = metropolis split uniform smp (rwState S V x al t) ⟨k, i + 1, step⟩
      (smp.proposal (rwState S V x al t) ⟨k, i + 1, step⟩).1
      (smp.proposal (rwState S V x al t) ⟨k, i + 1, step⟩).2 := rfl
  have hprop : smp.proposal (rwState S V x al t) ⟨k, i + 1, step⟩
      = (rwState S V (rwProp (Real.sqrt step) (x, (draws split3 normal split uniform k).1)) al t,
        ⟨(split3 k).1, i + 1, step⟩) := rfl
  obtain ⟨a, ha, h1, h2⟩ := C14_all_or_nothing split uniform smp (rwState S V x al t) ⟨k, i + 1, step⟩
    (smp.proposal (rwState S V x al t) ⟨k, i + 1, step⟩).1 (smp.proposal (rwState S V x al t) ⟨k, i + 1, step⟩).2
  have hacc : a = Fl.fin (accOn S V x (rwProp (Real.sqrt step) (x, (draws split3 normal split uniform k).1))) := by
    rw [ha, hprop]; exact accOn_eq S V _ _
  rw [hupd]
  refine ⟨a, ?_⟩
  by_cases hlt : (draws split3 normal split uniform k).2
      < accOn S V x (rwProp (Real.sqrt step) (x, (draws split3 normal split uniform k).1))
  · rw [h1 (by rw [hacc]; exact hlt), if_pos hlt]; rfl
  · rw [h2 (by rw [hacc]; exact hlt), if_neg hlt]; rfl

variable [MeasurableSpace K] (κ : Measure K)

/-- C16, one update. If the key law makes the two draws of an update a standard normal vector and an
independent uniform, then updating a point distributed as `exp (-potential)` (integrated against any
measurable test function) gives a point with the same distribution. `S`, `V`, the stepsize, the dimension
and the test function are arbitrary. -/
theorem C16_update_invariant (hS : MeasurableSet S) (hV : Measurable V)
    (hmeas : Measurable (draws split3 normal split uniform))
    (hlaw : κ.map (draws split3 normal split uniform) = (stdNormal d).prod unif)
    (step : ℝ) (i : ℕ) (al : Fl) (t : ℝ) (f : (Fin d → ℝ) → ℝ≥0∞) (hf : Measurable f) :
    ∫⁻ x, ∫⁻ k, f (rwUpdate S V split3 normal split uniform (rwState S V x al t) ⟨k, i, step⟩).1.payload.value
        ∂κ ∂(target S V)
      = ∫⁻ x, f x ∂(target S V) := by
  have hval : ∀ x k, (rwUpdate S V split3 normal split uniform (rwState S V x al t) ⟨k, i, step⟩).1.payload.value
      = if (draws split3 normal split uniform k).2
            < accOn S V x (rwProp (Real.sqrt step) (x, (draws split3 normal split uniform k).1))
          then rwProp (Real.sqrt step) (x, (draws split3 normal split uniform k).1) else x := by
    intro x k
    obtain ⟨al', h⟩ := rwUpdate_eq S V split3 normal split uniform x al t k i step
    rw [h]; rfl
  simp_rw [hval]
  have mT := measurable_rwProp (d := d) (Real.sqrt step)
  have ma : Measurable fun z : (Fin d → ℝ) × (Fin d → ℝ) => accOn S V z.1 (rwProp (Real.sqrt step) z) :=
    (measurable_accOn hS hV).comp (measurable_fst.prodMk mT)
  have hinner : ∀ x, ∫⁻ k, f (if (draws split3 normal split uniform k).2
            < accOn S V x (rwProp (Real.sqrt step) (x, (draws split3 normal split uniform k).1))
          then rwProp (Real.sqrt step) (x, (draws split3 normal split uniform k).1) else x) ∂κ
      = ∫⁻ z, f (if z.2 < accOn S V x (rwProp (Real.sqrt step) (x, z.1))
          then rwProp (Real.sqrt step) (x, z.1) else x) ∂((stdNormal d).prod unif) := by
    intro x
    rw [← hlaw, lintegral_map _ hmeas]
    refine hf.comp (Measurable.ite ?_ (mT.comp (measurable_const.prodMk measurable_fst)) measurable_const)
    exact measurableSet_lt measurable_snd (ma.comp (measurable_const.prodMk measurable_fst))
  simp_rw [hinner]
  exact metropolis_invariant volume (stdNormal d) (rwProp (Real.sqrt step)) mT
    (fun z => accOn S V z.1 (rwProp (Real.sqrt step) z)) ma (fun _ => accOn_nonneg _ _ _ _)
    (fun _ => accOn_le_one _ _ _ _) (densOn S V) (measurable_densOn hS hV) f hf
    (rw_balance hS hV _ _ (stdNormal_map_neg d) f hf)

/-- Position and key after `n` updates. -/
noncomputable def rwIter (step : ℝ) : ℕ → (Fin d → ℝ) × K → (Fin d → ℝ) × K
  | 0, z => z
  | n + 1, z => rwIter step n
      (if (draws split3 normal split uniform z.2).2
          < accOn S V z.1 (rwProp (Real.sqrt step) (z.1, (draws split3 normal split uniform z.2).1))
        then rwProp (Real.sqrt step) (z.1, (draws split3 normal split uniform z.2).1) else z.1,
       nextKey split3 split z.2)

omit [MeasurableSpace K] in
theorem rwIter_eq (step : ℝ) (n : ℕ) (x : Fin d → ℝ) (k : K) (al : Fl) (t : ℝ) (i : ℕ) :
    (bodyIter (rwUpdate S V split3 normal split uniform) n (rwState S V x al t, ⟨k, i, step⟩)).1.payload.value
      = (rwIter S V split3 normal split uniform step n (x, k)).1 := by
  induction n generalizing x k al i with
  | zero => rfl
  | succ n ih =>
    obtain ⟨al', h⟩ := rwUpdate_eq S V split3 normal split uniform x al t k i step
    have : bodyIter (rwUpdate S V split3 normal split uniform) (n + 1) (rwState S V x al t, ⟨k, i, step⟩)
        = bodyIter (rwUpdate S V split3 normal split uniform) n
          (rwUpdate S V split3 normal split uniform (rwState S V x al t) ⟨k, i, step⟩) := by
      simp [bodyIter, Function.iterate_succ_apply]
    rw [this, h, ih]; rfl

/-- C16, whole chains. If splitting behaves like independent fresh randomness - the draws of an update
are a standard normal and an independent uniform, and the next key is independent of them with the law of
a fresh key - then for every `n` the `n`-th state of the chain started from `exp (-potential)` is again
distributed as `exp (-potential)`. -/
theorem C16_chain_invariant [SFinite κ] (hS : MeasurableSet S) (hV : Measurable V)
    (hmeas : Measurable (draws split3 normal split uniform)) (hmeas' : Measurable (nextKey split3 split))
    (hlaw : κ.map (fun k => (draws split3 normal split uniform k, nextKey split3 split k))
      = ((stdNormal d).prod unif).prod κ) (hprob : κ univ = 1)
    (step : ℝ) (n i : ℕ) (al : Fl) (t : ℝ) (f : (Fin d → ℝ) → ℝ≥0∞) (hf : Measurable f) :
    ∫⁻ x, ∫⁻ k, f (bodyIter (rwUpdate S V split3 normal split uniform) n
        (rwState S V x al t, ⟨k, i, step⟩)).1.payload.value ∂κ ∂(target S V)
      = ∫⁻ x, f x ∂(target S V) := by
  have : IsProbabilityMeasure κ := ⟨hprob⟩
  simp_rw [rwIter_eq]
  have mT := measurable_rwProp (d := d) (Real.sqrt step)
  have ma : Measurable fun z : (Fin d → ℝ) × (Fin d → ℝ) => accOn S V z.1 (rwProp (Real.sqrt step) z) :=
    (measurable_accOn hS hV).comp (measurable_fst.prodMk mT)
  have mdraw : Measurable fun z : (Fin d → ℝ) × K => (z.1, (draws split3 normal split uniform z.2).1) :=
    measurable_fst.prodMk (measurable_fst.comp (hmeas.comp measurable_snd))
  have mnext : Measurable fun z : (Fin d → ℝ) × K =>
      (if (draws split3 normal split uniform z.2).2
          < accOn S V z.1 (rwProp (Real.sqrt step) (z.1, (draws split3 normal split uniform z.2).1))
        then rwProp (Real.sqrt step) (z.1, (draws split3 normal split uniform z.2).1) else z.1,
       nextKey split3 split z.2) := by
    refine Measurable.prodMk (Measurable.ite ?_ (mT.comp mdraw) measurable_fst) (hmeas'.comp measurable_snd)
    exact measurableSet_lt (measurable_snd.comp (hmeas.comp measurable_snd)) (ma.comp mdraw)
  -- joint statement by induction
  have joint : ∀ (n : ℕ) (F : (Fin d → ℝ) × K → ℝ≥0∞), Measurable F →
      ∫⁻ x, ∫⁻ k, F (rwIter S V split3 normal split uniform step n (x, k)) ∂κ ∂(target S V)
        = ∫⁻ x, ∫⁻ k, F (x, k) ∂κ ∂(target S V) ∧
      Measurable fun z => F (rwIter S V split3 normal split uniform step n z) := by
    intro n
    induction n with
    | zero => intro F hF; exact ⟨rfl, hF⟩
    | succ n ih =>
      intro F hF
      obtain ⟨hI, hM⟩ := ih F hF
      refine ⟨?_, hM.comp mnext⟩
      rw [← hI]
      set G := fun z => F (rwIter S V split3 normal split uniform step n z) with hG
      have hGm : Measurable fun y => ∫⁻ k, G (y, k) ∂κ := Measurable.lintegral_prod_right hM
      have e : ∀ x, ∫⁻ k, F (rwIter S V split3 normal split uniform step (n + 1) (x, k)) ∂κ
          = ∫⁻ z, (∫⁻ k, G (if z.2 < accOn S V x (rwProp (Real.sqrt step) (x, z.1))
              then rwProp (Real.sqrt step) (x, z.1) else x, k) ∂κ) ∂((stdNormal d).prod unif) := by
        intro x
        have mz : Measurable fun z : ((Fin d → ℝ) × ℝ) × K =>
            G (if z.1.2 < accOn S V x (rwProp (Real.sqrt step) (x, z.1.1))
              then rwProp (Real.sqrt step) (x, z.1.1) else x, z.2) := by
          refine hM.comp (Measurable.prodMk (Measurable.ite ?_ ?_ measurable_const) measurable_snd)
          · exact measurableSet_lt (measurable_snd.comp measurable_fst)
              (ma.comp (measurable_const.prodMk (measurable_fst.comp measurable_fst)))
          · exact mT.comp (measurable_const.prodMk (measurable_fst.comp measurable_fst))
        rw [← lintegral_prod (f := fun z : ((Fin d → ℝ) × ℝ) × K =>
            G (if z.1.2 < accOn S V x (rwProp (Real.sqrt step) (x, z.1.1))
              then rwProp (Real.sqrt step) (x, z.1.1) else x, z.2)) mz.aemeasurable, ← hlaw,
          lintegral_map mz (hmeas.prodMk hmeas')]
        rfl
      simp_rw [e]
      exact metropolis_invariant volume (stdNormal d) (rwProp (Real.sqrt step)) mT
        (fun z => accOn S V z.1 (rwProp (Real.sqrt step) z)) ma (fun _ => accOn_nonneg _ _ _ _)
        (fun _ => accOn_le_one _ _ _ _) (densOn S V) (measurable_densOn hS hV)
        (fun y => ∫⁻ k, G (y, k) ∂κ) hGm (rw_balance hS hV _ _ (stdNormal_map_neg d) _ hGm)
  have h := (joint n (fun z => f z.1) (hf.comp measurable_fst)).1
  rw [h]
  simp

end

/-- Non-vacuity of C16_update_invariant: keys that are the randomness itself, a half-line target. -/
example (f : (Fin 1 → ℝ) → ℝ≥0∞) (hf : Measurable f) :
    ∫⁻ x, ∫⁻ k, f (rwUpdate {x | 0 < x 0} (fun x => x 0) (fun k => (k, k, k)) Prod.fst (fun k => (k, k)) Prod.snd
        (rwState {x | 0 < x 0} (fun x => x 0) x (Fl.fin 1) 0) ⟨k, 0, 2⟩).1.payload.value
        ∂((stdNormal 1).prod unif) ∂(target {x | 0 < x 0} (fun x => x 0))
      = ∫⁻ x, f x ∂(target {x | 0 < x 0} (fun x => x 0)) :=
  have hd : draws (fun k : (Fin 1 → ℝ) × ℝ => (k, k, k)) Prod.fst (fun k => (k, k)) Prod.snd = id := rfl
  C16_update_invariant _ _ _ _ _ _ _ (measurableSet_lt measurable_const (measurable_pi_apply 0))
    (measurable_pi_apply 0) (by rw [hd]; exact measurable_id) (by rw [hd]; exact Measure.map_id) 2 0 _ _ f hf

/-- Non-vacuity of C16_chain_invariant: keys that are infinite streams of independent draws. -/
example (n : ℕ) (f : (Fin 1 → ℝ) → ℝ≥0∞) (hf : Measurable f) :
    ∫⁻ x, ∫⁻ k, f (bodyIter (rwUpdate {x | 0 < x 0} (fun x => x 0) (fun k : ℕ → (Fin 1 → ℝ) × ℝ => (k, k, k))
        (fun k => (k 0).1) (fun k => (fun n => k (n + 1), k)) (fun k => (k 0).2)) n
        (rwState {x | 0 < x 0} (fun x => x 0) x (Fl.fin 1) 0, ⟨k, 0, 2⟩)).1.payload.value
        ∂(Measure.infinitePi fun _ => (stdNormal 1).prod unif) ∂(target {x | 0 < x 0} (fun x => x 0))
      = ∫⁻ x, f x ∂(target {x | 0 < x 0} (fun x => x 0)) := by
  refine C16_chain_invariant _ _ _ _ _ _ _ (measurableSet_lt measurable_const (measurable_pi_apply 0))
    (measurable_pi_apply 0) ?_ ?_ ?_ measure_univ 2 n 0 _ _ f hf
  · exact measurable_pi_apply (0 : ℕ)
  · exact measurable_pi_lambda _ fun n => measurable_pi_apply (n + 1)
  · exact stream_map ((stdNormal 1).prod unif)

end Mocat.Props
