import Verif.Lemmas.Subtape
import Verif.Lemmas.NormalDraw
import Verif.Props.Abc
/-!
# C87: ABC-MCMC leaves the ABC posterior invariant
-/
namespace Mocat.Props
open Mocat Mocat.Mcmc Mocat.Abc Mocat.Ideal Mocat.Meas MeasureTheory ProbabilityTheory
open scoped ENNReal

variable {d : ℕ} {D : Type*}

/-- An ABC scenario on a tape: the prior potential is `V` on `S` and infinite elsewhere; the prior sampler and the simulator are arbitrary programs that use the randomness of the key they are given. -/
noncomputable def tapeScenario (S : Set (Fin d → ℝ)) (V : (Fin d → ℝ) → ℝ) (pri : Tape → Fin d → ℝ) (sim : (Fin d → ℝ) → Tape → D) (dist : D → Fl) (ω : Tape) :
    Abc.Scenario Keys.Key (Fin d → ℝ) D where
  priorSample k := pri (subtape k ω)
  priorPotential x _ := potOn S V x
  likelihoodSample x k := sim x (subtape k ω)
  distance := dist

/-- The set of data within the threshold. -/
def ball (dist : D → Fl) (thr : Fl) : Set D := {y | Fl.lt (dist y) thr}

/-- (Specification.) The ABC posterior (not normalised): a parameter with density `exp (-potential)` and data simulated at it, restricted to data within the threshold. -/
noncomputable def abcTarget [MeasurableSpace D] (S : Set (Fin d → ℝ)) (V : (Fin d → ℝ) → ℝ) (sim : (Fin d → ℝ) → Tape → D) (B : Set D) : Measure ((Fin d → ℝ) × D) :=
  (((target S V).prod ideal).map fun z => (z.1, sim z.1 z.2)).restrict {z | z.2 ∈ B}

/-- A state of an ABC-MCMC run at parameter `z.1` with data `z.2`. -/
noncomputable def abcState (S : Set (Fin d → ℝ)) (V : (Fin d → ℝ) → ℝ) (dist : D → Fl) (z : (Fin d → ℝ) × D) (stp : Fin d → ℝ) (al : Fl) (t : ℝ) : State (Payload d D) :=
  ⟨⟨z.1, potOn S V z.1, z.2, dist z.2, stp⟩, al, t⟩

/-- The proposed parameter. -/
def walk (s : Fin d → ℝ) (z : (Fin d → ℝ) × (Fin d → ℝ)) : Fin d → ℝ := fun i => z.1 i + s i * z.2 i

/-- The acceptance probability. -/
noncomputable def abcAcc (S : Set (Fin d → ℝ)) (V : (Fin d → ℝ) → ℝ) (B : Set D) (x : Fin d → ℝ) (z : (Fin d → ℝ) × D) : ℝ :=
  open Classical in if z.2 ∈ B then accOn S V x z.1 else 0

/-- One update of parameter and data, from the draws: the normal vector, the randomness of the simulator, the uniform. -/
noncomputable def abcMove (S : Set (Fin d → ℝ)) (V : (Fin d → ℝ) → ℝ) (sim : (Fin d → ℝ) → Tape → D) (B : Set D) (s : Fin d → ℝ) (z : (Fin d → ℝ) × D)
    (w : ((Fin d → ℝ) × Tape) × ℝ) : (Fin d → ℝ) × D :=
  let y := walk s (z.1, w.1.1)
  if w.2 < abcAcc S V B z.1 (y, sim y w.1.2) then (y, sim y w.1.2) else z

/-- The draws of the update that starts with key `k`. -/
def abcDraws (q : ℝ → ℝ) (d : ℕ) (k : Keys.Key) (ω : Tape) : ((Fin d → ℝ) × Tape) × ℝ :=
  ((normalAt q d ω (1 :: 0 :: k), subtape (3 :: 0 :: k) ω), ω (1 :: 0 :: 0 :: k, 0))

theorem abcDraws_draws {q : ℝ → ℝ} (hq : IsNormalDraw q) : Draws (abcDraws q d) Keys.abcNext (((stdNormal d).prod ideal).prod unif) where
  measurable k := ((measurable_normalAt hq _).prodMk (measurable_subtape _)).prodMk (measurable_pi_apply _)
  reads k := by
    refine ⟨{s | s.1 = 1 :: 0 :: k} ∪ below (3 :: 0 :: k) ∪ {s | s.1 = 1 :: 0 :: 0 :: k}, fun x y h => Prod.ext (Prod.ext ?_ ?_) (h _ (Or.inr rfl)), ?_, ?_⟩
    · exact normalAt_below q d _ fun s hs => h s (Or.inl (Or.inl hs))
    · exact subtape_dependsOn _ fun s hs => h s (Or.inl (Or.inr hs))
    · rintro s ((hs | hs) | hs)
      · exact ⟨[1, 0], hs⟩
      · exact mem_below_cons (mem_below_cons hs)
      · exact ⟨[1, 0, 0], hs⟩
    · rw [Set.disjoint_left]
      rintro ⟨s, t⟩ h1 h2
      rcases h1 with (h1 | h1) | h1
      · simp only [Set.mem_ofPred_eq] at h1; subst h1; exact below_cons_ne (by decide) (mem_below_cons h2)
      · exact Set.disjoint_left.mp (below_disjoint (by decide)) h1 (mem_below_cons h2)
      · simp only [Set.mem_ofPred_eq] at h1; subst h1; exact below_cons_ne (by decide) h2
  next k s hs := mem_below_cons (mem_below_cons (mem_below_cons hs))
  law k := by
    refine map_normal_tape_unif hq (fun i => below_cons_ne (by decide)) (fun h => by simpa using congrArg List.length h) fun i h => ?_
    exact Set.disjoint_left.mp (below_disjoint (by decide : (3 : ℕ) ≠ 0)) h ⟨[1], rfl⟩

/-! ## The update is a move -/

theorem abcAcc_eq (S : Set (Fin d → ℝ)) (V : (Fin d → ℝ) → ℝ) (dist : D → Fl) (thr : Fl) (x : Fin d → ℝ) (z : (Fin d → ℝ) × D) (a : Fl)
    (ha : a = Fl.minimum (Fl.fin 1) (Fl.mul (Fl.exp (Fl.add (Fl.neg (potOn S V z.1)) (potOn S V x))) (indicator (Fl.lt (dist z.2) thr)))) :
    (if a.isNan then Fl.fin 0 else a) = Fl.fin (abcAcc S V (ball dist thr) x z) := by
  subst ha
  by_cases hb : Fl.lt (dist z.2) thr
  · have h1 : z.2 ∈ ball dist thr := hb
    have h2 : indicator (Fl.lt (dist z.2) thr) = Fl.fin 1 := by simp [indicator, hb]
    have h3 : ∀ v : Fl, Fl.mul (Fl.exp v) (Fl.fin 1) = Fl.exp v := by
      intro v
      cases v <;> simp [Fl.exp, Fl.mul]
    rw [h2, h3, abcAcc, if_pos h1]
    exact accOn_eq S V x z.1
  · have h1 : z.2 ∉ ball dist thr := hb
    have h2 : indicator (Fl.lt (dist z.2) thr) = Fl.fin 0 := by simp [indicator, hb]
    rw [h2, abcAcc, if_neg h1]
    by_cases hx : x ∈ S <;> by_cases hy : z.1 ∈ S <;>
      simp [potOn, hx, hy, Fl.neg, Fl.add, Fl.exp, Fl.mul, Fl.minimum, Fl.lt, Fl.isNan]

section
variable (S : Set (Fin d → ℝ)) (V : (Fin d → ℝ) → ℝ) (pri : Tape → Fin d → ℝ) (sim : (Fin d → ℝ) → Tape → D) (dist : D → Fl) (q : ℝ → ℝ)

/-- `RandomWalkABC` with `Metropolis` on a tape. -/
noncomputable def abcUpdate (ω : Tape) : State (Payload d D) → Extra Keys.Key (Params d) → State (Payload d D) × Extra Keys.Key (Params d) :=
  update (randomWalkABC Keys.split Keys.split4 (normalAt q d ω) (tapeScenario S V pri sim dist ω)) (metropolis Keys.split fun k => ω (k, 0))

theorem abcUpdate_eq (ω : Tape) (z : (Fin d → ℝ) × D) (stp : Fin d → ℝ) (al : Fl) (t : ℝ) (k : Keys.Key) (i : ℕ) (p : Params d) :
    ∃ al', abcUpdate S V pri sim dist q ω (abcState S V dist z stp al t) ⟨k, i, p⟩
      = (abcState S V dist (abcMove S V sim (ball dist p.threshold) (fun i => Real.sqrt (p.stepsize i)) z (abcDraws q d k ω)) stp al' t, ⟨Keys.abcNext k, i + 1, p⟩) := by
  set smp := randomWalkABC Keys.split Keys.split4 (normalAt q d ω) (tapeScenario S V pri sim dist ω) with hsmp
  set y := walk (fun i => Real.sqrt (p.stepsize i)) (z.1, normalAt q d ω (1 :: 0 :: k)) with hy
  set z' : (Fin d → ℝ) × D := (y, sim y (subtape (3 :: 0 :: k) ω)) with hz'
  have hupd : abcUpdate S V pri sim dist q ω (abcState S V dist z stp al t) ⟨k, i, p⟩
    = metropolis Keys.split (fun k => ω (k, 0)) smp (abcState S V dist z stp al t) ⟨0 :: k, i + 1, p⟩ (abcState S V dist z' stp al t) ⟨0 :: 0 :: k, i + 1, p⟩ := rfl
  obtain ⟨a, ha, h1, h2⟩ := C14_all_or_nothing Keys.split (fun k => ω (k, 0)) smp (abcState S V dist z stp al t) ⟨0 :: k, i + 1, p⟩
    (abcState S V dist z' stp al t) ⟨0 :: 0 :: k, i + 1, p⟩
  have hacc : a = Fl.fin (abcAcc S V (ball dist p.threshold) z.1 z') := by
    rw [ha]; exact abcAcc_eq S V dist p.threshold z.1 z' _ rfl
  refine ⟨a, ?_⟩
  rw [hupd]
  by_cases hlt : ω (1 :: 0 :: 0 :: k, 0) < abcAcc S V (ball dist p.threshold) z.1 z'
  · rw [h1 (by rw [hacc]; exact hlt)]
    have : abcMove S V sim (ball dist p.threshold) (fun i => Real.sqrt (p.stepsize i)) z (abcDraws q d k ω) = z' := if_pos hlt
    rw [this]; rfl
  · rw [h2 (by rw [hacc]; exact hlt)]
    have : abcMove S V sim (ball dist p.threshold) (fun i => Real.sqrt (p.stepsize i)) z (abcDraws q d k ω) = z := if_neg hlt
    rw [this]; rfl

end

/-! ## Reversibility -/

theorem measurable_walk (s : Fin d → ℝ) : Measurable (walk s) := by unfold walk; fun_prop

/-- A Gaussian random walk is reversible with respect to Lebesgue measure. -/
theorem walk_symm (s : Fin d → ℝ) (G : (Fin d → ℝ) × (Fin d → ℝ) → ℝ≥0∞) (hG : Measurable G) :
    ∫⁻ x, ∫⁻ ξ, G (x, walk s (x, ξ)) ∂(stdNormal d) = ∫⁻ x, ∫⁻ ξ, G (walk s (x, ξ), x) ∂(stdNormal d) := by
  have mT := measurable_walk (d := d) s
  have m1 : Measurable fun z : (Fin d → ℝ) × (Fin d → ℝ) => G (z.1, walk s z) := hG.comp (measurable_fst.prodMk mT)
  have m2 : Measurable fun z : (Fin d → ℝ) × (Fin d → ℝ) => G (walk s z, z.1) := hG.comp (mT.prodMk measurable_fst)
  rw [lintegral_lintegral_swap (f := fun x ξ => G (x, walk s (x, ξ))) m1.aemeasurable,
    lintegral_lintegral_swap (f := fun x ξ => G (walk s (x, ξ), x)) m2.aemeasurable]
  have key : ∀ ξ : Fin d → ℝ, ∫⁻ x, G (x, walk s (x, ξ)) = ∫⁻ x, G (walk s (x, fun i => - ξ i), x) := by
    intro ξ
    rw [← lintegral_sub_right_eq_self _ (fun i => s i * ξ i)]
    refine lintegral_congr fun x => ?_
    have e1 : walk s (x - fun i => s i * ξ i, ξ) = x := by funext i; simp [walk]
    have e2 : walk s (x, fun i => - ξ i) = x - fun i => s i * ξ i := by funext i; simp [walk]; ring
    rw [e1, e2]
  simp_rw [key]
  have mG : Measurable fun ξ : Fin d → ℝ => ∫⁻ x, G (walk s (x, ξ), x) := Measurable.lintegral_prod_left m2
  conv_rhs => rw [← stdNormal_map_neg d]
  rw [lintegral_map mG (by fun_prop)]

section
variable [MeasurableSpace D] {S : Set (Fin d → ℝ)} {V : (Fin d → ℝ) → ℝ} {sim : (Fin d → ℝ) → Tape → D} {B : Set D}

theorem measurable_abcAcc (hS : MeasurableSet S) (hV : Measurable V) (hB : MeasurableSet B) : Measurable fun z : (Fin d → ℝ) × ((Fin d → ℝ) × D) => abcAcc S V B z.1 z.2 := by
  unfold abcAcc
  exact Measurable.ite ((measurable_snd.comp measurable_snd) hB) ((measurable_accOn hS hV).comp (measurable_fst.prodMk (measurable_fst.comp measurable_snd))) measurable_const

/-- Proposed parameter and data. -/
def abcProp (sim : (Fin d → ℝ) → Tape → D) (s : Fin d → ℝ) (z : ((Fin d → ℝ) × D) × ((Fin d → ℝ) × Tape)) : (Fin d → ℝ) × D :=
  (walk s (z.1.1, z.2.1), sim (walk s (z.1.1, z.2.1)) z.2.2)

theorem measurable_abcProp (hsim : Measurable fun z : (Fin d → ℝ) × Tape => sim z.1 z.2) (s : Fin d → ℝ) : Measurable (abcProp sim s) := by
  have h1 : Measurable fun z : ((Fin d → ℝ) × D) × ((Fin d → ℝ) × Tape) => walk s (z.1.1, z.2.1) :=
    (measurable_walk s).comp ((measurable_fst.comp measurable_fst).prodMk (measurable_fst.comp measurable_snd))
  have h2 : Measurable fun z : ((Fin d → ℝ) × D) × ((Fin d → ℝ) × Tape) => sim (walk s (z.1.1, z.2.1)) z.2.2 :=
    hsim.comp (h1.prodMk (measurable_snd.comp measurable_snd))
  exact h1.prodMk h2

theorem measurable_abcMove (hS : MeasurableSet S) (hV : Measurable V) (hB : MeasurableSet B) (hsim : Measurable fun z : (Fin d → ℝ) × Tape => sim z.1 z.2) (s : Fin d → ℝ) :
    Measurable (Function.uncurry (abcMove S V sim B s)) := by
  have h1 : Measurable fun z : ((Fin d → ℝ) × D) × (((Fin d → ℝ) × Tape) × ℝ) => abcProp sim s (z.1, z.2.1) :=
    (measurable_abcProp hsim s).comp (measurable_fst.prodMk (measurable_fst.comp measurable_snd))
  have h2 : Measurable fun z : ((Fin d → ℝ) × D) × (((Fin d → ℝ) × Tape) × ℝ) => abcAcc S V B z.1.1 (abcProp sim s (z.1, z.2.1)) :=
    (measurable_abcAcc hS hV hB).comp ((measurable_fst.comp measurable_fst).prodMk h1)
  exact Measurable.ite (measurableSet_lt (measurable_snd.comp measurable_snd) h2) h1 measurable_fst

/-- Integrals against the ABC posterior. -/
theorem lintegral_abcTarget (hS : MeasurableSet S) (hV : Measurable V) (hB : MeasurableSet B) (hsim : Measurable fun z : (Fin d → ℝ) × Tape => sim z.1 z.2)
    {f : (Fin d → ℝ) × D → ℝ≥0∞} (hf : Measurable f) :
    ∫⁻ z, f z ∂(abcTarget S V sim B) = ∫⁻ x, densOn S V x * ∫⁻ τ, B.indicator (fun y => f (x, y)) (sim x τ) ∂ideal := by
  have hms : MeasurableSet {z : (Fin d → ℝ) × D | z.2 ∈ B} := measurable_snd hB
  have hpair : Measurable fun z : (Fin d → ℝ) × Tape => (z.1, sim z.1 z.2) := measurable_fst.prodMk hsim
  have hfi : Measurable ({z : (Fin d → ℝ) × D | z.2 ∈ B}.indicator f) := hf.indicator hms
  have : SFinite (target S V) := by unfold target; infer_instance
  unfold abcTarget
  have hc : Measurable fun z : (Fin d → ℝ) × Tape => {z : (Fin d → ℝ) × D | z.2 ∈ B}.indicator f (z.1, sim z.1 z.2) := hfi.comp hpair
  rw [← lintegral_indicator hms, lintegral_map hfi hpair, lintegral_prod _ hc.aemeasurable]
  have hG : Measurable fun x => ∫⁻ τ, {z : (Fin d → ℝ) × D | z.2 ∈ B}.indicator f (x, sim x τ) ∂ideal := Measurable.lintegral_prod_right' (hfi.comp hpair)
  have hd := measurable_densOn hS hV
  have ht : target S V = volume.withDensity (densOn S V) := rfl
  rw [ht]
  exact lintegral_withDensity_eq_lintegral_mul _ hd hG

/-- The flow from a state to a proposed state, with the data integrated out. -/
theorem abc_flow {lam : Measure ((Fin d → ℝ) × D)} (hint : ∀ g : (Fin d → ℝ) × D → ℝ≥0∞, Measurable g → ∫⁻ z, g z ∂lam = ∫⁻ x, ∫⁻ τ, g (x, sim x τ) ∂ideal)
    (hS : MeasurableSet S) (hV : Measurable V) (hsim : Measurable fun z : (Fin d → ℝ) × Tape => sim z.1 z.2) (s : Fin d → ℝ)
    {A C : (Fin d → ℝ) × D → ℝ≥0∞} (hA : Measurable A) (hC : Measurable C) :
    ∫⁻ z, ∫⁻ ω, min (densOn S V z.1) (densOn S V (abcProp sim s (z, ω)).1) * (A z * C (abcProp sim s (z, ω))) ∂((stdNormal d).prod ideal) ∂lam
      = ∫⁻ x, ∫⁻ ξ, min (densOn S V x) (densOn S V (walk s (x, ξ))) * ((∫⁻ τ, A (x, sim x τ) ∂ideal) * ∫⁻ τ, C (walk s (x, ξ), sim (walk s (x, ξ)) τ) ∂ideal) ∂(stdNormal d) := by
  have hd := measurable_densOn hS hV
  have hP := measurable_abcProp (D := D) hsim s
  have hpair : Measurable fun z : (Fin d → ℝ) × Tape => (z.1, sim z.1 z.2) := measurable_fst.prodMk hsim
  have m1 : Measurable fun z : ((Fin d → ℝ) × D) × ((Fin d → ℝ) × Tape) => min (densOn S V z.1.1) (densOn S V (abcProp sim s z).1) * (A z.1 * C (abcProp sim s z)) :=
    ((hd.comp (measurable_fst.comp measurable_fst)).min (hd.comp (measurable_fst.comp hP))).mul ((hA.comp measurable_fst).mul (hC.comp hP))
  have hCi : Measurable fun x => ∫⁻ τ, C (x, sim x τ) ∂ideal :=
    Measurable.lintegral_prod_right' (f := fun z : (Fin d → ℝ) × Tape => C (z.1, sim z.1 z.2)) (hC.comp hpair)
  have hw := measurable_walk (d := d) s
  have inner : ∀ z : (Fin d → ℝ) × D, ∫⁻ ω, min (densOn S V z.1) (densOn S V (abcProp sim s (z, ω)).1) * (A z * C (abcProp sim s (z, ω))) ∂((stdNormal d).prod ideal)
      = A z * ∫⁻ ξ, min (densOn S V z.1) (densOn S V (walk s (z.1, ξ))) * ∫⁻ τ, C (walk s (z.1, ξ), sim (walk s (z.1, ξ)) τ) ∂ideal ∂(stdNormal d) := by
    intro z
    have m2 : Measurable fun ω : (Fin d → ℝ) × Tape => min (densOn S V z.1) (densOn S V (abcProp sim s (z, ω)).1) * (A z * C (abcProp sim s (z, ω))) :=
      m1.comp measurable_prodMk_left
    have m3 : Measurable fun ξ => min (densOn S V z.1) (densOn S V (walk s (z.1, ξ))) * ∫⁻ τ, C (walk s (z.1, ξ), sim (walk s (z.1, ξ)) τ) ∂ideal :=
      (measurable_const.min (hd.comp (hw.comp measurable_prodMk_left))).mul (hCi.comp (hw.comp measurable_prodMk_left))
    rw [lintegral_prod _ m2.aemeasurable, ← lintegral_const_mul _ m3]
    refine lintegral_congr fun ξ => ?_
    have m4 : Measurable fun τ => C (walk s (z.1, ξ), sim (walk s (z.1, ξ)) τ) := hC.comp (hpair.comp measurable_prodMk_left)
    rw [← lintegral_const_mul _ m4, ← lintegral_const_mul _ (m4.const_mul _)]
    refine lintegral_congr fun τ => ?_
    simp only [abcProp]
    ring
  simp_rw [inner]
  have m5 : Measurable fun x : Fin d → ℝ => ∫⁻ ξ, min (densOn S V x) (densOn S V (walk s (x, ξ))) * ∫⁻ τ, C (walk s (x, ξ), sim (walk s (x, ξ)) τ) ∂ideal ∂(stdNormal d) :=
    Measurable.lintegral_prod_right' (f := fun z : (Fin d → ℝ) × (Fin d → ℝ) => min (densOn S V z.1) (densOn S V (walk s z)) * ∫⁻ τ, C (walk s z, sim (walk s z) τ) ∂ideal)
      (((hd.comp measurable_fst).min (hd.comp hw)).mul (hCi.comp hw))
  refine (hint _ (hA.mul (m5.comp measurable_fst))).trans (lintegral_congr fun x => ?_)
  simp only [Pi.mul_apply, Function.comp_apply]
  have m6 : Measurable fun τ => A (x, sim x τ) := hA.comp (hpair.comp measurable_prodMk_left)
  have m7 : Measurable fun ξ => min (densOn S V x) (densOn S V (walk s (x, ξ))) * ∫⁻ τ, C (walk s (x, ξ), sim (walk s (x, ξ)) τ) ∂ideal :=
    (measurable_const.min (hd.comp (hw.comp measurable_prodMk_left))).mul (hCi.comp (hw.comp measurable_prodMk_left))
  rw [lintegral_mul_const _ m6, ← lintegral_const_mul _ m7]
  refine lintegral_congr fun ξ => ?_
  ring

/-- Integrals over parameter and simulated data. -/
theorem lintegral_abcBase {sim : (Fin d → ℝ) → Tape → D} (hsim : Measurable fun z : (Fin d → ℝ) × Tape => sim z.1 z.2) (g : (Fin d → ℝ) × D → ℝ≥0∞) (hg : Measurable g) :
    ∫⁻ z, g z ∂((volume.prod ideal).map fun z => (z.1, sim z.1 z.2)) = ∫⁻ x, ∫⁻ τ, g (x, sim x τ) ∂ideal := by
  have hpair : Measurable fun z : (Fin d → ℝ) × Tape => (z.1, sim z.1 z.2) := measurable_fst.prodMk hsim
  have hc : Measurable fun z : (Fin d → ℝ) × Tape => g (z.1, sim z.1 z.2) := hg.comp hpair
  rw [lintegral_map hg hpair, lintegral_prod _ hc.aemeasurable]

theorem abcTarget_eq (hS : MeasurableSet S) (hV : Measurable V) (hB : MeasurableSet B) (hsim : Measurable fun z : (Fin d → ℝ) × Tape => sim z.1 z.2)
    {g : (Fin d → ℝ) × D → ℝ≥0∞} (hg : Measurable g) :
    ∫⁻ z, g z ∂(abcTarget S V sim B)
      = ∫⁻ z, g z ∂(((volume.prod ideal).map fun z => (z.1, sim z.1 z.2)).withDensity fun z => densOn S V z.1 * B.indicator 1 z.2) := by
  have hwm : Measurable fun z : (Fin d → ℝ) × D => densOn S V z.1 * B.indicator (1 : D → ℝ≥0∞) z.2 :=
    ((measurable_densOn hS hV).comp measurable_fst).mul ((measurable_one.indicator hB).comp measurable_snd)
  rw [lintegral_abcTarget hS hV hB hsim hg, lintegral_withDensity_eq_lintegral_mul _ hwm hg, lintegral_abcBase hsim _ (hwm.mul hg)]
  refine lintegral_congr fun x => ?_
  have hBi : Measurable fun τ => B.indicator (fun y => g (x, y)) (sim x τ) :=
    ((hg.comp measurable_prodMk_left).indicator hB).comp (hsim.comp measurable_prodMk_left)
  rw [← lintegral_const_mul _ hBi]
  refine lintegral_congr fun τ => ?_
  simp only [Pi.mul_apply]
  by_cases h : sim x τ ∈ B <;> simp [h]

theorem abcMove_invariant (hS : MeasurableSet S) (hV : Measurable V) (hB : MeasurableSet B) (hsim : Measurable fun z : (Fin d → ℝ) × Tape => sim z.1 z.2)
    (s : Fin d → ℝ) (f : (Fin d → ℝ) × D → ℝ≥0∞) (hf : Measurable f) :
    ∫⁻ z, ∫⁻ w, f (abcMove S V sim B s z w) ∂(((stdNormal d).prod ideal).prod unif) ∂(abcTarget S V sim B) = ∫⁻ z, f z ∂(abcTarget S V sim B) := by
  have hpair : Measurable fun z : (Fin d → ℝ) × Tape => (z.1, sim z.1 z.2) := measurable_fst.prodMk hsim
  have hd := measurable_densOn hS hV
  have hP := measurable_abcProp (D := D) hsim s
  set lam : Measure ((Fin d → ℝ) × D) := (volume.prod ideal).map fun z => (z.1, sim z.1 z.2) with hlam
  set w : (Fin d → ℝ) × D → ℝ≥0∞ := fun z => densOn S V z.1 * B.indicator 1 z.2 with hw
  have hwm : Measurable w := (hd.comp measurable_fst).mul ((measurable_one.indicator hB).comp measurable_snd)
  have ha : Measurable fun z : ((Fin d → ℝ) × D) × ((Fin d → ℝ) × Tape) => abcAcc S V B z.1.1 (abcProp sim s z) :=
    (measurable_abcAcc hS hV hB).comp ((measurable_fst.comp measurable_fst).prodMk hP)
  have hint : ∀ g : (Fin d → ℝ) × D → ℝ≥0∞, Measurable g → ∫⁻ z, g z ∂lam = ∫⁻ x, ∫⁻ τ, g (x, sim x τ) ∂ideal := by
    intro g hg
    have hc : Measurable fun z : (Fin d → ℝ) × Tape => g (z.1, sim z.1 z.2) := hg.comp hpair
    rw [hlam, lintegral_map hg hpair, lintegral_prod _ hc.aemeasurable]
  have htarget : ∀ g : (Fin d → ℝ) × D → ℝ≥0∞, Measurable g → ∫⁻ z, g z ∂(abcTarget S V sim B) = ∫⁻ z, g z ∂(lam.withDensity w) := by
    intro g hg
    rw [lintegral_abcTarget hS hV hB hsim hg, lintegral_withDensity_eq_lintegral_mul _ hwm hg, hint _ (hwm.mul hg)]
    refine lintegral_congr fun x => ?_
    have hBi : Measurable fun τ => B.indicator (fun y => g (x, y)) (sim x τ) :=
      ((hg.comp measurable_prodMk_left).indicator hB).comp (hsim.comp measurable_prodMk_left)
    rw [← lintegral_const_mul _ hBi]
    refine lintegral_congr fun τ => ?_
    simp only [Pi.mul_apply, hw]
    by_cases h : sim x τ ∈ B <;> simp [h]
  have hmove := measurable_abcMove hS hV hB hsim s
  have : SFinite (stdNormal d |>.prod ideal |>.prod unif) := inferInstance
  have hop : Measurable fun z => ∫⁻ w, f (abcMove S V sim B s z w) ∂(((stdNormal d).prod ideal).prod unif) :=
    Measurable.lintegral_prod_right (f := fun z w => f (abcMove S V sim B s z w)) (hf.comp hmove)
  rw [htarget _ hop, htarget f hf]
  refine metropolis_invariant lam ((stdNormal d).prod ideal) (abcProp sim s) hP (fun z => abcAcc S V B z.1.1 (abcProp sim s z)) ha ?_ ?_ w hwm f hf ?_
  · intro z; simp only [abcAcc]; split_ifs
    · exact accOn_nonneg _ _ _ _
    · exact le_rfl
  · intro z; simp only [abcAcc]; split_ifs
    · exact accOn_le_one _ _ _ _
    · exact zero_le_one
  · have hBm : Measurable fun z : (Fin d → ℝ) × D => B.indicator (1 : D → ℝ≥0∞) z.2 := (measurable_one.indicator hB).comp measurable_snd
    have hBf : Measurable fun z : (Fin d → ℝ) × D => B.indicator (1 : D → ℝ≥0∞) z.2 * f z := hBm.mul hf
    have hacc : ∀ z : ((Fin d → ℝ) × D) × ((Fin d → ℝ) × Tape), w z.1 * ENNReal.ofReal (abcAcc S V B z.1.1 (abcProp sim s z))
        = min (densOn S V z.1.1) (densOn S V (abcProp sim s z).1) * (B.indicator (1 : D → ℝ≥0∞) z.1.2 * B.indicator (1 : D → ℝ≥0∞) (abcProp sim s z).2) := by
      intro z
      rw [← dens_mul_acc]
      by_cases h : (abcProp sim s z).2 ∈ B <;> simp [hw, abcAcc, h]
      ring
    have h1 := abc_flow (lam := lam) hint hS hV hsim s hBm hBf
    have h2 := abc_flow (lam := lam) hint hS hV hsim s hBf hBm
    calc _ = ∫⁻ z, ∫⁻ ω, min (densOn S V z.1) (densOn S V (abcProp sim s (z, ω)).1) * (B.indicator (1 : D → ℝ≥0∞) z.2 * (B.indicator (1 : D → ℝ≥0∞) (abcProp sim s (z, ω)).2 * f (abcProp sim s (z, ω))))
          ∂((stdNormal d).prod ideal) ∂lam := by
          refine lintegral_congr fun z => lintegral_congr fun ω => ?_
          rw [hacc (z, ω)]; ring
      _ = ∫⁻ z, ∫⁻ ω, min (densOn S V z.1) (densOn S V (abcProp sim s (z, ω)).1) * ((B.indicator (1 : D → ℝ≥0∞) z.2 * f z) * B.indicator (1 : D → ℝ≥0∞) (abcProp sim s (z, ω)).2)
          ∂((stdNormal d).prod ideal) ∂lam := by
          rw [h1, h2]
          have hsimi : ∀ g : (Fin d → ℝ) × D → ℝ≥0∞, Measurable g → Measurable fun x => ∫⁻ τ, g (x, sim x τ) ∂ideal := fun g hg =>
            Measurable.lintegral_prod_right' (f := fun z : (Fin d → ℝ) × Tape => g (z.1, sim z.1 z.2)) (hg.comp hpair)
          have := walk_symm s (fun z => min (densOn S V z.1) (densOn S V z.2) * ((∫⁻ τ, B.indicator (1 : D → ℝ≥0∞) (sim z.1 τ) ∂ideal) * ∫⁻ τ, B.indicator (1 : D → ℝ≥0∞) (sim z.2 τ) * f (z.2, sim z.2 τ) ∂ideal))
            (((hd.comp measurable_fst).min (hd.comp measurable_snd)).mul (((hsimi _ hBm).comp measurable_fst).mul ((hsimi _ hBf).comp measurable_snd)))
          refine this.trans (lintegral_congr fun x => lintegral_congr fun ξ => ?_)
          simp only
          rw [min_comm, mul_comm (∫⁻ τ, B.indicator (1 : D → ℝ≥0∞) (sim (walk s (x, ξ)) τ) ∂ideal)]
      _ = _ := by
          refine lintegral_congr fun z => lintegral_congr fun ω => ?_
          rw [hacc (z, ω)]; ring

end

/-- C87: from every key, after any number of updates of `RandomWalkABC` with `Metropolis`, parameter and data distributed as the ABC posterior still have that distribution. The simulator is an arbitrary measurable
program, the distance function and the threshold are arbitrary (the set of accepted data being measurable), the stepsize may differ between coordinates. -/
theorem C87_invariant [MeasurableSpace D] {q : ℝ → ℝ} (hq : IsNormalDraw q) {S : Set (Fin d → ℝ)} (hS : MeasurableSet S) {V : (Fin d → ℝ) → ℝ} (hV : Measurable V) (pri : Tape → Fin d → ℝ)
    {sim : (Fin d → ℝ) → Tape → D} (hsim : Measurable fun z : (Fin d → ℝ) × Tape => sim z.1 z.2) (dist : D → Fl) (p : Params d) (hB : MeasurableSet (ball dist p.threshold))
    (n i : ℕ) (key : Keys.Key) (stp : Fin d → ℝ) (al : Fl) (t : ℝ) (f : (Fin d → ℝ) × D → ℝ≥0∞) (hf : Measurable f) :
    ∫⁻ z, ∫⁻ ω, f ((bodyIter (abcUpdate S V pri sim dist q ω) n (abcState S V dist z stp al t, ⟨key, i, p⟩)).1.payload.value,
        (bodyIter (abcUpdate S V pri sim dist q ω) n (abcState S V dist z stp al t, ⟨key, i, p⟩)).1.payload.data) ∂ideal ∂(abcTarget S V sim (ball dist p.threshold))
      = ∫⁻ z, f z ∂(abcTarget S V sim (ball dist p.threshold)) := by
  set s : Fin d → ℝ := fun i => Real.sqrt (p.stepsize i) with hs
  have hval : ∀ (n : ℕ) (ω : Tape) z k (al : Fl) (i : ℕ),
      ((bodyIter (abcUpdate S V pri sim dist q ω) n (abcState S V dist z stp al t, ⟨k, i, p⟩)).1.payload.value,
        (bodyIter (abcUpdate S V pri sim dist q ω) n (abcState S V dist z stp al t, ⟨k, i, p⟩)).1.payload.data)
        = tapeIter (abcDraws q d) Keys.abcNext (abcMove S V sim (ball dist p.threshold) s) n k z ω := by
    intro n ω
    induction n with
    | zero => intro z k al i; rfl
    | succ n ih =>
      intro z k al i
      obtain ⟨al', h⟩ := abcUpdate_eq S V pri sim dist q ω z stp al t k i p
      have : bodyIter (abcUpdate S V pri sim dist q ω) (n + 1) (abcState S V dist z stp al t, ⟨k, i, p⟩)
        = bodyIter (abcUpdate S V pri sim dist q ω) n (abcUpdate S V pri sim dist q ω (abcState S V dist z stp al t) ⟨k, i, p⟩) := by
        simp [bodyIter, Function.iterate_succ_apply]
      rw [this, h, ih]; rfl
  simp_rw [hval]
  have hm := measurable_abcMove hS hV hB hsim s
  simp_rw [lintegral_tapeIter (abcDraws_draws hq) hm n key _ hf]
  exact stepOp_invariant hm (fun f hf => abcMove_invariant hS hV hB hsim s f hf) n hf

/-- C87: the parameter marginal of the ABC posterior has density `exp (-potential) * P(distance of data simulated at x < threshold)`. -/
theorem C87_marginal [MeasurableSpace D] {S : Set (Fin d → ℝ)} (hS : MeasurableSet S) {V : (Fin d → ℝ) → ℝ} (hV : Measurable V)
    {sim : (Fin d → ℝ) → Tape → D} (hsim : Measurable fun z : (Fin d → ℝ) × Tape => sim z.1 z.2) (dist : D → Fl) (thr : Fl) (hB : MeasurableSet (ball dist thr))
    (f : (Fin d → ℝ) → ℝ≥0∞) (hf : Measurable f) :
    ∫⁻ z, f z.1 ∂(abcTarget S V sim (ball dist thr)) = ∫⁻ x, f x * ideal {τ | Fl.lt (dist (sim x τ)) thr} ∂(target S V) := by
  have hms : MeasurableSet {z : (Fin d → ℝ) × Tape | sim z.1 z.2 ∈ ball dist thr} := hsim hB
  have hp : Measurable fun x => ideal {τ | Fl.lt (dist (sim x τ)) thr} := measurable_measure_prodMk_left hms
  have ht : target S V = volume.withDensity (densOn S V) := rfl
  have hw := lintegral_withDensity_eq_lintegral_mul volume (measurable_densOn hS hV) (hf.mul hp)
  rw [ht]
  refine (lintegral_abcTarget hS hV hB hsim (hf.comp measurable_fst)).trans (Eq.trans (lintegral_congr fun x => ?_) hw.symm)
  simp only [Pi.mul_apply]
  congr 1
  have hA : MeasurableSet {τ | Fl.lt (dist (sim x τ)) thr} := measurable_prodMk_left hms
  rw [← lintegral_indicator_one hA, ← lintegral_const_mul _ (measurable_one.indicator hA)]
  refine lintegral_congr fun τ => ?_
  by_cases h : Fl.lt (dist (sim x τ)) thr
  · have h' : sim x τ ∈ ball dist thr := h
    simp [h, h']
  · have h' : sim x τ ∉ ball dist thr := h
    simp [h, h']

/-- A case: exponential prior on the positive half-line, data with one normal error, distance to the observation 1, threshold 1/2. -/
example (n : ℕ) (key : Keys.Key) (f : (Fin 1 → ℝ) × ℝ → ℝ≥0∞) (hf : Measurable f) : ∃ q, IsNormalDraw q ∧
    ∫⁻ z, ∫⁻ ω, f ((bodyIter (abcUpdate {x | 0 < x 0} (fun x => x 0) (fun _ _ => 1) (fun x τ => x 0 + q (τ ([], 0))) (fun y => Fl.fin |y - 1|) q ω) n
        (abcState {x | 0 < x 0} (fun x => x 0) (fun y => Fl.fin |y - 1|) z (fun _ => 2) (Fl.fin 1) 0, ⟨key, 0, ⟨Fl.fin (1 / 2), fun _ => 2, 0, 0⟩⟩)).1.payload.value,
        (bodyIter (abcUpdate {x | 0 < x 0} (fun x => x 0) (fun _ _ => 1) (fun x τ => x 0 + q (τ ([], 0))) (fun y => Fl.fin |y - 1|) q ω) n
        (abcState {x | 0 < x 0} (fun x => x 0) (fun y => Fl.fin |y - 1|) z (fun _ => 2) (Fl.fin 1) 0, ⟨key, 0, ⟨Fl.fin (1 / 2), fun _ => 2, 0, 0⟩⟩)).1.payload.data) ∂ideal
          ∂(abcTarget {x | 0 < x 0} (fun x => x 0) (fun x τ => x 0 + q (τ ([], 0))) (ball (fun y : ℝ => Fl.fin |y - 1|) (Fl.fin (1 / 2))))
      = ∫⁻ z, f z ∂(abcTarget {x | 0 < x 0} (fun x => x 0) (fun x τ => x 0 + q (τ ([], 0))) (ball (fun y : ℝ => Fl.fin |y - 1|) (Fl.fin (1 / 2)))) := by
  obtain ⟨q, hq⟩ := exists_isNormalDraw
  refine ⟨q, hq, C87_invariant hq (measurableSet_lt measurable_const (measurable_pi_apply 0)) (measurable_pi_apply 0) _ ?_ _ ⟨Fl.fin (1 / 2), fun _ => 2, 0, 0⟩ ?_ n 0 key _ _ _ f hf⟩
  · exact ((measurable_pi_apply 0).comp measurable_fst).add (hq.measurable.comp ((measurable_pi_apply (([], 0) : Site)).comp measurable_snd))
  · change MeasurableSet {y : ℝ | |y - 1| < 1 / 2}
    exact measurableSet_lt (by fun_prop) measurable_const

end Mocat.Props
