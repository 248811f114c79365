import Verif.Lemmas.SmcRmRun
import Verif.Lemmas.SmcAdaptiveLink
import Verif.Props.SmcMore
/-! The moves of `RandomWalk` at a temperature and a stepsize, and their mean acceptance probability. -/
namespace Mocat.Smc
open Mocat Mocat.Ideal Mocat.Meas Mocat.Props MeasureTheory Filter Topology
open scoped ENNReal

section
variable {X D : Type*}

/-- The sum of `φ` over `m` steps. -/
def tapeSum (draw : Keys.Key → Tape → D) (next : Keys.Key → Keys.Key) (step : X → D → X) (φ : X → D → ℝ) : ℕ → Keys.Key → X → Tape → ℝ
  | 0, _, _, _ => 0
  | m + 1, k, x, ω => φ x (draw k ω) + tapeSum draw next step φ m (next k) (step x (draw k ω)) ω

theorem tapeSum_mem (draw : Keys.Key → Tape → D) (next : Keys.Key → Keys.Key) (step : X → D → X) {φ : X → D → ℝ} (h : ∀ x z, φ x z ∈ Set.Icc 0 1) (m : ℕ) (k : Keys.Key) (x : X) (ω : Tape) :
    tapeSum draw next step φ m k x ω ∈ Set.Icc (0 : ℝ) m := by
  induction m generalizing k x with
  | zero => simp [tapeSum]
  | succ m ih =>
    have h1 := h x (draw k ω)
    have h2 := ih (next k) (step x (draw k ω))
    simp only [tapeSum, Set.mem_Icc, Nat.cast_add, Nat.cast_one] at h1 h2 ⊢
    constructor <;> linarith [h1.1, h1.2, h2.1, h2.2]

theorem tapeSum_dependsOn [MeasurableSpace D] {draw : Keys.Key → Tape → D} {next : Keys.Key → Keys.Key} {δ : Measure D} (hd : Draws draw next δ) (step : X → D → X) (φ : X → D → ℝ) (m : ℕ) (k : Keys.Key) (x : X) :
    DependsOn (tapeSum draw next step φ m k x) (below k) := by
  induction m generalizing k x with
  | zero => intro _ _ _; rfl
  | succ m ih =>
    intro ω ω' h
    obtain ⟨S, h1, h2, -⟩ := hd.reads k
    simp only [tapeSum]
    rw [h1 fun s hs => h s (h2 hs), ih _ _ fun s hs => h s (hd.next k hs)]

theorem measurable_tapeSum {Θ : Type*} [MeasurableSpace Θ] [MeasurableSpace X] [MeasurableSpace D] {draw : Keys.Key → Tape → D} {next : Keys.Key → Keys.Key} {δ : Measure D}
    (hd : Draws draw next δ) {step : Θ → X → D → X} (hs : Measurable fun z : (Θ × X) × D => step z.1.1 z.1.2 z.2) {φ : Θ → X → D → ℝ} (hφ : Measurable fun z : (Θ × X) × D => φ z.1.1 z.1.2 z.2) (m : ℕ) (k : Keys.Key) :
    Measurable fun z : (Θ × X) × Tape => tapeSum draw next (step z.1.1) (φ z.1.1) m k z.1.2 z.2 := by
  induction m generalizing k with
  | zero => exact measurable_const
  | succ m ih =>
    have h1 : Measurable fun z : (Θ × X) × Tape => step z.1.1 z.1.2 (draw k z.2) := hs.comp (measurable_fst.prodMk ((hd.measurable k).comp measurable_snd))
    have h2 : Measurable fun z : (Θ × X) × Tape => φ z.1.1 z.1.2 (draw k z.2) := hφ.comp (measurable_fst.prodMk ((hd.measurable k).comp measurable_snd))
    have h3 := (ih (next k)).comp (((measurable_fst.comp measurable_fst).prodMk h1).prodMk measurable_snd)
    exact h2.add h3

variable {ρ π : Type*}

/-- Sums over the inner chain. -/
theorem chain_sum (update : MState X ρ → Extra Keys.Key π → MState X ρ × Extra Keys.Key π) (par : π) (good : MState X ρ → Prop)
    (draw : Keys.Key → Tape → D) (next : Keys.Key → Keys.Key) (step : X → D → X) (φ : X → D → ℝ) (ω : Tape)
    (h : ∀ s k i, good s → (update s ⟨k, i, par⟩).1.value = step s.value (draw k ω) ∧ (update s ⟨k, i, par⟩).1.alpha = φ s.value (draw k ω) ∧ (update s ⟨k, i, par⟩).2 = ⟨next k, i + 1, par⟩ ∧
      good (update s ⟨k, i, par⟩).1)
    (m : ℕ) (s : MState X ρ) (k : Keys.Key) (i : ℕ) (hs : good s) :
    ((scan (fun (c : MState X ρ × Extra Keys.Key π) (_ : Unit) => let new := update c.1 c.2; (new, new.1)) (s, ⟨k, i, par⟩)
      (List.replicate m ())).2.map MState.alpha).sum = tapeSum draw next step φ m k s.value ω := by
  induction m generalizing s k i with
  | zero => rfl
  | succ m ih =>
    obtain ⟨h1, h2, h3, h4⟩ := h s k i hs
    set new := update s ⟨k, i, par⟩ with hnew
    have h5 := ih new.1 (next k) (i + 1) h4
    rw [← h3] at h5
    rw [List.replicate_succ]
    simp only [scan, tapeSum, List.map_cons, List.sum_cons]
    rw [← h1, ← h5, ← h2]

theorem scan_len {c x y : Type*} (f : c → x → c × y) (l : List x) (s : c) : (scan f s l).2.length = l.length := by
  induction l generalizing s with
  | nil => rfl
  | cons a l ih => simp only [scan, List.length_cons, ih]

end

section
variable {d : ℕ} (q : ℝ → ℝ) (prior lik : (Fin d → ℝ) → ℝ)

theorem rwUpdate_alpha {K : Type*} (S : Set (Fin d → ℝ)) (V : (Fin d → ℝ) → ℝ) (split3 : Mcmc.Split3 K) (normal : K → Fin d → ℝ) (split : K → K × K) (uniform : K → ℝ)
    (x : Fin d → ℝ) (al : Fl) (t : ℝ) (k : K) (i : ℕ) (step : ℝ) :
    (rwUpdate S V split3 normal split uniform (rwState S V x al t) ⟨k, i, step⟩).1.alpha = Fl.fin (Mcmc.accOn S V x (Mcmc.rwProp (Real.sqrt step) (x, (draws split3 normal split uniform k).1))) := by
  set smp := Mcmc.randomWalk split3 normal (fun x _ => Mcmc.potOn S V x) with hsmp
  have hupd : rwUpdate S V split3 normal split uniform (rwState S V x al t) ⟨k, i, step⟩
    = Mcmc.metropolis split uniform smp (rwState S V x al t) ⟨k, i + 1, step⟩
      (smp.proposal (rwState S V x al t) ⟨k, i + 1, step⟩).1
      (smp.proposal (rwState S V x al t) ⟨k, i + 1, step⟩).2 := rfl
  have hprop : smp.proposal (rwState S V x al t) ⟨k, i + 1, step⟩
      = (rwState S V (Mcmc.rwProp (Real.sqrt step) (x, (draws split3 normal split uniform k).1)) al t,
        ⟨(split3 k).1, i + 1, step⟩) := rfl
  obtain ⟨a, ha, h1, h2⟩ := C14_all_or_nothing split uniform smp (rwState S V x al t) ⟨k, i + 1, step⟩
    (smp.proposal (rwState S V x al t) ⟨k, i + 1, step⟩).1 (smp.proposal (rwState S V x al t) ⟨k, i + 1, step⟩).2
  have hacc : a = Fl.fin (Mcmc.accOn S V x (Mcmc.rwProp (Real.sqrt step) (x, (draws split3 normal split uniform k).1))) := by
    rw [ha, hprop]; exact Mcmc.accOn_eq S V _ _
  rw [hupd, ← hacc]
  by_cases hlt : Fl.lt (Fl.fin (uniform (split (smp.proposal (rwState S V x al t) ⟨k, i + 1, step⟩).2.key).2)) a
  · rw [h1 hlt]
  · rw [h2 hlt]

/-- The acceptance probability of one step. -/
noncomputable def rwAcc (θ : ℝ × ℝ) (x : Fin d → ℝ) (z : (Fin d → ℝ) × ℝ) : ℝ := Mcmc.accOn Set.univ (fun x => prior x + θ.1 * lik x) x (Mcmc.rwProp (Real.sqrt (Real.exp θ.2)) (x, z.1))

/-- The moves. -/
noncomputable def rwMv (m : ℕ) (θ : ℝ × ℝ) (k : Keys.Key) (x : Fin d → ℝ) (ω : Tape) : Fin d → ℝ := tapeIter (rwDraws q d) Keys.rwNext (rwWith prior lik θ) m (0 :: k) x ω

/-- Their mean acceptance probability. -/
noncomputable def rwAl (m : ℕ) (θ : ℝ × ℝ) (k : Keys.Key) (x : Fin d → ℝ) (ω : Tape) : ℝ := tapeSum (rwDraws q d) Keys.rwNext (rwWith prior lik θ) (rwAcc prior lik θ) m (0 :: k) x ω / m

theorem rwTape_alpha (ω : Tape) (T : ℝ) (step : ℝ) (s : MState (Fin d → ℝ) ℝ) (k : Keys.Key) (i : ℕ) (hs : s.potential = prior s.value + T * lik s.value) :
    ((rwTape q prior lik ω).update T s ⟨k, i, step⟩).1.alpha = Mcmc.accOn Set.univ (fun x => prior x + T * lik x) s.value (Mcmc.rwProp (Real.sqrt step) (s.value, (rwDraws q d k ω).1)) := by
  have hpot : (fun (x : Fin d → ℝ) (_ : Keys.Key) => Fl.fin (prior x + T * lik x)) = fun x _ => Mcmc.potOn Set.univ (fun x => prior x + T * lik x) x := by
    funext x _; simp [Mcmc.potOn]
  have hst : (⟨⟨s.value, Fl.fin s.potential⟩, Fl.fin s.alpha, s.rest⟩ : Mcmc.State (Mcmc.RWPayload d)) = rwState Set.univ (fun x => prior x + T * lik x) s.value (Fl.fin s.alpha) s.rest := by
    simp [rwState, Mcmc.potOn, hs]
  have h := rwUpdate_alpha Set.univ (fun x => prior x + T * lik x) Keys.split3 (normalAt q d ω) Keys.split (fun k => ω (k, 0)) s.value (Fl.fin s.alpha) s.rest k i step
  unfold rwUpdate at h
  rw [← hpot, ← hst] at h
  simp only [rwTape, rwKernel]
  rw [h]
  rfl

/-- What `forward_proposal` does to a particle. -/
theorem rw_forward (p : Params) (ω : Tape) (T u : ℝ) (particle : Particle (Fin d → ℝ) ℝ) (k' k : Keys.Key) (i : ℕ) :
    (forwardProposal (rwTape q prior lik ω) prior p T particle ⟨k', i, Real.exp u⟩ k).mc.value = rwMv q prior lik p.mcmcSteps (T, u) k particle.mc.value ω ∧
    (forwardProposal (rwTape q prior lik ω) prior p T particle ⟨k', i, Real.exp u⟩ k).mc.alpha = rwAl q prior lik p.mcmcSteps (T, u) k particle.mc.value ω := by
  have h := C42_randomWalk_tracks Keys.split Keys.split3 (normalAt q d ω) (fun k => ω (k, 0)) prior lik
  constructor
  · refine chain_value ((rwTape q prior lik ω).update T) (Real.exp u) (fun s => s.potential = prior s.value + T * lik s.value) (rwDraws q d) Keys.rwNext _ ω
      (fun s k i hs => ?_) p.mcmcSteps ((rwTape q prior lik ω).startup T particle.mc ⟨k, i, Real.exp u⟩).1 (0 :: k) i rfl
    obtain ⟨h1, h2⟩ := rwTape_update q prior lik (Real.exp u) ω T s k i hs
    exact ⟨h1, h2, h.update T s ⟨k, i, Real.exp u⟩ hs⟩
  · have h5 := chain_sum ((rwTape q prior lik ω).update T) (Real.exp u) (fun s => s.potential = prior s.value + T * lik s.value) (rwDraws q d) Keys.rwNext (rwWith prior lik (T, u)) (rwAcc prior lik (T, u)) ω
      (fun s k i hs => by
        obtain ⟨h1, h2⟩ := rwTape_update q prior lik (Real.exp u) ω T s k i hs
        exact ⟨h1, rwTape_alpha q prior lik ω T (Real.exp u) s k i hs, h2, h.update T s ⟨k, i, Real.exp u⟩ hs⟩)
      p.mcmcSteps ((rwTape q prior lik ω).startup T particle.mc ⟨k, i, Real.exp u⟩).1 (0 :: k) i rfl
    simp only [forwardProposal, scan_len, List.length_replicate]
    exact congrArg (· / (p.mcmcSteps : ℝ)) h5

variable {q prior lik}

theorem measurable_rwWith (hprior : Measurable prior) (hlik : Measurable lik) :
    (Measurable fun z : ((ℝ × ℝ) × (Fin d → ℝ)) × ((Fin d → ℝ) × ℝ) => rwAcc prior lik z.1.1 z.1.2 z.2) ∧
    Measurable fun z : ((ℝ × ℝ) × (Fin d → ℝ)) × ((Fin d → ℝ) × ℝ) => rwWith prior lik z.1.1 z.1.2 z.2 := by
  have m0 : Measurable fun z : ((ℝ × ℝ) × (Fin d → ℝ)) × ((Fin d → ℝ) × ℝ) => z.1.2 := measurable_snd.comp measurable_fst
  have mt : Measurable fun z : ((ℝ × ℝ) × (Fin d → ℝ)) × ((Fin d → ℝ) × ℝ) => z.1.1.1 := measurable_fst.comp (measurable_fst.comp measurable_fst)
  have mu : Measurable fun z : ((ℝ × ℝ) × (Fin d → ℝ)) × ((Fin d → ℝ) × ℝ) => Real.sqrt (Real.exp z.1.1.2) := Real.continuous_sqrt.measurable.comp (Real.measurable_exp.comp (measurable_snd.comp (measurable_fst.comp measurable_fst)))
  have m1 : Measurable fun z : ((ℝ × ℝ) × (Fin d → ℝ)) × ((Fin d → ℝ) × ℝ) => Mcmc.rwProp (Real.sqrt (Real.exp z.1.1.2)) (z.1.2, z.2.1) :=
    measurable_pi_lambda _ fun i => ((measurable_pi_apply i).comp m0).add (mu.mul ((measurable_pi_apply i).comp (measurable_fst.comp measurable_snd)))
  have m2 : Measurable fun z : ((ℝ × ℝ) × (Fin d → ℝ)) × ((Fin d → ℝ) × ℝ) => prior z.1.2 + z.1.1.1 * lik z.1.2 := (hprior.comp m0).add (mt.mul (hlik.comp m0))
  have m3 : Measurable fun z : ((ℝ × ℝ) × (Fin d → ℝ)) × ((Fin d → ℝ) × ℝ) => prior (Mcmc.rwProp (Real.sqrt (Real.exp z.1.1.2)) (z.1.2, z.2.1)) + z.1.1.1 * lik (Mcmc.rwProp (Real.sqrt (Real.exp z.1.1.2)) (z.1.2, z.2.1)) :=
    (hprior.comp m1).add (mt.mul (hlik.comp m1))
  have ma : Measurable fun z : ((ℝ × ℝ) × (Fin d → ℝ)) × ((Fin d → ℝ) × ℝ) => rwAcc prior lik z.1.1 z.1.2 z.2 := by
    simp only [rwAcc, accOn_univ]
    exact measurable_const.min (Real.measurable_exp.comp (m3.neg.add m2))
  refine ⟨ma, ?_⟩
  unfold rwWith rwAt rwMove
  exact Measurable.ite (measurableSet_lt (measurable_snd.comp measurable_snd) ma) m1 m0

theorem rw_tune (hq : IsNormalDraw q) (hprior : Measurable prior) (hlik : Measurable lik) (m : ℕ) :
    TuneLaw (rwMv q prior lik m) (rwAl q prior lik m) fun θ => (stepOp ((stdNormal d).prod unif) (rwWith prior lik θ))^[m] where
  measurable k := measurable_tapeIter_param (rwDraws_draws hq) (step := rwWith prior lik) (measurable_rwWith hprior hlik).2 m (0 :: k)
  dependsOn _ k x := fun _ _ h => tapeIter_dependsOn (rwDraws_draws hq) _ m (0 :: k) x fun s hs => h s (mem_below_cons hs)
  law θ k x _ hh := lintegral_tapeIter (rwDraws_draws hq) (measurable_rwWith_uncurry hprior hlik θ) m (0 :: k) x hh
  al_measurable k := by
    have h := measurable_tapeSum (rwDraws_draws hq) (measurable_rwWith hprior hlik).2 (measurable_rwWith hprior hlik).1 m (0 :: k)
    exact h.div_const _
  al_dependsOn θ k x := fun ω ω' h => by
    unfold rwAl
    rw [tapeSum_dependsOn (rwDraws_draws hq) _ _ m (0 :: k) x fun s hs => h s (mem_below_cons hs)]
  al_mem θ k x ω := by
    obtain ⟨h1, h2⟩ := tapeSum_mem (rwDraws q d) Keys.rwNext (rwWith prior lik θ) (φ := rwAcc prior lik θ) (fun x z => ⟨Mcmc.accOn_nonneg _ _ _ _, Mcmc.accOn_le_one _ _ _ _⟩) m (0 :: k) x ω
    exact ⟨div_nonneg h1 (Nat.cast_nonneg _), div_le_one_of_le₀ h2 (Nat.cast_nonneg _)⟩

end

end Mocat.Smc
