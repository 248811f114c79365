import Verif.Lemmas.Tape
import Verif.Props.HMCInvariant
import Verif.Props.RWInvariant
/-! Chains of MCMC updates whose draws come from an ideal tape. -/
namespace Mocat.Ideal
open MeasureTheory ProbabilityTheory Mocat.Meas Mocat.Mcmc Mocat.Props
open scoped ENNReal

variable {d : ℕ} {q : ℝ → ℝ}

/-- `random.normal(key, (d,))` on a tape. -/
def normalAt (q : ℝ → ℝ) (d : ℕ) (ω : Tape) (k : Keys.Key) (j : Fin d) : ℝ := q (ω (k, j))

theorem measurable_normalAt (hq : IsNormalDraw q) (k : Keys.Key) : Measurable fun ω => normalAt q d ω k :=
  measurable_pi_lambda _ fun _ => hq.measurable.comp (measurable_pi_apply _)

/-- The law of a vector of normal draws with one key. -/
theorem map_normalAt (hq : IsNormalDraw q) (k : Keys.Key) : ideal.map (fun ω => normalAt q d ω k) = stdNormal d := by
  have h1 : iIndepFun (fun (s : Site) (ω : Tape) => q (ω s)) ideal :=
    iIndepFun_infinitePi (X := fun _ x => q x) fun _ => hq.measurable
  have hinj : Function.Injective fun j : Fin d => ((k, (j : ℕ)) : Site) := fun a b h => Fin.ext (Prod.mk.inj h).2
  have h2 := h1.precomp hinj
  have h3 := (iIndepFun_iff_map_fun_eq_pi_map (fun j => (hq.measurable.comp (measurable_pi_apply _)).aemeasurable)).mp h2
  have h4 : ∀ s : Site, ideal.map (fun ω : Tape => q (ω s)) = gaussianReal 0 1 := fun s => by
    have h5 := (measurePreserving_eval_infinitePi (fun _ : Site => unif) s).map_eq
    have h6 : (fun ω : Tape => q (ω s)) = q ∘ Function.eval s := rfl
    rw [h6, ← Measure.map_map hq.measurable (measurable_pi_apply s)]
    change Measure.map q (Measure.map (Function.eval s) (Measure.infinitePi fun _ => unif)) = _
    rw [h5, hq.law]
  unfold stdNormal
  refine h3.trans ?_
  congr 1
  funext j
  exact h4 _

/-- Draws at different keys. -/
theorem lintegral_normal_unif (hq : IsNormalDraw q) {k k' : Keys.Key} (h : k ≠ k') {F : (Fin d → ℝ) × ℝ → ℝ≥0∞} (hF : Measurable F) :
    ∫⁻ ω, F (normalAt q d ω k, ω (k', 0)) ∂ideal = ∫⁻ z, F z ∂((stdNormal d).prod unif) := by
  have hS : Disjoint {s : Site | s.1 = k} {s : Site | s.1 = k'} := by
    rw [Set.disjoint_left]; rintro s h1 h2; exact h (h1.symm.trans h2)
  rw [fresh hS (f := fun ω => normalAt q d ω k) (g := fun a ω => F (a, ω (k', 0))) (measurable_normalAt hq k)
    (fun x y hxy => funext fun j => by simp only [normalAt]; rw [hxy _ rfl])
    (hF.comp (measurable_fst.prodMk ((measurable_pi_apply _).comp measurable_snd)))
    (fun a x y hxy => by simp only; rw [hxy _ rfl]), lintegral_prod _ hF.aemeasurable, ← map_normalAt hq k,
    lintegral_map (Measurable.lintegral_prod_right' hF) (measurable_normalAt hq k)]
  refine lintegral_congr fun ω => ?_
  have h5 := (measurePreserving_eval_infinitePi (fun _ : Site => unif) (k', 0)).map_eq
  have h6 : ideal.map (fun ω : Tape => ω (k', 0)) = unif := h5
  have hc : Measurable fun y : ℝ => F (normalAt q d ω k, y) := hF.comp measurable_prodMk_left
  rw [← h6, lintegral_map hc (measurable_pi_apply _)]

/-- The law of a normal vector and a uniform drawn with different keys. -/
theorem map_normal_unif (hq : IsNormalDraw q) {k k' : Keys.Key} (h : k ≠ k') :
    ideal.map (fun ω => (normalAt q d ω k, ω (k', 0))) = (stdNormal d).prod unif := by
  have hm : Measurable fun ω : Tape => (normalAt q d ω k, ω (k', 0)) := (measurable_normalAt hq _).prodMk (measurable_pi_apply _)
  refine Measure.ext fun A hA => ?_
  have h1 := lintegral_normal_unif (d := d) hq h (F := A.indicator 1) (measurable_one.indicator hA)
  rw [lintegral_indicator_one hA] at h1
  rw [← h1, ← lintegral_map (f := A.indicator 1) (measurable_one.indicator hA) hm, lintegral_indicator_one hA]

/-! ## Chains -/

section
variable {X D : Type*}

/-- `m` steps, the first with the draws of key `k`, the next with those of key `next k`, ... -/
def tapeIter (draw : Keys.Key → Tape → D) (next : Keys.Key → Keys.Key) (step : X → D → X) : ℕ → Keys.Key → X → Tape → X
  | 0, _, x, _ => x
  | m + 1, k, x, ω => tapeIter draw next step m (next k) (step x (draw k ω)) ω

/-- What key `k` draws, and nothing at or below the next key, is read at `reads k`. -/
structure Draws (draw : Keys.Key → Tape → D) (next : Keys.Key → Keys.Key) [MeasurableSpace D] (δ : Measure D) : Prop where
  measurable : ∀ k, Measurable (draw k)
  reads : ∀ k, ∃ S : Set Site, DependsOn (draw k) S ∧ S ⊆ below k ∧ Disjoint S (below (next k))
  next : ∀ k, below (next k) ⊆ below k
  law : ∀ k, ideal.map (draw k) = δ

/-- The transition operator of one step. -/
noncomputable def stepOp [MeasurableSpace D] (δ : Measure D) (step : X → D → X) (h : X → ℝ≥0∞) (x : X) : ℝ≥0∞ := ∫⁻ z, h (step x z) ∂δ

variable [MeasurableSpace X] [MeasurableSpace D] {draw : Keys.Key → Tape → D} {next : Keys.Key → Keys.Key} {δ : Measure D} {step : X → D → X}

theorem measurable_tapeIter (hd : Draws draw next δ) (hs : Measurable (Function.uncurry step)) (m : ℕ) (k : Keys.Key) :
    Measurable fun z : X × Tape => tapeIter draw next step m k z.1 z.2 := by
  induction m generalizing k with
  | zero => exact measurable_fst
  | succ m ih =>
    have h1 : Measurable fun z : X × Tape => step z.1 (draw k z.2) := hs.comp (measurable_fst.prodMk ((hd.measurable k).comp measurable_snd))
    exact (ih (next k)).comp (h1.prodMk measurable_snd)

omit [MeasurableSpace X] in
theorem tapeIter_dependsOn (hd : Draws draw next δ) (step : X → D → X) (m : ℕ) (k : Keys.Key) (x : X) :
    DependsOn (tapeIter draw next step m k x) (below k) := by
  induction m generalizing k x with
  | zero => intro _ _ _; rfl
  | succ m ih =>
    intro ω ω' h
    obtain ⟨S, h1, h2, -⟩ := hd.reads k
    simp only [tapeIter]
    rw [h1 fun s hs => h s (h2 hs)]
    exact ih _ _ fun s hs => h s (hd.next k hs)

theorem measurable_stepOp [SFinite δ] (hs : Measurable (Function.uncurry step)) {h : X → ℝ≥0∞} (hh : Measurable h) : Measurable (stepOp δ step h) :=
  Measurable.lintegral_prod_right (hh.comp hs)

theorem measurable_stepOp_iterate [SFinite δ] (hs : Measurable (Function.uncurry step)) (m : ℕ) {h : X → ℝ≥0∞} (hh : Measurable h) :
    Measurable ((stepOp δ step)^[m] h) := by
  induction m with
  | zero => exact hh
  | succ m ih => rw [Function.iterate_succ_apply']; exact measurable_stepOp hs ih

/-- The law of a chain does not depend on the key it starts with. -/
theorem lintegral_tapeIter [SFinite δ] (hd : Draws draw next δ) (hs : Measurable (Function.uncurry step)) (m : ℕ) (k : Keys.Key) (x : X)
    {h : X → ℝ≥0∞} (hh : Measurable h) : ∫⁻ ω, h (tapeIter draw next step m k x ω) ∂ideal = (stepOp δ step)^[m] h x := by
  induction m generalizing k x with
  | zero => simp [tapeIter]
  | succ m ih =>
    rw [Function.iterate_succ_apply']
    obtain ⟨S, h1, -, h3⟩ := hd.reads k
    have hsx : Measurable fun z => step x z := hs.comp measurable_prodMk_left
    have hm : Measurable fun ω => step x (draw k ω) := hsx.comp (hd.measurable k)
    have e := fresh h3 (f := fun ω => step x (draw k ω)) (g := fun a ω => h (tapeIter draw next step m (next k) a ω)) hm
      (fun ω ω' hω => by simp only; rw [h1 hω]) (hh.comp (measurable_tapeIter hd hs m _))
      (fun a ω ω' hω => by simp only; rw [tapeIter_dependsOn hd step m _ a hω])
    simp only [tapeIter]
    rw [e]
    simp_rw [ih]
    have e2 := lintegral_map (μ := ideal) ((measurable_stepOp_iterate (δ := δ) hs m hh).comp hsx) (hd.measurable k)
    rw [hd.law k] at e2
    exact e2.symm

theorem stepOp_invariant [SFinite δ] (hs : Measurable (Function.uncurry step)) {mu : Measure X}
    (hinv : ∀ f : X → ℝ≥0∞, Measurable f → ∫⁻ x, ∫⁻ w, f (step x w) ∂δ ∂mu = ∫⁻ x, f x ∂mu) (m : ℕ) {h : X → ℝ≥0∞} (hh : Measurable h) :
    ∫⁻ x, (stepOp δ step)^[m] h x ∂mu = ∫⁻ x, h x ∂mu := by
  induction m with
  | zero => rfl
  | succ m ih => rw [Function.iterate_succ_apply', ← ih]; exact hinv _ (measurable_stepOp_iterate hs m hh)

end

/-! ## RandomWalk -/

/-- One update of the position, from the draws. -/
noncomputable def rwMove (S : Set (Fin d → ℝ)) (V : (Fin d → ℝ) → ℝ) (step : ℝ) (x : Fin d → ℝ) (z : (Fin d → ℝ) × ℝ) : Fin d → ℝ :=
  if z.2 < accOn S V x (rwProp (Real.sqrt step) (x, z.1)) then rwProp (Real.sqrt step) (x, z.1) else x

theorem measurable_rwMove {S : Set (Fin d → ℝ)} (hS : MeasurableSet S) {V : (Fin d → ℝ) → ℝ} (hV : Measurable V) (step : ℝ) :
    Measurable (Function.uncurry (rwMove S V step)) := by
  have mT := measurable_rwProp (d := d) (Real.sqrt step)
  have m1 : Measurable fun z : (Fin d → ℝ) × ((Fin d → ℝ) × ℝ) => rwProp (Real.sqrt step) (z.1, z.2.1) :=
    mT.comp (measurable_fst.prodMk (measurable_fst.comp measurable_snd))
  refine Measurable.ite (measurableSet_lt (measurable_snd.comp measurable_snd) ?_) m1 measurable_fst
  exact (measurable_accOn hS hV).comp (measurable_fst.prodMk m1)

/-- The draws of the update that starts with key `k`. -/
def rwDraws (q : ℝ → ℝ) (d : ℕ) (k : Keys.Key) (ω : Tape) : (Fin d → ℝ) × ℝ := (normalAt q d ω (1 :: k), ω (1 :: 0 :: k, 0))

theorem rwDraws_draws (hq : IsNormalDraw q) : Draws (rwDraws q d) Keys.rwNext ((stdNormal d).prod unif) where
  measurable k := (measurable_normalAt hq _).prodMk (measurable_pi_apply _)
  reads k := by
    refine ⟨{s | s.1 = 1 :: k} ∪ {s | s.1 = 1 :: 0 :: k}, fun x y h => Prod.ext (funext fun j => ?_) (h _ (Or.inr rfl)), ?_, ?_⟩
    · simp only [rwDraws, normalAt]; rw [h _ (Or.inl rfl)]
    · rintro s (hs | hs)
      · exact ⟨[1], hs⟩
      · exact ⟨[1, 0], hs⟩
    · rw [Set.disjoint_left]
      rintro ⟨s, t⟩ h1 h2
      rcases h1 with h1 | h1
      · simp only [Set.mem_ofPred_eq] at h1; subst h1; exact below_cons_ne (by decide) (mem_below_cons h2)
      · simp only [Set.mem_ofPred_eq] at h1; subst h1; exact below_cons_ne (by decide) h2
  next k s hs := mem_below_cons (mem_below_cons hs)
  law k := map_normal_unif hq (by simp)

theorem rwMove_invariant {S : Set (Fin d → ℝ)} (hS : MeasurableSet S) {V : (Fin d → ℝ) → ℝ} (hV : Measurable V) (step : ℝ) (f : (Fin d → ℝ) → ℝ≥0∞) (hf : Measurable f) :
    ∫⁻ x, ∫⁻ w, f (rwMove S V step x w) ∂((stdNormal d).prod unif) ∂(target S V) = ∫⁻ x, f x ∂(target S V) := by
  have mT := measurable_rwProp (d := d) (Real.sqrt step)
  have ma : Measurable fun z : (Fin d → ℝ) × (Fin d → ℝ) => accOn S V z.1 (rwProp (Real.sqrt step) z) :=
    (measurable_accOn hS hV).comp (measurable_fst.prodMk mT)
  exact metropolis_invariant volume (stdNormal d) (rwProp (Real.sqrt step)) mT
    (fun z => accOn S V z.1 (rwProp (Real.sqrt step) z)) ma (fun _ => accOn_nonneg _ _ _ _)
    (fun _ => accOn_le_one _ _ _ _) (densOn S V) (measurable_densOn hS hV) f hf
    (rw_balance hS hV _ _ (stdNormal_map_neg d) f hf)

/-! ## Underdamped -/

/-- The draws of the update that starts with key `k`. -/
def udDrawsAt (q : ℝ → ℝ) (d : ℕ) (k : Keys.Key) (ω : Tape) : (Fin d → ℝ) × ℝ := (normalAt q d ω (1 :: k), ω (1 :: 0 :: 0 :: k, 0))

theorem udDrawsAt_draws (hq : IsNormalDraw q) : Draws (udDrawsAt q d) Keys.udNext ((stdNormal d).prod unif) where
  measurable k := (measurable_normalAt hq _).prodMk (measurable_pi_apply _)
  reads k := by
    refine ⟨{s | s.1 = 1 :: k} ∪ {s | s.1 = 1 :: 0 :: 0 :: k}, fun x y h => Prod.ext (funext fun j => ?_) (h _ (Or.inr rfl)), ?_, ?_⟩
    · simp only [udDrawsAt, normalAt]; rw [h _ (Or.inl rfl)]
    · rintro s (hs | hs)
      · exact ⟨[1], hs⟩
      · exact ⟨[1, 0, 0], hs⟩
    · rw [Set.disjoint_left]
      rintro ⟨s, t⟩ h1 h2
      rcases h1 with h1 | h1
      · simp only [Set.mem_ofPred_eq] at h1; subst h1; exact below_cons_ne (by decide) (mem_below_cons (mem_below_cons h2))
      · simp only [Set.mem_ofPred_eq] at h1; subst h1; exact below_cons_ne (by decide) h2
  next k s hs := mem_below_cons (mem_below_cons (mem_below_cons hs))
  law k := map_normal_unif hq (fun h => by simpa using congrArg List.length h)

/-- One update of the position with infinite friction, from the draws. -/
noncomputable def udMove (prior lik : (Fin d → ℝ) → ℝ × (Fin d → ℝ)) (T : ℝ) (L : ℕ) (p : UDParams) (x : Fin d → ℝ) (w : (Fin d → ℝ) × ℝ) : Fin d → ℝ :=
  (udStep prior lik T L p (x, 0) w).1

theorem udStep_fst (prior lik : (Fin d → ℝ) → ℝ × (Fin d → ℝ)) (T : ℝ) (L : ℕ) (p : UDParams) (hp : p.friction = none) (z : (Fin d → ℝ) × (Fin d → ℝ)) (w : (Fin d → ℝ) × ℝ) :
    (udStep prior lik T L p z w).1 = udMove prior lik T L p z.1 w := by
  have : refreshMomenta p z.2 w.1 = refreshMomenta p 0 w.1 := by
    funext i
    simp [refreshMomenta, decay, hp]
  unfold udMove udStep
  simp only [this]

theorem measurable_udMove {prior lik : (Fin d → ℝ) → ℝ × (Fin d → ℝ)} {T : ℝ} (hg : Measurable (gradField prior lik T)) (hU : Measurable (potAt prior lik T)) (L : ℕ) (p : UDParams) :
    Measurable (Function.uncurry (udMove prior lik T L p)) :=
  measurable_fst.comp ((measurable_udStep prior lik T L hg hU p).comp ((measurable_fst.prodMk measurable_const).prodMk measurable_snd))

/-- The law of the position. -/
noncomputable def posTarget (prior lik : (Fin d → ℝ) → ℝ × (Fin d → ℝ)) (T : ℝ) : Measure (Fin d → ℝ) :=
  volume.withDensity fun x => ENNReal.ofReal (Real.exp (-potAt prior lik T x))

theorem udMove_invariant {prior lik : (Fin d → ℝ) → ℝ × (Fin d → ℝ)} {T : ℝ} (hg : Measurable (gradField prior lik T)) (hU : Measurable (potAt prior lik T)) (L : ℕ)
    (p : UDParams) (hf : p.friction = none) (hε : 0 < p.stepsize) (f : (Fin d → ℝ) → ℝ≥0∞) (hfm : Measurable f) :
    ∫⁻ x, ∫⁻ w, f (udMove prior lik T L p x w) ∂((stdNormal d).prod unif) ∂(posTarget prior lik T) = ∫⁻ x, f x ∂(posTarget prior lik T) := by
  have h := udStep_invariant prior lik T L hg hU p ⟨hε.le, fun γ hγ => by simp [hf] at hγ, fun _ => hε⟩ (fun z => f z.1) (hfm.comp measurable_fst)
  simp only [udStep_fst prior lik T L p hf] at h
  have m1 : Measurable fun x => ∫⁻ w, f (udMove prior lik T L p x w) ∂((stdNormal d).prod unif) :=
    Measurable.lintegral_prod_right (hfm.comp (measurable_udMove hg hU L p))
  unfold udTarget at h
  have key : ∀ g : (Fin d → ℝ) → ℝ≥0∞, Measurable g →
      ∫⁻ z, g z.1 ∂((volume.withDensity fun x => ENNReal.ofReal (Real.exp (-potAt prior lik T x))).prod (stdNormal d)) = ∫⁻ x, g x ∂(posTarget prior lik T) := by
    intro g hgm
    rw [lintegral_prod (fun z => g z.1) (hgm.comp measurable_fst).aemeasurable]
    simp [posTarget]
  rw [key _ m1, key _ hfm] at h
  exact h

end Mocat.Ideal
