import Verif.Props.AbcPriors
/-!
# C121: the Ricker model
-/
namespace Mocat.Props
open Mocat Mocat.AbcScenarios Mocat.Ideal Mocat.Meas MeasureTheory ProbabilityTheory
open scoped ENNReal

/-! ## Specification -/

/-- The Ricker map with environmental noise `z`: `N' = r N exp(-N + σ z)`. -/
noncomputable def rickerPath (n0 r σ : ℝ) (z : ℕ → ℝ) : ℕ → ℝ
  | 0 => n0
  | t + 1 => r * rickerPath n0 r σ z t * Real.exp (-rickerPath n0 r σ z t + σ * z t)

/-- The probability of count `k` under the Poisson distribution with mean `m`. -/
noncomputable def poissonMass (m : ℝ) (k : ℕ) : ℝ := Real.exp (-m) * m ^ k / k.factorial

/-- `draw m u` makes a Poisson draw with mean `m` from a uniform `u`, except that it may be negative instead of zero (`jax.random.poisson` can return -1 when the mean is zero). -/
structure IsPoissonDraw (draw : ℝ → ℝ → ℤ) : Prop where
  measurable : Measurable (Function.uncurry draw)
  law : ∀ m, 0 ≤ m → ∀ k : ℕ, unif {u | draw m u = k ∨ k = 0 ∧ draw m u < 0} = ENNReal.ofReal (poissonMass m k)

/-- The generator of a simulation, with an ideal tape. -/
def rickerTape (q : ℝ → ℝ) (draw : ℝ → ℝ → ℤ) (ω : Tape) : RickerRng Keys.Key where
  split k _ i := i :: k
  normal k := q (ω (k, 0))
  poisson k j m := draw m (ω (k, j))

/-! ## The path -/

variable {K : Type*}

theorem ricker_scan (rng : RickerRng K) (r σ : ℝ) (keys : ℕ → K) (T : ℕ) : ∀ (s : ℕ) (n0 : ℝ) (t : ℕ), t < T →
    (scan (fun n i => let new := r * n * Real.exp (-n + σ * rng.normal (keys i)); (new, new)) n0 (List.range' s T)).2.getD t 0 = rickerPath n0 r σ (fun i => rng.normal (keys (s + i))) (t + 1) := by
  induction T with
  | zero => intro s n0 t ht; omega
  | succ T ih =>
    intro s n0 t ht
    rw [List.range'_succ]
    simp only [scan]
    cases t with
    | zero => simp [rickerPath]
    | succ t =>
      rw [List.getD_cons_succ, ih (s + 1) _ t (by omega)]
      have : ∀ t, rickerPath (r * n0 * Real.exp (-n0 + σ * rng.normal (keys s))) r σ (fun i => rng.normal (keys (s + 1 + i))) t = rickerPath n0 r σ (fun i => rng.normal (keys (s + i))) (t + 1) := by
        intro t
        induction t with
        | zero => simp [rickerPath]
        | succ t iht =>
          rw [rickerPath, iht, rickerPath.eq_2 n0 r σ _ (t + 1)]
          simp only [show s + 1 + t = s + (t + 1) by omega]
      exact this (t + 1)

theorem ricker_scan_length {α β : Type*} (f : α → β → α × ℝ) (l : List β) : ∀ n0, (scan f n0 l).2.length = l.length := by
  induction l with
  | nil => intro; rfl
  | cons a l ih => intro n0; simp [scan, ih]

/-- C121: `ricker_simulate` gives the initial population and `num_steps` further ones, each obtained from the one before by the Ricker map with a normal draw from a key of its own. -/
theorem C121_path (rng : RickerRng K) (n0 r σ : ℝ) (T : ℕ) (key : K) :
    (rickerSimulate rng n0 r σ T key).length = T + 1 ∧
      ∀ t ≤ T, (rickerSimulate rng n0 r σ T key).getD t 0 = rickerPath n0 r σ (fun i => rng.normal (rng.split key T i)) t := by
  constructor
  · simp [rickerSimulate, ricker_scan_length]
  · intro t ht
    cases t with
    | zero => rfl
    | succ t =>
      simp only [rickerSimulate, List.getD_cons_succ]
      have := ricker_scan rng r σ (rng.split key T) T 0 n0 t (by omega)
      rw [← List.range_eq_range'] at this
      simpa using this

theorem rickerPath_nonneg {n0 r : ℝ} (hn : 0 ≤ n0) (hr : 0 ≤ r) (σ : ℝ) (z : ℕ → ℝ) : ∀ t, 0 ≤ rickerPath n0 r σ z t
  | 0 => hn
  | t + 1 => by
    have := rickerPath_nonneg hn hr σ z t
    rw [rickerPath]
    positivity

/-- C121: a positive population stays positive, and overshoots are bounded: whatever the population, the next one is at most `r exp(-1 + σ z)`. -/
theorem C121_bounds (rng : RickerRng K) {n0 r : ℝ} (hn : 0 < n0) (hr : 0 < r) (σ : ℝ) (T : ℕ) (key : K) (t : ℕ) (ht : t ≤ T) :
    0 < (rickerSimulate rng n0 r σ T key).getD t 0 ∧
      (t < T → (rickerSimulate rng n0 r σ T key).getD (t + 1) 0 ≤ r * Real.exp (-1 + σ * rng.normal (rng.split key T t))) := by
  set z : ℕ → ℝ := fun i => rng.normal (rng.split key T i) with hz
  have hpos : ∀ t, 0 < rickerPath n0 r σ z t := by
    intro t
    induction t with
    | zero => exact hn
    | succ t ih => rw [rickerPath]; positivity
  refine ⟨by rw [(C121_path rng n0 r σ T key).2 t ht]; exact hpos t, fun h => ?_⟩
  rw [(C121_path rng n0 r σ T key).2 (t + 1) h, rickerPath]
  set N := rickerPath n0 r σ z t
  have h1 : N ≤ Real.exp (N - 1) := by linarith [Real.add_one_le_exp (N - 1)]
  calc r * N * Real.exp (-N + σ * z t) ≤ r * Real.exp (N - 1) * Real.exp (-N + σ * z t) := by gcongr
    _ = r * Real.exp (-1 + σ * z t) := by rw [mul_assoc, ← Real.exp_add]; congr 2; ring

/-- C121: an extinct population stays extinct. -/
theorem C121_extinct (rng : RickerRng K) (r σ : ℝ) (T : ℕ) (key : K) (t : ℕ) (ht : t ≤ T) : (rickerSimulate rng 0 r σ T key).getD t 0 = 0 := by
  rw [(C121_path rng 0 r σ T key).2 t ht]
  clear ht
  induction t with
  | zero => rfl
  | succ t ih => rw [rickerPath, ih]; simp

/-! ## Observations -/

/-- C121: a simulated data set has one count per observation index, and no count is negative, whatever the parameters and the generator. -/
theorem C121_counts (rng : RickerRng K) (n0 : ℝ) (T : ℕ) (inds : List ℕ) (x : Fin 3 → ℝ) (key : K) :
    (rickerLikelihoodSample rng n0 T inds x key).length = inds.length ∧ ∀ y ∈ rickerLikelihoodSample rng n0 T inds x key, 0 ≤ y := by
  refine ⟨by simp [rickerLikelihoodSample], fun y hy => ?_⟩
  simp only [rickerLikelihoodSample, List.mem_map] at hy
  obtain ⟨o, _, rfl⟩ := hy
  split_ifs with h
  · exact le_rfl
  · exact not_lt.1 h

/-- C121: the data are, for each observation index `i`, a Poisson draw with mean `φ` times population `i` of the path (zero for a negative draw). The noise of the path and the observations come from different keys. -/
theorem C121_data (rng : RickerRng K) (n0 : ℝ) (T : ℕ) (inds : List ℕ) (x : Fin 3 → ℝ) (key : K) (hinds : ∀ i ∈ inds, i ≤ T) :
    rickerLikelihoodSample rng n0 T inds x key =
      inds.mapIdx fun j i => max 0 (rng.poisson (rng.split key 2 1) j (x 2 * rickerPath n0 (x 0) (x 1) (fun t => rng.normal (rng.split (rng.split key 2 0) T t)) i)) := by
  have hp := C121_path rng n0 (x 0) (x 1) T (rng.split key 2 0)
  have h : ∀ o : ℤ, (if o < 0 then 0 else o) = max 0 o := by
    intro o
    split_ifs with h
    · exact (max_eq_left h.le).symm
    · exact (max_eq_right (not_lt.1 h)).symm
  refine List.ext_getElem (by simp [rickerLikelihoodSample]) fun j h1 h2 => ?_
  have hj : j < inds.length := by simpa using h2
  have hle : inds[j] ≤ T := hinds _ (List.getElem_mem hj)
  simp only [rickerLikelihoodSample, List.getElem_map, List.getElem_mapIdx, h, hp.1, show min inds[j] (T + 1 - 1) = inds[j] by omega, hp.2 _ hle]

theorem measurable_rickerPath (n0 r σ : ℝ) {α : Type*} [MeasurableSpace α] {z : α → ℕ → ℝ} (hz : ∀ t, Measurable fun a => z a t) : ∀ t, Measurable fun a => rickerPath n0 r σ (z a) t
  | 0 => measurable_const
  | t + 1 => by
    have := measurable_rickerPath n0 r σ hz t
    have h2 := hz t
    simp only [rickerPath]
    fun_prop

theorem rickerPath_congr (n0 r σ : ℝ) {z z' : ℕ → ℝ} : ∀ t, (∀ i < t, z i = z' i) → rickerPath n0 r σ z t = rickerPath n0 r σ z' t
  | 0, _ => rfl
  | t + 1, h => by rw [rickerPath, rickerPath, rickerPath_congr n0 r σ t fun i hi => h i (by omega), h t (by omega)]

/-- Extend a vector by zeros. -/
def padded {T : ℕ} (z : Fin T → ℝ) (i : ℕ) : ℝ := if h : i < T then z ⟨i, h⟩ else 0

theorem map_keyNormals {q : ℝ → ℝ} (hq : IsNormalDraw q) (key : Keys.Key) (T : ℕ) : ideal.map (fun ω (i : Fin T) => q (ω ((i : ℕ) :: key, 0))) = stdNormal T := by
  have h1 : iIndepFun (fun (s : Site) (ω : Tape) => q (ω s)) ideal := iIndepFun_infinitePi (X := fun _ x => q x) fun _ => hq.measurable
  have hinj : Function.Injective fun j : Fin T => ((((j : ℕ) :: key), 0) : Site) := fun a b h => Fin.ext (List.cons.inj (Prod.mk.inj h).1).1
  have h2 := h1.precomp hinj
  have h3 := (iIndepFun_iff_map_fun_eq_pi_map (fun j => (hq.measurable.comp (measurable_pi_apply _)).aemeasurable)).mp h2
  refine h3.trans ?_
  unfold stdNormal
  congr 1
  funext j
  have := (measurePreserving_eval_infinitePi (fun _ : Site => unif) ((j : ℕ) :: key, 0)).map_eq
  rw [← hq.law, ← this]
  exact (Measure.map_map hq.measurable (measurable_pi_apply _)).symm

/-- C121, the law of the data: the counts at the observation times are independent Poisson draws with mean `φ` times the population, given a path of the Ricker map with independent standard normal noise. -/
theorem C121_law {q : ℝ → ℝ} (hq : IsNormalDraw q) {draw : ℝ → ℝ → ℤ} (hd : IsPoissonDraw draw) {n0 : ℝ} (hn : 0 ≤ n0) (T : ℕ) (inds : List ℕ) (hinds : ∀ i ∈ inds, i ≤ T) (x : Fin 3 → ℝ) (hr : 0 ≤ x 0) (hφ : 0 ≤ x 2)
    (key : Keys.Key) (y : Fin inds.length → ℕ) :
    ideal {ω | rickerLikelihoodSample (rickerTape q draw ω) n0 T inds x key = List.ofFn fun j => (y j : ℤ)} =
      ∫⁻ z, ENNReal.ofReal (∏ j, poissonMass (x 2 * rickerPath n0 (x 0) (x 1) (padded z) (inds.get j)) (y j)) ∂stdNormal T := by
  classical
  set dk : Keys.Key := 0 :: key with hdk
  set ok : Keys.Key := 1 :: key with hok
  let f : Tape → Fin T → ℝ := fun ω i => q (ω ((i : ℕ) :: dk, 0))
  let mean : (Fin T → ℝ) → Fin inds.length → ℝ := fun z j => x 2 * rickerPath n0 (x 0) (x 1) (padded z) (inds.get j)
  let ev : ℝ → ℕ → Set ℝ := fun m k => {u | draw m u = k ∨ k = 0 ∧ draw m u < 0}
  have hmean0 : ∀ z j, 0 ≤ mean z j := fun z j => mul_nonneg hφ (rickerPath_nonneg hn hr _ _ _)
  have hset : {ω | rickerLikelihoodSample (rickerTape q draw ω) n0 T inds x key = List.ofFn fun j => (y j : ℤ)} = {ω | ∀ j, ω (ok, (j : ℕ)) ∈ ev (mean (f ω) j) (y j)} := by
    ext ω
    rw [Set.mem_ofPred_eq, Set.mem_ofPred_eq, C121_data _ n0 T inds x key hinds]
    have hpath : ∀ j : Fin inds.length, rickerPath n0 (x 0) (x 1) (fun t => (rickerTape q draw ω).normal ((rickerTape q draw ω).split ((rickerTape q draw ω).split key 2 0) T t)) inds[(j : ℕ)] =
        rickerPath n0 (x 0) (x 1) (padded (f ω)) (inds.get j) := by
      intro j
      refine rickerPath_congr _ _ _ _ fun i hi => ?_
      have : i < T := hi.trans_le (hinds _ (List.getElem_mem j.2))
      simp only [padded, dif_pos this]
      rfl
    constructor
    · intro h j
      have := congrArg (fun l : List ℤ => l[(j : ℕ)]?) h
      simp only [List.getElem?_mapIdx, List.getElem?_ofFn, j.2, dite_true, List.getElem?_eq_getElem, Option.map_some, Option.some.injEq, hpath] at this
      change max 0 (draw (mean (f ω) j) (ω (ok, (j : ℕ)))) = (y j : ℤ) at this
      simp only [ev, Set.mem_ofPred_eq]
      omega
    · intro h
      refine List.ext_getElem (by simp) fun j h1 h2 => ?_
      have hj : j < inds.length := by simpa using h2
      have := h ⟨j, hj⟩
      simp only [List.getElem_mapIdx, List.getElem_ofFn, hpath ⟨j, hj⟩]
      change max 0 (draw (mean (f ω) ⟨j, hj⟩) (ω (ok, j))) = _
      simp only [ev, Set.mem_ofPred_eq] at this
      omega
  have hfm : Measurable f := measurable_pi_lambda _ fun i => hq.measurable.comp (measurable_pi_apply _)
  have hpad : ∀ t, Measurable fun z : Fin T → ℝ => padded z t := by
    intro t
    unfold padded
    split_ifs
    · exact measurable_pi_apply _
    · exact measurable_const
  have hmm : ∀ j, Measurable fun z => mean z j := fun j => (measurable_rickerPath n0 (x 0) (x 1) hpad _).const_mul _
  have hE : MeasurableSet {p : (Fin T → ℝ) × Tape | ∀ j, p.2 (ok, (j : ℕ)) ∈ ev (mean p.1 j) (y j)} := by
    rw [Set.ofPred_forall]
    refine MeasurableSet.iInter fun j => ?_
    have h1 : Measurable fun p : (Fin T → ℝ) × Tape => draw (mean p.1 j) (p.2 (ok, (j : ℕ))) :=
      hd.measurable.comp (((hmm j).comp measurable_fst).prodMk ((measurable_pi_apply _).comp measurable_snd))
    exact (measurableSet_eq_fun h1 measurable_const).union ((MeasurableSet.const _).inter (measurableSet_lt h1 measurable_const))
  have hfix : ∀ z, ideal {ω | ∀ j : Fin inds.length, ω (ok, (j : ℕ)) ∈ ev (mean z j) (y j)} = ENNReal.ofReal (∏ j, poissonMass (mean z j) (y j)) := by
    intro z
    have hev : ∀ j, MeasurableSet (ev (mean z j) (y j)) := by
      intro j
      have h1 : Measurable fun u : ℝ => draw (mean z j) u := hd.measurable.comp (measurable_const.prodMk measurable_id)
      exact (measurableSet_eq_fun h1 measurable_const).union ((MeasurableSet.const _).inter (measurableSet_lt h1 measurable_const))
    have e : {ω : Tape | ∀ j : Fin inds.length, ω (ok, (j : ℕ)) ∈ ev (mean z j) (y j)} = {ω | uniformAt inds.length ω ok ∈ Set.pi Set.univ fun j => ev (mean z j) (y j)} := by
      ext ω; simp [uniformAt]
    rw [e, ideal_uniformAt ok (MeasurableSet.univ_pi hev), Measure.pi_pi, ENNReal.ofReal_prod_of_nonneg]
    · exact Finset.prod_congr rfl fun j _ => hd.law _ (hmean0 z j) _
    · intro j _
      have := hmean0 z j
      unfold poissonMass
      positivity
  have hST : Disjoint {s : Site | ∃ i : ℕ, s.1 = i :: dk} {s : Site | s.1 = ok} := by
    rw [Set.disjoint_left]
    rintro s ⟨i, hi⟩ h2
    have h2' : s.1 = ok := h2
    rw [hi, hok, hdk] at h2'
    have := congrArg List.length h2'
    simp at this
  let g : (Fin T → ℝ) → Tape → ℝ≥0∞ := fun z ω => {p : (Fin T → ℝ) × Tape | ∀ j, p.2 (ok, (j : ℕ)) ∈ ev (mean p.1 j) (y j)}.indicator 1 (z, ω)
  have hg : Measurable (Function.uncurry g) := measurable_one.indicator hE
  have hfr := fresh hST hfm (fun a b h => funext fun i => by simp only [f]; rw [h _ ⟨i, rfl⟩]) hg (fun z a b h => by
    simp only [g, Set.indicator_apply, Set.mem_ofPred_eq]
    congr 1
    refine propext (forall_congr' fun j => ?_)
    rw [h (ok, (j : ℕ)) rfl])
  have hl : ∫⁻ ω, g (f ω) ω ∂ideal = ideal {ω | ∀ j, ω (ok, (j : ℕ)) ∈ ev (mean (f ω) j) (y j)} := by
    have hm : MeasurableSet {ω : Tape | ∀ j, ω (ok, (j : ℕ)) ∈ ev (mean (f ω) j) (y j)} := (hfm.prodMk measurable_id) hE
    rw [← lintegral_indicator_one hm]
    rfl
  have hr' : ∀ z, ∫⁻ ω', g z ω' ∂ideal = ENNReal.ofReal (∏ j, poissonMass (mean z j) (y j)) := by
    intro z
    have hm : MeasurableSet {ω : Tape | ∀ j : Fin inds.length, ω (ok, (j : ℕ)) ∈ ev (mean z j) (y j)} := (measurable_const.prodMk measurable_id) hE
    rw [← hfix z, ← lintegral_indicator_one hm]
    rfl
  rw [hset, ← hl, hfr, ← map_keyNormals hq dk T, lintegral_map _ hfm]
  · exact lintegral_congr fun ω => hr' (f ω)
  · refine ENNReal.measurable_ofReal.comp (Finset.measurable_prod _ fun j _ => ?_)
    have := hmm j
    unfold poissonMass
    exact (((this.neg).exp).mul (this.pow_const _)).div_const _

/-! ## Non-vacuity -/

theorem hasSum_poissonMass (m : ℝ) : HasSum (poissonMass m) 1 := by
  have h := (NormedSpace.expSeries_div_hasSum_exp (𝔸 := ℝ) m).mul_left (Real.exp (-m))
  rw [← Real.exp_eq_exp_ℝ, ← Real.exp_add, neg_add_cancel, Real.exp_zero] at h
  have e : poissonMass m = fun n => Real.exp (-m) * (m ^ n / n.factorial) := funext fun n => by unfold poissonMass; ring
  rw [e]
  exact h

theorem poissonMass_nonneg {m : ℝ} (hm : 0 ≤ m) (k : ℕ) : 0 ≤ poissonMass m k := by unfold poissonMass; positivity

open Classical in
/-- A draw as required exists: invert the distribution function. -/
theorem exists_isPoissonDraw : ∃ draw, IsPoissonDraw draw := by
  let cum : ℝ → ℕ → ℝ := fun m k => ∑ i ∈ Finset.range k, poissonMass m i
  have hcm : ∀ k, Measurable fun m => cum m k := fun k => Finset.measurable_sum _ fun i _ => by unfold poissonMass; fun_prop
  let p : ℝ × ℝ → ℕ → Prop := fun z k => 1 ≤ z.2 ∨ z.2 < cum z.1 (k + 1)
  have hp : ∀ z, ∃ k, p z k := by
    intro z
    by_cases h : 1 ≤ z.2
    · exact ⟨0, .inl h⟩
    · have := (hasSum_poissonMass z.1).tendsto_sum_nat.eventually_const_lt (not_le.1 h)
      obtain ⟨k, hk⟩ := (Filter.tendsto_add_atTop_nat 1).eventually this |>.exists
      exact ⟨k, .inr hk⟩
  have hpm : ∀ k, MeasurableSet {z | p z k} := fun k => (measurableSet_le measurable_const measurable_snd).union (measurableSet_lt measurable_snd ((hcm _).comp measurable_fst))
  have hfind : Measurable fun z => Nat.find (hp z) := measurable_find hp hpm
  refine ⟨fun m u => (Nat.find (hp (m, u)) : ℤ), (measurable_of_countable (fun n : ℕ => (n : ℤ))).comp hfind, fun m hm k => ?_⟩
  have hmono : Monotone (cum m) := fun a b hab => Finset.sum_le_sum_of_subset_of_nonneg (Finset.range_mono hab) fun i _ _ => poissonMass_nonneg hm i
  have hle : ∀ k, cum m k ≤ 1 := fun k => sum_le_hasSum _ (fun i _ => poissonMass_nonneg hm i) (hasSum_poissonMass m)
  have e1 : {u : ℝ | ((Nat.find (hp (m, u)) : ℕ) : ℤ) = k ∨ k = 0 ∧ ((Nat.find (hp (m, u)) : ℕ) : ℤ) < 0} = {u | Nat.find (hp (m, u)) = k} := by
    ext u
    rw [Set.mem_ofPred_eq, Set.mem_ofPred_eq]
    omega
  have hmk : MeasurableSet {u : ℝ | Nat.find (hp (m, u)) = k} := (hfind.comp (measurable_const.prodMk measurable_id)) (measurableSet_singleton k)
  have e2 : {u : ℝ | Nat.find (hp (m, u)) = k} ∩ Set.Ico 0 1 = Set.Ico (cum m k) (cum m (k + 1)) := by
    ext u
    simp only [Set.mem_inter_iff, Set.mem_ofPred_eq, Set.mem_Ico, Nat.find_eq_iff]
    constructor
    · rintro ⟨⟨h1, h2⟩, h3, h4⟩
      refine ⟨?_, h1.resolve_left (not_le.2 h4)⟩
      rcases Nat.eq_zero_or_pos k with rfl | hk
      · simpa [cum] using h3
      · have := h2 (k - 1) (by omega)
        simp only [p, not_or, not_lt, show k - 1 + 1 = k by omega] at this
        exact this.2
    · rintro ⟨h1, h2⟩
      have h0 : 0 ≤ u := le_trans (by simpa [cum] using hmono (Nat.zero_le k)) h1
      have h4 : u < 1 := h2.trans_le (hle _)
      refine ⟨⟨.inr h2, fun j hj => ?_⟩, h0, h4⟩
      simp only [p, not_or, not_le, not_lt]
      exact ⟨h4, (hmono (Nat.succ_le_of_lt hj)).trans h1⟩
  change unif {u : ℝ | ((Nat.find (hp (m, u)) : ℕ) : ℤ) = k ∨ k = 0 ∧ ((Nat.find (hp (m, u)) : ℕ) : ℤ) < 0} = _
  unfold unif
  rw [e1, Measure.restrict_apply hmk, e2, Real.volume_Ico]
  congr 1
  simp only [cum, Finset.sum_range_succ]
  ring

/-- The hypotheses of `C121_law` can be met. -/
example : (∃ q, IsNormalDraw q) ∧ (∃ draw, IsPoissonDraw draw) ∧ ∀ i ∈ [1, 3, 3], i ≤ 4 := ⟨exists_isNormalDraw, exists_isPoissonDraw, by decide⟩

end Mocat.Props
