import Verif.Props.AbcLaw
/-!
# C88: rows of importance ABC runs are independent; weighted means are unbiased
-/
namespace Mocat.Props
open Mocat Mocat.Mcmc Mocat.Abc Mocat.Ideal Mocat.Meas MeasureTheory ProbabilityTheory
open scoped ENNReal

variable {d : ℕ} {D : Type*}

/-- (Specification.) The joint law of a parameter with law `μ` and of data simulated at it. -/
noncomputable def simulated [MeasurableSpace D] (μ : Measure (Fin d → ℝ)) (sim : (Fin d → ℝ) → Tape → D) : Measure ((Fin d → ℝ) × D) :=
  (μ.prod ideal).map fun z => (z.1, sim z.1 z.2)

/-- Parameter and data, drawn with unrelated keys. -/
theorem map_simulated [MeasurableSpace D] {g : Tape → Fin d → ℝ} (hg : Measurable g) {sim : (Fin d → ℝ) → Tape → D} (hsim : Measurable fun z : (Fin d → ℝ) × Tape => sim z.1 z.2)
    {a b : Keys.Key} (h : Disjoint (below a) (below b)) :
    ideal.map (fun ω => (g (subtape a ω), sim (g (subtape a ω)) (subtape b ω))) = simulated (ideal.map g) sim := by
  have hm : Measurable fun z : (Fin d → ℝ) × Tape => (z.1, sim z.1 z.2) := measurable_fst.prodMk hsim
  have hga : Measurable fun ω => g (subtape a ω) := hg.comp (measurable_subtape a)
  have h1 := map_pair h hga (measurable_subtape b) (fun ω ω' hω => congrArg g (subtape_dependsOn a hω)) (subtape_dependsOn b)
  have h2 : ideal.map (fun ω => g (subtape a ω)) = ideal.map g := by
    conv_rhs => rw [← map_subtape a]
    exact (Measure.map_map hg (measurable_subtape a)).symm
  rw [h2, map_subtape] at h1
  unfold simulated
  rw [← h1, Measure.map_map hm (hga.prodMk (measurable_subtape b))]
  rfl

section
variable (S : Set (Fin d → ℝ)) (V : (Fin d → ℝ) → ℝ) (pri prop : Tape → Fin d → ℝ) (sim : (Fin d → ℝ) → Tape → D) (dist : D → Fl) (lw : Fl → Row (Fin d → ℝ) D → Fl)
  (key : Keys.Key) (thr : Fl)

/-- Row `i` of an importance ABC run on a tape, without initial state. `prop` is the importance proposal. -/
noncomputable def abcRow (i : ℕ) (ω : Tape) : Row (Fin d → ℝ) D :=
  (bodyIter (importanceUpdate Keys.split4 (tapeScenario S V pri sim dist ω) (fun k => prop (subtape k ω)) lw) i
    (importanceStartup Keys.split (tapeScenario S V pri sim dist ω) lw none key thr)).1

/-- The key with which the update number `i` starts. -/
def rowKey (key : Keys.Key) (i : ℕ) : Keys.Key := List.replicate i 0 ++ 0 :: 0 :: 0 :: key

theorem abcRow_key (i : ℕ) (ω : Tape) :
    (bodyIter (importanceUpdate Keys.split4 (tapeScenario S V pri sim dist ω) (fun k => prop (subtape k ω)) lw) i
      (importanceStartup Keys.split (tapeScenario S V pri sim dist ω) lw none key thr)).2.key = rowKey key i := by
  induction i with
  | zero => rfl
  | succ i ih => rw [bodyIter_succ]; simp only [importanceUpdate, Keys.split4]; rw [ih]; rfl

/-- The keys of the parameter and of the data of row `i`. -/
def rowKeys (key : Keys.Key) : ℕ → Keys.Key × Keys.Key
  | 0 => (1 :: key, 1 :: 0 :: 0 :: key)
  | i + 1 => (1 :: rowKey key i, 3 :: rowKey key i)

theorem abcRow_eq (i : ℕ) (ω : Tape) : ((abcRow S V pri prop sim dist lw key thr i ω).value, (abcRow S V pri prop sim dist lw key thr i ω).data)
    = ((if i = 0 then pri else prop) (subtape (rowKeys key i).1 ω), sim ((if i = 0 then pri else prop) (subtape (rowKeys key i).1 ω)) (subtape (rowKeys key i).2 ω)) := by
  cases i with
  | zero => rfl
  | succ i =>
    have h := abcRow_key S V pri prop sim dist lw key thr i ω
    unfold abcRow
    rw [bodyIter_succ]
    simp only [importanceUpdate, Keys.split4, h, rowKeys, Nat.succ_ne_zero, if_false]
    rfl

end

theorem below_append {k : Keys.Key} {p : List ℕ} {s : Site} (h : s ∈ below (p ++ k)) : s ∈ below k := by
  obtain ⟨r, hr⟩ := h
  exact ⟨r ++ p, by rw [hr]; simp⟩

/-- What row `i` reads. -/
def rowSites (key : Keys.Key) (i : ℕ) : Set Site := below (rowKeys key i).1 ∪ below (rowKeys key i).2

theorem rowSites_later (key : Keys.Key) (i m : ℕ) : rowSites key (i + 1 + m) ⊆ below (rowKey key i) := by
  have e : i + 1 + m = (i + m) + 1 := by omega
  have e2 : rowKey key (i + m) = List.replicate m 0 ++ rowKey key i := by
    simp only [rowKey]
    rw [← List.append_assoc, List.replicate_append_replicate, Nat.add_comm]
  rw [e]
  rintro s (h | h)
  · simp only [rowKeys] at h
    rw [e2] at h
    exact below_append (mem_below_cons h)
  · simp only [rowKeys] at h
    rw [e2] at h
    exact below_append (mem_below_cons h)

theorem rowSites_disjoint_lt (key : Keys.Key) {i j : ℕ} (h : i < j) : Disjoint (rowSites key i) (rowSites key j) := by
  cases i with
  | zero =>
    obtain ⟨m, rfl⟩ := Nat.exists_eq_add_of_le h
    have h1 := rowSites_later key 0 m
    rw [Set.disjoint_left]
    rintro s (hs | hs) hj
    · exact Set.disjoint_left.mp (below_disjoint (by decide : (1 : ℕ) ≠ 0)) hs (mem_below_cons (mem_below_cons (h1 hj)))
    · exact Set.disjoint_left.mp (below_disjoint (by decide : (1 : ℕ) ≠ 0)) hs (h1 hj)
  | succ i =>
    obtain ⟨m, rfl⟩ := Nat.exists_eq_add_of_le h
    have h1 := rowSites_later key (i + 1) m
    have h2 : rowKey key (i + 1) = 0 :: rowKey key i := rfl
    rw [h2] at h1
    rw [Set.disjoint_left]
    rintro s (hs | hs) hj
    · exact Set.disjoint_left.mp (below_disjoint (by decide : (1 : ℕ) ≠ 0)) hs (h1 hj)
    · exact Set.disjoint_left.mp (below_disjoint (by decide : (3 : ℕ) ≠ 0)) hs (h1 hj)

theorem rowSites_disjoint (key : Keys.Key) (i j : ℕ) (h : i ≠ j) : Disjoint (rowSites key i) (rowSites key j) := by
  rcases Nat.lt_or_gt_of_ne h with h | h
  · exact rowSites_disjoint_lt key h
  · exact (rowSites_disjoint_lt key h).symm

theorem rowKeys_disjoint (key : Keys.Key) (i : ℕ) : Disjoint (below (rowKeys key i).1) (below (rowKeys key i).2) := by
  cases i with
  | zero =>
    rw [Set.disjoint_left]
    intro s hs h
    exact Set.disjoint_left.mp (below_disjoint (by decide : (1 : ℕ) ≠ 0)) hs (mem_below_cons (mem_below_cons h))
  | succ i => exact below_disjoint (by decide)

section
variable [MeasurableSpace D] (S : Set (Fin d → ℝ)) (V : (Fin d → ℝ) → ℝ) {pri prop : Tape → Fin d → ℝ} {sim : (Fin d → ℝ) → Tape → D} (dist : D → Fl)
  (key : Keys.Key) (thr : Fl)

/-- C88: the rows of every importance ABC run are independent; the first has the law of a prior draw with its data, every other that of a proposal with its data. -/
theorem C88_rows (hpri : Measurable pri) (hprop : Measurable prop) (hsim : Measurable fun z : (Fin d → ℝ) × Tape => sim z.1 z.2) (lw : Fl → Row (Fin d → ℝ) D → Fl) (n : ℕ) (hn : 1 ≤ n) :
    ∃ rows : Tape → Fin n → Row (Fin d → ℝ) D,
      (∀ ω, importanceRun Keys.split Keys.split4 (tapeScenario S V pri sim dist ω) (fun k => prop (subtape k ω)) lw n none key thr = List.ofFn (rows ω)) ∧
      (∀ i, Measurable fun ω => ((rows ω i).value, (rows ω i).data)) ∧
      iIndepFun (fun i ω => ((rows ω i).value, (rows ω i).data)) ideal ∧
      ∀ i : Fin n, ideal.map (fun ω => ((rows ω i).value, (rows ω i).data)) = simulated (ideal.map (if (i : ℕ) = 0 then pri else prop)) sim := by
  have hg : ∀ i : ℕ, Measurable (if i = 0 then pri else prop) := fun i => by split_ifs; exacts [hpri, hprop]
  have hm : Measurable fun z : (Fin d → ℝ) × Tape => (z.1, sim z.1 z.2) := measurable_fst.prodMk hsim
  have hmeas : ∀ i : ℕ, Measurable fun ω => ((if i = 0 then pri else prop) (subtape (rowKeys key i).1 ω), sim ((if i = 0 then pri else prop) (subtape (rowKeys key i).1 ω)) (subtape (rowKeys key i).2 ω)) :=
    fun i => hm.comp (((hg i).comp (measurable_subtape _)).prodMk (measurable_subtape _))
  refine ⟨fun ω i => abcRow S V pri prop sim dist lw key thr i ω, fun ω => ?_, fun i => ?_, ?_, fun i => ?_⟩
  · rw [importance_run_eq]
    have e : ((n : ℤ) - 1).toNat + 1 = n := by omega
    rw [e]
    refine List.ext_getElem (by simp) fun i h1 h2 => ?_
    simp [abcRow]
  · simp_rw [abcRow_eq]; exact hmeas i
  · simp_rw [abcRow_eq]
    refine iIndepFun_of_dependsOn (S := fun i : Fin n => rowSites key i) (fun a b h => rowSites_disjoint key a b fun h' => h (Fin.ext h')) (fun i => hmeas i) fun i ω ω' h => ?_
    have h1 := subtape_dependsOn (rowKeys key i).1 fun s hs => h s (Or.inl hs)
    have h2 := subtape_dependsOn (rowKeys key i).2 fun s hs => h s (Or.inr hs)
    rw [h1, h2]
  · simp_rw [abcRow_eq]
    exact map_simulated (hg i) hsim (rowKeys_disjoint key i)

end

/-- (Specification.) The weight of a row: the exponential of its log weight. -/
noncomputable def rowWeight (r : Row (Fin d → ℝ) D) : ℝ≥0∞ := ENNReal.ofReal (Metrics.wexp r.logWeight)

/-- (Specification.) The weighted sum of `h` over rows. -/
noncomputable def weightedSum (h : (Fin d → ℝ) × D → ℝ≥0∞) (rows : List (Row (Fin d → ℝ) D)) : ℝ≥0∞ := (rows.map fun r => rowWeight r * h (r.value, r.data)).sum

theorem lintegral_simulated [MeasurableSpace D] (μ : Measure (Fin d → ℝ)) [SFinite μ] {sim : (Fin d → ℝ) → Tape → D} (hsim : Measurable fun z : (Fin d → ℝ) × Tape => sim z.1 z.2)
    {g : (Fin d → ℝ) × D → ℝ≥0∞} (hg : Measurable g) : ∫⁻ z, g z ∂(simulated μ sim) = ∫⁻ x, ∫⁻ τ, g (x, sim x τ) ∂ideal ∂μ := by
  have hm : Measurable fun z : (Fin d → ℝ) × Tape => (z.1, sim z.1 z.2) := measurable_fst.prodMk hsim
  have hc : Measurable fun z : (Fin d → ℝ) × Tape => g (z.1, sim z.1 z.2) := hg.comp hm
  unfold simulated
  rw [lintegral_map hg hm, lintegral_prod _ hc.aemeasurable]

section
variable [MeasurableSpace D] {S : Set (Fin d → ℝ)} {V : (Fin d → ℝ) → ℝ} {pri prop : Tape → Fin d → ℝ} {sim : (Fin d → ℝ) → Tape → D} {dist : D → Fl}
  {key : Keys.Key} {thr : Fl}

/-- Expected weighted contribution of row `i`. -/
theorem lintegral_row (hpri : Measurable pri) (hprop : Measurable prop) (hsim : Measurable fun z : (Fin d → ℝ) × Tape => sim z.1 z.2) (lw : Fl → Row (Fin d → ℝ) D → Fl) (i : ℕ)
    {W h : (Fin d → ℝ) × D → ℝ≥0∞} (hW : Measurable W) (hh : Measurable h)
    (hrow : ∀ ω, rowWeight (abcRow S V pri prop sim dist lw key thr i ω) = W ((abcRow S V pri prop sim dist lw key thr i ω).value, (abcRow S V pri prop sim dist lw key thr i ω).data)) :
    (Measurable fun ω => rowWeight (abcRow S V pri prop sim dist lw key thr i ω) * h ((abcRow S V pri prop sim dist lw key thr i ω).value, (abcRow S V pri prop sim dist lw key thr i ω).data)) ∧
    ∫⁻ ω, rowWeight (abcRow S V pri prop sim dist lw key thr i ω) * h ((abcRow S V pri prop sim dist lw key thr i ω).value, (abcRow S V pri prop sim dist lw key thr i ω).data) ∂ideal
      = ∫⁻ z, W z * h z ∂(simulated (ideal.map (if i = 0 then pri else prop)) sim) := by
  have hg : Measurable (if i = 0 then pri else prop) := by split_ifs; exacts [hpri, hprop]
  have hm : Measurable fun z : (Fin d → ℝ) × Tape => (z.1, sim z.1 z.2) := measurable_fst.prodMk hsim
  have hmeas : Measurable fun ω => ((if i = 0 then pri else prop) (subtape (rowKeys key i).1 ω), sim ((if i = 0 then pri else prop) (subtape (rowKeys key i).1 ω)) (subtape (rowKeys key i).2 ω)) :=
    hm.comp ((hg.comp (measurable_subtape _)).prodMk (measurable_subtape _))
  simp_rw [hrow, abcRow_eq]
  have hWh : Measurable fun z => W z * h z := hW.mul hh
  refine ⟨hWh.comp hmeas, ?_⟩
  rw [← map_simulated hg hsim (rowKeys_disjoint key i), lintegral_map hWh hmeas]

omit [MeasurableSpace D] in
theorem abc_run_eq (lw : Fl → Row (Fin d → ℝ) D → Fl) (n : ℕ) (hn : 1 ≤ n) (ω : Tape) :
    importanceRun Keys.split Keys.split4 (tapeScenario S V pri sim dist ω) (fun k => prop (subtape k ω)) lw n none key thr
      = (List.range n).map fun i => abcRow S V pri prop sim dist lw key thr i ω := by
  rw [importance_run_eq]
  have e : ((n : ℤ) - 1).toNat + 1 = n := by omega
  rw [e]; rfl

omit [MeasurableSpace D] in
theorem abcRow_mem (lw : Fl → Row (Fin d → ℝ) D → Fl) (i : ℕ) (ω : Tape) : abcRow S V pri prop sim dist lw key thr i ω ∈
    importanceRun Keys.split Keys.split4 (tapeScenario S V pri sim dist ω) (fun k => prop (subtape k ω)) lw ((i + 1 : ℕ) : ℤ) none key thr := by
  rw [abc_run_eq _ _ (by omega)]
  exact List.mem_map.mpr ⟨i, List.mem_range.mpr (by omega), rfl⟩

theorem lintegral_rows (l : List ℕ) {F : ℕ → Tape → ℝ≥0∞} (hF : ∀ i ∈ l, Measurable (F i)) {c : ℝ≥0∞} (hc : ∀ i ∈ l, ∫⁻ ω, F i ω ∂ideal = c) :
    ∫⁻ ω, (l.map fun i => F i ω).sum ∂ideal = l.length * c := by
  induction l with
  | nil => simp
  | cons a l ih =>
    simp only [List.map_cons, List.sum_cons, List.length_cons]
    rw [lintegral_add_left (hF a (by simp)), hc a (by simp), ih (fun i hi => hF i (by simp [hi])) (fun i hi => hc i (by simp [hi]))]
    push_cast
    ring

omit [MeasurableSpace D] in
theorem rowWeight_vanilla (i : ℕ) (ω : Tape) : rowWeight (abcRow S V pri pri sim dist vanillaLogWeight key thr i ω)
    = {z : (Fin d → ℝ) × D | z.2 ∈ ball dist thr}.indicator 1 ((abcRow S V pri pri sim dist vanillaLogWeight key thr i ω).value, (abcRow S V pri pri sim dist vanillaLogWeight key thr i ω).data) := by
  obtain ⟨h1, h2, h3⟩ := C60_vanilla Keys.split Keys.split4 (tapeScenario S V pri sim dist ω) _ none key thr _ (abcRow_mem (prop := pri) vanillaLogWeight i ω)
  have hd := h1.distance
  by_cases hb : Fl.lt (abcRow S V pri pri sim dist vanillaLogWeight key thr i ω).distance thr
  · have hb' : (abcRow S V pri pri sim dist vanillaLogWeight key thr i ω).data ∈ ball dist thr := by rw [hd] at hb; exact hb
    simp [rowWeight, h2 hb, hb', Metrics.wexp]
  · have hb' : (abcRow S V pri pri sim dist vanillaLogWeight key thr i ω).data ∉ ball dist thr := by rw [hd] at hb; exact hb
    simp [rowWeight, h3 hb, hb', Metrics.wexp]

/-- C88, `VanillaABC`: the weighted mean of any function over a run is an unbiased estimate of its integral against the ABC posterior, if the prior sampler draws from the (normalised) prior density. In particular the
expected fraction of accepted rows is the probability that prior predictive data fall within the threshold. -/
theorem C88_vanilla (hpri : Measurable pri) (hlaw : ideal.map pri = target S V) (hsim : Measurable fun z : (Fin d → ℝ) × Tape => sim z.1 z.2)
    (hB : MeasurableSet (ball dist thr)) (n : ℕ) (hn : 1 ≤ n) (h : (Fin d → ℝ) × D → ℝ≥0∞) (hh : Measurable h) :
    ∫⁻ ω, weightedSum h (importanceRun Keys.split Keys.split4 (tapeScenario S V pri sim dist ω) (tapeScenario S V pri sim dist ω).priorSample vanillaLogWeight n none key thr) ∂ideal
      = n * ∫⁻ z, h z ∂(abcTarget S V sim (ball dist thr)) := by
  have hBm : Measurable ({z : (Fin d → ℝ) × D | z.2 ∈ ball dist thr}.indicator (1 : (Fin d → ℝ) × D → ℝ≥0∞)) := measurable_one.indicator (measurable_snd hB)
  have hrow : ∀ i ω, rowWeight (abcRow S V pri pri sim dist vanillaLogWeight key thr i ω)
      = {z : (Fin d → ℝ) × D | z.2 ∈ ball dist thr}.indicator 1 ((abcRow S V pri pri sim dist vanillaLogWeight key thr i ω).value, (abcRow S V pri pri sim dist vanillaLogWeight key thr i ω).data) := rowWeight_vanilla
  have hr := fun i => lintegral_row hpri hpri hsim vanillaLogWeight i hBm hh (hrow i)
  have hrun : ∀ ω, importanceRun Keys.split Keys.split4 (tapeScenario S V pri sim dist ω) (tapeScenario S V pri sim dist ω).priorSample vanillaLogWeight n none key thr
      = (List.range n).map fun i => abcRow S V pri pri sim dist vanillaLogWeight key thr i ω := fun ω => abc_run_eq vanillaLogWeight n hn ω
  simp_rw [hrun, weightedSum, List.map_map]
  have hsum := lintegral_rows (List.range n) (fun i _ => (hr i).1) (c := ∫⁻ z, h z ∂(abcTarget S V sim (ball dist thr))) fun i _ => by
    rw [(hr i).2, ite_self, hlaw]
    have hms : MeasurableSet {z : (Fin d → ℝ) × D | z.2 ∈ ball dist thr} := measurable_snd hB
    have e : abcTarget S V sim (ball dist thr) = (simulated (target S V) sim).restrict {z | z.2 ∈ ball dist thr} := rfl
    rw [e, ← lintegral_indicator hms]
    refine lintegral_congr fun z => ?_
    by_cases hz : z.2 ∈ ball dist thr <;> simp [hz]
  rw [List.length_range] at hsum
  exact hsum

open Classical in
/-- The weight of a row of `ImportanceABC` as a function of its value and its data. -/
noncomputable def impWeight (S S' : Set (Fin d → ℝ)) (V V' : (Fin d → ℝ) → ℝ) (B : Set D) (z : (Fin d → ℝ) × D) : ℝ≥0∞ :=
  if z.2 ∈ B then (if z.1 ∈ S ∩ S' then ENNReal.ofReal (Real.exp (-V z.1 + V' z.1)) else 0) else 0

theorem measurable_impWeight (hV : Measurable V) (hS : MeasurableSet S) {S' : Set (Fin d → ℝ)} {V' : (Fin d → ℝ) → ℝ} (hS' : MeasurableSet S') (hV' : Measurable V') {B : Set D} (hB : MeasurableSet B) :
    Measurable (impWeight S S' V V' B) := by
  classical
  refine Measurable.ite (measurable_snd hB) (Measurable.ite (measurable_fst (hS.inter hS')) ?_ measurable_const) measurable_const
  exact ENNReal.measurable_ofReal.comp (Real.measurable_exp.comp ((hV.comp measurable_fst).neg.add (hV'.comp measurable_fst)))

omit [MeasurableSpace D] in
theorem rowWeight_importance (S' : Set (Fin d → ℝ)) (V' : (Fin d → ℝ) → ℝ) (i : ℕ) (ω : Tape) : rowWeight (abcRow S V pri prop sim dist (importanceLogWeight (potOn S' V')) key thr i ω)
    = impWeight S S' V V' (ball dist thr) ((abcRow S V pri prop sim dist (importanceLogWeight (potOn S' V')) key thr i ω).value, (abcRow S V pri prop sim dist (importanceLogWeight (potOn S' V')) key thr i ω).data) := by
  obtain ⟨h1, h2, h3⟩ := C60_importance Keys.split Keys.split4 (tapeScenario S V pri sim dist ω) (fun k => prop (subtape k ω)) (potOn S' V') _ none key thr _
    (abcRow_mem (prop := prop) (importanceLogWeight (potOn S' V')) i ω)
  have hd := h1.distance
  obtain ⟨k, hp⟩ := h1.prior
  generalize abcRow S V pri prop sim dist (importanceLogWeight (potOn S' V')) key thr i ω = r at *
  have hp' : r.prior = potOn S V r.value := hp
  by_cases hb : Fl.lt r.distance thr
  · have hb' : r.data ∈ ball dist thr := by rw [hd] at hb; exact hb
    by_cases hx : r.value ∈ S <;> by_cases hx' : r.value ∈ S' <;>
      simp [rowWeight, h2 hb, hb', impWeight, hx, hx', hp', potOn, Fl.sub, Fl.neg, Fl.add, Metrics.wexp, add_comm]
  · have hb' : r.data ∉ ball dist thr := by rw [hd] at hb; exact hb
    simp [rowWeight, h3 hb, hb', impWeight, Metrics.wexp]

/-- Proposals with their weights are the ABC posterior. -/
theorem lintegral_impWeight (hV : Measurable V) (hS : MeasurableSet S) {S' : Set (Fin d → ℝ)} {V' : (Fin d → ℝ) → ℝ} (hS' : MeasurableSet S') (hV' : Measurable V') (hSS : S ⊆ S')
    (hsim : Measurable fun z : (Fin d → ℝ) × Tape => sim z.1 z.2) {B : Set D} (hB : MeasurableSet B) {h : (Fin d → ℝ) × D → ℝ≥0∞} (hh : Measurable h) :
    ∫⁻ z, impWeight S S' V V' B z * h z ∂(simulated (target S' V') sim) = ∫⁻ z, h z ∂(abcTarget S V sim B) := by
  classical
  have hW := measurable_impWeight (V := V) hV hS hS' hV' hB
  have : SFinite (target S' V') := by unfold target; infer_instance
  have hWh : Measurable fun z => impWeight S S' V V' B z * h z := hW.mul hh
  have ht : target S' V' = volume.withDensity (densOn S' V') := rfl
  have hpair : Measurable fun z : (Fin d → ℝ) × Tape => (z.1, sim z.1 z.2) := measurable_fst.prodMk hsim
  have hG : Measurable fun x => ∫⁻ τ, impWeight S S' V V' B (x, sim x τ) * h (x, sim x τ) ∂ideal :=
    Measurable.lintegral_prod_right' (f := fun z : (Fin d → ℝ) × Tape => impWeight S S' V V' B (z.1, sim z.1 z.2) * h (z.1, sim z.1 z.2)) (hWh.comp hpair)
  rw [lintegral_simulated _ hsim hWh, ht, lintegral_withDensity_eq_lintegral_mul _ (measurable_densOn hS' hV') hG, lintegral_abcTarget hS hV hB hsim hh]
  refine lintegral_congr fun x => ?_
  have hBi : Measurable fun τ => B.indicator (fun y => h (x, y)) (sim x τ) :=
    ((hh.comp measurable_prodMk_left).indicator hB).comp (hsim.comp measurable_prodMk_left)
  have hWi : Measurable fun τ => impWeight S S' V V' B (x, sim x τ) * h (x, sim x τ) := hWh.comp (hpair.comp measurable_prodMk_left)
  rw [Pi.mul_apply, ← lintegral_const_mul _ hBi, ← lintegral_const_mul _ hWi]
  refine lintegral_congr fun τ => ?_
  by_cases hb : sim x τ ∈ B
  · by_cases hx : x ∈ S
    · have hx' := hSS hx
      simp only [impWeight, hb, hx, hx', densOn, Set.indicator_of_mem, if_true, Set.mem_inter_iff, and_self]
      rw [← mul_assoc, ← ENNReal.ofReal_mul (Real.exp_pos _).le, ← Real.exp_add]
      congr 3
      ring
    · simp [impWeight, hb, hx, densOn]
  · simp [impWeight, hb]

/-- C88, `ImportanceABC`, without the first row: the weighted mean is unbiased if the proposal draws from the density `exp (-importance potential)` and its support contains that of the prior. (Missing: the first row,
which the code draws from the prior but weights as a draw from the proposal, see `C88_importance_fails`.) -/
theorem C88_importance_partial (hV : Measurable V) (hS : MeasurableSet S) (hpri : Measurable pri) (hprop : Measurable prop) {S' : Set (Fin d → ℝ)} {V' : (Fin d → ℝ) → ℝ} (hS' : MeasurableSet S')
    (hV' : Measurable V') (hSS : S ⊆ S') (hlaw : ideal.map prop = target S' V') (hsim : Measurable fun z : (Fin d → ℝ) × Tape => sim z.1 z.2)
    (hB : MeasurableSet (ball dist thr)) (n : ℕ) (hn : 1 ≤ n) (h : (Fin d → ℝ) × D → ℝ≥0∞) (hh : Measurable h) :
    ∫⁻ ω, weightedSum h (importanceRun Keys.split Keys.split4 (tapeScenario S V pri sim dist ω) (fun k => prop (subtape k ω)) (importanceLogWeight (potOn S' V')) n none key thr).tail ∂ideal
      = (n - 1 : ℕ) * ∫⁻ z, h z ∂(abcTarget S V sim (ball dist thr)) := by
  set lw : Fl → Row (Fin d → ℝ) D → Fl := importanceLogWeight (potOn S' V') with hlw
  have hW := measurable_impWeight (V := V) hV hS hS' hV' hB
  have hrow := fun i ω => rowWeight_importance (S := S) (V := V) (pri := pri) (prop := prop) (sim := sim) (dist := dist) (key := key) (thr := thr) S' V' i ω
  have hr := fun i => lintegral_row hpri hprop hsim lw i hW hh (hrow i)
  have hrun : ∀ ω, (importanceRun Keys.split Keys.split4 (tapeScenario S V pri sim dist ω) (fun k => prop (subtape k ω)) lw n none key thr).tail
      = (List.range (n - 1)).map fun i => abcRow S V pri prop sim dist lw key thr (i + 1) ω := by
    intro ω
    rw [abc_run_eq lw n hn ω]
    obtain ⟨m, rfl⟩ : ∃ m, n = m + 1 := ⟨n - 1, by omega⟩
    rw [List.range_succ_eq_map]
    simp [Function.comp_def]
  simp_rw [hrun, weightedSum, List.map_map]
  have hsum := lintegral_rows (List.range (n - 1)) (fun i _ => (hr (i + 1)).1) (c := ∫⁻ z, h z ∂(abcTarget S V sim (ball dist thr))) fun i _ => by
    rw [(hr (i + 1)).2, if_neg (Nat.succ_ne_zero i), hlaw, lintegral_impWeight hV hS hS' hV' hSS hsim hB hh]
  rw [List.length_range] at hsum
  exact hsum

end

/-! ## The first row of `ImportanceABC` -/

/-- The interval `[0, c)`. -/
def seg (c : ℝ) : Set (Fin 1 → ℝ) := {x | x 0 ∈ Set.Ico 0 c}

theorem measurableSet_seg (c : ℝ) : MeasurableSet (seg c) := (measurable_pi_apply (0 : Fin 1)) measurableSet_Ico

/-- Uniform draws on `[0, c)`. -/
def unifDraw (c : ℝ) (τ : Tape) : Fin 1 → ℝ := fun _ => c * τ ([], 0)

theorem measurable_unifDraw (c : ℝ) : Measurable (unifDraw c) :=
  measurable_pi_lambda _ fun _ => measurable_const.mul (measurable_pi_apply (([], 0) : Site))

theorem unifDraw_law {c : ℝ} (hc : 0 < c) : ideal.map (unifDraw c) = target (seg c) fun _ => Real.log c := by
  set e := (MeasurableEquiv.funUnique (Fin 1) ℝ).symm with he
  have h1 : unifDraw c = e ∘ (fun u : ℝ => c * u) ∘ fun τ : Tape => τ ([], 0) := rfl
  have hmul : Measurable fun u : ℝ => c * u := measurable_const.mul measurable_id
  have h2 : unif.map (fun u : ℝ => c * u) = (ENNReal.ofReal |c⁻¹| • volume).restrict (Set.Ico 0 c) := by
    rw [← Real.map_volume_mul_left hc.ne', Measure.restrict_map hmul measurableSet_Ico]
    congr 1
    unfold unif
    congr 1
    ext u
    simp only [Set.mem_Ico, Set.mem_preimage]
    constructor
    · rintro ⟨a, b⟩; exact ⟨by positivity, by nlinarith⟩
    · rintro ⟨a, b⟩; exact ⟨by by_contra h; push Not at h; nlinarith, by by_contra h; push Not at h; nlinarith⟩
  have h3 : (volume : Measure (Fin 1 → ℝ)) = (volume : Measure ℝ).map e := ((volume_preserving_funUnique (Fin 1) ℝ).symm _).map_eq.symm
  have h4 : target (seg c) (fun _ => Real.log c) = ENNReal.ofReal (Real.exp (-Real.log c)) • volume.restrict (seg c) := by
    unfold target
    rw [withDensity_indicator (measurableSet_seg c), withDensity_const]
  have h5 : e ⁻¹' seg c = Set.Ico 0 c := rfl
  rw [h4, h3, Measure.restrict_map e.measurable (measurableSet_seg c), h5, ← Measure.map_smul, h1,
    ← Measure.map_map e.measurable (hmul.comp (measurable_pi_apply _)), ← Measure.map_map hmul (measurable_pi_apply _), map_site, h2, Measure.restrict_smul, Real.exp_neg, Real.exp_log hc,
    abs_of_pos (inv_pos.mpr hc)]

/-- C88 fails for whole runs of `ImportanceABC`: prior uniform on `[0, 1)`, proposal uniform on `[0, 2)`, data always within the threshold. The expected sum of weights over `n` rows is `n + 1`, where an unbiased estimate gives
`n` (the total mass of the ABC posterior is 1). -/
theorem C88_importance_fails (key : Keys.Key) (n : ℕ) (hn : 1 ≤ n) :
    ideal.map (unifDraw 1) = target (seg 1) (fun _ => 0) ∧ ideal.map (unifDraw 2) = target (seg 2) (fun _ => Real.log 2) ∧ seg 1 ⊆ seg 2 ∧
    abcTarget (seg 1) (fun _ => 0) (fun _ _ => ()) (ball (fun _ => Fl.fin 0) (Fl.fin 1)) Set.univ = 1 ∧
    ∫⁻ ω, weightedSum (fun _ => 1) (importanceRun Keys.split Keys.split4 (tapeScenario (seg 1) (fun _ => 0) (unifDraw 1) (fun _ _ => ()) (fun _ => Fl.fin 0) ω) (fun k => unifDraw 2 (subtape k ω))
      (importanceLogWeight (potOn (seg 2) fun _ => Real.log 2)) n none key (Fl.fin 1)) ∂ideal = n + 1 := by
  have hl1 : ideal.map (unifDraw 1) = target (seg 1) (fun _ => 0) := by simpa using unifDraw_law one_pos
  have hl2 : ideal.map (unifDraw 2) = target (seg 2) (fun _ => Real.log 2) := unifDraw_law two_pos
  have hsub : seg 1 ⊆ seg 2 := fun x hx => ⟨hx.1, hx.2.trans (by norm_num)⟩
  have hb : ball (fun _ : Unit => Fl.fin 0) (Fl.fin 1) = Set.univ := by
    ext y; simp [ball, Fl.lt]
  have hsim : Measurable fun _ : (Fin 1 → ℝ) × Tape => () := measurable_const
  have hmass : abcTarget (seg 1) (fun _ => 0) (fun _ _ => ()) (ball (fun _ => Fl.fin 0) (Fl.fin 1)) Set.univ = 1 := by
    have hm : Measurable fun z : (Fin 1 → ℝ) × Tape => (z.1, ()) := measurable_fst.prodMk measurable_const
    have hp : IsProbabilityMeasure (target (seg 1) fun _ => 0) := by
      rw [← hl1]; exact Measure.isProbabilityMeasure_map (measurable_unifDraw 1).aemeasurable
    have hu : {z : (Fin 1 → ℝ) × Unit | z.2 ∈ ball (fun _ : Unit => Fl.fin 0) (Fl.fin 1)} = Set.univ := by rw [hb]; simp
    unfold abcTarget
    rw [hu, Measure.restrict_univ, Measure.map_apply hm MeasurableSet.univ]
    simp
  refine ⟨hl1, hl2, hsub, hmass, ?_⟩
  have htail := C88_importance_partial (S := seg 1) (V := fun _ => 0) (pri := unifDraw 1) (prop := unifDraw 2) (sim := fun _ _ => ()) (dist := fun _ => Fl.fin 0) (key := key) (thr := Fl.fin 1)
    measurable_const (measurableSet_seg 1) (measurable_unifDraw 1) (measurable_unifDraw 2) (measurableSet_seg 2) (V' := fun _ => Real.log 2) measurable_const hsub hl2 hsim (by rw [hb]; exact MeasurableSet.univ) n hn
    (fun _ => 1) measurable_const
  rw [lintegral_one, hmass, mul_one] at htail
  set lw : Fl → Row (Fin 1 → ℝ) Unit → Fl := importanceLogWeight (potOn (seg 2) fun _ => Real.log 2) with hlw
  have hhead : ∀ᵐ ω ∂ideal, rowWeight (abcRow (seg 1) (fun _ => 0) (unifDraw 1) (unifDraw 2) (fun _ _ => ()) (fun _ => Fl.fin 0) lw key (Fl.fin 1) 0 ω) = 2 := by
    have hs : ∀ᵐ ω ∂ideal, unifDraw 1 (subtape (1 :: key) ω) ∈ seg 1 := by
      have hm : Measurable fun ω => unifDraw 1 (subtape (1 :: key) ω) := (measurable_unifDraw 1).comp (measurable_subtape _)
      have hmap : ideal.map (fun ω => unifDraw 1 (subtape (1 :: key) ω)) = ideal.map (unifDraw 1) := by
        conv_rhs => rw [← map_subtape (1 :: key)]
        exact (Measure.map_map (measurable_unifDraw 1) (measurable_subtape _)).symm
      have : ∀ᵐ x ∂(ideal.map fun ω => unifDraw 1 (subtape (1 :: key) ω)), x ∈ seg 1 := by
        rw [hmap, hl1, target, withDensity_indicator (measurableSet_seg 1)]
        exact (withDensity_absolutelyContinuous _ _).ae_le (ae_restrict_mem (measurableSet_seg 1))
      exact ae_of_ae_map hm.aemeasurable this
    filter_upwards [hs] with ω hω
    have h2 := hsub hω
    have e : (abcRow (seg 1) (fun _ => 0) (unifDraw 1) (unifDraw 2) (fun _ _ => ()) (fun _ => Fl.fin 0) lw key (Fl.fin 1) 0 ω).logWeight = Fl.fin (Real.log 2) := by
      have e1 : (abcRow (seg 1) (fun _ => 0) (unifDraw 1) (unifDraw 2) (fun _ _ => ()) (fun _ => Fl.fin 0) lw key (Fl.fin 1) 0 ω).logWeight
        = lw (Fl.fin 1) ⟨unifDraw 1 (subtape (1 :: key) ω), potOn (seg 1) (fun _ => 0) (unifDraw 1 (subtape (1 :: key) ω)), (), Fl.fin 0, Fl.ninf⟩ := rfl
      rw [e1, hlw]
      simp [importanceLogWeight, Fl.lt, potOn, hω, h2, Fl.neg, Fl.add]
    simp [rowWeight, e, Metrics.wexp, Real.exp_log two_pos]
  have hsplit : ∀ ω, weightedSum (fun _ => 1) (importanceRun Keys.split Keys.split4 (tapeScenario (seg 1) (fun _ => 0) (unifDraw 1) (fun _ _ => ()) (fun _ => Fl.fin 0) ω) (fun k => unifDraw 2 (subtape k ω))
      lw n none key (Fl.fin 1))
      = rowWeight (abcRow (seg 1) (fun _ => 0) (unifDraw 1) (unifDraw 2) (fun _ _ => ()) (fun _ => Fl.fin 0) lw key (Fl.fin 1) 0 ω)
        + weightedSum (fun _ => 1) (importanceRun Keys.split Keys.split4 (tapeScenario (seg 1) (fun _ => 0) (unifDraw 1) (fun _ _ => ()) (fun _ => Fl.fin 0) ω) (fun k => unifDraw 2 (subtape k ω))
      lw n none key (Fl.fin 1)).tail := by
    intro ω
    rw [abc_run_eq lw n hn ω]
    obtain ⟨m, rfl⟩ : ∃ m, n = m + 1 := ⟨n - 1, by omega⟩
    rw [List.range_succ_eq_map]
    simp [weightedSum]
  simp_rw [hsplit]
  rw [lintegral_congr_ae (g := fun ω => 2 + weightedSum (fun _ => 1) (importanceRun Keys.split Keys.split4 (tapeScenario (seg 1) (fun _ => 0) (unifDraw 1) (fun _ _ => ()) (fun _ => Fl.fin 0) ω) (fun k => unifDraw 2 (subtape k ω))
      lw n none key (Fl.fin 1)).tail) (hhead.mono fun ω hω => by simp only; rw [hω]), lintegral_add_left measurable_const, htail]
  obtain ⟨m, rfl⟩ : ∃ m, n = m + 1 := ⟨n - 1, by omega⟩
  simp only [lintegral_const, measure_univ, mul_one, Nat.add_sub_cancel]
  push_cast
  ring

/-- A case of `C88_vanilla`: prior uniform on `[0, 1)`, data with one uniform error, distance to 1, threshold 1/2. -/
example (key : Keys.Key) (n : ℕ) (hn : 1 ≤ n) (h : (Fin 1 → ℝ) × ℝ → ℝ≥0∞) (hh : Measurable h) :
    ∫⁻ ω, weightedSum h (importanceRun Keys.split Keys.split4 (tapeScenario (seg 1) (fun _ => 0) (unifDraw 1) (fun x τ => x 0 + τ ([], 0)) (fun y => Fl.fin |y - 1|) ω)
        (tapeScenario (seg 1) (fun _ => 0) (unifDraw 1) (fun x τ => x 0 + τ ([], 0)) (fun y => Fl.fin |y - 1|) ω).priorSample vanillaLogWeight n none key (Fl.fin (1 / 2))) ∂ideal
      = n * ∫⁻ z, h z ∂(abcTarget (seg 1) (fun _ => 0) (fun x τ => x 0 + τ ([], 0)) (ball (fun y : ℝ => Fl.fin |y - 1|) (Fl.fin (1 / 2)))) := by
  refine C88_vanilla (measurable_unifDraw 1) (by simpa using unifDraw_law one_pos) ?_ ?_ n hn h hh
  · exact ((measurable_pi_apply 0).comp measurable_fst).add ((measurable_pi_apply (([], 0) : Site)).comp measurable_snd)
  · change MeasurableSet {y : ℝ | |y - 1| < 1 / 2}
    exact measurableSet_lt (by fun_prop) measurable_const

end Mocat.Props
