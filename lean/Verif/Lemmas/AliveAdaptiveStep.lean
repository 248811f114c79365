import Verif.Lemmas.AliveAdaptive
/-! Resampling and moving particles with weights 0 or 1 at the current threshold. -/
namespace Mocat.Alive
open Mocat Mocat.Ideal Mocat.Meas Mocat.Spec Mocat.Smc MeasureTheory Filter Topology
open scoped ENNReal

variable {n : ℕ} {Z : Type*}

/-- Resampling and moving at the current threshold. -/
noncomputable def moveAt (dist : Z → ℝ) (cat : Finset (Fin n) → ℝ → Fin n) (C : Set (Finset (Fin n))) (mv : ℝ → Keys.Key → Z → Tape → Z) (κ : Keys.Key) (s : ℝ × St n Z) (ω : Tape) : ℝ × St n Z :=
  (s.1, step (upTo dist s.1) cat C (fun i => (n :: κ, (i : ℕ))) (fun i => mv s.1 ((i : ℕ) :: κ)) s.2 ω)

/-- What is used of the draws of ancestors. -/
structure CatLaw (cat : Finset (Fin n) → ℝ → Fin n) (C : Set (Finset (Fin n))) : Prop where
  measurable : ∀ S, Measurable (cat S)
  prob : ∀ S ∈ C, ∀ j, unif {u | cat S u = j} = if j ∈ S then (S.card : ℝ≥0∞)⁻¹ else 0
  crit : ∀ S ∈ C, S.Nonempty

theorem moveAt_le_one {dist : Z → ℝ} {cat : Finset (Fin n) → ℝ → Fin n} {C : Set (Finset (Fin n))} {mv : ℝ → Keys.Key → Z → Tape → Z} {κ : Keys.Key} {s : ℝ × St n Z} (h : s.2.2 ≤ 1) (ω : Tape) :
    (moveAt dist cat C mv κ s ω).2.2 ≤ 1 := (mul_le_mul' h (factor_le_one _ _)).trans (le_of_eq (one_mul 1))

variable [MeasurableSpace Z]

/-- The operator applied to a function cut off at the threshold. -/
noncomputable def PC (dist : Z → ℝ) (P : ℝ → (Z → ℝ≥0∞) → Z → ℝ≥0∞) (f : Z → ℝ) (t : ℝ) : Z → ℝ := PR P t ((upTo dist t).indicator f)

section
variable {dist : Z → ℝ} (hd : Measurable dist) {cat : Finset (Fin n) → ℝ → Fin n} {C : Set (Finset (Fin n))} (hc : CatLaw cat C) {mv : ℝ → Keys.Key → Z → Tape → Z} {P : ℝ → (Z → ℝ≥0∞) → Z → ℝ≥0∞}
  (hM : MoveLaw mv P) (κ : Keys.Key)
include hd hM

omit hM in
theorem measurableSet_upTo (t : ℝ) : MeasurableSet (upTo dist t) := measurableSet_le hd measurable_const

omit hM in
/-- Measurability of what depends on which particles are within a threshold. -/
theorem measurable_of_upTo {α β : Type*} [MeasurableSpace α] [MeasurableSpace β] {t : α → ℝ} (ht : Measurable t) {z : α → Fin n → Z} (hz : Measurable z) {g : Finset (Fin n) → α → β}
    (hg : ∀ S, Measurable (g S)) : Measurable fun a => g (pat (upTo dist (t a)) (z a)) a := by
  have hA : MeasurableSet {w : ℝ × Z | dist w.2 ≤ w.1} := measurableSet_le (hd.comp measurable_snd) measurable_fst
  have hz' : Measurable fun a => fun i => (t a, z a i) := measurable_pi_lambda _ fun i => ht.prodMk ((measurable_pi_apply i).comp hz)
  exact measurable_of_pat hA hz' hg

include hc in
theorem moveLaw (t : ℝ) : Law (upTo dist t) cat C (fun i => (n :: κ, (i : ℕ))) (fun i => mv t ((i : ℕ) :: κ)) (fun i => below ((i : ℕ) :: κ)) (P t) := by
  refine ⟨measurableSet_le hd measurable_const, hc.measurable, hc.prob, hc.crit, fun i => ?_, fun i x => hM.dependsOn _ _ _, fun i => below_cons_ne i.is_lt.ne', fun i x h hh => hM.law t _ x hh, fun {h} hh => ?_⟩
  · have h := (hM.measurable ((i : ℕ) :: κ)).comp (f := fun z : Z × Tape => ((t, z.1), z.2)) ((measurable_const.prodMk measurable_fst).prodMk measurable_snd)
    exact h
  · have h1 := (hM.op hh).comp (f := fun x : Z => (t, x)) measurable_prodMk_left
    exact h1

include hc in
theorem measurable_moveAt : Measurable fun w : (ℝ × St n Z) × Tape => moveAt dist cat C mv κ w.1 w.2 := by
  classical
  have hz : Measurable fun w : (ℝ × St n Z) × Tape => w.1.2.1 := measurable_fst.comp (measurable_snd.comp measurable_fst)
  have ht : Measurable fun w : (ℝ × St n Z) × Tape => w.1.1 := measurable_fst.comp measurable_fst
  have hval : ∀ (i : Fin n) S, Measurable fun w : (ℝ × St n Z) × Tape => value cat C (fun i => (n :: κ, (i : ℕ))) (fun i => mv w.1.1 ((i : ℕ) :: κ)) S w.1.2.1 w.2 i := by
    intro i S
    unfold value
    by_cases h1 : S ∈ C
    · simp only [h1, if_true]
      have hcm : Measurable fun w : (ℝ × St n Z) × Tape => cat S (w.2 (n :: κ, (i : ℕ))) := (hc.measurable S).comp ((measurable_pi_apply _).comp measurable_snd)
      have h2 := (hM.measurable ((i : ℕ) :: κ)).comp ((ht.prodMk (Smc.measurable_apply_fin hz hcm)).prodMk measurable_snd)
      exact h2
    · by_cases h2 : i ∈ S
      · simp only [h1, h2, if_true, if_false]
        have h3 := (hM.measurable ((i : ℕ) :: κ)).comp ((ht.prodMk ((measurable_pi_apply i).comp hz)).prodMk measurable_snd)
        exact h3
      · simp only [h1, h2, if_false]
        exact (measurable_pi_apply i).comp hz
  have h1 : Measurable fun w : (ℝ × St n Z) × Tape => fun i => value cat C (fun i => (n :: κ, (i : ℕ))) (fun i => mv w.1.1 ((i : ℕ) :: κ)) (pat (upTo dist w.1.1) w.1.2.1) w.1.2.1 w.2 i :=
    measurable_pi_lambda _ fun i => measurable_of_upTo (g := fun S (w : (ℝ × St n Z) × Tape) => value cat C (fun i => (n :: κ, (i : ℕ))) (fun i => mv w.1.1 ((i : ℕ) :: κ)) S w.1.2.1 w.2 i) hd ht hz (hval i)
  have h2 : Measurable fun w : (ℝ × St n Z) × Tape => factor C (pat (upTo dist w.1.1) w.1.2.1) :=
    measurable_of_upTo (g := fun S (_ : (ℝ × St n Z) × Tape) => factor C S) hd ht hz fun S => measurable_const
  have h3 : Measurable fun w : (ℝ × St n Z) × Tape => w.1.2.2 := measurable_snd.comp (measurable_snd.comp measurable_fst)
  exact ht.prodMk (h1.prodMk (h3.mul h2))

include hc in
theorem moveAt_dependsOn (s : ℝ × St n Z) : DependsOn (moveAt dist cat C mv κ s) (below κ \ below ((n + 1) :: κ)) := by
  intro ω ω' h
  unfold moveAt
  rw [step_dependsOn (moveLaw hd hc hM κ s.1) s.2 fun t ht => h t (smcSites κ ht)]

include hc in
/-- From a given state, the estimate after resampling and moving is close to that of the averaged function. -/
theorem moveAt_concentrates [NeZero n] {f : Z → ℝ} (hf : Measurable f) (hf0 : ∀ x, 0 ≤ f x) {B : ℝ} (hB : ∀ x, f x ≤ B) (s : ℝ × St n Z) (h : s.2.2 ≤ 1) {ε : ℝ} (hε : 0 < ε) :
    ideal {ω | ε ≤ |er (upTo dist s.1) f (moveAt dist cat C mv κ s ω).2 - er (upTo dist s.1) (PC dist P f s.1) s.2|} ≤ ENNReal.ofReal B ^ 2 / n / ENNReal.ofReal (ε ^ 2) := by
  set g : Z → ℝ≥0∞ := fun x => ENNReal.ofReal (f x) with hg
  set A := upTo dist s.1 with hA
  have hAm : MeasurableSet A := measurableSet_le hd measurable_const
  have hgm : Measurable g := ENNReal.measurable_ofReal.comp hf
  have hgB : ∀ x, g x ≤ ENNReal.ofReal B := fun x => ENNReal.ofReal_le_ofReal (hB x)
  have hS := moveLaw hd hc hM κ s.1
  have hn0 : (n : ℝ≥0∞) ≠ 0 := by exact_mod_cast NeZero.ne n
  have hgi : A.indicator g = fun x => ENNReal.ofReal (A.indicator f x) := funext fun x => by
    by_cases hx : x ∈ A
    · rw [Set.indicator_of_mem hx, Set.indicator_of_mem hx]
    · rw [Set.indicator_of_notMem hx, Set.indicator_of_notMem hx, ENNReal.ofReal_zero]
  have hPB : ∀ x, P s.1 (A.indicator g) x ≤ ENNReal.ofReal B := hM.le (hgm.indicator hAm) (fun x => (Set.indicator_le_self A g x).trans (hgB x)) s.1
  have hPr : P s.1 (A.indicator g) = fun x => ENNReal.ofReal (PC dist P f s.1 x) := funext fun x => by
    unfold PC PR
    rw [← hA, ← hgi]
    exact (ENNReal.ofReal_toReal (ne_top_of_le_ne_top ENNReal.ofReal_ne_top (hPB x))).symm
  have hQ : est A (P s.1 (A.indicator g)) s.2 ≠ ∞ := by
    unfold est
    refine ENNReal.mul_ne_top (ne_top_of_le_ne_top ENNReal.one_ne_top h) (ENNReal.mul_ne_top (ENNReal.inv_ne_top.2 hn0) (ENNReal.sum_ne_top.2 fun i _ => ?_))
    exact ne_top_of_le_ne_top ENNReal.ofReal_ne_top ((Set.indicator_le_self A _ _).trans (hPB _))
  have hQr : (est A (P s.1 (A.indicator g)) s.2).toReal = er A (PC dist P f s.1) s.2 := by rw [hPr]; exact er_eq (fun x => ENNReal.toReal_nonneg) _ _
  have hm : Measurable fun ω => est A g (step A cat C (fun i => (n :: κ, (i : ℕ))) (fun i => mv s.1 ((i : ℕ) :: κ)) s.2 ω) := by
    have h1 := (measurable_est hAm hgm).comp ((measurable_step hS).comp (measurable_prodMk_left (x := s.2)))
    exact h1
  have h2 := lintegral_sq_step hS (smcApart κ) hAm subset_rfl hgm hgB s.2 h
  have hv : ENNReal.ofReal B ^ 2 / (n : ℝ≥0∞) ≠ ∞ := ENNReal.div_ne_top (ENNReal.pow_ne_top ENNReal.ofReal_ne_top) hn0
  have main := chebyshev ideal hm hQ hv (lintegral_est_step hS hAm subset_rfl hgm s.2) h2 hε
  rw [hQr] at main
  refine le_trans (le_of_eq ?_) main
  congr 1
  ext ω
  simp only [Set.mem_ofPred_eq]
  rw [hg, er_eq hf0]
  rfl

omit hM in
theorem measurable_er_upTo {f : Z → ℝ} (hf : Measurable f) : Measurable fun s : ℝ × St n Z => er (upTo dist s.1) f s.2 := by
  unfold er
  refine (measurable_snd.comp measurable_snd).ennreal_toReal.mul (measurable_const.mul (Finset.measurable_sum _ fun i _ => ?_))
  have hz : Measurable fun s : ℝ × St n Z => s.2.1 i := (measurable_pi_apply i).comp (measurable_fst.comp measurable_snd)
  have h1 : MeasurableSet {s : ℝ × St n Z | dist (s.2.1 i) ≤ s.1} := measurableSet_le (hd.comp hz) measurable_fst
  exact (hf.comp hz).indicator h1

theorem measurable_PC {f : Z → ℝ} (hf : Measurable f) : Measurable fun w : ℝ × Z => PC dist P f w.1 w.2 := by
  have hg : Measurable fun x => ENNReal.ofReal (f x) := ENNReal.measurable_ofReal.comp hf
  have hE : MeasurableSet {w : (ℝ × Z) × Tape | dist (mv w.1.1 [] w.1.2 w.2) ≤ w.1.1} := measurableSet_le (hd.comp (hM.measurable [])) (measurable_fst.comp measurable_fst)
  have h1 : Measurable fun w : ℝ × Z => ∫⁻ ω, ENNReal.ofReal ((upTo dist w.1).indicator f (mv w.1 [] w.2 ω)) ∂ideal := by
    refine Measurable.lintegral_prod_right' (f := fun w : (ℝ × Z) × Tape => ENNReal.ofReal ((upTo dist w.1.1).indicator f (mv w.1.1 [] w.1.2 w.2))) ?_
    refine ENNReal.measurable_ofReal.comp ?_
    exact (hf.comp (hM.measurable [])).indicator hE
  have e : (fun w : ℝ × Z => PC dist P f w.1 w.2) = fun w : ℝ × Z => (∫⁻ ω, ENNReal.ofReal ((upTo dist w.1).indicator f (mv w.1 [] w.2 ω)) ∂ideal).toReal := funext fun w => by
    unfold PC PR
    have hh : Measurable fun x => ENNReal.ofReal ((upTo dist w.1).indicator f x) := ENNReal.measurable_ofReal.comp (hf.indicator (measurableSet_upTo hd w.1))
    rw [← hM.law w.1 [] w.2 hh]
  rw [e]
  exact h1.ennreal_toReal

theorem measurable_er_PC {f : Z → ℝ} (hf : Measurable f) : Measurable fun s : ℝ × St n Z => er (upTo dist s.1) (PC dist P f s.1) s.2 := by
  unfold er
  refine (measurable_snd.comp measurable_snd).ennreal_toReal.mul (measurable_const.mul (Finset.measurable_sum _ fun i _ => ?_))
  have hz : Measurable fun s : ℝ × St n Z => s.2.1 i := (measurable_pi_apply i).comp (measurable_fst.comp measurable_snd)
  have h1 : MeasurableSet {s : ℝ × St n Z | dist (s.2.1 i) ≤ s.1} := measurableSet_le (hd.comp hz) measurable_fst
  exact ((measurable_PC hd hM hf).comp (measurable_fst.prodMk hz)).indicator h1

end

/-- From random states that have not read what the move reads. -/
theorem moveAt_inProb {P0 : ∀ n, Measure (Fin (n + 1) → Z)} [∀ n, IsProbabilityMeasure (P0 n)] {dist : Z → ℝ} (hdist : Measurable dist) {cat : ∀ n, Finset (Fin (n + 1)) → ℝ → Fin (n + 1)} {C : ∀ n, Set (Finset (Fin (n + 1)))}
    (hc : ∀ n, CatLaw (cat n) (C n)) {mv : ℝ → Keys.Key → Z → Tape → Z} {P : ℝ → (Z → ℝ≥0∞) → Z → ℝ≥0∞} (hM : MoveLaw mv P) (κ : ℕ → Keys.Key)
    {s : ∀ n, (Fin (n + 1) → Z) × Tape → ℝ × St (n + 1) Z} (hs : ∀ n, Measurable (s n)) (hd : ∀ n x, DependsOn (fun ω => s n (x, ω)) (below (κ n))ᶜ) (h1s : ∀ n z, (s n z).2.2 ≤ 1)
    {f : Z → ℝ} (hf : Measurable f) (hf0 : ∀ x, 0 ≤ f x) {B : ℝ} (hB : ∀ x, f x ≤ B) :
    InProb (fun n => (P0 n).prod ideal)
      (fun n z => er (upTo dist (s n z).1) f (moveAt dist (cat n) (C n) mv (κ n) (s n z) z.2).2 - er (upTo dist (s n z).1) (PC dist P f (s n z).1) (s n z).2) 0 := by
  rw [inProb_real]
  intro ε hε
  simp only [sub_zero]
  set v : ℝ≥0∞ := ENNReal.ofReal B ^ 2 with hv
  have hlim : Tendsto (fun n : ℕ => v / ((n + 1 : ℕ) : ℝ≥0∞) / ENNReal.ofReal (ε ^ 2)) atTop (𝓝 0) := by
    have hv' : v ≠ ∞ := ENNReal.pow_ne_top ENNReal.ofReal_ne_top
    have h1 : Tendsto (fun n : ℕ => (((n + 1 : ℕ) : ℝ≥0∞))⁻¹) atTop (𝓝 0) := (tendsto_add_atTop_iff_nat 1).2 ENNReal.tendsto_inv_nat_nhds_zero
    have h2 : Tendsto (fun n : ℕ => v * (((n + 1 : ℕ) : ℝ≥0∞))⁻¹ * (ENNReal.ofReal (ε ^ 2))⁻¹) atTop (𝓝 (v * 0 * (ENNReal.ofReal (ε ^ 2))⁻¹)) :=
      ENNReal.Tendsto.mul_const (ENNReal.Tendsto.const_mul h1 (Or.inr hv')) (Or.inr (ENNReal.inv_ne_top.2 (ENNReal.ofReal_pos.2 (by positivity)).ne'))
    rw [mul_zero, zero_mul] at h2
    exact h2
  refine tendsto_of_tendsto_of_tendsto_of_le_of_le tendsto_const_nhds hlim (fun n => bot_le) fun n => ?_
  set E : Set ((ℝ × St (n + 1) Z) × Tape) := {z | ε ≤ |er (upTo dist z.1.1) f (moveAt dist (cat n) (C n) mv (κ n) z.1 z.2).2 - er (upTo dist z.1.1) (PC dist P f z.1.1) z.1.2|} with hE
  have hEm : MeasurableSet E := by
    have h0 := measurable_moveAt hdist (hc n) hM (κ n)
    have h1 : Measurable fun z : (ℝ × St (n + 1) Z) × Tape => er (upTo dist z.1.1) f (moveAt dist (cat n) (C n) mv (κ n) z.1 z.2).2 :=
      (measurable_er_upTo hdist hf).comp ((measurable_fst.comp measurable_fst).prodMk (measurable_snd.comp h0))
    have h2 : Measurable fun z : (ℝ × St (n + 1) Z) × Tape => er (upTo dist z.1.1) (PC dist P f z.1.1) z.1.2 := (measurable_er_PC hdist hM hf).comp measurable_fst
    exact measurableSet_le measurable_const (h1.sub h2).abs
  have hmap : Measurable fun z : (Fin (n + 1) → Z) × Tape => (s n z, z.2) := (hs n).prodMk measurable_snd
  have hset : {z : (Fin (n + 1) → Z) × Tape | ε ≤ |er (upTo dist (s n z).1) f (moveAt dist (cat n) (C n) mv (κ n) (s n z) z.2).2 - er (upTo dist (s n z).1) (PC dist P f (s n z).1) (s n z).2|}
      = (fun z => (s n z, z.2)) ⁻¹' E := rfl
  rw [hset, Measure.prod_apply (hmap hEm)]
  refine (lintegral_mono (g := fun _ => v / ((n + 1 : ℕ) : ℝ≥0∞) / ENNReal.ofReal (ε ^ 2)) fun x => ?_).trans (le_of_eq (by rw [lintegral_const, measure_univ, mul_one]))
  have hsx : Measurable fun ω => s n (x, ω) := (hs n).comp measurable_prodMk_left
  have e1 : ideal (Prod.mk x ⁻¹' ((fun z => (s n z, z.2)) ⁻¹' E)) = ∫⁻ ω, E.indicator 1 (s n (x, ω), ω) ∂ideal := by
    have h1 : MeasurableSet (Prod.mk x ⁻¹' ((fun z => (s n z, z.2)) ⁻¹' E)) := measurable_prodMk_left (hmap hEm)
    rw [← lintegral_indicator_one h1]
    rfl
  rw [e1]
  have hdis : Disjoint (below (κ n))ᶜ (below (κ n) \ below ((n + 1 + 1) :: κ n)) := Set.disjoint_left.mpr fun _ h1 h2 => h1 h2.1
  have e2 := fresh hdis (f := fun ω => s n (x, ω)) (g := fun a ω => E.indicator (1 : (ℝ × St (n + 1) Z) × Tape → ℝ≥0∞) (a, ω)) hsx (hd n x) (measurable_one.indicator hEm)
    (fun a ω ω' hω => by
      have := moveAt_dependsOn hdist (hc n) hM (κ n) a hω
      simp only [Set.indicator, hE, Set.mem_ofPred_eq, Pi.one_apply, this])
  rw [e2]
  refine (lintegral_mono (g := fun _ => v / ((n + 1 : ℕ) : ℝ≥0∞) / ENNReal.ofReal (ε ^ 2)) fun ω => ?_).trans (le_of_eq (by rw [lintegral_const, measure_univ, mul_one]))
  have h3 := moveAt_concentrates hdist (hc n) hM (κ n) hf hf0 hB (s n (x, ω)) (h1s n (x, ω)) hε
  refine le_trans (le_of_eq ?_) h3
  have h4 : MeasurableSet {ω' | (s n (x, ω), ω') ∈ E} := measurable_prodMk_left hEm
  exact lintegral_indicator_one h4

/-- What is kept along a run. -/
structure RunOK (P0 : ∀ n, Measure (Fin (n + 1) → Z)) (μ : Measure Z) (dist : Z → ℝ) (κ : ℕ → Keys.Key) (s : ∀ n, (Fin (n + 1) → Z) × Tape → ℝ × St (n + 1) Z) : Prop where
  measurable : ∀ n, Measurable (s n)
  dependsOn : ∀ n x, DependsOn (fun ω => s n (x, ω)) (below (κ n))ᶜ
  le_one : ∀ n z, (s n z).2.2 ≤ 1
  good : Good (fun n => (P0 n).prod ideal) μ (upTo dist) s

section
variable {P0 : ∀ n, Measure (Fin (n + 1) → Z)} [∀ n, IsProbabilityMeasure (P0 n)] {μ : Measure Z} [IsProbabilityMeasure μ] {dist : Z → ℝ} (hdist : Measurable dist) {κ : ℕ → Keys.Key} {s : ∀ n, (Fin (n + 1) → Z) × Tape → ℝ × St (n + 1) Z}
include hdist

theorem RunOK.move (hs : RunOK P0 μ dist κ s) {cat : ∀ n, Finset (Fin (n + 1)) → ℝ → Fin (n + 1)} {C : ∀ n, Set (Finset (Fin (n + 1)))}
    (hc : ∀ n, CatLaw (cat n) (C n)) {mv : ℝ → Keys.Key → Z → Tape → Z} {P : ℝ → (Z → ℝ≥0∞) → Z → ℝ≥0∞} (hM : MoveLaw mv P)
    (hnet : ∀ (f : Z → ℝ) (B : ℝ), Measurable f → (∀ x, 0 ≤ f x) → (∀ x, f x ≤ B) → Net μ (PC dist P f))
    (hinv : ∀ t {h : Z → ℝ≥0∞}, Measurable h → ∫⁻ z in upTo dist t, P t h z ∂μ = ∫⁻ z in upTo dist t, h z ∂μ) :
    RunOK P0 μ dist (fun n => (n + 1 + 1) :: κ n) fun n z => moveAt dist (cat n) (C n) mv (κ n) (s n z) z.2 := by
  refine ⟨fun n => (measurable_moveAt hdist (hc n) hM (κ n)).comp ((hs.measurable n).prodMk measurable_snd), fun n x ω ω' h => ?_, fun n z => moveAt_le_one (hs.le_one n z) _, fun f B hf hf0 hB => ?_⟩
  · have h1 := hs.dependsOn n x (fun t ht => h t fun h2 => ht (mem_below_cons h2) : ∀ t ∈ (below (κ n))ᶜ, ω t = ω' t)
    simp only at h1 ⊢
    rw [h1]
    exact moveAt_dependsOn hdist (hc n) hM (κ n) _ fun t ht => h t ht.2
  · have h1 := moveAt_inProb (P0 := P0) hdist hc hM κ hs.measurable hs.dependsOn hs.le_one hf hf0 hB
    have h2 := hs.good.net (hnet f B hf hf0 hB) fun n z => (s n z).1
    have h3 := h1.add h2
    rw [add_zero] at h3
    refine h3.congr (Filter.Eventually.of_forall fun n z => ?_)
    have e : ∀ t, ∫ z in upTo dist t, PC dist P f t z ∂μ = ∫ z in upTo dist t, f z ∂μ := by
      intro t
      have hA : MeasurableSet (upTo dist t) := measurableSet_le hdist measurable_const
      have hfi : Measurable ((upTo dist t).indicator f) := hf.indicator hA
      have hg : Measurable fun x => ENNReal.ofReal ((upTo dist t).indicator f x) := ENNReal.measurable_ofReal.comp hfi
      have hPf : ∀ x, P t (fun x => ENNReal.ofReal ((upTo dist t).indicator f x)) x = ENNReal.ofReal (PC dist P f t x) := fun x =>
        (ENNReal.ofReal_toReal (ne_top_of_le_ne_top (b := ENNReal.ofReal (max B 0)) ENNReal.ofReal_ne_top (hM.le hg (fun x => ENNReal.ofReal_le_ofReal
          (Set.indicator_apply_le' (fun _ => (hB x).trans (le_max_left _ _)) fun _ => le_max_right _ _)) t x))).symm
      have h := hinv t hg
      simp only [hPf] at h
      have e2 : ∫ z in upTo dist t, f z ∂μ = ∫ z in upTo dist t, (upTo dist t).indicator f z ∂μ :=
        setIntegral_congr_fun hA fun z hz => (Set.indicator_of_mem hz f).symm
      rw [e2, integral_eq_lintegral_of_nonneg_ae (Filter.Eventually.of_forall fun x => (hnet f B hf hf0 hB).nonneg _ x) ((hnet f B hf hf0 hB).measurable _).aestronglyMeasurable,
        integral_eq_lintegral_of_nonneg_ae (Filter.Eventually.of_forall fun x => Set.indicator_nonneg (fun z _ => hf0 z) x) hfi.aestronglyMeasurable]
      exact congrArg ENNReal.toReal h
    simp only [moveAt, e]
    ring

end

/-- Lowering the threshold. -/
theorem Good.lower {Ω : ℕ → Type*} [∀ n, MeasurableSpace (Ω n)] {Pr : ∀ n, Measure (Ω n)} {Θ : Type*} {μ : Measure Z} [IsFiniteMeasure μ] {A : Θ → Set Z} {s : ∀ n, Ω n → Θ × St (n + 1) Z} (hs : Good Pr μ A s)
    {dist : Z → ℝ} (hd : Measurable dist) (h0 : ∀ t, μ {z | dist z = t} = 0) (t : ∀ n, Ω n → ℝ) (ht : ∀ n w, upTo dist (t n w) ⊆ A (s n w).1) : Good Pr μ (upTo dist) fun n w => (t n w, (s n w).2) := by
  intro f B hf hf0 hB
  have h := hs.net (cut_net μ hd h0 hf hf0 hB).1 t
  refine h.congr (Filter.Eventually.of_forall fun n w => ?_)
  simp only
  rw [er_subset (ht n w), setIntegral_indicator (measurableSet_upTo hd _), Set.inter_eq_self_of_subset_right (ht n w)]

/-- When the numbers of particles below the new threshold are nearly the share `ρ` of those with weight, so is the mass. -/
theorem Good.mass {Ω : ℕ → Type*} [∀ n, MeasurableSpace (Ω n)] {Pr : ∀ n, Measure (Ω n)} {Θ : Type*} {μ : Measure Z} [IsFiniteMeasure μ] {A : Θ → Set Z} {s : ∀ n, Ω n → Θ × St (n + 1) Z} (hs : Good Pr μ A s)
    {dist : Z → ℝ} (hd : Measurable dist) (h0 : ∀ t, μ {z | dist z = t} = 0) (t : ∀ n, Ω n → ℝ) (ht : ∀ n w, upTo dist (t n w) ⊆ A (s n w).1) (ρ : ℝ)
    (h1 : ∀ n w, ρ * er (A (s n w).1) (fun _ => 1) (s n w).2 - 1 / ((n : ℝ) + 1) ≤ er (A (s n w).1) ((upTo dist (t n w)).indicator fun _ => 1) (s n w).2)
    (h2 : ∀ n w, er (A (s n w).1) ({z | dist z < t n w}.indicator fun _ => 1) (s n w).2 ≤ ρ * er (A (s n w).1) (fun _ => 1) (s n w).2 + 1 / ((n : ℝ) + 1)) :
    InProb Pr (fun n w => μ.real (upTo dist (t n w)) - ρ * μ.real (A (s n w).1)) 0 := by
  have hcut := cut_net μ hd h0 (f := fun _ => 1) measurable_const (fun _ => zero_le_one) (B := 1) fun _ => le_rfl
  have g1 := hs.net hcut.1 t
  have g2 := hs.net hcut.2 t
  have g3 := hs (fun _ => 1) 1 measurable_const (fun _ => zero_le_one) fun _ => le_rfl
  have g4 : InProb Pr (fun n _ => 1 / ((n : ℝ) + 1)) 0 := inProb_of_tendsto tendsto_one_div_add_atTop_nhds_zero_nat
  have key := ((inProb_abs g1).add (inProb_abs g2)).add (((inProb_abs g3).mul (inProb_const |ρ|)).add g4)
  simp only [zero_mul, add_zero] at key
  refine inProb_of_le fun η hη => ⟨_, key, fun n w => ?_⟩
  have i1 : ∫ z in A (s n w).1, (upTo dist (t n w)).indicator (fun _ => (1 : ℝ)) z ∂μ = μ.real (upTo dist (t n w)) := by
    rw [setIntegral_indicator (measurableSet_upTo hd _), Set.inter_eq_self_of_subset_right (ht n w), setIntegral_const, smul_eq_mul, mul_one]
  have i2 : ∫ z in A (s n w).1, {z | dist z < t n w}.indicator (fun _ => (1 : ℝ)) z ∂μ = μ.real (upTo dist (t n w)) := by
    have hsub : {z | dist z < t n w} ⊆ A (s n w).1 := fun z hz => ht n w (show dist z ≤ t n w from le_of_lt hz)
    have hms : MeasurableSet {z | dist z < t n w} := measurableSet_lt hd measurable_const
    rw [setIntegral_indicator hms, Set.inter_eq_self_of_subset_right hsub, setIntegral_const, smul_eq_mul, mul_one]
    refine congrArg ENNReal.toReal (measure_congr ?_)
    have h3 := h0 (t n w)
    rw [measure_eq_zero_iff_ae_notMem] at h3
    filter_upwards [h3] with z hz
    exact propext ⟨fun h1 => le_of_lt h1, fun h1 => lt_of_le_of_ne h1 hz⟩
  have i3 : ∫ _ in A (s n w).1, (1 : ℝ) ∂μ = μ.real (A (s n w).1) := by rw [setIntegral_const, smul_eq_mul, mul_one]
  simp only [i1, i2, i3]
  have a1 := h1 n w
  have a2 := h2 n w
  obtain ⟨x, hx⟩ : ∃ x, x = er (A (s n w).1) ((upTo dist (t n w)).indicator fun _ => 1) (s n w).2 := ⟨_, rfl⟩
  obtain ⟨y, hy⟩ : ∃ y, y = er (A (s n w).1) ({z | dist z < t n w}.indicator fun _ => 1) (s n w).2 := ⟨_, rfl⟩
  obtain ⟨u, hu⟩ : ∃ u, u = er (A (s n w).1) (fun _ => 1) (s n w).2 := ⟨_, rfl⟩
  rw [← hx, ← hu] at a1
  rw [← hy, ← hu] at a2
  rw [← hx, ← hy, ← hu]
  obtain ⟨m, hm⟩ : ∃ m, m = μ.real (upTo dist (t n w)) := ⟨_, rfl⟩
  obtain ⟨M, hM⟩ : ∃ M, M = μ.real (A (s n w).1) := ⟨_, rfl⟩
  rw [← hm, ← hM]
  have hn : (0 : ℝ) ≤ 1 / ((n : ℝ) + 1) := by positivity
  obtain ⟨e, he⟩ : ∃ e, e = 1 / ((n : ℝ) + 1) := ⟨_, rfl⟩
  rw [← he] at a1 a2 hn ⊢
  have b1 := abs_le.1 (le_refl |x - m|)
  have b2 := abs_le.1 (le_refl |y - m|)
  have b3 : |ρ * u - ρ * M| = |u - M| * |ρ| := by rw [← mul_sub, abs_mul, mul_comm]
  have b4 := abs_le.1 (le_of_eq b3)
  have b5 := abs_nonneg (x - m)
  have b6 := abs_nonneg (y - m)
  refine le_trans ?_ (add_le_add (le_abs_self _) hη.le)
  rw [abs_le]
  constructor <;> linarith

end Mocat.Alive
