import Verif.Lemmas.Tape
import Verif.Lemmas.Categorical
import Verif.Lemmas.Smc
/-! Weighted particles on an ideal tape (tempered SMC, particle filters): the expectation of their weighted estimates. -/
namespace Mocat.Smc
open Mocat Mocat.Ideal Mocat.Meas MeasureTheory
open scoped ENNReal

variable {n : ℕ} {X : Type*} [MeasurableSpace X]

/-- Positions, log weights, log normalising constant. -/
abbrev Red (n : ℕ) (X : Type*) := (Fin n → X) × (Fin n → ℝ) × ℝ

/-- The weighted estimate of an unnormalised expectation: `exp logNorm` times the self-normalised mean. -/
noncomputable def Q (f : X → ℝ≥0∞) (R : Red n X) : ℝ≥0∞ :=
  ∑ i, ENNReal.ofReal (Real.exp R.2.2 * (Real.exp (R.2.1 i) / ∑ j, Real.exp (R.2.1 j))) * f (R.1 i)

/-- Log weights after the resampling step; `C` are the weights that trigger it. -/
noncomputable def redWeight (C : Set (Fin n → ℝ)) (R : Red n X) : Fin n → ℝ :=
  open Classical in if R.2.1 ∈ C then fun _ => 0 else R.2.1

/-- Positions after the resampling step; particle `i` reads its ancestor from site `σ i`. -/
noncomputable def redValue (cat : (Fin n → ℝ) → ℝ → Fin n) (C : Set (Fin n → ℝ)) (σ : Fin n → Site) (R : Red n X) (ω : Tape) (i : Fin n) : X :=
  open Classical in if R.2.1 ∈ C then R.1 (cat R.2.1 (ω (σ i))) else R.1 i

/-- One update: `mv i` moves particle `i`, `G` is the incremental log weight. -/
noncomputable def redStep (cat : (Fin n → ℝ) → ℝ → Fin n) (C : Set (Fin n → ℝ)) (σ : Fin n → Site) (G : X → X → ℝ) (mv : Fin n → X → Tape → X) (R : Red n X)
    (ω : Tape) : Red n X :=
  let v := fun i : Fin n => mv i (redValue cat C σ R ω i) ω
  let lw := fun i => redWeight C R i + G (redValue cat C σ R ω i) (v i)
  (v, lw, R.2.2 + lse lw - lse (redWeight C R))

theorem measurable_lse : Measurable (lse : (Fin n → ℝ) → ℝ) := by
  unfold lse
  exact Real.measurable_log.comp (Finset.measurable_sum _ fun i _ => Real.measurable_exp.comp (measurable_pi_apply i))

theorem measurable_logEss : Measurable (logEss : (Fin n → ℝ) → ℝ) := by
  unfold logEss
  refine (measurable_const.mul measurable_lse).sub (measurable_lse.comp ?_)
  exact measurable_pi_lambda _ fun i => measurable_const.mul (measurable_pi_apply i)

/-- The criterion of the SMC samplers. -/
def critLe (n : ℕ) (thr : ℝ) : Set (Fin n → ℝ) := {w | Real.exp (logEss w) ≤ thr * n}

theorem measurableSet_critLe (thr : ℝ) : MeasurableSet (critLe n thr) :=
  measurableSet_le (Real.measurable_exp.comp measurable_logEss) measurable_const

/-- The criterion of the particle filters. -/
def critLt (n : ℕ) (thr : ℝ) : Set (Fin n → ℝ) := {w | Real.exp (logEss w) < thr * n}

theorem measurableSet_critLt (thr : ℝ) : MeasurableSet (critLt n thr) :=
  measurableSet_lt (Real.measurable_exp.comp measurable_logEss) measurable_const

theorem measurable_apply_fin {α : Type*} [MeasurableSpace α] {f : α → Fin n → X} (hf : Measurable f) {j : α → Fin n} (hj : Measurable j) : Measurable fun a => f a (j a) := by
  have h : Measurable fun z : (Fin n → X) × Fin n => z.1 z.2 := measurable_from_prod_countable_left fun i => measurable_pi_apply i
  exact h.comp (hf.prodMk hj)

/-- What is assumed of an update: particle `i` moves with what is read at `T i`. -/
structure StepLaw (C : Set (Fin n → ℝ)) (σ : Fin n → Site) (G : X → X → ℝ) (mv : Fin n → X → Tape → X) (T : Fin n → Set Site) (P : (X → ℝ≥0∞) → X → ℝ≥0∞) : Prop where
  crit : MeasurableSet C
  weight : Measurable (Function.uncurry G)
  move : ∀ i, Measurable fun z : X × Tape => mv i z.1 z.2
  reads : ∀ i x, DependsOn (mv i x) (T i)
  apart : ∀ i, σ i ∉ T i
  law : ∀ i x {h : X → ℝ≥0∞}, Measurable h → ∫⁻ ω, ENNReal.ofReal (Real.exp (G x (mv i x ω))) * h (mv i x ω) ∂ideal = P h x
  op : ∀ {h : X → ℝ≥0∞}, Measurable h → Measurable (P h)

/-- What an update reads. -/
def stepSites (σ : Fin n → Site) (T : Fin n → Set Site) : Set Site := {s | ∃ i, s = σ i ∨ s ∈ T i}

theorem measurable_Q {f : X → ℝ≥0∞} (hf : Measurable f) : Measurable (Q f : Red n X → ℝ≥0∞) := by
  unfold Q
  refine Finset.measurable_sum _ fun i _ => ?_
  have hw : Measurable fun R : Red n X => R.2.1 := measurable_fst.comp measurable_snd
  refine (ENNReal.measurable_ofReal.comp ((Real.measurable_exp.comp (measurable_snd.comp measurable_snd)).mul
    ((Real.measurable_exp.comp ((measurable_pi_apply i).comp hw)).div
      (Finset.measurable_sum _ fun j _ => Real.measurable_exp.comp ((measurable_pi_apply j).comp hw))))).mul
    (hf.comp ((measurable_pi_apply i).comp measurable_fst))

theorem measurable_redWeight {C : Set (Fin n → ℝ)} (hC : MeasurableSet C) : Measurable (redWeight C : Red n X → Fin n → ℝ) := by
  unfold redWeight
  exact Measurable.ite ((measurable_fst.comp measurable_snd) hC) measurable_const (measurable_fst.comp measurable_snd)

theorem measurable_redValue {cat : (Fin n → ℝ) → ℝ → Fin n} (hcat : IsCategoricalReal cat) {C : Set (Fin n → ℝ)} (hC : MeasurableSet C) (σ : Fin n → Site) (i : Fin n) :
    Measurable fun z : Red n X × Tape => redValue cat C σ z.1 z.2 i := by
  have hw : Measurable fun z : Red n X × Tape => z.1.2.1 := measurable_fst.comp (measurable_snd.comp measurable_fst)
  unfold redValue
  refine Measurable.ite (hw hC) ?_ ((measurable_pi_apply i).comp (measurable_fst.comp measurable_fst))
  refine measurable_apply_fin (measurable_fst.comp measurable_fst) ?_
  exact hcat.measurable.comp (hw.prodMk ((measurable_pi_apply (σ i) : Measurable fun ω : Tape => ω (σ i)).comp measurable_snd))

omit [MeasurableSpace X] in
theorem redValue_dependsOn (cat : (Fin n → ℝ) → ℝ → Fin n) (C : Set (Fin n → ℝ)) (σ : Fin n → Site) (R : Red n X) (i : Fin n) :
    DependsOn (fun ω => redValue cat C σ R ω i) {σ i} := by
  intro ω ω' h
  simp only [redValue]
  rw [h (σ i) rfl]

omit [MeasurableSpace X] in
theorem lse_exp [NeZero n] (v : Fin n → ℝ) : Real.exp (lse v) = ∑ i, Real.exp (v i) :=
  Real.exp_log (Finset.sum_pos (fun _ _ => Real.exp_pos _) ⟨0, Finset.mem_univ _⟩)

section
variable {cat : (Fin n → ℝ) → ℝ → Fin n} (hcat : IsCategoricalReal cat) {C : Set (Fin n → ℝ)} {σ : Fin n → Site} {G : X → X → ℝ} {mv : Fin n → X → Tape → X}
  {T : Fin n → Set Site} {P : (X → ℝ≥0∞) → X → ℝ≥0∞} (hS : StepLaw C σ G mv T P)

include hcat hS

theorem measurable_moved (i : Fin n) : Measurable fun z : Red n X × Tape => mv i (redValue cat C σ z.1 z.2 i) z.2 :=
  (hS.move i).comp ((measurable_redValue hcat hS.crit σ i).prodMk measurable_snd)

theorem measurable_redStep : Measurable fun z : Red n X × Tape => redStep cat C σ G mv z.1 z.2 := by
  have h1 : Measurable fun z : Red n X × Tape => fun i : Fin n => mv i (redValue cat C σ z.1 z.2 i) z.2 :=
    measurable_pi_lambda _ fun i => measurable_moved hcat hS i
  have h0 : Measurable fun z : Red n X × Tape => redWeight C z.1 := (measurable_redWeight hS.crit).comp measurable_fst
  have h2 : Measurable fun z : Red n X × Tape => fun i : Fin n => redWeight C z.1 i + G (redValue cat C σ z.1 z.2 i) (mv i (redValue cat C σ z.1 z.2 i) z.2) :=
    measurable_pi_lambda _ fun i => ((measurable_pi_apply i).comp h0).add
      (hS.weight.comp ((measurable_redValue hcat hS.crit σ i).prodMk (measurable_moved hcat hS i)))
  exact h1.prodMk (h2.prodMk (((measurable_snd.comp (measurable_snd.comp measurable_fst)).add (measurable_lse.comp h2)).sub (measurable_lse.comp h0)))

omit hcat in
theorem redStep_dependsOn (R : Red n X) : DependsOn (redStep cat C σ G mv R) (stepSites σ T) := by
  intro ω ω' h
  have e1 : ∀ i, redValue cat C σ R ω i = redValue cat C σ R ω' i := fun i =>
    redValue_dependsOn cat C σ R i fun s hs => h s ⟨i, Or.inl hs⟩
  have e2 : (fun i : Fin n => mv i (redValue cat C σ R ω i) ω) = fun i : Fin n => mv i (redValue cat C σ R ω' i) ω' := by
    funext i
    rw [e1 i]
    exact hS.reads i _ fun s hs => h s ⟨i, Or.inr hs⟩
  have e0 : redValue cat C σ R ω = redValue cat C σ R ω' := funext e1
  unfold redStep
  simp only [e0] at e2 ⊢
  simp only [congrFun e2]

omit hcat hS [MeasurableSpace X] in
/-- The estimate after an update, as a sum over the moved particles. -/
theorem Q_redStep [NeZero n] (f : X → ℝ≥0∞) (R : Red n X) (ω : Tape) :
    Q f (redStep cat C σ G mv R ω)
      = ∑ i : Fin n, ENNReal.ofReal (Real.exp R.2.2 * (Real.exp (redWeight C R i) / ∑ j, Real.exp (redWeight C R j)))
        * (fun x y => ENNReal.ofReal (Real.exp (G x y)) * f y) (redValue cat C σ R ω i) (mv i (redValue cat C σ R ω i) ω) := by
  unfold Q
  refine Finset.sum_congr rfl fun i _ => ?_
  simp only [redStep]
  set r := fun i : Fin n => redValue cat C σ R ω i
  set v := fun i : Fin n => mv i (redValue cat C σ R ω i) ω
  set lw := fun i => redWeight C R i + G (r i) (v i) with hlw
  have hpos : (0 : ℝ) < ∑ j, Real.exp (lw j) := Finset.sum_pos (fun i _ => Real.exp_pos _) ⟨0, Finset.mem_univ _⟩
  have hpos' : (0 : ℝ) < ∑ j, Real.exp (redWeight C R j) := Finset.sum_pos (fun i _ => Real.exp_pos _) ⟨0, Finset.mem_univ _⟩
  rw [← mul_assoc, ← ENNReal.ofReal_mul (by positivity)]
  congr 2
  rw [Real.exp_sub, Real.exp_add, lse_exp, lse_exp]
  simp only [hlw, Real.exp_add] at hpos ⊢
  field_simp
  rfl

/-- Moving: the expectation over the move of one particle. -/
theorem lintegral_moved {h : X → ℝ≥0∞} (hh : Measurable h) (R : Red n X) (i : Fin n) :
    ∫⁻ ω, ENNReal.ofReal (Real.exp (G (redValue cat C σ R ω i) (mv i (redValue cat C σ R ω i) ω))) * h (mv i (redValue cat C σ R ω i) ω) ∂ideal
      = ∫⁻ ω, P h (redValue cat C σ R ω i) ∂ideal := by
  have hR : Measurable fun ω : Tape => (R, ω) := measurable_prodMk_left
  have hr : Measurable fun ω => redValue cat C σ R ω i := by
    have := (measurable_redValue hcat hS.crit σ i).comp hR
    simpa only [Function.comp_def] using this
  have hg : Measurable fun z : X × Tape => ENNReal.ofReal (Real.exp (G z.1 (mv i z.1 z.2))) * h (mv i z.1 z.2) := by
    refine (ENNReal.measurable_ofReal.comp (Real.measurable_exp.comp ?_)).mul (hh.comp (hS.move i))
    exact hS.weight.comp (measurable_fst.prodMk (hS.move i))
  have e := fresh (S := {σ i}) (T := T i) (Set.disjoint_singleton_left.mpr (hS.apart i)) (f := fun ω => redValue cat C σ R ω i)
    (g := fun a ω => ENNReal.ofReal (Real.exp (G a (mv i a ω))) * h (mv i a ω))
    hr (redValue_dependsOn cat C σ R i) hg (fun a ω ω' hω => by simp only; rw [hS.reads i a hω])
  rw [e]
  exact lintegral_congr fun ω => hS.law i _ hh

omit hS [MeasurableSpace X] in
/-- Resampling: the expectation over the draw of one particle. -/
theorem lintegral_redValue (p : X → ℝ≥0∞) (R : Red n X) (hc : R.2.1 ∈ C) (i : Fin n) :
    ∫⁻ ω, p (redValue cat C σ R ω i) ∂ideal = ∑ j, ENNReal.ofReal (Real.exp (R.2.1 j) / ∑ k, Real.exp (R.2.1 k)) * p (R.1 j) := by
  have hcatm : Measurable fun ω : Tape => cat R.2.1 (ω (σ i)) :=
    hcat.measurable.comp (measurable_const.prodMk (measurable_pi_apply (σ i) : Measurable fun ω : Tape => ω (σ i)))
  have e1 : ∀ ω, p (redValue cat C σ R ω i) = (fun j => p (R.1 j)) (cat R.2.1 (ω (σ i))) := fun ω => by
    simp only [redValue, if_pos hc]
  rw [lintegral_congr e1, ← lintegral_map (f := fun j => p (R.1 j)) (measurable_of_finite _) hcatm, lintegral_fintype]
  refine Finset.sum_congr rfl fun j _ => ?_
  rw [Measure.map_apply hcatm (measurableSet_singleton j), mul_comm]
  congr 1
  rw [← hcat.prob R.2.1 j]
  have hmj : MeasurableSet {u | cat R.2.1 u = j} := (hcat.measurable.comp (measurable_const.prodMk measurable_id)) (measurableSet_singleton j)
  exact site (σ i) hmj

omit hS [MeasurableSpace X] in
/-- Resampling keeps the estimate on average. -/
theorem sum_redValue [NeZero n] (p : X → ℝ≥0∞) (R : Red n X) :
    ∑ i : Fin n, ENNReal.ofReal (Real.exp R.2.2 * (Real.exp (redWeight C R i) / ∑ j, Real.exp (redWeight C R j))) * ∫⁻ ω, p (redValue cat C σ R ω i) ∂ideal
      = Q p R := by
  by_cases hc : R.2.1 ∈ C
  · have hn : (0 : ℝ) < n := by exact_mod_cast Nat.pos_of_ne_zero (NeZero.ne n)
    have hpos : (0 : ℝ) < ∑ j, Real.exp (R.2.1 j) := Finset.sum_pos (fun i _ => Real.exp_pos _) ⟨0, Finset.mem_univ _⟩
    have hw : redWeight C R = fun _ => 0 := by unfold redWeight; rw [if_pos hc]
    simp only [hw, Real.exp_zero, Finset.sum_const, Finset.card_univ, Fintype.card_fin, nsmul_eq_mul, mul_one, lintegral_redValue hcat p R hc]
    unfold Q
    rw [← mul_assoc, Finset.mul_sum]
    refine Finset.sum_congr rfl fun j _ => ?_
    rw [← mul_assoc]
    congr 1
    rw [← ENNReal.ofReal_natCast, ← ENNReal.ofReal_mul hn.le, ← ENNReal.ofReal_mul (by positivity)]
    congr 1
    field_simp
  · have hw : redWeight C R = R.2.1 := by unfold redWeight; rw [if_neg hc]
    rw [hw]
    unfold Q
    refine Finset.sum_congr rfl fun i _ => ?_
    congr 1
    simp [redValue, if_neg hc]

/-- The expected estimate after an update from a given state. -/
theorem lintegral_Q_redStep [NeZero n] {f : X → ℝ≥0∞} (hf : Measurable f) (R : Red n X) : ∫⁻ ω, Q f (redStep cat C σ G mv R ω) ∂ideal = Q (P f) R := by
  rw [lintegral_congr fun ω => Q_redStep f R ω]
  have hR : Measurable fun ω : Tape => (R, ω) := measurable_prodMk_left
  have hg : ∀ i : Fin n, Measurable fun ω => ENNReal.ofReal (Real.exp (G (redValue cat C σ R ω i) (mv i (redValue cat C σ R ω i) ω))) * f (mv i (redValue cat C σ R ω i) ω) := by
    intro i
    have h1 := (measurable_redValue hcat hS.crit σ i).comp hR
    have h2 := (measurable_moved hcat hS i).comp hR
    have h3 := (ENNReal.measurable_ofReal.comp (Real.measurable_exp.comp (hS.weight.comp (h1.prodMk h2)))).mul (hf.comp h2)
    exact h3
  rw [lintegral_finsetSum _ fun i _ => (hg i).const_mul _, ← sum_redValue (σ := σ) (C := C) hcat]
  refine Finset.sum_congr rfl fun i _ => ?_
  rw [lintegral_const_mul _ (hg i), lintegral_moved hcat hS hf]

/-- The expected estimate after an update from a random state that has not read what the update reads. -/
theorem lintegral_Q_next [NeZero n] {f : X → ℝ≥0∞} (hf : Measurable f) {R : Tape → Red n X} (hR : Measurable R) {S : Set Site} (hRS : DependsOn R S)
    (hdis : Disjoint S (stepSites σ T)) : ∫⁻ ω, Q f (redStep cat C σ G mv (R ω) ω) ∂ideal = ∫⁻ ω, Q (P f) (R ω) ∂ideal := by
  rw [fresh hdis (f := R) (g := fun a ω => Q f (redStep cat C σ G mv a ω)) hR hRS ((measurable_Q hf).comp (measurable_redStep hcat hS))
    (fun a ω ω' hω => congrArg (Q f) (redStep_dependsOn hS a hω))]
  exact lintegral_congr fun ω => lintegral_Q_redStep hcat hS hf _

theorem measurable_next {R : Tape → Red n X} (hR : Measurable R) : Measurable fun ω => redStep cat C σ G mv (R ω) ω := by
  have h := (measurable_redStep hcat hS).comp (hR.prodMk measurable_id)
  exact h

omit hcat in
theorem next_dependsOn {R : Tape → Red n X} {S : Set Site} (hRS : DependsOn R S) : DependsOn (fun ω => redStep cat C σ G mv (R ω) ω) (S ∪ stepSites σ T) := by
  intro ω ω' h
  have e1 := hRS fun s hs => h s (Or.inl hs)
  simp only
  rw [e1]
  exact redStep_dependsOn hS _ fun s hs => h s (Or.inr hs)

end

/-! ## Tempered SMC -/

/-- The key of the `k`-th update. -/
def keyAt (n : ℕ) (κ : Keys.Key) : ℕ → Keys.Key
  | 0 => κ
  | k + 1 => (n + 1) :: keyAt n κ k

/-- One update of a tempered SMC sampler that starts with key `κ`. -/
noncomputable def smcStep (cat : (Fin n → ℝ) → ℝ → Fin n) (thr : ℝ) (lik : X → ℝ) (δ : ℝ) (mv : Keys.Key → X → Tape → X) (κ : Keys.Key) (R : Red n X) (ω : Tape) : Red n X :=
  redStep cat (critLe n thr) (fun i => (n :: κ, (i : ℕ))) (fun _ x => -δ * lik x) (fun i => mv ((i : ℕ) :: κ)) R ω

/-- The reduced states of a run. -/
noncomputable def redIter (cat : (Fin n → ℝ) → ℝ → Fin n) (thr : ℝ) (lik : X → ℝ) (δ : ℕ → ℝ) (mv : ℕ → Keys.Key → X → Tape → X) (κ : Keys.Key) (R : Red n X) :
    ℕ → Tape → Red n X
  | 0, _ => R
  | k + 1, ω => smcStep cat thr lik (δ k) (mv k) (keyAt n κ k) (redIter cat thr lik δ mv κ R k ω) ω

theorem smcStep_law (thr : ℝ) {lik : X → ℝ} (hlik : Measurable lik) (δ : ℝ) {mv : Keys.Key → X → Tape → X} (hm : ∀ k, Measurable fun z : X × Tape => mv k z.1 z.2)
    (hd : ∀ k x, DependsOn (mv k x) (below k)) {P : (X → ℝ≥0∞) → X → ℝ≥0∞} (hP : ∀ k' x {h : X → ℝ≥0∞}, Measurable h → ∫⁻ ω, h (mv k' x ω) ∂ideal = P h x)
    (hPm : ∀ {h : X → ℝ≥0∞}, Measurable h → Measurable (P h)) (κ : Keys.Key) :
    StepLaw (n := n) (critLe n thr) (fun i => (n :: κ, (i : ℕ))) (fun _ x => -δ * lik x) (fun i => mv ((i : ℕ) :: κ)) (fun i => below ((i : ℕ) :: κ))
      (fun h => P fun x => ENNReal.ofReal (Real.exp (-δ * lik x)) * h x) := by
  have hw : ∀ {h : X → ℝ≥0∞}, Measurable h → Measurable fun x => ENNReal.ofReal (Real.exp (-δ * lik x)) * h x := fun hh =>
    (ENNReal.measurable_ofReal.comp (Real.measurable_exp.comp (measurable_const.mul hlik))).mul hh
  refine ⟨measurableSet_critLe thr, measurable_const.mul (hlik.comp measurable_snd), fun i => hm _, fun i x => hd _ _, fun i => below_cons_ne i.is_lt.ne', fun i x h hh => ?_,
    fun hh => hPm (hw hh)⟩
  exact hP _ _ (hw hh)

theorem smcSites (κ : Keys.Key) : stepSites (n := n) (fun i => (n :: κ, (i : ℕ))) (fun i => below ((i : ℕ) :: κ)) ⊆ below κ \ below ((n + 1) :: κ) := by
  rintro s ⟨i, rfl | hs⟩
  · exact ⟨⟨[n], rfl⟩, below_cons_ne (by omega)⟩
  · exact ⟨mem_below_cons hs, fun h => Set.disjoint_left.mp (below_disjoint (by omega)) hs h⟩

section
variable {cat : (Fin n → ℝ) → ℝ → Fin n} (hcat : IsCategoricalReal cat) (thr : ℝ) {lik : X → ℝ} (hlik : Measurable lik) (δ : ℕ → ℝ)
  {mv : ℕ → Keys.Key → X → Tape → X} (hm : ∀ t k, Measurable fun z : X × Tape => mv t k z.1 z.2) (hd : ∀ t k x, DependsOn (mv t k x) (below k))
  {P : ℕ → (X → ℝ≥0∞) → X → ℝ≥0∞} (hP : ∀ t k x {h : X → ℝ≥0∞}, Measurable h → ∫⁻ ω, h (mv t k x ω) ∂ideal = P t h x)
  (hPm : ∀ t {h : X → ℝ≥0∞}, Measurable h → Measurable (P t h)) (κ : Keys.Key) (R : Red n X)

include hcat hlik hm hd hP hPm

theorem measurable_redIter (k : ℕ) : Measurable (redIter cat thr lik δ mv κ R k) := by
  induction k with
  | zero => exact measurable_const
  | succ k ih => exact measurable_next hcat (smcStep_law thr hlik (δ k) (hm k) (hd k) (hP k) (hPm k) (keyAt n κ k)) ih

omit hcat in
theorem redIter_dependsOn (k : ℕ) : DependsOn (redIter cat thr lik δ mv κ R k) (below (keyAt n κ k))ᶜ := by
  induction k with
  | zero => intro _ _ _; rfl
  | succ k ih =>
    intro ω ω' h
    refine next_dependsOn (smcStep_law thr hlik (δ k) (hm k) (hd k) (hP k) (hPm k) (keyAt n κ k)) ih fun s hs => h s ?_
    rcases hs with hs | hs
    · exact fun h2 => hs (mem_below_cons h2)
    · exact (smcSites _ hs).2

/-- One update replaces the test function by its image under reweighting and moving. -/
theorem lintegral_Q_succ [NeZero n] (k : ℕ) {f : X → ℝ≥0∞} (hf : Measurable f) :
    ∫⁻ ω, Q f (redIter cat thr lik δ mv κ R (k + 1) ω) ∂ideal
      = ∫⁻ ω, Q (P k fun x => ENNReal.ofReal (Real.exp (-δ k * lik x)) * f x) (redIter cat thr lik δ mv κ R k ω) ∂ideal :=
  lintegral_Q_next hcat (smcStep_law thr hlik (δ k) (hm k) (hd k) (hP k) (hPm k) (keyAt n κ k)) hf (measurable_redIter hcat thr hlik δ hm hd hP hPm κ R k)
    (redIter_dependsOn thr hlik δ hm hd hP hPm κ R k) (Set.disjoint_of_subset_right (smcSites _) (Set.disjoint_left.mpr fun _ h1 h2 => h1 h2.1))

end

end Mocat.Smc
