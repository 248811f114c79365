import Verif.Props.IndependentChainsAbc
import Verif.Lemmas.RunTails
/-!
# C168: averages over MCMC chains with separate keys are far from their expectation only with exponentially small probability
-/
namespace Mocat.Props
open Mocat Mocat.Mcmc Mocat.Abc Mocat.Ideal Mocat.Meas Mocat.Segments MeasureTheory ProbabilityTheory
open scoped ENNReal

variable {d : ℕ}

/-! ## Specification -/

/-- For every number `R` of chains and every `ε > 0`: the average over the first `R` chains of a number `g` with values in an interval of length `width` is off by `ε` or more
with probability at most `2 exp (-2 R ε² / width²)`. -/
def RareAcross {α : Type*} (g : List α → ℝ) (width truth : ℝ) (chains : ℕ → Tape → List α) : Prop :=
  ∀ (R : ℕ) (ε : ℝ), 1 ≤ R → 0 < ε → ideal.real {ω | ε ≤ |chainsMean g (fun r => chains r ω) R - truth|} ≤ 2 * Real.exp (-(R * (2 * ε ^ 2 / width ^ 2)))

/-! ## Proofs -/

theorem rare_chains {α D : Type*} [MeasurableSpace α] [MeasurableSpace D] {draw : Keys.Key → Tape → D} {next : Keys.Key → Keys.Key} {step : α → D → α} {δ : Measure D} [SFinite δ]
    (hd : Draws draw next δ) (hs : Measurable (Function.uncurry step)) {rows : Keys.Key → Tape → List α} {n : ℕ} {x : α}
    (hrows : ∀ key ω, rows key ω = (List.range (n + 1)).map fun i => tapeIter draw next step i key x ω) (keys : ℕ → Keys.Key) (hk : ∀ a b, a ≠ b → Disjoint (below (keys a)) (below (keys b)))
    {g : List α → ℝ} (hg : MeasurableOn g (n + 1)) {a b : ℝ} (hab : ∀ l, g l ∈ Set.Icc a b) (key : Keys.Key) :
    RareAcross g (b - a) (∫ ω, g (rows key ω) ∂ideal) fun r ω => rows (keys r) ω := by
  intro R ε hR hε
  have hR' : (R : ℝ) ≠ 0 := by positivity
  have hZ : ∀ r, Measurable (pathVec draw next step n (keys r) x) := fun r => measurable_pathVec hd hs n _ x
  have hind : iIndepFun (fun r => pathVec draw next step n (keys r) x) ideal := iIndepFun_of_dependsOn (S := fun r => below (keys r)) hk hZ fun r => pathVec_dependsOn hd step n _ x
  have mk : Measurable (pathVec draw next step n key x) := measurable_pathVec hd hs n key x
  have : IsProbabilityMeasure (ideal.map (pathVec draw next step n key x)) := Measure.isProbabilityMeasure_map mk.aemeasurable
  have hf : Measurable fun v : Fin (n + 1) → α => g (List.ofFn v) := hg
  have hi : Integrable (fun v : Fin (n + 1) → α => g (List.ofFn v)) (ideal.map (pathVec draw next step n key x)) := by
    refine Integrable.of_bound hf.aestronglyMeasurable (|a| + |b|) (ae_of_all _ fun v => ?_)
    have h := hab (List.ofFn v)
    rw [Real.norm_eq_abs, abs_le]
    have h1 := neg_abs_le a
    have h2 := le_abs_self b
    have h3 := abs_nonneg a
    have h4 := abs_nonneg b
    exact ⟨by linarith [h.1], by linarith [h.2]⟩
  have hθ : ∫ v : Fin (n + 1) → α, (g (List.ofFn v) - a) ∂(ideal.map (pathVec draw next step n key x)) = ∫ ω, g (rows key ω) ∂ideal - a := by
    rw [integral_sub hi (integrable_const _), integral_map mk.aemeasurable hf.aestronglyMeasurable]
    simp only [ofFn_pathVec, hrows, integral_const, probReal_univ, one_smul]
  have h := rareErrors_one hZ hind (fun r => pathVec_law hd hs n (keys r) key x) (m := fun r ω => g (rows (keys r) ω) - a) (n := fun v => g (List.ofFn v) - a) (M := b - a) (hf.sub_const a)
    (fun v => by linarith [(hab (List.ofFn v)).1]) (fun v => by linarith [(hab (List.ofFn v)).2]) (fun r ω => by rw [hrows, ← ofFn_pathVec]) hθ R ε hε
  refine le_trans (le_of_eq ?_) h
  congr 1
  ext ω
  have e : runsMean (fun _ => 1) (fun r => g (rows (keys r) ω) - a) R = chainsMean g (fun r => rows (keys r) ω) R - a := by
    simp only [runsMean, chainsMean, one_mul, Finset.sum_sub_distrib, Finset.sum_const, Finset.card_range, nsmul_eq_mul, mul_one]
    field_simp
  rw [Set.mem_ofPred_eq, Set.mem_ofPred_eq, e, sub_sub_sub_cancel_right]

/-! ## Properties -/

/-- C168, `RandomWalk` with `Metropolis`: the average over `R` chains with separate keys of any number in `[a, b]` computed from a chain is off its expectation by `ε` or more with probability at most
`2 exp (-2 R ε² / (b - a)²)`. -/
theorem C168_randomWalk {q : ℝ → ℝ} (hq : IsNormalDraw q) {S : Set (Fin d → ℝ)} (hS : MeasurableSet S) {V : (Fin d → ℝ) → ℝ} (hV : Measurable V) (step : ℝ) (al : Fl) (t : ℝ)
    (keys : ℕ → Keys.Key) (hk : ∀ a b, a ≠ b → Disjoint (below (keys a)) (below (keys b))) (n : ℕ) (x : Fin d → ℝ) {g : List (Fin d → ℝ) → ℝ} (hg : MeasurableOn g (n + 1))
    {a b : ℝ} (hab : ∀ l, g l ∈ Set.Icc a b) (key : Keys.Key) :
    RareAcross g (b - a) (∫ ω, g (walkRows S V q step (n + 1) x al t key ω) ∂ideal) fun r ω => walkRows S V q step (n + 1) x al t (keys r) ω :=
  rare_chains (rows := fun key ω => walkRows S V q step (n + 1) x al t key ω) (rwDraws_draws hq) (measurable_rwMove hS hV step) (fun key ω => rw_run S V step x al t key (Nat.succ_pos n) ω) keys hk hg hab key

/-- C168, `Underdamped` with infinite friction and `Metropolis`. -/
theorem C168_langevin {prior lik : (Fin d → ℝ) → ℝ × (Fin d → ℝ)} {T : ℝ} {q : ℝ → ℝ} (hq : IsNormalDraw q) (hgr : Measurable (gradField prior lik T)) (hU : Measurable (potAt prior lik T)) (L : ℕ) (step : ℝ)
    (p : Fin d → ℝ) (al : Fl) (t : ℝ) (keys : ℕ → Keys.Key) (hk : ∀ a b, a ≠ b → Disjoint (below (keys a)) (below (keys b))) (n : ℕ) (x : Fin d → ℝ) {g : List (Fin d → ℝ) → ℝ} (hg : MeasurableOn g (n + 1))
    {a b : ℝ} (hab : ∀ l, g l ∈ Set.Icc a b) (key : Keys.Key) :
    RareAcross g (b - a) (∫ ω, g (hamiltonianRows prior lik T q L step p al t key (n + 1) x ω) ∂ideal) fun r ω => hamiltonianRows prior lik T q L step p al t (keys r) (n + 1) x ω :=
  rare_chains (rows := fun key ω => hamiltonianRows prior lik T q L step p al t key (n + 1) x ω) (udDrawsAt_draws hq) (measurable_udMove hgr hU L ⟨step, none⟩)
    (fun key ω => ud_run prior lik T L step (x, p) al t key (Nat.succ_pos n) ω) keys hk hg hab key

/-- C168, `RandomWalkABC` with `Metropolis`. -/
theorem C168_abc {D : Type*} [MeasurableSpace D] {S : Set (Fin d → ℝ)} (hS : MeasurableSet S) {V : (Fin d → ℝ) → ℝ} (hV : Measurable V) (pri : Tape → Fin d → ℝ) {sim : (Fin d → ℝ) → Tape → D}
    (hsim : Measurable fun z : (Fin d → ℝ) × Tape => sim z.1 z.2) (dist : D → Fl) {q : ℝ → ℝ} (hq : IsNormalDraw q) (p : Params d) (hB : MeasurableSet (ball dist p.threshold)) (stp : Fin d → ℝ) (al : Fl) (t : ℝ)
    (keys : ℕ → Keys.Key) (hk : ∀ a b, a ≠ b → Disjoint (below (keys a)) (below (keys b))) (n : ℕ) (z0 : (Fin d → ℝ) × D) {g : List ((Fin d → ℝ) × D) → ℝ} (hg : MeasurableOn g (n + 1))
    {a b : ℝ} (hab : ∀ l, g l ∈ Set.Icc a b) (key : Keys.Key) :
    RareAcross g (b - a) (∫ ω, g (abcRows S V pri sim dist q p (n + 1) z0 stp al t key ω) ∂ideal) fun r ω => abcRows S V pri sim dist q p (n + 1) z0 stp al t (keys r) ω :=
  rare_chains (rows := fun key ω => abcRows S V pri sim dist q p (n + 1) z0 stp al t key ω) (abcDraws_draws hq) (measurable_abcMove hS hV hB hsim _)
    (fun key ω => abc_run S V pri sim dist q p z0 stp al t key (Nat.succ_pos n) ω) keys hk hg hab key

/-- C168 fails for chains run with the same key: their average is the number for one chain, so that its errors are as likely for many chains as for one. -/
theorem C168_same_key {q : ℝ → ℝ} (S : Set (Fin d → ℝ)) (V : (Fin d → ℝ) → ℝ) (step : ℝ) (al : Fl) (t : ℝ) (key : Keys.Key) (n : ℕ) (x : Fin d → ℝ) (g : List (Fin d → ℝ) → ℝ) (truth ε : ℝ) (R : ℕ) (hR : 1 ≤ R) :
    ideal.real {ω | ε ≤ |chainsMean g (fun _ => walkRows S V q step (n + 1) x al t key ω) R - truth|} = ideal.real {ω | ε ≤ |g (walkRows S V q step (n + 1) x al t key ω) - truth|} := by
  simp only [(C161_same_key S V step al t key n x g R hR _).1]

/-- Chains with the keys of one split on a flat target; the arctangent of the last value. -/
example {q : ℝ → ℝ} (hq : IsNormalDraw q) (key : Keys.Key) (x : Fin 1 → ℝ) :=
  C168_randomWalk hq MeasurableSet.univ (V := fun _ => 0) measurable_const 1 (Fl.fin 1) 0 (fun r => r :: key) (split_separate key) 1 x (g := fun l => Real.arctan ((l.getLast?.getD 0) 0))
    (Real.continuous_arctan.measurable.comp (by simp; fun_prop)) (fun _ => ⟨(Real.neg_pi_div_two_lt_arctan _).le, (Real.arctan_lt_pi_div_two _).le⟩) key

/-- Hamiltonian chains on the standard normal target in one dimension. -/
example {q : ℝ → ℝ} (hq : IsNormalDraw q) (key : Keys.Key) (x p : Fin 1 → ℝ) :=
  C168_langevin (prior := fun y : Fin 1 → ℝ => (y 0 ^ 2 / 2, y)) (lik := fun _ => (0, 0)) (T := 1) hq (by unfold gradField; fun_prop) (by unfold potAt; fun_prop) 3 (1 / 10) p (Fl.fin 1) 0 (fun r => r :: key)
    (split_separate key) 1 x (g := fun l => Real.arctan ((l.getLast?.getD 0) 0))
    (Real.continuous_arctan.measurable.comp (by simp; fun_prop)) (fun _ => ⟨(Real.neg_pi_div_two_lt_arctan _).le, (Real.arctan_lt_pi_div_two _).le⟩) key

/-- Chains of `RandomWalkABC`: a flat prior, data that is the parameter with uniform noise, and distance its size. -/
example {q : ℝ → ℝ} (hq : IsNormalDraw q) (pri : Tape → Fin 1 → ℝ) (key k : Keys.Key) (z0 : (Fin 1 → ℝ) × ℝ) :=
  C168_abc MeasurableSet.univ (V := fun _ => 0) measurable_const pri (sim := fun x ω => x 0 + ω (k, 0)) (by fun_prop) (fun y => Fl.fin |y|) hq ⟨.fin 1, fun _ => 1, 0, 0⟩
    (by
      have : ball (fun y : ℝ => Fl.fin |y|) (.fin 1) = {y | |y| < 1} := by
        ext y
        simp [ball, Fl.lt]
      rw [this]
      exact measurableSet_lt (by fun_prop) measurable_const)
    (fun _ => 1) (.fin 1) 0 (fun r => r :: key) (split_separate key) 1 z0 (g := fun l => Real.arctan (l.getLast?.getD (0, 0)).2)
    (Real.continuous_arctan.measurable.comp (by simp; fun_prop)) (fun _ => ⟨(Real.neg_pi_div_two_lt_arctan _).le, (Real.arctan_lt_pi_div_two _).le⟩) key

end Mocat.Props
