import Verif.Lemmas.SmcAdaptive
/-! The two halves of an update with adaptive temperatures: resampling and moving at the old temperature, then reweighting to the new one. -/
namespace Mocat.Smc
open Mocat Mocat.Ideal Mocat.Meas Mocat.Spec MeasureTheory Filter Topology
open scoped ENNReal

variable {n : ℕ} {X : Type*}

/-- Resampling and moving at the current temperature. -/
noncomputable def aStep (cat : (Fin n → ℝ) → ℝ → Fin n) (thr : ℝ) (mv : ℝ → Keys.Key → X → Tape → X) (κ : Keys.Key) (s : ℝ × Red n X) (ω : Tape) : ℝ × Red n X :=
  (s.1, redStep cat (critLe n thr) (fun i => (n :: κ, (i : ℕ))) (fun _ _ => 0) (fun i => mv s.1 ((i : ℕ) :: κ)) s.2 ω)

/-- Reweighting to the temperature `nxt T logWeights likelihoods`. -/
noncomputable def bStep (lik : X → ℝ) (nxt : ℝ → (Fin n → ℝ) → (Fin n → ℝ) → ℝ) (s : ℝ × Red n X) : ℝ × Red n X :=
  let T' := nxt s.1 s.2.2.1 fun i => lik (s.2.1 i)
  let lw := fun i => s.2.2.1 i + -(T' - s.1) * lik (s.2.1 i)
  (T', s.2.1, lw, s.2.2.2 + lse lw - lse s.2.2.1)

/-- The states of a run. -/
noncomputable def aRun (cat : (Fin n → ℝ) → ℝ → Fin n) (thr : ℝ) (mv : ℝ → Keys.Key → X → Tape → X) (lik : X → ℝ) (nxt : ℝ → (Fin n → ℝ) → (Fin n → ℝ) → ℝ) (κ : Keys.Key)
    (x : Fin n → X) : ℕ → Tape → ℝ × Red n X
  | 0, _ => bStep lik nxt (0, startAt (fun _ => 0) x)
  | k + 1, ω => bStep lik nxt (aStep cat thr mv (keyAt n κ k) (aRun cat thr mv lik nxt κ x k ω) ω)

/-- What is used of the moves. -/
structure MoveLaw [MeasurableSpace X] (mv : ℝ → Keys.Key → X → Tape → X) (P : ℝ → (X → ℝ≥0∞) → X → ℝ≥0∞) : Prop where
  measurable : ∀ k, Measurable fun z : (ℝ × X) × Tape => mv z.1.1 k z.1.2 z.2
  dependsOn : ∀ T k x, DependsOn (mv T k x) (below k)
  law : ∀ T k x {h : X → ℝ≥0∞}, Measurable h → ∫⁻ ω, h (mv T k x ω) ∂ideal = P T h x

/-- The operator on real functions. -/
noncomputable def PR (P : ℝ → (X → ℝ≥0∞) → X → ℝ≥0∞) (T : ℝ) (f : X → ℝ) (x : X) : ℝ := (P T (fun x => ENNReal.ofReal (f x)) x).toReal

theorem share_bStep [NeZero n] (lik : X → ℝ) (nxt : ℝ → (Fin n → ℝ) → (Fin n → ℝ) → ℝ) (s : ℝ × Red n X) (i : Fin n) :
    share (bStep lik nxt s).2 i = share s.2 i * Real.exp (-((bStep lik nxt s).1 - s.1) * lik (s.2.1 i)) := by
  simp only [share, bStep]
  set T' := nxt s.1 s.2.2.1 fun i => lik (s.2.1 i)
  set lw := fun i => s.2.2.1 i + -(T' - s.1) * lik (s.2.1 i) with hlw
  have hpos : (0 : ℝ) < ∑ j, Real.exp (lw j) := Finset.sum_pos (fun i _ => Real.exp_pos _) ⟨0, Finset.mem_univ _⟩
  have hpos' : (0 : ℝ) < ∑ j, Real.exp (s.2.2.1 j) := Finset.sum_pos (fun i _ => Real.exp_pos _) ⟨0, Finset.mem_univ _⟩
  rw [Real.exp_sub, Real.exp_add, lse_exp, lse_exp]
  simp only [hlw, Real.exp_add] at hpos ⊢
  field_simp

theorem Qr_bStep [NeZero n] (lik : X → ℝ) (nxt : ℝ → (Fin n → ℝ) → (Fin n → ℝ) → ℝ) (s : ℝ × Red n X) (f : X → ℝ) :
    Qr f (bStep lik nxt s).2 = Qr (fun x => Real.exp (-(((bStep lik nxt s).1 - s.1) * lik x)) * f x) s.2 := by
  unfold Qr
  refine Finset.sum_congr rfl fun i _ => ?_
  rw [share_bStep, neg_mul, mul_assoc]
  rfl

theorem spread_bStep [NeZero n] {lik : X → ℝ} {nxt : ℝ → (Fin n → ℝ) → (Fin n → ℝ) → ℝ} {s : ℝ × Red n X} {A W : ℝ} (hA : 0 ≤ A) (h : Spread A s.2)
    (hW : ∀ x, Real.exp (-(((bStep lik nxt s).1 - s.1) * lik x)) ≤ W) : Spread (A * W) (bStep lik nxt s).2 := by
  intro i
  rw [share_bStep, neg_mul]
  calc _ ≤ A / n * W := mul_le_mul (h i) (hW _) (Real.exp_pos _).le (by positivity)
    _ = A * W / n := by ring

theorem spread_aStep [NeZero n] {cat : (Fin n → ℝ) → ℝ → Fin n} {thr : ℝ} {mv : ℝ → Keys.Key → X → Tape → X} {κ : Keys.Key} {s : ℝ × Red n X} {A : ℝ} (hA : 0 ≤ A) (h : Spread A s.2) (ω : Tape) :
    Spread A (aStep cat thr mv κ s ω).2 := by
  have := spread_redStep (cat := cat) (C := critLe n thr) (σ := fun i => (n :: κ, (i : ℕ))) (G := fun _ _ : X => 0) (mv := fun i => mv s.1 ((i : ℕ) :: κ)) hA h (W := 1) (fun _ _ => by simp) ω
  rwa [mul_one] at this

variable [MeasurableSpace X]

theorem measurable_bStep {lik : X → ℝ} (hlik : Measurable lik) {nxt : ℝ → (Fin n → ℝ) → (Fin n → ℝ) → ℝ} (hn : Measurable fun z : ℝ × (Fin n → ℝ) × (Fin n → ℝ) => nxt z.1 z.2.1 z.2.2) :
    Measurable (bStep lik nxt : ℝ × Red n X → ℝ × Red n X) := by
  have hl : Measurable fun s : ℝ × Red n X => fun i => lik (s.2.1 i) :=
    measurable_pi_lambda _ fun i => hlik.comp ((measurable_pi_apply i).comp (measurable_fst.comp measurable_snd))
  have hw : Measurable fun s : ℝ × Red n X => s.2.2.1 := measurable_fst.comp (measurable_snd.comp measurable_snd)
  have hT : Measurable fun s : ℝ × Red n X => nxt s.1 s.2.2.1 fun i => lik (s.2.1 i) := hn.comp (measurable_fst.prodMk (hw.prodMk hl))
  have hlw : Measurable fun s : ℝ × Red n X => fun i => s.2.2.1 i + -(nxt s.1 s.2.2.1 (fun i => lik (s.2.1 i)) - s.1) * lik (s.2.1 i) :=
    measurable_pi_lambda _ fun i => ((measurable_pi_apply i).comp hw).add ((hT.sub measurable_fst).neg.mul ((measurable_pi_apply i).comp hl))
  exact hT.prodMk ((measurable_fst.comp measurable_snd).prodMk (hlw.prodMk
    (((measurable_snd.comp (measurable_snd.comp measurable_snd)).add (measurable_lse.comp hlw)).sub (measurable_lse.comp hw))))

section
variable {cat : (Fin n → ℝ) → ℝ → Fin n} (hcat : IsCategoricalReal cat) (thr : ℝ) {mv : ℝ → Keys.Key → X → Tape → X} {P : ℝ → (X → ℝ≥0∞) → X → ℝ≥0∞} (hM : MoveLaw mv P) (κ : Keys.Key)
include hM

theorem MoveLaw.op {h : X → ℝ≥0∞} (hh : Measurable h) : Measurable fun z : ℝ × X => P z.1 h z.2 := by
  have h1 : Measurable fun z : ℝ × X => ∫⁻ ω, h (mv z.1 [] z.2 ω) ∂ideal := Measurable.lintegral_prod_right' (f := fun z : (ℝ × X) × Tape => h (mv z.1.1 [] z.1.2 z.2)) (hh.comp (hM.measurable []))
  have e : (fun z : ℝ × X => P z.1 h z.2) = fun z : ℝ × X => ∫⁻ ω, h (mv z.1 [] z.2 ω) ∂ideal := funext fun z => (hM.law _ _ _ hh).symm
  rw [e]
  exact h1

theorem MoveLaw.le {h : X → ℝ≥0∞} (hh : Measurable h) {B : ℝ≥0∞} (hB : ∀ x, h x ≤ B) (T : ℝ) (x : X) : P T h x ≤ B := by
  rw [← hM.law T [] x hh]
  refine (lintegral_mono fun ω => hB _).trans (le_of_eq ?_)
  rw [lintegral_const, measure_univ, mul_one]

theorem MoveLaw.step (T : ℝ) : StepLaw (n := n) (critLe n thr) (fun i => (n :: κ, (i : ℕ))) (fun _ _ => 0) (fun i => mv T ((i : ℕ) :: κ)) (fun i => below ((i : ℕ) :: κ)) (P T) := by
  refine ⟨measurableSet_critLe thr, measurable_const, fun i => ?_, fun i x => hM.dependsOn _ _ _, fun i => below_cons_ne i.is_lt.ne', fun i x h hh => ?_, fun {h} hh => ?_⟩
  · have h := (hM.measurable ((i : ℕ) :: κ)).comp (f := fun z : X × Tape => ((T, z.1), z.2)) ((measurable_const.prodMk measurable_fst).prodMk measurable_snd)
    exact h
  · simp only [Real.exp_zero, ENNReal.ofReal_one, one_mul]
    exact hM.law T _ x hh
  · have h1 := (hM.op hh).comp (f := fun x : X => (T, x)) measurable_prodMk_left
    exact h1

include hcat in
theorem measurable_aStep : Measurable fun z : (ℝ × Red n X) × Tape => aStep cat thr mv κ z.1 z.2 := by
  have hC := measurableSet_critLe (n := n) thr
  have hR : Measurable fun z : (ℝ × Red n X) × Tape => (z.1.2, z.2) := (measurable_snd.comp measurable_fst).prodMk measurable_snd
  have h1 : Measurable fun z : (ℝ × Red n X) × Tape => fun i : Fin n => mv z.1.1 ((i : ℕ) :: κ) (redValue cat (critLe n thr) (fun i => (n :: κ, (i : ℕ))) z.1.2 z.2 i) z.2 := by
    refine measurable_pi_lambda _ fun i => ?_
    have h2 := (measurable_redValue (X := X) hcat hC (fun i => (n :: κ, (i : ℕ))) i).comp hR
    have h3 := (hM.measurable ((i : ℕ) :: κ)).comp (((measurable_fst.comp measurable_fst).prodMk h2).prodMk measurable_snd)
    exact h3
  have h0 : Measurable fun z : (ℝ × Red n X) × Tape => redWeight (critLe n thr) z.1.2 := (measurable_redWeight hC).comp (measurable_snd.comp measurable_fst)
  have h2 : Measurable fun z : (ℝ × Red n X) × Tape => fun i : Fin n => redWeight (critLe n thr) z.1.2 i + 0 :=
    measurable_pi_lambda _ fun i => ((measurable_pi_apply i).comp h0).add_const 0
  exact (measurable_fst.comp measurable_fst).prodMk (h1.prodMk (h2.prodMk (((measurable_snd.comp (measurable_snd.comp (measurable_snd.comp measurable_fst))).add (measurable_lse.comp h2)).sub (measurable_lse.comp h0))))

theorem aStep_dependsOn (s : ℝ × Red n X) : DependsOn (aStep cat thr mv κ s) (below κ \ below ((n + 1) :: κ)) := by
  intro ω ω' h
  unfold aStep
  rw [redStep_dependsOn (hM.step thr κ s.1) s.2 fun t ht => h t (smcSites κ ht)]

include hcat in
/-- From a given state, the estimate after resampling and moving is close to that of the averaged function. -/
theorem aStep_concentrates [NeZero n] {f : X → ℝ} (hf : Measurable f) (hf0 : ∀ x, 0 ≤ f x) {B : ℝ} (hB : ∀ x, f x ≤ B) {A : ℝ} (s : ℝ × Red n X) (h : Spread A s.2) {ε : ℝ} (hε : 0 < ε) :
    ideal {ω | ε ≤ |Qr f (aStep cat thr mv κ s ω).2 - Qr (PR P s.1 f) s.2|} ≤ (ENNReal.ofReal A * ENNReal.ofReal B) ^ 2 / n / ENNReal.ofReal (ε ^ 2) := by
  set g : X → ℝ≥0∞ := fun x => ENNReal.ofReal (f x) with hg
  have hgm : Measurable g := ENNReal.measurable_ofReal.comp hf
  have hgB : ∀ x, g x ≤ ENNReal.ofReal B := fun x => ENNReal.ofReal_le_ofReal (hB x)
  have hS := hM.step (n := n) thr κ s.1
  have hn0 : (n : ℝ≥0∞) ≠ 0 := by exact_mod_cast NeZero.ne n
  have hPB : ∀ x, P s.1 g x ≤ ENNReal.ofReal B := hM.le hgm hgB s.1
  have hPr : P s.1 g = fun x => ENNReal.ofReal (PR P s.1 f x) := funext fun x => (ENNReal.ofReal_toReal (ne_top_of_le_ne_top ENNReal.ofReal_ne_top (hPB x))).symm
  have hQ : Q (P s.1 g) s.2 ≠ ∞ := by
    rw [Q_eq_share]
    exact ENNReal.sum_ne_top.2 fun i _ => ENNReal.mul_ne_top ENNReal.ofReal_ne_top (ne_top_of_le_ne_top ENNReal.ofReal_ne_top (hPB _))
  have hQr : (Q (P s.1 g) s.2).toReal = Qr (PR P s.1 f) s.2 := by rw [hPr]; exact Qr_eq (fun x => ENNReal.toReal_nonneg) _
  have hm : Measurable fun ω => Q g (redStep cat (critLe n thr) (fun i => (n :: κ, (i : ℕ))) (fun _ _ => 0) (fun i => mv s.1 ((i : ℕ) :: κ)) s.2 ω) := by
    have h1 := (measurable_Q hgm).comp ((measurable_redStep hcat hS).comp (measurable_prodMk_left (x := s.2)))
    exact h1
  have h2 := lintegral_sq_redStep hcat hS (smcApart κ) hgm hgB (A := A) (W := 1) (fun _ _ => by simp) s.2 h
  rw [ENNReal.ofReal_one, mul_one] at h2
  have hv : (ENNReal.ofReal A * ENNReal.ofReal B) ^ 2 / (n : ℝ≥0∞) ≠ ∞ := ENNReal.div_ne_top (ENNReal.pow_ne_top (ENNReal.mul_ne_top ENNReal.ofReal_ne_top ENNReal.ofReal_ne_top)) hn0
  have main := chebyshev ideal hm hQ hv (lintegral_Q_redStep hcat hS hgm s.2) h2 hε
  rw [hQr] at main
  refine le_trans (le_of_eq ?_) main
  congr 1
  ext ω
  simp only [Set.mem_ofPred_eq]
  rw [hg, Qr_eq hf0]
  rfl

theorem measurable_Qr_op {f : X → ℝ} (hf : Measurable f) : Measurable fun s : ℝ × Red n X => Qr (PR P s.1 f) s.2 := by
  unfold Qr
  refine Finset.measurable_sum _ fun i _ => ?_
  refine ((measurable_share i).comp measurable_snd).mul ?_
  have h1 := (hM.op (ENNReal.measurable_ofReal.comp hf)).ennreal_toReal
  exact h1.comp (measurable_fst.prodMk ((measurable_pi_apply i).comp (measurable_fst.comp measurable_snd)))

end

theorem measurable_Qr {f : X → ℝ} (hf : Measurable f) : Measurable (Qr f : Red n X → ℝ) := by
  unfold Qr
  exact Finset.measurable_sum _ fun i _ => (measurable_share i).mul (hf.comp ((measurable_pi_apply i).comp measurable_fst))

/-- From random states that have not read what the move reads. -/
theorem aStep_inProb {μ0 : Measure X} [IsProbabilityMeasure μ0] {cat : ∀ n, (Fin (n + 1) → ℝ) → ℝ → Fin (n + 1)} (hcat : ∀ n, IsCategoricalReal (cat n)) (thr : ℝ)
    {mv : ℝ → Keys.Key → X → Tape → X} {P : ℝ → (X → ℝ≥0∞) → X → ℝ≥0∞} (hM : MoveLaw mv P) (κ : ℕ → Keys.Key)
    {s : ∀ n, (Fin (n + 1) → X) × Tape → ℝ × Red (n + 1) X} (hs : ∀ n, Measurable (s n)) (hd : ∀ n x, DependsOn (fun ω => s n (x, ω)) (below (κ n))ᶜ) {A : ℝ} (hA : ∀ n z, Spread A (s n z).2)
    {f : X → ℝ} (hf : Measurable f) (hf0 : ∀ x, 0 ≤ f x) {B : ℝ} (hB : ∀ x, f x ≤ B) :
    InProb (fun n => (Measure.pi fun _ : Fin (n + 1) => μ0).prod ideal) (fun n z => Qr f (aStep (cat n) thr mv (κ n) (s n z) z.2).2 - Qr (PR P (s n z).1 f) (s n z).2) 0 := by
  rw [inProb_real]
  intro ε hε
  simp only [sub_zero]
  set v : ℝ≥0∞ := (ENNReal.ofReal A * ENNReal.ofReal B) ^ 2 with hv
  have hlim : Tendsto (fun n : ℕ => v / ((n + 1 : ℕ) : ℝ≥0∞) / ENNReal.ofReal (ε ^ 2)) atTop (𝓝 0) := by
    have hv' : v ≠ ∞ := ENNReal.pow_ne_top (ENNReal.mul_ne_top ENNReal.ofReal_ne_top ENNReal.ofReal_ne_top)
    have h1 : Tendsto (fun n : ℕ => (((n + 1 : ℕ) : ℝ≥0∞))⁻¹) atTop (𝓝 0) := (tendsto_add_atTop_iff_nat 1).2 ENNReal.tendsto_inv_nat_nhds_zero
    have h2 : Tendsto (fun n : ℕ => v * (((n + 1 : ℕ) : ℝ≥0∞))⁻¹ * (ENNReal.ofReal (ε ^ 2))⁻¹) atTop (𝓝 (v * 0 * (ENNReal.ofReal (ε ^ 2))⁻¹)) :=
      ENNReal.Tendsto.mul_const (ENNReal.Tendsto.const_mul h1 (Or.inr hv')) (Or.inr (ENNReal.inv_ne_top.2 (ENNReal.ofReal_pos.2 (by positivity)).ne'))
    rw [mul_zero, zero_mul] at h2
    exact h2
  refine tendsto_of_tendsto_of_tendsto_of_le_of_le tendsto_const_nhds hlim (fun n => bot_le) fun n => ?_
  set E : Set ((ℝ × Red (n + 1) X) × Tape) := {z | ε ≤ |Qr f (aStep (cat n) thr mv (κ n) z.1 z.2).2 - Qr (PR P z.1.1 f) z.1.2|} with hE
  have hEm : MeasurableSet E := by
    have h1 : Measurable fun z : (ℝ × Red (n + 1) X) × Tape => Qr f (aStep (cat n) thr mv (κ n) z.1 z.2).2 := (measurable_Qr hf).comp (measurable_snd.comp (measurable_aStep (hcat n) thr hM (κ n)))
    have h2 : Measurable fun z : (ℝ × Red (n + 1) X) × Tape => Qr (PR P z.1.1 f) z.1.2 := (measurable_Qr_op hM hf).comp measurable_fst
    exact measurableSet_le measurable_const (h1.sub h2).abs
  have hmap : Measurable fun z : (Fin (n + 1) → X) × Tape => (s n z, z.2) := (hs n).prodMk measurable_snd
  have hset : {z : (Fin (n + 1) → X) × Tape | ε ≤ |Qr f (aStep (cat n) thr mv (κ n) (s n z) z.2).2 - Qr (PR P (s n z).1 f) (s n z).2|} = (fun z => (s n z, z.2)) ⁻¹' E := rfl
  rw [hset, Measure.prod_apply (hmap hEm)]
  refine (lintegral_mono (g := fun _ => v / ((n + 1 : ℕ) : ℝ≥0∞) / ENNReal.ofReal (ε ^ 2)) fun x => ?_).trans (le_of_eq (by rw [lintegral_const, measure_univ, mul_one]))
  have hsx : Measurable fun ω => s n (x, ω) := (hs n).comp measurable_prodMk_left
  have e1 : ideal (Prod.mk x ⁻¹' ((fun z => (s n z, z.2)) ⁻¹' E)) = ∫⁻ ω, E.indicator 1 (s n (x, ω), ω) ∂ideal := by
    have h1 : MeasurableSet (Prod.mk x ⁻¹' ((fun z => (s n z, z.2)) ⁻¹' E)) := measurable_prodMk_left (hmap hEm)
    rw [← lintegral_indicator_one h1]
    rfl
  rw [e1]
  have hdis : Disjoint (below (κ n))ᶜ (below (κ n) \ below ((n + 1 + 1) :: κ n)) := Set.disjoint_left.mpr fun _ h1 h2 => h1 h2.1
  have e2 := fresh hdis (f := fun ω => s n (x, ω)) (g := fun a ω => E.indicator (1 : (ℝ × Red (n + 1) X) × Tape → ℝ≥0∞) (a, ω)) hsx (hd n x) (measurable_one.indicator hEm)
    (fun a ω ω' hω => by
      have := aStep_dependsOn (cat := cat n) thr hM (κ n) a hω
      simp only [Set.indicator, hE, Set.mem_ofPred_eq, Pi.one_apply, this])
  rw [e2]
  refine (lintegral_mono (g := fun _ => v / ((n + 1 : ℕ) : ℝ≥0∞) / ENNReal.ofReal (ε ^ 2)) fun ω => ?_).trans (le_of_eq (by rw [lintegral_const, measure_univ, mul_one]))
  have h3 := aStep_concentrates (hcat n) thr hM (κ n) hf hf0 hB (s n (x, ω)) (hA n (x, ω)) hε
  refine le_trans (le_of_eq ?_) h3
  have h4 : MeasurableSet {ω' | (s n (x, ω), ω') ∈ E} := measurable_prodMk_left hEm
  exact lintegral_indicator_one h4

end Mocat.Smc
