import Verif.Props.FilterLawGauss
import Verif.Lemmas.EnkfStep
import Verif.Props.EnsembleFilter
import Verif.Props.FilterLaw
import Verif.Props.Kalman
/-!
# C125: the ensemble Kalman filter approaches the Kalman filter on linear models

The draws come from an ideal generator (`Verif.Spec.Tape`).
-/
namespace Mocat.Props
open Mocat Mocat.Spec Mocat.Ideal Mocat.Meas Mocat.MatGauss Mocat.Kalman Mocat.Filtering Mocat.NonlinearGaussian Mocat.EnsembleFilter Matrix MeasureTheory ProbabilityTheory Filter Topology
open scoped ENNReal

variable {d e : ℕ}

/-! ## Filtering moments -/

/-- Filtering mean and covariance of a linear Gaussian model, by recursion, from the moments `c` at the first time. -/
noncomputable def kalFrom (g : LG d e) (y : ℕ → Fin e → ℝ) (c : MC d) : ℕ → MC d
  | 0 => c
  | k + 1 => observe (g.F k *ᵥ (kalFrom g y c k).1) (g.F k * (kalFrom g y c k).2 * (g.F k)ᵀ + g.Q k) (g.H (k + 1)) (g.R (k + 1)) (y (k + 1))

theorem kalFrom_posDef (g : LG d e) (hQ : ∀ k, (g.Q k).PosDef) (hR : ∀ k, (g.R k).PosDef) (y : ℕ → Fin e → ℝ) {c : MC d} (hc : c.2.PosDef) (k : ℕ) : (kalFrom g y c k).2.PosDef := by
  cases k with
  | zero => exact hc
  | succ k =>
    have ih := kalFrom_posDef g hQ hR y hc k
    exact (C57_update _ _ (posDef_innovation _ ih (hQ k)) _ _ (hR (k + 1)) _).1

theorem kalFrom_forward (g : LG d e) (h : g.Proper) (y : ℕ → Fin e → ℝ) {c : MC d} (hc : c.2.PosDef) (h0 : ∃ a > 0, ∀ x, g.forward y 0 x = a * gaussDensity c.1 c.2 x) (k : ℕ) :
    ∃ a > 0, ∀ x, g.forward y k x = a * gaussDensity (kalFrom g y c k).1 (kalFrom g y c k).2 x := by
  induction k with
  | zero => exact h0
  | succ k ih =>
    obtain ⟨a, ha, hf⟩ := ih
    have hp := kalFrom_posDef g h.Q h.R y hc k
    have hpred := posDef_innovation (g.F k) hp (h.Q k)
    obtain ⟨-, c', hc', h2⟩ := C57_update (g.F k *ᵥ (kalFrom g y c k).1) _ hpred (g.H (k + 1)) _ (h.R (k + 1)) (y (k + 1))
    refine ⟨a * c', mul_pos ha hc', fun x => ?_⟩
    have hint : ∫ x', g.forward y k x' * gaussDensity (g.F k *ᵥ x') (g.Q k) x
        = a * gaussDensity (g.F k *ᵥ (kalFrom g y c k).1) (g.F k * (kalFrom g y c k).2 * (g.F k)ᵀ + g.Q k) x := by
      rw [← gauss_marginal _ hp (h.Q k), ← integral_const_mul]
      refine integral_congr_ae (Filter.Eventually.of_forall fun x' => ?_)
      dsimp only
      rw [hf]; ring
    rw [LG.forward, hint, mul_assoc a, h2, mul_assoc a]
    rfl

theorem filter_moments {g : LG d e} {y : ℕ → Fin e → ℝ} {k : ℕ} {m : Fin d → ℝ} {P : Matrix (Fin d) (Fin d) ℝ} (hP : P.PosDef) {a : ℝ} (ha : 0 < a)
    (h : ∀ x, g.forward y k x = a * gaussDensity m P x) : g.filterMean y k = m ∧ g.filterCov y k = P := by
  have h0 : ∫ x, g.forward y k x = a := by simp only [h]; rw [integral_const_mul, integral_gaussDensity m hP, mul_one]
  have h1 : g.filterMean y k = m := by
    funext i
    unfold LG.filterMean
    rw [h0]
    have : ∀ x, x i * g.forward y k x = a * (x i * gaussDensity m P x) := fun x => by rw [h]; ring
    simp only [this]
    rw [integral_const_mul, gauss_mean m hP, mul_div_cancel_left₀ _ ha.ne']
  refine ⟨h1, ?_⟩
  ext i j
  unfold LG.filterCov
  rw [h0, h1]
  have : ∀ x, x i * x j * g.forward y k x = a * (x i * x j * gaussDensity m P x) := fun x => by rw [h]; ring
  simp only [this]
  rw [integral_const_mul, gauss_second m hP, mul_div_cancel_left₀ _ ha.ne']
  ring

/-! ## The ensembles on an ideal generator -/

instance : Inhabited Keys.Key := ⟨[]⟩

/-- `random.normal(key, (r, c))` on an ideal generator, filled row by row. -/
def normalRows (q : ℝ → ℝ) (ω : Tape) (k : Keys.Key) (r c : ℕ) : Fin r → Fin c → ℝ := fun i j => q (ω (k, i * c + j))

/-- The ensemble at the `k`-th time. -/
noncomputable def enkfAt (chol : Chol) (m : NLG d e) (q : ℝ → ℝ) (y : ℕ → Fin e → ℝ) (t : ℕ → ℝ) (key : Keys.Key) : ℕ → (n : ℕ) → Tape → Fin n → Fin d → ℝ
  | 0, n, ω => fun i => initialSample chol m (y 0) (normalRows q ω (0 :: 1 :: key) n d i)
  | k + 1, n, ω => enkf chol m (enkfAt chol m q y t key k n ω) (t k) (y (k + 1)) (t (k + 1)) (normalRows q ω (0 :: 0 :: k :: 0 :: key) n d) (normalRows q ω (1 :: 0 :: k :: 0 :: key) n e)

/-- The draws used up to the `k`-th time. -/
def enkfSites (key : Keys.Key) (k : ℕ) : Set Site := below (1 :: key) ∪ ⋃ j : Fin k, below ((j : ℕ) :: 0 :: key)

section
variable {q : ℝ → ℝ} {n : ℕ}

theorem normalRows_dep (k : Keys.Key) (r c : ℕ) : DependsOn (fun ω => normalRows q ω k r c) (below k) := fun ω ω' h => by
  funext i j
  exact congrArg q (h (k, i * c + j) ⟨[], rfl⟩)

theorem normalRows_meas (hq : IsNormalDraw q) (k : Keys.Key) (r c : ℕ) : Measurable fun ω => normalRows q ω k r c :=
  measurable_pi_lambda _ fun _ => measurable_pi_lambda _ fun _ => hq.measurable.comp (measurable_pi_apply _)

theorem fresh_rows (hq : IsNormalDraw q) {a : ℕ} {X : ℕ → Type*} [∀ n, MeasurableSpace (X n)] {x : ∀ n, Tape → X n} (hx : ∀ n, Measurable (x n)) {S : Set Site} (hS : ∀ n, DependsOn (x n) S)
    {k : Keys.Key} (hk : Disjoint S (below k)) : Fresh (fun _ => ideal) x (fun n ω => normalRows q ω k n a) (stdNormal a) where
  measurable_x := hx
  measurable_z n := normalRows_meas hq k n a
  law n := by
    rw [map_pair hk (hx n) (normalRows_meas hq k n a) (hS n) (normalRows_dep k n a)]
    congr 1
    exact map_normals hq k

end

section
variable {chol : Chol} {m : NLG d e} {q : ℝ → ℝ} {y : ℕ → Fin e → ℝ} {t : ℕ → ℝ} {key : Keys.Key} {F : ℝ → ℝ → Matrix (Fin d) (Fin d) ℝ}

theorem below_trans {p : List ℕ} {k : Keys.Key} : below (p ++ k) ⊆ below k := by
  rintro s ⟨r, hr⟩
  exact ⟨r ++ p, by rw [hr, List.append_assoc]⟩

theorem enkfAt_dep (k n : ℕ) : DependsOn (enkfAt chol m q y t key k n) (enkfSites key k) := by
  induction k with
  | zero =>
    intro ω ω' h
    have := normalRows_dep (q := q) (0 :: 1 :: key) n d fun s hs => h s (Or.inl (below_trans (p := [0]) hs))
    funext i
    exact congrArg (fun z : Fin n → Fin d → ℝ => initialSample chol m (y 0) (z i)) this
  | succ k ih =>
    intro ω ω' h
    have hk : ∀ {a b : ℕ}, ∀ s ∈ below (a :: b :: k :: 0 :: key), ω s = ω' s := fun {a b} s hs =>
      h s (Or.inr (Set.mem_iUnion.2 ⟨⟨k, k.lt_succ_self⟩, below_trans (p := [a, b]) hs⟩))
    have h1 := ih (fun s hs => h s (by
      rcases hs with hs | hs
      · exact Or.inl hs
      · obtain ⟨j, hj⟩ := Set.mem_iUnion.1 hs
        exact Or.inr (Set.mem_iUnion.2 ⟨⟨j, by omega⟩, hj⟩)))
    have h2 := normalRows_dep (q := q) (0 :: 0 :: k :: 0 :: key) n d hk
    have h3 := normalRows_dep (q := q) (1 :: 0 :: k :: 0 :: key) n e hk
    simp only at h2 h3
    change enkf _ _ _ _ _ _ _ _ = enkf _ _ _ _ _ _ _ _
    rw [h1, h2, h3]

theorem enkfSites_disjoint (k : ℕ) : Disjoint (enkfSites key k) (below (k :: 0 :: key)) := by
  unfold enkfSites
  rw [Set.disjoint_union_left]
  refine ⟨?_, ?_⟩
  · exact (below_disjoint (by decide)).mono_right (below_trans (p := [k]))
  · rw [Set.disjoint_iUnion_left]
    exact fun j => below_disjoint j.2.ne

theorem measurable_forecast {n : ℕ} (A L : Matrix (Fin d) (Fin d) ℝ) : Measurable fun s : (Fin n → Fin d → ℝ) × (Fin n → Fin d → ℝ) => fun i => A *ᵥ s.1 i + L *ᵥ s.2 i := by
  refine measurable_pi_lambda _ fun i => measurable_pi_lambda _ fun j => ?_
  simp only [Pi.add_apply, mulVec, dotProduct]
  fun_prop

theorem measurable_update {n : ℕ} (H : Matrix (Fin e) (Fin d) ℝ) (L R : Matrix (Fin e) (Fin e) ℝ) (y : Fin e → ℝ) : Measurable fun s : (Fin n → Fin d → ℝ) × (Fin n → Fin e → ℝ) =>
    fun i => s.1 i + (sampleCov s.1 s.1 * Hᵀ * (H * sampleCov s.1 s.1 * Hᵀ + R)⁻¹) *ᵥ (y - (H *ᵥ s.1 i + L *ᵥ s.2 i)) := by
  have hC : MeasMat fun s : (Fin n → Fin d → ℝ) × (Fin n → Fin e → ℝ) => sampleCov s.1 s.1 := fun i j => by
    unfold sampleCov
    fun_prop
  have hc : ∀ {a b : ℕ} (M : Matrix (Fin a) (Fin b) ℝ), MeasMat fun _ : (Fin n → Fin d → ℝ) × (Fin n → Fin e → ℝ) => M := fun M i j => measurable_const
  have hS := (((hc H).mul hC).mul (hc Hᵀ)).add (hc R)
  have hI : MeasMat fun s : (Fin n → Fin d → ℝ) × (Fin n → Fin e → ℝ) => (H * sampleCov s.1 s.1 * Hᵀ + R)⁻¹ := fun i j =>
    (measurable_inv e i j).comp (measurable_pi_lambda _ fun a => measurable_pi_lambda _ fun b => hS a b)
  have hK := (hC.mul (hc Hᵀ)).mul hI
  refine measurable_pi_lambda _ fun i => measurable_pi_lambda _ fun j => ?_
  simp only [Pi.add_apply, mulVec, dotProduct]
  refine Measurable.add (by fun_prop) (Finset.measurable_sum _ fun k _ => (hK j k).mul ?_)
  simp only [Pi.sub_apply, Pi.add_apply]
  fun_prop

/-- The update with the sample covariance. -/
theorem enkf_cov {n : ℕ} (hn : 2 ≤ n) (hchol : IsCholeskyAll chol) (hm : ProperNLG m) (x : Fin n → Fin d → ℝ) (t : ℝ) (y : Fin e → ℝ) (t' : ℝ) (z : Fin n → Fin d → ℝ) (w : Fin n → Fin e → ℝ) :
    enkf chol m x t y t' z w = fun i => forecast chol m x t t' z i + (sampleCov (forecast chol m x t t' z) (forecast chol m x t t' z) * m.likMatᵀ *
      (m.likMat * sampleCov (forecast chol m x t t' z) (forecast chol m x t t' z) * m.likMatᵀ + m.likCov)⁻¹) *ᵥ (y - (m.likMat *ᵥ forecast chol m x t t' z i + chol e m.likCov *ᵥ w i)) :=
  funext fun i => C75_gain hn chol hchol m hm x t y t' z w i

/-- The forecast and updated ensembles, written with the sample covariance. -/
noncomputable def covForecast (chol : Chol) (m : NLG d e) (F : ℝ → ℝ → Matrix (Fin d) (Fin d) ℝ) (q : ℝ → ℝ) (t : ℕ → ℝ) (key : Keys.Key) (k n : ℕ) (x : Fin n → Fin d → ℝ) (ω : Tape) : Fin n → Fin d → ℝ :=
  fun i => F (t k) (t (k + 1)) *ᵥ x i + chol d m.transCov *ᵥ normalRows q ω (0 :: 0 :: k :: 0 :: key) n d i

noncomputable def covUpdate (chol : Chol) (m : NLG d e) (q : ℝ → ℝ) (y : ℕ → Fin e → ℝ) (key : Keys.Key) (k n : ℕ) (x : Fin n → Fin d → ℝ) (ω : Tape) : Fin n → Fin d → ℝ :=
  fun i => x i + (sampleCov x x * m.likMatᵀ * (m.likMat * sampleCov x x * m.likMatᵀ + m.likCov)⁻¹) *ᵥ (y (k + 1) - (m.likMat *ᵥ x i + chol e m.likCov *ᵥ normalRows q ω (1 :: 0 :: k :: 0 :: key) n e i))

noncomputable def covAt (chol : Chol) (m : NLG d e) (F : ℝ → ℝ → Matrix (Fin d) (Fin d) ℝ) (q : ℝ → ℝ) (y : ℕ → Fin e → ℝ) (t : ℕ → ℝ) (key : Keys.Key) : ℕ → (n : ℕ) → Tape → Fin n → Fin d → ℝ
  | 0, n, ω => fun i => ((cholSym chol (initCondPrec chol m))⁻¹)ᵀ *ᵥ normalRows q ω (0 :: 1 :: key) n d i + initCondMean chol m (y 0)
  | k + 1, n, ω => covUpdate chol m q y key k n (covForecast chol m F q t key k n (covAt chol m F q y t key k n ω) ω) ω

theorem enkfAt_eq (hchol : IsCholeskyAll chol) (hm : ProperNLG m) (hF : ∀ x t t', m.transFun x t t' = F t t' *ᵥ x) {n : ℕ} (hn : 2 ≤ n) (k : ℕ) (ω : Tape) :
    enkfAt chol m q y t key k n ω = covAt chol m F q y t key k n ω := by
  induction k with
  | zero =>
    funext i
    unfold enkfAt covAt NonlinearGaussian.initialSample
    rw [add_comm, mulVec_transpose]
  | succ k ih =>
    have hfc : forecast chol m (enkfAt chol m q y t key k n ω) (t k) (t (k + 1)) (normalRows q ω (0 :: 0 :: k :: 0 :: key) n d) = covForecast chol m F q t key k n (covAt chol m F q y t key k n ω) ω := by
      funext i
      unfold forecast covForecast
      rw [ih, hF, vecMul_transpose]
    change enkf _ _ _ _ _ _ _ _ = _
    rw [enkf_cov hn hchol hm, hfc]
    rfl

theorem dep_comp {α β γ : Type*} {S T : Set Site} {f : Tape → α} {g : Tape → β} (hf : DependsOn f S) (hg : DependsOn g T) (φ : α → β → γ) : DependsOn (fun ω => φ (f ω) (g ω)) (S ∪ T) := fun ω ω' h => by
  change φ (f ω) (g ω) = φ (f ω') (g ω')
  rw [hf fun s hs => h s (Or.inl hs), hg fun s hs => h s (Or.inr hs)]

theorem enkfSites_succ (k : ℕ) : enkfSites key k ∪ below (0 :: 0 :: k :: 0 :: key) ∪ below (1 :: 0 :: k :: 0 :: key) ⊆ enkfSites key (k + 1) := by
  rintro s ((hs | hs) | hs)
  · rcases hs with hs | hs
    · exact Or.inl hs
    · obtain ⟨j, hj⟩ := Set.mem_iUnion.1 hs
      exact Or.inr (Set.mem_iUnion.2 ⟨⟨j, by omega⟩, hj⟩)
  · exact Or.inr (Set.mem_iUnion.2 ⟨⟨k, k.lt_succ_self⟩, below_trans (p := [0, 0]) hs⟩)
  · exact Or.inr (Set.mem_iUnion.2 ⟨⟨k, k.lt_succ_self⟩, below_trans (p := [1, 0]) hs⟩)

theorem covAt_dep (k n : ℕ) : DependsOn (covAt chol m F q y t key k n) (enkfSites key k) := by
  induction k with
  | zero =>
    intro ω ω' h
    have := normalRows_dep (q := q) (0 :: 1 :: key) n d fun s hs => h s (Or.inl (below_trans (p := [0]) hs))
    exact congrArg (fun (z : Fin n → Fin d → ℝ) i => ((cholSym chol (initCondPrec chol m))⁻¹)ᵀ *ᵥ z i + initCondMean chol m (y 0)) this
  | succ k ih =>
    have h := dep_comp (dep_comp ih (normalRows_dep (q := q) (0 :: 0 :: k :: 0 :: key) n d) fun x z i => F (t k) (t (k + 1)) *ᵥ x i + chol d m.transCov *ᵥ z i) (normalRows_dep (q := q) (1 :: 0 :: k :: 0 :: key) n e)
      fun x w i => x i + (sampleCov x x * m.likMatᵀ * (m.likMat * sampleCov x x * m.likMatᵀ + m.likCov)⁻¹) *ᵥ (y (k + 1) - (m.likMat *ᵥ x i + chol e m.likCov *ᵥ w i))
    exact fun ω ω' hw => h fun s hs => hw s (enkfSites_succ k hs)

theorem covAt_meas (hq : IsNormalDraw q) (k n : ℕ) : Measurable (covAt chol m F q y t key k n) := by
  induction k with
  | zero =>
    refine measurable_pi_lambda _ fun i => measurable_pi_lambda _ fun j => ?_
    have h : ∀ l, Measurable fun ω => normalRows q ω (0 :: 1 :: key) n d i l := fun l => (measurable_pi_apply l).comp ((measurable_pi_apply i).comp (normalRows_meas hq _ n d))
    simp only [covAt, Pi.add_apply, mulVec, dotProduct]
    exact (Finset.measurable_sum _ fun l _ => (h l).const_mul _).add_const _
  | succ k ih =>
    have h1 := (measurable_forecast (n := n) (F (t k) (t (k + 1))) (chol d m.transCov)).comp (ih.prodMk (normalRows_meas hq (0 :: 0 :: k :: 0 :: key) n d))
    exact (measurable_update m.likMat (chol e m.likCov) m.likCov (y (k + 1))).comp (h1.prodMk (normalRows_meas hq (1 :: 0 :: k :: 0 :: key) n e))

/-- The linear model at the observation times, as a state-space model. -/
def NLG.linear (m : NLG d e) (F : ℝ → ℝ → Matrix (Fin d) (Fin d) ℝ) (t : ℕ → ℝ) : LG d e :=
  ⟨m.initialMean, m.initialCov, fun k => F (t k) (t (k + 1)), fun _ => m.transCov, fun _ => m.likMat, fun _ => m.likCov⟩

/-- Means and covariances of the ensembles, from the distribution of the first draw. -/
theorem covAt_settles (hchol : IsCholeskyAll chol) (hq : IsNormalDraw q) (hm : ProperNLG m) {A : Matrix (Fin d) (Fin d) ℝ} (hA : A = (1 / 2 : ℝ) • (initCondPrec chol m + (initCondPrec chol m)ᵀ)) (hp : A.PosDef) (k : ℕ) :
    Settles (fun _ => ideal) (covAt chol m F q y t key k) (kalFrom (NLG.linear m F t) y (initCondMean chol m (y 0), A⁻¹) k).1 (kalFrom (NLG.linear m F t) y (initCondMean chol m (y 0), A⁻¹) k).2 := by
  induction k with
  | zero =>
    have h0 : Fresh (fun _ => ideal) (fun (_ : ℕ) (_ : Tape) => ()) (fun n ω => normalRows q ω (0 :: 1 :: key) n d) (stdNormal d) :=
      fresh_rows hq (S := ∅) (fun _ => measurable_const) (fun _ _ _ _ => rfl) (Set.empty_disjoint _)
    have h := settles_draws h0 ((cholSym chol (initCondPrec chol m))⁻¹)ᵀ (initCondMean chol m (y 0))
    have e : ((cholSym chol (initCondPrec chol m))⁻¹)ᵀ * (((cholSym chol (initCondPrec chol m))⁻¹)ᵀ)ᵀ = A⁻¹ := by
      unfold cholSym
      rw [← hA, transpose_transpose, transpose_nonsing_inv, ← Matrix.mul_inv_rev, hchol d _ hp]
    rw [e] at h
    exact h
  | succ k ih =>
    have hP := kalFrom_posDef (NLG.linear m F t) (fun _ => hm.trans) (fun _ => hm.lik) y (c := (initCondMean chol m (y 0), A⁻¹)) hp.inv k
    have hd := enkfSites_disjoint (key := key) k
    have f1 : Fresh (fun _ => ideal) (covAt chol m F q y t key k) (fun n ω => normalRows q ω (0 :: 0 :: k :: 0 :: key) n d) (stdNormal d) :=
      fresh_rows hq (covAt_meas hq k) (covAt_dep k) (hd.mono_right (below_trans (p := [0, 0])))
    have h1 := ih.forecast f1 (F (t k) (t (k + 1))) (chol d m.transCov)
    rw [hchol d _ hm.trans] at h1
    have f2 : Fresh (fun _ => ideal) (fun n ω => covForecast chol m F q t key k n (covAt chol m F q y t key k n ω) ω) (fun n ω => normalRows q ω (1 :: 0 :: k :: 0 :: key) n e) (stdNormal e) := by
      refine fresh_rows hq (S := enkfSites key k ∪ below (0 :: 0 :: k :: 0 :: key)) (fun n => ?_) (fun n => ?_) ?_
      · exact (measurable_forecast (n := n) (F (t k) (t (k + 1))) (chol d m.transCov)).comp ((covAt_meas hq k n).prodMk (normalRows_meas hq (0 :: 0 :: k :: 0 :: key) n d))
      · exact dep_comp (covAt_dep k n) (normalRows_dep (q := q) (0 :: 0 :: k :: 0 :: key) n d) fun x z i => F (t k) (t (k + 1)) *ᵥ x i + chol d m.transCov *ᵥ z i
      · rw [Set.disjoint_union_left]
        exact ⟨hd.mono_right (below_trans (p := [1, 0])), below_disjoint (by decide)⟩
    exact h1.update (posDef_innovation _ hP hm.trans) f2 m.likMat (hchol e _ hm.lik) hm.lik (y (k + 1))

theorem ensembles_at {n : ℕ} (hn : 0 < n) (env : Env Keys.Key n) (henv : ∀ m k i, env.splitN m k i = (i : ℕ) :: k) (ω : Tape) (l s : ℕ) :
    enkfEnsembles env (normalRows q ω) chol m (enkfAt chol m q y t key s n ω) (t s) ((List.range l).map fun j => (y (s + j + 1), t (s + j + 1), (s + j) :: 0 :: key))
      = (List.range l).map fun j => enkfAt chol m q y t key (s + j + 1) n ω := by
  induction l generalizing s with
  | zero => rfl
  | succ l ih =>
    rw [List.range_succ_eq_map, List.map_cons, List.map_cons, List.map_map, List.map_map]
    simp only [add_zero, enkfEnsembles]
    have hx : enkf chol m (enkfAt chol m q y t key s n ω) (t s) (y (s + 1)) (t (s + 1)) (normalRows q ω (env.splitN 2 (firstKey (env.splitN n (s :: 0 :: key))) 0) n d)
        (normalRows q ω (env.splitN 2 (firstKey (env.splitN n (s :: 0 :: key))) 1) n e) = enkfAt chol m q y t key (s + 1) n ω := by
      simp only [henv, firstKey, dif_pos hn]
      rfl
    rw [hx]
    have := ih (s + 1)
    have e1 : ((fun j => (y (s + j + 1), t (s + j + 1), (s + j) :: 0 :: key)) ∘ Nat.succ) = fun j => (y (s + 1 + j + 1), t (s + 1 + j + 1), (s + 1 + j) :: 0 :: key) := by
      funext j
      simp only [Function.comp_apply, show s + j.succ = s + 1 + j by omega]
    have e2 : ((fun j => enkfAt chol m q y t key (s + j + 1) n ω) ∘ Nat.succ) = fun j => enkfAt chol m q y t key (s + 1 + j + 1) n ω := by
      funext j
      simp only [Function.comp_apply, show s + j.succ = s + 1 + j by omega]
    rw [e1, e2, this]

/-- The ensemble a run reports at the `k`-th time. -/
noncomputable def reported {n : ℕ} (r : Option (Particles (Fin d → ℝ) n e)) (k : ℕ) : Fin n → Fin d → ℝ := (r.bind fun p => p.value[k]?).getD 0

/-- The ensemble Kalman filter run with `n` particles on observations `y 0, ..., y T` at times `t 0, ..., t T`, with the draws `ω` of an ideal generator. -/
noncomputable def enkfRun (chol : Chol) (m : NLG d e) (q : ℝ → ℝ) (cat : ∀ n, (Fin n → Fl) → ℝ → Fin n) (thr : ℝ) (y : ℕ → Fin e → ℝ) (t : ℕ → ℝ) (key : Keys.Key) (T n : ℕ) (ω : Tape) : Option (Particles (Fin d → ℝ) n e) :=
  EnsembleFilter.run (tapeEnv (cat n) ω) (ensembleKalman (tapeEnv (cat n) ω).splitN (normalRows q ω) chol m) thr ((List.range (T + 1)).map y) ((List.range (T + 1)).map t) key

theorem enkfRun_value (cat : ∀ n, (Fin n → Fl) → ℝ → Fin n) {thr : ℝ} (hthr : thr ≤ 1) (T : ℕ) {n : ℕ} (hn : 0 < n) (ω : Tape) :
    ∃ p, enkfRun chol m q cat thr y t key T n ω = some p ∧ p.value = (List.range (T + 1)).map fun k => enkfAt chol m q y t key k n ω := by
  unfold enkfRun
  rw [List.range_succ_eq_map, List.map_cons, List.map_cons, List.map_map, List.map_map]
  obtain ⟨p, hp, -, -, -, -, hv⟩ := C124_run (tapeEnv (cat n) ω) (normalRows q ω) chol m hn hthr (y 0) ((List.range T).map (y ∘ Nat.succ)) (t 0) ((List.range T).map (t ∘ Nat.succ)) (by simp) key
  refine ⟨p, hp, hv.trans ?_⟩
  have henv : ∀ m k i, (tapeEnv (cat n) ω).splitN m k i = (i : ℕ) :: k := fun m k i => rfl
  have hx0 : (fun i => NonlinearGaussian.initialSample chol m (y 0) (normalRows q ω (firstKey ((tapeEnv (cat n) ω).splitN n ((tapeEnv (cat n) ω).splitN 2 key 1))) n d i)) = enkfAt chol m q y t key 0 n ω := by
    simp only [henv, firstKey, dif_pos hn]
    rfl
  rw [hx0, List.map_cons, List.map_map]
  congr 1
  have hobs : ((List.range T).map (y ∘ Nat.succ)).zip (((List.range T).map (t ∘ Nat.succ)).zip (List.ofFn ((tapeEnv (cat n) ω).splitN ((List.range T).map (y ∘ Nat.succ)).length ((tapeEnv (cat n) ω).splitN 2 key 0))))
      = (List.range T).map fun j => (y (0 + j + 1), t (0 + j + 1), (0 + j) :: 0 :: key) := by
    refine List.ext_getElem (by simp) fun j h1 h2 => ?_
    simp [henv]
  rw [hobs, ensembles_at hn _ henv ω T 0]
  refine List.map_congr_left fun j _ => ?_
  simp

theorem reported_eq (cat : ∀ n, (Fin n → Fl) → ℝ → Fin n) {thr : ℝ} (hthr : thr ≤ 1) {T k : ℕ} (hk : k ≤ T) {n : ℕ} (hn : 0 < n) (ω : Tape) :
    reported (enkfRun chol m q cat thr y t key T n ω) k = enkfAt chol m q y t key k n ω := by
  obtain ⟨p, hp, hv⟩ := enkfRun_value (chol := chol) (m := m) (q := q) (y := y) (t := t) (key := key) cat hthr T hn ω
  unfold reported
  rw [hp, Option.bind_some, hv, List.getElem?_map, List.getElem?_range (by omega)]
  rfl

/-- Runs on a linear model, from whatever the first draw is. -/
theorem run_settles (hchol : IsCholeskyAll chol) (hq : IsNormalDraw q) (hm : ProperNLG m) (hF : ∀ x t t', m.transFun x t t' = F t t' *ᵥ x)
    {A : Matrix (Fin d) (Fin d) ℝ} (hA : A = (1 / 2 : ℝ) • (initCondPrec chol m + (initCondPrec chol m)ᵀ)) (hp : A.PosDef)
    (cat : ∀ n, (Fin n → Fl) → ℝ → Fin n) {thr : ℝ} (hthr : thr ≤ 1) {T k : ℕ} (hk : k ≤ T) :
    Settles (fun _ => ideal) (fun n ω => reported (enkfRun chol m q cat thr y t key T n ω) k)
      (kalFrom (NLG.linear m F t) y (initCondMean chol m (y 0), A⁻¹) k).1 (kalFrom (NLG.linear m F t) y (initCondMean chol m (y 0), A⁻¹) k).2 := by
  have h := covAt_settles (y := y) (t := t) (key := key) (F := F) hchol hq hm hA hp k
  have e : ∀ᶠ n in atTop, ∀ ω, covAt chol m F q y t key k n ω = reported (enkfRun chol m q cat thr y t key T n ω) k := by
    filter_upwards [eventually_ge_atTop 2] with n hn ω
    rw [reported_eq cat hthr hk (by omega), enkfAt_eq hchol hm hF hn]
  exact ⟨h.mean.congr (e.mono fun n hn ω => by rw [hn ω]), h.cov.congr (e.mono fun n hn ω => by rw [hn ω])⟩

end

/-! ## C125 -/

/-- C125, what holds: on a linear model with a symmetric factor of the initial covariance and a factor of the observation covariance that commutes with its transpose (C74), at every observation time the mean and the covariance of
the ensemble reported by a run with `n` particles converge in probability, as `n` grows, to those of the state given the observations so far. Missing: other covariances (`C125_fails`). -/
theorem C125_kalman_partial {chol : Chol} (hchol : IsCholeskyAll chol) {q : ℝ → ℝ} (hq : IsNormalDraw q) {m : NLG d e} (hm : ProperNLG m) {F : ℝ → ℝ → Matrix (Fin d) (Fin d) ℝ}
    (hF : ∀ x t t', m.transFun x t t' = F t t' *ᵥ x) (hI : (chol d m.initialCov)ᵀ = chol d m.initialCov) (hR : (chol e m.likCov)ᵀ * chol e m.likCov = m.likCov)
    (cat : ∀ n, (Fin n → Fl) → ℝ → Fin n) {thr : ℝ} (hthr : thr ≤ 1) (y : ℕ → Fin e → ℝ) (t : ℕ → ℝ) (key : Keys.Key) {T k : ℕ} (hk : k ≤ T) :
    let g : LG d e := ⟨m.initialMean, m.initialCov, fun k => F (t k) (t (k + 1)), fun _ => m.transCov, fun _ => m.likMat, fun _ => m.likCov⟩
    InProb (fun _ => ideal) (fun n ω => sampleMean (reported (enkfRun chol m q cat thr y t key T n ω) k)) (g.filterMean y k) ∧
    InProb (fun _ => ideal) (fun n ω => sampleCov (reported (enkfRun chol m q cat thr y t key T n ω) k) (reported (enkfRun chol m q cat thr y t key T n ω) k)) (g.filterCov y k) := by
  intro g
  obtain ⟨hp, h0⟩ := initial_exact hchol hm hI hR (y 0)
  have hA : initCondPrec chol m = (1 / 2 : ℝ) • (initCondPrec chol m + (initCondPrec chol m)ᵀ) := by
    rw [PosDef.symm hp, ← two_smul ℝ (initCondPrec chol m), smul_smul]
    norm_num
  have hs := run_settles (y := y) (t := t) (key := key) hchol hq hm hF hA hp cat hthr hk
  have hg : g.Proper := ⟨hm.init, fun _ => hm.trans, fun _ => hm.lik⟩
  obtain ⟨a, ha, hf⟩ := kalFrom_forward g hg y (c := (initCondMean chol m (y 0), (initCondPrec chol m)⁻¹)) hp.inv h0 k
  obtain ⟨e1, e2⟩ := filter_moments (kalFrom_posDef g hg.Q hg.R y hp.inv k) ha hf
  rw [e1, e2]
  exact ⟨hs.mean, hs.cov⟩

/-- C125 for other covariances: with any linear model for which the (symmetrised) precision of the first draw is positive definite, the ensembles follow the Kalman filter started from the law of the first draw: means and
covariances converge in probability to those obtained by repeating prediction and conditioning from the first draw's mean and covariance. -/
theorem C125_recursion {chol : Chol} (hchol : IsCholeskyAll chol) {q : ℝ → ℝ} (hq : IsNormalDraw q) {m : NLG d e} (hm : ProperNLG m) {F : ℝ → ℝ → Matrix (Fin d) (Fin d) ℝ}
    (hF : ∀ x t t', m.transFun x t t' = F t t' *ᵥ x) {A : Matrix (Fin d) (Fin d) ℝ} (hA : A = (1 / 2 : ℝ) • (initCondPrec chol m + (initCondPrec chol m)ᵀ)) (hp : A.PosDef)
    (cat : ∀ n, (Fin n → Fl) → ℝ → Fin n) {thr : ℝ} (hthr : thr ≤ 1) (y : ℕ → Fin e → ℝ) (t : ℕ → ℝ) (key : Keys.Key) :
    ∃ c : ℕ → MC d, (∀ k, (c k).2.PosDef) ∧ (stdNormal d).map (NonlinearGaussian.initialSample chol m (y 0)) = gauss (c 0).1 (c 0).2 ∧
      (∀ k, ∃ a > 0, ∀ x, (∫ x', gaussDensity (c k).1 (c k).2 x' * gaussDensity (F (t k) (t (k + 1)) *ᵥ x') m.transCov x) * gaussDensity (m.likMat *ᵥ x) m.likCov (y (k + 1)) = a * gaussDensity (c (k + 1)).1 (c (k + 1)).2 x) ∧
      ∀ T k, k ≤ T → InProb (fun _ => ideal) (fun n ω => sampleMean (reported (enkfRun chol m q cat thr y t key T n ω) k)) (c k).1 ∧
        InProb (fun _ => ideal) (fun n ω => sampleCov (reported (enkfRun chol m q cat thr y t key T n ω) k) (reported (enkfRun chol m q cat thr y t key T n ω) k)) (c k).2 := by
  have hpd := kalFrom_posDef (NLG.linear m F t) (fun _ => hm.trans) (fun _ => hm.lik) y (c := (initCondMean chol m (y 0), A⁻¹)) hp.inv
  refine ⟨kalFrom (NLG.linear m F t) y (initCondMean chol m (y 0), A⁻¹), hpd, initial_law hchol hA hp (y 0), fun k => ?_, fun T k hk => ?_⟩
  · have hpred := posDef_innovation (F (t k) (t (k + 1))) (hpd k) hm.trans
    obtain ⟨-, z, hz, h2⟩ := C57_update (F (t k) (t (k + 1)) *ᵥ (kalFrom (NLG.linear m F t) y (initCondMean chol m (y 0), A⁻¹) k).1) _ hpred m.likMat _ hm.lik (y (k + 1))
    refine ⟨z, hz, fun x => ?_⟩
    simp only [mul_comm (gaussDensity (kalFrom (NLG.linear m F t) y (initCondMean chol m (y 0), A⁻¹) k).1 _ _)]
    rw [gauss_marginal _ (hpd k) hm.trans]
    exact h2 x
  · have hs := run_settles (y := y) (t := t) (key := key) hchol hq hm hF hA hp cat hthr hk
    exact ⟨hs.mean, hs.cov⟩

theorem InProb.unique {Ω : Type*} [MeasurableSpace Ω] {μ : Measure Ω} [IsProbabilityMeasure μ] {W : Type*} [TopologicalSpace W] [T2Space W] {f : ℕ → Ω → W} {a b : W}
    (ha : InProb (fun _ => μ) f a) (hb : InProb (fun _ => μ) f b) : a = b := by
  by_contra hab
  obtain ⟨U, U', hU, hU', haU, hbU, hd⟩ := t2_separation hab
  have h := (ha U (hU.mem_nhds haU)).add (hb U' (hU'.mem_nhds hbU))
  rw [add_zero] at h
  have h1 : ∀ n, (1 : ℝ≥0∞) ≤ μ {ω | f n ω ∉ U} + μ {ω | f n ω ∉ U'} := fun n => by
    rw [← measure_univ (μ := μ)]
    refine le_trans (measure_mono fun ω _ => ?_) (measure_union_le _ _)
    by_cases h : f n ω ∈ U
    · exact Or.inr (Set.disjoint_left.1 hd h)
    · exact Or.inl h
  exact absurd (ge_of_tendsto' h h1) (by simp)

/-- C125 fails for initial covariance `[[1,1],[1,2]]` (factor `[[1,0],[1,1]]`) and unit noise: however many particles, the covariance of the first ensemble tends to `[[2/3,1/3],[1/3,2/3]]`, and not to the covariance
`[[2/5,1/5],[1/5,3/5]]` of the first state given the first observation. -/
theorem C125_fails (chol : Chol) (hchol : IsCholeskyAll chol) (hex : chol 2 covEx = cholEx) {q : ℝ → ℝ} (hq : IsNormalDraw q) (cat : ∀ n, (Fin n → Fl) → ℝ → Fin n) {thr : ℝ} (hthr : thr ≤ 1)
    (y : ℕ → Fin 2 → ℝ) (t : ℕ → ℝ) (key : Keys.Key) (T : ℕ) :
    let g : LG 2 2 := ⟨nlgEx'.initialMean, nlgEx'.initialCov, fun _ => 1, fun _ => nlgEx'.transCov, fun _ => nlgEx'.likMat, fun _ => nlgEx'.likCov⟩
    g.filterCov y 0 = !![2 / 5, 1 / 5; 1 / 5, 3 / 5] ∧
    InProb (fun _ => ideal) (fun n ω => sampleCov (reported (enkfRun chol nlgEx' q cat thr y t key T n ω) 0) (reported (enkfRun chol nlgEx' q cat thr y t key T n ω) 0)) !![2 / 3, 1 / 3; 1 / 3, 2 / 3] ∧
    ¬ InProb (fun _ => ideal) (fun n ω => sampleCov (reported (enkfRun chol nlgEx' q cat thr y t key T n ω) 0) (reported (enkfRun chol nlgEx' q cat thr y t key T n ω) 0)) (g.filterCov y 0) := by
  intro g
  obtain ⟨A, hA, hAv, hAp⟩ := nlgEx'_prec chol hchol hex
  have hs := (run_settles (F := fun _ _ => 1) (y := y) (t := t) (key := key) hchol hq nlgEx'_proper (fun x _ _ => (one_mulVec x).symm) hA hAp cat hthr (Nat.zero_le T)).cov
  have hi : A⁻¹ = !![2 / 3, 1 / 3; 1 / 3, 2 / 3] := by
    rw [hAv]
    refine inv_eq_left_inv ?_
    ext i j; fin_cases i <;> fin_cases j <;> norm_num [Matrix.mul_apply, Fin.sum_univ_two]
  have h0 : InProb (fun _ => ideal) (fun n ω => sampleCov (reported (enkfRun chol nlgEx' q cat thr y t key T n ω) 0) (reported (enkfRun chol nlgEx' q cat thr y t key T n ω) 0)) !![2 / 3, 1 / 3; 1 / 3, 2 / 3] := by
    rw [← hi]
    exact hs
  have hf : g.filterCov y 0 = !![2 / 5, 1 / 5; 1 / 5, 3 / 5] := by
    obtain ⟨hp, c, hc, h⟩ := C57_update nlgEx'.initialMean nlgEx'.initialCov nlgEx'_proper.init nlgEx'.likMat nlgEx'.likCov nlgEx'_proper.lik (y 0)
    rw [(filter_moments (g := g) (k := 0) hp hc h).2]
    have hS : (covEx + 1 : Matrix (Fin 2) (Fin 2) ℝ)⁻¹ = !![3 / 5, -1 / 5; -1 / 5, 2 / 5] := by
      refine inv_eq_left_inv ?_
      ext i j; fin_cases i <;> fin_cases j <;> norm_num [covEx, Matrix.mul_apply, Fin.sum_univ_two]
    simp only [observe, nlgEx', transpose_one, Matrix.mul_one, Matrix.one_mul]
    rw [hS]
    ext i j; fin_cases i <;> fin_cases j <;> norm_num [covEx, Matrix.mul_apply, Fin.sum_univ_two]
  refine ⟨hf, h0, fun h => ?_⟩
  have := congrFun (congrFun (InProb.unique (W := Matrix (Fin 2) (Fin 2) ℝ) h0 h) 0) 0
  rw [hf] at this
  norm_num at this

/-- The hypotheses of `C125_kalman_partial` are met: a random walk in the plane, all of whose covariances are the identity. -/
example : ∃ (chol : Chol) (q : ℝ → ℝ) (m : NLG 2 2), IsCholeskyAll chol ∧ IsNormalDraw q ∧ ProperNLG m ∧ (∀ x t t', m.transFun x t t' = (1 : Matrix (Fin 2) (Fin 2) ℝ) *ᵥ x) ∧
    (chol 2 m.initialCov)ᵀ = chol 2 m.initialCov ∧ (chol 2 m.likCov)ᵀ * chol 2 m.likCov = m.likCov := by
  obtain ⟨q, hq⟩ := exists_isNormalDraw
  classical
  obtain ⟨chol, hchol⟩ := exists_isCholeskyAll
  refine ⟨fun n A => if A = 1 then 1 else chol n A, q, ⟨0, 1, fun x _ _ => x, 1, 1, 1⟩, ?_, hq, ⟨PosDef.one, PosDef.one, PosDef.one⟩, fun x _ _ => (one_mulVec x).symm, by simp, by simp⟩
  intro n A hA
  dsimp only
  split_ifs with h
  · rw [h, transpose_one, Matrix.mul_one]
  · exact hchol n A hA

end Mocat.Props
