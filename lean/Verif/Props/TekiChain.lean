import Verif.Props.TekiLaw
import Verif.Lemmas.Subtape
import Verif.Lemmas.NormalDraw
/-!
# C93: ensembles of tempered ensemble Kalman inversion as a Markov chain

The draws come from an ideal generator (`Verif.Spec.Tape`).
-/
namespace Mocat.Props
open Mocat Mocat.Teki Mocat.Spec Mocat.Ideal Mocat.Meas Matrix MeasureTheory ProbabilityTheory
open scoped ENNReal

variable {n dx dy : ℕ}

/-- The routines on an ideal generator: `random.split(key, n + 2)`, `random.normal(key, (n, d_y))` filled row by row, and a simulator that draws from its key (`lik x τ`: data at `x` with the randomness `τ`). -/
def tekiEnv (env : Env Keys.Key n dx dy) (q : ℝ → ℝ) (lik : (Fin dx → ℝ) → Tape → Fin dy → ℝ) (ω : Tape) : Env Keys.Key n dx dy :=
  { env with
    splitN := fun k i => (i : ℕ) :: k
    normal := fun k i j => q (ω (k, i * dy + j))
    simulate := fun x k => lik x (subtape k ω) }

/-- (Specification.) The law of data simulated at `x`. -/
noncomputable def dataLaw (lik : (Fin dx → ℝ) → Tape → Fin dy → ℝ) (x : Fin dx → ℝ) : Measure (Fin dy → ℝ) := ideal.map (lik x)

/-- (Specification.) The values to which an ensemble moves: every member by the code's rule (C92) with the sample covariances of the ensemble. -/
noncomputable def moved (env : Env Keys.Key n dx dy) (alph : ℝ) (x : Fin n → Fin dx → ℝ) (y z : Fin n → Fin dy → ℝ) : Fin n → Fin dx → ℝ :=
  fun i => memberUpdate env (sampleCov x x, sampleCov x y, sampleCov y y) alph (x i) (y i) (z i)

/-- (Specification.) The expectation of `h (values, data)` after stages `iter + 1, ..., iter + m` at temperatures `T`, from temperature `t`: at each stage independent standard normal perturbations `z` are drawn, the
members move, and new data are drawn independently for all members, at the new values. -/
noncomputable def stages (env : Env Keys.Key n dx dy) (lik : (Fin dx → ℝ) → Tape → Fin dy → ℝ) (T : ℕ → ℝ) (h : (Fin n → Fin dx → ℝ) × (Fin n → Fin dy → ℝ) → ℝ≥0∞) :
    ℕ → ℕ → ℝ → (Fin n → Fin dx → ℝ) × (Fin n → Fin dy → ℝ) → ℝ≥0∞
  | 0, _, _, s => h s
  | m + 1, iter, t, s => ∫⁻ z, ∫⁻ y', stages env lik T h m (iter + 1) (T (iter + 1)) (moved env (1 / (T (iter + 1) - t)) s.1 s.2 z, y')
      ∂(Measure.pi fun i => dataLaw lik (moved env (1 / (T (iter + 1) - t)) s.1 s.2 z i)) ∂(Measure.pi fun _ : Fin n => stdNormal dy)

/-- What is used of `inv`, `cholesky` and the simulator: measurability. -/
structure MeasurableEnv (env : Env Keys.Key n dx dy) (lik : (Fin dx → ℝ) → Tape → Fin dy → ℝ) : Prop where
  inv : ∀ d i j, Measurable fun A : Fin d → Fin d → ℝ => env.inv d A i j
  chol : ∀ i j, Measurable fun A : Fin dy → Fin dy → ℝ => (env.chol A).getD 0 i j
  lik : Measurable fun z : (Fin dx → ℝ) × Tape => lik z.1 z.2

/-! ## Measurability -/

section
variable {α : Type*} [MeasurableSpace α] {a b c : ℕ}

/-- A matrix of measurable functions. -/
def MeasMat (M : α → Matrix (Fin a) (Fin b) ℝ) : Prop := ∀ i j, Measurable fun x => M x i j

theorem MeasMat.mul {M : α → Matrix (Fin a) (Fin b) ℝ} {N : α → Matrix (Fin b) (Fin c) ℝ} (hM : MeasMat M) (hN : MeasMat N) : MeasMat fun x => M x * N x := fun i j => by
  simp only [mul_apply]
  exact Finset.measurable_sum _ fun k _ => (hM i k).mul (hN k j)

theorem MeasMat.transpose {M : α → Matrix (Fin a) (Fin b) ℝ} (hM : MeasMat M) : MeasMat fun x => (M x)ᵀ := fun i j => hM j i

theorem MeasMat.add {M N : α → Matrix (Fin a) (Fin b) ℝ} (hM : MeasMat M) (hN : MeasMat N) : MeasMat fun x => M x + N x := fun i j => (hM i j).add (hN i j)

theorem MeasMat.sub {M N : α → Matrix (Fin a) (Fin b) ℝ} (hM : MeasMat M) (hN : MeasMat N) : MeasMat fun x => M x - N x := fun i j => (hM i j).sub (hN i j)

theorem MeasMat.const (M : Matrix (Fin a) (Fin b) ℝ) : MeasMat fun _ : α => M := fun _ _ => measurable_const

theorem MeasMat.smul {M : α → Matrix (Fin a) (Fin b) ℝ} (hM : MeasMat M) {r : α → ℝ} (hr : Measurable r) : MeasMat fun x => r x • M x := fun i j => hr.mul (hM i j)

theorem MeasMat.measurable {M : α → Matrix (Fin a) (Fin b) ℝ} (hM : MeasMat M) : Measurable (β := Fin a → Fin b → ℝ) M :=
  measurable_pi_lambda _ fun i => measurable_pi_lambda _ fun j => hM i j

theorem MeasMat.mulVec {M : α → Matrix (Fin a) (Fin b) ℝ} (hM : MeasMat M) {v : α → Fin b → ℝ} (hv : Measurable v) : Measurable fun x => M x *ᵥ v x :=
  measurable_pi_lambda _ fun i => by
    simp only [Matrix.mulVec, dotProduct]
    exact Finset.measurable_sum _ fun k _ => (hM i k).mul ((measurable_pi_apply k).comp hv)

theorem measMat_sampleCov {f : α → Fin n → Fin a → ℝ} {g : α → Fin n → Fin b → ℝ} (hf : Measurable f) (hg : Measurable g) : MeasMat fun x => sampleCov (f x) (g x) := fun i j => by
  have h1 : ∀ k i, Measurable fun x => f x k i := fun k i => (measurable_pi_apply i).comp ((measurable_pi_apply k).comp hf)
  have h2 : ∀ k i, Measurable fun x => g x k i := fun k i => (measurable_pi_apply i).comp ((measurable_pi_apply k).comp hg)
  simp only [sampleCov]
  exact (Finset.measurable_sum _ fun k _ => ((h1 k i).sub ((Finset.measurable_sum _ fun l _ => h1 l i).div_const _)).mul
    ((h2 k j).sub ((Finset.measurable_sum _ fun l _ => h2 l j).div_const _))).div_const _

variable {env : Env Keys.Key n dx dy} {lik : (Fin dx → ℝ) → Tape → Fin dy → ℝ} (hE : MeasurableEnv env lik)
include hE

theorem measMat_inv {d : ℕ} {M : α → Matrix (Fin d) (Fin d) ℝ} (hM : MeasMat M) : MeasMat fun x => env.inv d (M x) := fun i j => (hE.inv d i j).comp hM.measurable

theorem measurable_moved {alph : α → ℝ} (ha : Measurable alph) {f : α → Fin n → Fin dx → ℝ} {g z : α → Fin n → Fin dy → ℝ} (hf : Measurable f) (hg : Measurable g) (hz : Measurable z) :
    Measurable fun x => moved env (alph x) (f x) (g x) (z x) := by
  refine measurable_pi_lambda _ fun i => ?_
  have hx := measMat_sampleCov hf hf
  have hxy := measMat_sampleCov hf hg
  have hy := measMat_sampleCov hg hg
  have h1 : MeasMat fun x => covYGivenX env (sampleCov (f x) (f x), sampleCov (f x) (g x), sampleCov (g x) (g x)) :=
    hy.sub ((hxy.transpose.mul (measMat_inv hE (hx.add (MeasMat.const _)))).mul hxy)
  have h2 : MeasMat fun x => kalmanGain env (sampleCov (f x) (f x), sampleCov (f x) (g x), sampleCov (g x) (g x)) (alph x) :=
    hxy.mul (measMat_inv hE ((hy.add (h1.smul (ha.sub_const 1))).add (MeasMat.const _)))
  have h3 : MeasMat fun x => (env.chol (covYGivenX env (sampleCov (f x) (f x), sampleCov (f x) (g x), sampleCov (g x) (g x)) + env.nugget • 1)).getD 0 := fun i j =>
    (hE.chol i j).comp (h1.add (MeasMat.const _)).measurable
  have h4 : ∀ x, moved env (alph x) (f x) (g x) (z x) i = f x i + kalmanGain env (sampleCov (f x) (f x), sampleCov (f x) (g x), sampleCov (g x) (g x)) (alph x) *ᵥ
      (env.data - g x i + Real.sqrt (alph x - 1) • ((env.chol (covYGivenX env (sampleCov (f x) (f x), sampleCov (f x) (g x), sampleCov (g x) (g x)) + env.nugget • 1)).getD 0 *ᵥ z x i)) := fun x => by
    unfold moved memberUpdate
    simp only
    rcases env.chol (covYGivenX env (sampleCov (f x) (f x), sampleCov (f x) (g x), sampleCov (g x) (g x)) + env.nugget • 1) with _ | c
    · simp
    · simp [vecMul_transpose]
  simp only [h4]
  have hzi : Measurable fun x => z x i := (measurable_pi_apply i).comp hz
  exact ((measurable_pi_apply i).comp hf).add (h2.mulVec ((measurable_const.sub ((measurable_pi_apply i).comp hg)).add ((ha.sub_const 1).sqrt.smul (h3.mulVec hzi))))

/-! ## The chain -/

/-- One stage, as a function of the draws; the state is extended by temperature and iteration. -/
noncomputable def tekiStep (env : Env Keys.Key n dx dy) (lik : (Fin dx → ℝ) → Tape → Fin dy → ℝ) (T : ℕ → ℝ) (s : ((Fin n → Fin dx → ℝ) × (Fin n → Fin dy → ℝ)) × ℝ × ℕ)
    (w : (Fin n → Fin dy → ℝ) × (Fin n → Tape)) : ((Fin n → Fin dx → ℝ) × (Fin n → Fin dy → ℝ)) × ℝ × ℕ :=
  ((moved env (1 / (T (s.2.2 + 1) - s.2.1)) s.1.1 s.1.2 w.1, fun i => lik (moved env (1 / (T (s.2.2 + 1) - s.2.1)) s.1.1 s.1.2 w.1 i) (w.2 i)), T (s.2.2 + 1), s.2.2 + 1)

theorem measurable_tekiStep (T : ℕ → ℝ) : Measurable (Function.uncurry (tekiStep env lik T)) := by
  have h1 : Measurable fun z : (((Fin n → Fin dx → ℝ) × (Fin n → Fin dy → ℝ)) × ℝ × ℕ) × (Fin n → Fin dy → ℝ) × (Fin n → Tape) => T (z.1.2.2 + 1) :=
    (measurable_of_countable fun i : ℕ => T (i + 1)).comp (measurable_snd.comp (measurable_snd.comp measurable_fst))
  have h2 : Measurable fun z : (((Fin n → Fin dx → ℝ) × (Fin n → Fin dy → ℝ)) × ℝ × ℕ) × (Fin n → Fin dy → ℝ) × (Fin n → Tape) =>
      moved env (1 / (T (z.1.2.2 + 1) - z.1.2.1)) z.1.1.1 z.1.1.2 z.2.1 := by
    refine measurable_moved hE ?_ (by fun_prop) (by fun_prop) (by fun_prop)
    exact measurable_const.div (h1.sub (by fun_prop))
  refine Measurable.prodMk (h2.prodMk (measurable_pi_lambda _ fun i => ?_)) (h1.prodMk ?_)
  · exact hE.lik.comp (((measurable_pi_apply i).comp h2).prodMk ((measurable_pi_apply i).comp (measurable_snd.comp measurable_snd)))
  · exact (measurable_of_countable fun i : ℕ => i + 1).comp (measurable_snd.comp (measurable_snd.comp measurable_fst))

end

section
variable {q : ℝ → ℝ}

/-- The draws of an update with key `k`. -/
def tekiDraw (q : ℝ → ℝ) (n dy : ℕ) (k : Keys.Key) (ω : Tape) : (Fin n → Fin dy → ℝ) × (Fin n → Tape) :=
  (fun i j => q (ω (n :: k, i * dy + j)), fun i => subtape ((i : ℕ) :: k) ω)

theorem map_normals (hq : IsNormalDraw q) (k : Keys.Key) : ideal.map (fun ω (i : Fin n) (j : Fin dy) => q (ω (k, i * dy + j))) = Measure.pi fun _ : Fin n => stdNormal dy := by
  have hm : ∀ s : Site, Measurable fun ω : Tape => q (ω s) := fun s => hq.measurable.comp (measurable_pi_apply s)
  have hrow : ∀ i : Fin n, ideal.map (fun ω (j : Fin dy) => q (ω (k, i * dy + j))) = stdNormal dy := fun i => by
    rw [map_pi (S := fun j : Fin dy => {((k, i * dy + j) : Site)}) (f := fun j ω => q (ω (k, i * dy + j))) ?_ (fun j => hm _) ?_]
    · unfold stdNormal
      congr 1
      funext j
      have h1 : ideal.map (fun ω : Tape => q (ω (k, i * dy + j))) = (ideal.map fun ω : Tape => ω (k, i * dy + j)).map q := (Measure.map_map hq.measurable (measurable_pi_apply _)).symm
      rw [h1, map_site, hq.law]
    · intro a b hab
      rw [Set.disjoint_singleton]
      intro h
      have := (Prod.mk.inj h).2
      exact hab (Fin.ext (by omega))
    · intro j ω ω' h
      simp only
      rw [h _ rfl]
  rw [map_pi (S := fun i : Fin n => Set.range fun j : Fin dy => ((k, i * dy + j) : Site)) (f := fun i ω (j : Fin dy) => q (ω (k, i * dy + j))) ?_ (fun i => measurable_pi_lambda _ fun j => hm _) ?_]
  · congr 1
    funext i
    exact hrow i
  · intro a b hab
    rw [Set.disjoint_left]
    rintro s ⟨j, rfl⟩ ⟨l, h⟩
    have h1 := (Prod.mk.inj h).2
    have h2 : (b : ℕ) = a := by
      have h3 := congrArg (· / dy) h1
      have hj : 0 < dy := j.pos
      simp only [mul_comm _ dy, Nat.mul_add_div hj, Nat.div_eq_of_lt j.isLt, Nat.div_eq_of_lt l.isLt, add_zero] at h3
      exact h3
    exact hab (Fin.ext h2.symm)
  · intro i ω ω' h
    funext j
    simp only
    rw [h _ ⟨j, rfl⟩]

theorem draws_teki (hq : IsNormalDraw q) : Draws (tekiDraw q n dy) (fun k => (n + 1) :: k) ((Measure.pi fun _ : Fin n => stdNormal dy).prod (Measure.pi fun _ : Fin n => ideal)) := by
  have m1 : ∀ k, Measurable fun (ω : Tape) (i : Fin n) (j : Fin dy) => q (ω (k, i * dy + j)) := fun k =>
    measurable_pi_lambda _ fun i => measurable_pi_lambda _ fun j => hq.measurable.comp (measurable_pi_apply _)
  have m2 : ∀ k : Keys.Key, Measurable fun (ω : Tape) (i : Fin n) => subtape ((i : ℕ) :: k) ω := fun k => measurable_pi_lambda _ fun i => measurable_subtape _
  have d1 : ∀ k, DependsOn (fun (ω : Tape) (i : Fin n) (j : Fin dy) => q (ω (n :: k, i * dy + j))) {s : Site | s.1 = n :: k} := fun k ω ω' h => by
    funext i j
    simp only
    rw [h _ rfl]
  have d2 : ∀ k : Keys.Key, DependsOn (fun (ω : Tape) (i : Fin n) => subtape ((i : ℕ) :: k) ω) (⋃ i : Fin n, below ((i : ℕ) :: k)) := fun k ω ω' h => by
    funext i
    exact subtape_dependsOn _ fun s hs => h s (Set.mem_iUnion.2 ⟨i, hs⟩)
  refine ⟨fun k => (m1 _).prodMk (m2 k), fun k => ⟨{s : Site | s.1 = n :: k} ∪ ⋃ i : Fin n, below ((i : ℕ) :: k), ?_, ?_, ?_⟩, fun k s hs => mem_below_cons hs, fun k => ?_⟩
  · intro ω ω' h
    exact Prod.ext (d1 k fun s hs => h s (Or.inl hs)) (d2 k fun s hs => h s (Or.inr hs))
  · rintro s (hs | hs)
    · exact ⟨[n], hs⟩
    · obtain ⟨i, hi⟩ := Set.mem_iUnion.1 hs
      exact mem_below_cons hi
  · rw [Set.disjoint_left]
    rintro ⟨s, j⟩ (hs | hs) h
    · simp only [Set.mem_ofPred_eq] at hs
      subst hs
      exact below_cons_ne (by omega) h
    · obtain ⟨i, hi⟩ := Set.mem_iUnion.1 hs
      exact Set.disjoint_left.1 (below_disjoint (by have := i.isLt; omega)) hi h
  · have h1 := map_pair (S := {s : Site | s.1 = n :: k}) (T := ⋃ i : Fin n, below ((i : ℕ) :: k)) ?_ (m1 (n :: k)) (m2 k) (d1 k) (d2 k)
    · refine h1.trans ?_
      rw [map_normals hq, map_pi (S := fun i : Fin n => below ((i : ℕ) :: k)) (f := fun i ω => subtape ((i : ℕ) :: k) ω)
        (fun a b hab => below_disjoint fun h => hab (Fin.ext h)) (fun i => measurable_subtape _) (fun i => subtape_dependsOn _)]
      simp only [map_subtape]
    · rw [Set.disjoint_left]
      rintro ⟨s, j⟩ hs h
      simp only [Set.mem_ofPred_eq] at hs
      subst hs
      obtain ⟨i, hi⟩ := Set.mem_iUnion.1 h
      exact below_cons_ne (by have := i.isLt; omega) hi

end

variable {env : Env Keys.Key n dx dy} {lik : (Fin dx → ℝ) → Tape → Fin dy → ℝ} {q : ℝ → ℝ}

/-- `m` updates of the code. -/
noncomputable def tekiRun (env : Env Keys.Key n dx dy) (next : Teki.State n dx dy → Teki.Extra Keys.Key dy → ℝ) (m : ℕ) (s : Teki.State n dx dy × Teki.Extra Keys.Key dy) :
    Teki.State n dx dy × Teki.Extra Keys.Key dy := (fun p => Teki.update env next p.1 p.2)^[m] s

theorem tekiRun_eq (T : ℕ → ℝ) (ω : Tape) (m : ℕ) (x : Fin n → Fin dx → ℝ) (y : Fin n → Fin dy → ℝ) (t : ℝ) (e : Teki.Extra Keys.Key dy) :
    ((tekiRun (tekiEnv env q lik ω) (fun _ e => T e.iter) m (⟨x, y, t⟩, e)).1.value, (tekiRun (tekiEnv env q lik ω) (fun _ e => T e.iter) m (⟨x, y, t⟩, e)).1.sim)
      = (tapeIter (tekiDraw q n dy) (fun k => (n + 1) :: k) (tekiStep env lik T) m e.key ((x, y), t, e.iter) ω).1 := by
  induction m generalizing x y t e with
  | zero => rfl
  | succ m ih =>
    have h1 : Teki.update (tekiEnv env q lik ω) (fun _ e => T e.iter) ⟨x, y, t⟩ e
        = (⟨(tekiStep env lik T ((x, y), t, e.iter) (tekiDraw q n dy e.key ω)).1.1, (tekiStep env lik T ((x, y), t, e.iter) (tekiDraw q n dy e.key ω)).1.2, T (e.iter + 1)⟩,
           (Teki.update (tekiEnv env q lik ω) (fun _ e => T e.iter) ⟨x, y, t⟩ e).2) := by
      have hv : (Teki.update (tekiEnv env q lik ω) (fun _ e => T e.iter) ⟨x, y, t⟩ e).1.value = (tekiStep env lik T ((x, y), t, e.iter) (tekiDraw q n dy e.key ω)).1.1 := by
        funext i
        rw [C92_ensemble]
        rfl
      refine Prod.ext ?_ rfl
      have h2 : (Teki.update (tekiEnv env q lik ω) (fun _ e => T e.iter) ⟨x, y, t⟩ e).1.sim
          = fun i => lik ((Teki.update (tekiEnv env q lik ω) (fun _ e => T e.iter) ⟨x, y, t⟩ e).1.value i) (subtape ((i : ℕ) :: e.key) ω) := rfl
      rw [hv] at h2
      exact Teki.State.ext hv h2 rfl
    have h3 : tekiRun (tekiEnv env q lik ω) (fun _ e => T e.iter) (m + 1) (⟨x, y, t⟩, e)
        = tekiRun (tekiEnv env q lik ω) (fun _ e => T e.iter) m (Teki.update (tekiEnv env q lik ω) (fun _ e => T e.iter) ⟨x, y, t⟩ e) := rfl
    rw [h3, h1, ih]
    rfl

theorem stepOp_stages (hE : MeasurableEnv env lik) (T : ℕ → ℝ) {h : (Fin n → Fin dx → ℝ) × (Fin n → Fin dy → ℝ) → ℝ≥0∞} (hh : Measurable h) (m iter : ℕ) (t : ℝ)
    (s : (Fin n → Fin dx → ℝ) × (Fin n → Fin dy → ℝ)) :
    (stepOp ((Measure.pi fun _ : Fin n => stdNormal dy).prod (Measure.pi fun _ : Fin n => ideal)) (tekiStep env lik T))^[m] (fun z => h z.1) (s, t, iter) = stages env lik T h m iter t s := by
  induction m generalizing iter t s with
  | zero => rfl
  | succ m ih =>
    have hg := measurable_stepOp_iterate (δ := (Measure.pi fun _ : Fin n => stdNormal dy).prod (Measure.pi fun _ : Fin n => ideal)) (measurable_tekiStep hE T) m (h := fun z => h z.1)
      (hh.comp measurable_fst)
    have hst : Measurable fun w => tekiStep env lik T (s, t, iter) w := (measurable_tekiStep hE T).of_uncurry_left
    rw [Function.iterate_succ_apply']
    change ∫⁻ w, _ ∂_ = _
    have hgw := hg.comp hst
    refine (lintegral_prod _ hgw.aemeasurable).trans (lintegral_congr fun z => ?_)
    set x' := moved env (1 / (T (iter + 1) - t)) s.1 s.2 z with hx'
    have hl : ∀ i, Measurable (lik (x' i)) := fun i => hE.lik.comp measurable_prodMk_left
    have h1 : (Measure.pi fun i => dataLaw lik (x' i)) = (Measure.pi fun _ : Fin n => ideal).map fun τ i => lik (x' i) (τ i) := by
      have : ∀ i, SigmaFinite (ideal.map (lik (x' i))) := fun i => by
        have := Measure.isProbabilityMeasure_map (μ := ideal) (hl i).aemeasurable
        infer_instance
      exact (Measure.pi_map_pi (μ := fun _ : Fin n => ideal) (f := fun i => lik (x' i)) fun i => (hl i).aemeasurable).symm
    have h2 : Measurable fun y' : Fin n → Fin dy → ℝ => stages env lik T h m (iter + 1) (T (iter + 1)) (x', y') := by
      simp only [← ih]
      exact hg.comp (by fun_prop)
    have h3 : Measurable fun (τ : Fin n → Tape) i => lik (x' i) (τ i) := measurable_pi_lambda _ fun i => (hl i).comp (measurable_pi_apply i)
    rw [h1, lintegral_map h2 h3]
    refine lintegral_congr fun τ => ?_
    rw [← ih]
    rfl

/-- C93: from any state with any key, after any number of updates of `TemperedEKI` at given temperatures, members and data are distributed as those of the Markov chain in which each stage draws independent standard
normal perturbations, moves the members (C92) and draws new data independently for all members at their new values. -/
theorem C93_chain (hE : MeasurableEnv env lik) (hq : IsNormalDraw q) (T : ℕ → ℝ) (m : ℕ) (s : Teki.State n dx dy) (e : Teki.Extra Keys.Key dy)
    {h : (Fin n → Fin dx → ℝ) × (Fin n → Fin dy → ℝ) → ℝ≥0∞} (hh : Measurable h) :
    ∫⁻ ω, h ((tekiRun (tekiEnv env q lik ω) (fun _ e => T e.iter) m (s, e)).1.value, (tekiRun (tekiEnv env q lik ω) (fun _ e => T e.iter) m (s, e)).1.sim) ∂ideal
      = stages env lik T h m e.iter s.temperature (s.value, s.sim) := by
  obtain ⟨x, y, t⟩ := s
  simp only [tekiRun_eq]
  have h1 := lintegral_tapeIter (draws_teki (n := n) (dy := dy) hq) (measurable_tekiStep hE T) m e.key ((x, y), t, e.iter) (h := fun z => h z.1) (hh.comp measurable_fst)
  exact h1.trans (stepOp_stages hE T hh m e.iter t (x, y))

theorem dataLaw_isProb (hE : MeasurableEnv env lik) (x : Fin dx → ℝ) : IsProbabilityMeasure (dataLaw lik x) :=
  Measure.isProbabilityMeasure_map (hE.lik.comp measurable_prodMk_left).aemeasurable

theorem pi_dataLaw (hE : MeasurableEnv env lik) (x : Fin n → Fin dx → ℝ) :
    (Measure.pi fun i => dataLaw lik (x i)) = (Measure.pi fun _ : Fin n => ideal).map fun τ i => lik (x i) (τ i) := by
  have hl : ∀ i, Measurable (lik (x i)) := fun i => hE.lik.comp measurable_prodMk_left
  have : ∀ i, SigmaFinite (ideal.map (lik (x i))) := fun i => by
    have := Measure.isProbabilityMeasure_map (μ := ideal) (hl i).aemeasurable
    infer_instance
  exact (Measure.pi_map_pi (μ := fun _ : Fin n => ideal) (f := fun i => lik (x i)) fun i => (hl i).aemeasurable).symm

theorem lintegral_dataLaw (hE : MeasurableEnv env lik) (x : Fin n → Fin dx → ℝ) {g : (Fin n → Fin dy → ℝ) → ℝ≥0∞} (hg : Measurable g) :
    ∫⁻ y, g y ∂(Measure.pi fun i => dataLaw lik (x i)) = ∫⁻ τ, g (fun i => lik (x i) (τ i)) ∂(Measure.pi fun _ : Fin n => ideal) := by
  have h3 : Measurable fun (τ : Fin n → Tape) i => lik (x i) (τ i) := measurable_pi_lambda _ fun i => (hE.lik.comp measurable_prodMk_left).comp (measurable_pi_apply i)
  rw [pi_dataLaw hE, lintegral_map hg h3]

theorem measurable_redrawn (hE : MeasurableEnv env lik) {h : (Fin n → Fin dx → ℝ) × (Fin n → Fin dy → ℝ) → ℝ≥0∞} (hh : Measurable h) :
    Measurable fun x : Fin n → Fin dx → ℝ => ∫⁻ y, h (x, y) ∂(Measure.pi fun i => dataLaw lik (x i)) := by
  have h1 : ∀ x : Fin n → Fin dx → ℝ, ∫⁻ y, h (x, y) ∂(Measure.pi fun i => dataLaw lik (x i)) = ∫⁻ τ, h (x, fun i => lik (x i) (τ i)) ∂(Measure.pi fun _ : Fin n => ideal) := fun x =>
    lintegral_dataLaw hE x (hh.comp measurable_prodMk_left)
  simp only [h1]
  have h2 : Measurable fun z : (Fin n → Fin dx → ℝ) × (Fin n → Tape) => h (z.1, fun i => lik (z.1 i) (z.2 i)) := by
    refine hh.comp (measurable_fst.prodMk (measurable_pi_lambda _ fun i => ?_))
    have h3 : Measurable fun z : (Fin n → Fin dx → ℝ) × (Fin n → Tape) => (z.1 i, z.2 i) := ((measurable_pi_apply i).comp measurable_fst).prodMk ((measurable_pi_apply i).comp measurable_snd)
    exact hE.lik.comp h3
  exact h2.lintegral_prod_right'

theorem stages_redrawn (hE : MeasurableEnv env lik) (T : ℕ → ℝ) {h : (Fin n → Fin dx → ℝ) × (Fin n → Fin dy → ℝ) → ℝ≥0∞} (m iter : ℕ) (t : ℝ)
    (s : (Fin n → Fin dx → ℝ) × (Fin n → Fin dy → ℝ)) :
    stages env lik T h (m + 1) iter t s = stages env lik T (fun z => ∫⁻ y, h (z.1, y) ∂(Measure.pi fun i => dataLaw lik (z.1 i))) (m + 1) iter t s := by
  induction m generalizing iter t s with
  | zero =>
    refine lintegral_congr fun z => ?_
    have := dataLaw_isProb hE
    simp only [stages, lintegral_const, measure_univ, mul_one]
  | succ m ih =>
    refine lintegral_congr fun z => lintegral_congr fun y => ?_
    exact ih _ _ _

/-- C93, data: after every update the simulated data of the ensemble are, given the values, independent draws of the simulator, each at the current value of its member. -/
theorem C93_data (hE : MeasurableEnv env lik) (hq : IsNormalDraw q) (T : ℕ → ℝ) (m : ℕ) (s : Teki.State n dx dy) (e : Teki.Extra Keys.Key dy)
    {h : (Fin n → Fin dx → ℝ) × (Fin n → Fin dy → ℝ) → ℝ≥0∞} (hh : Measurable h) :
    ∫⁻ ω, h ((tekiRun (tekiEnv env q lik ω) (fun _ e => T e.iter) (m + 1) (s, e)).1.value, (tekiRun (tekiEnv env q lik ω) (fun _ e => T e.iter) (m + 1) (s, e)).1.sim) ∂ideal
      = ∫⁻ ω, ∫⁻ y, h ((tekiRun (tekiEnv env q lik ω) (fun _ e => T e.iter) (m + 1) (s, e)).1.value, y)
          ∂(Measure.pi fun i => dataLaw lik ((tekiRun (tekiEnv env q lik ω) (fun _ e => T e.iter) (m + 1) (s, e)).1.value i)) ∂ideal := by
  rw [C93_chain hE hq T (m + 1) s e hh, stages_redrawn hE]
  exact (C93_chain hE hq T (m + 1) s e ((measurable_redrawn hE hh).comp measurable_fst)).symm

/-- Temperatures of `TemperedEKI`: its schedule, or the default one. -/
noncomputable def temperatureAt (c : Teki.Config) (i : ℕ) : ℝ :=
  match c.schedule with
  | some l => Smc.scheduleAt l i
  | none => round4 (((2 : ℝ) ^ ((1 : ℝ) / 50)) ^ i - 1)

theorem nextTemperature_eq (c : Teki.Config) : (nextTemperature c : Teki.State n dx dy → Teki.Extra Keys.Key dy → ℝ) = fun _ e => temperatureAt c e.iter := by
  funext s e
  unfold nextTemperature temperatureAt
  cases c.schedule <;> rfl

/-- C93, whole runs: `startup` with given values, which simulates data, then `m` updates with the sampler's own temperatures; at each stage perturbations and data are drawn afresh, independently of the past. -/
theorem C93_run [NeZero n] (hE : MeasurableEnv env lik) (hq : IsNormalDraw q) (c : Teki.Config) (x : Fin n → Fin dx → ℝ) (k : Keys.Key) (m : ℕ)
    {h : (Fin n → Fin dx → ℝ) × (Fin n → Fin dy → ℝ) → ℝ≥0∞} (hh : Measurable h) :
    ∫⁻ ω, h ((tekiRun (tekiEnv env q lik ω) (nextTemperature c) m (Teki.startup (tekiEnv env q lik ω) (fun k i => i :: k) x none k)).1.value,
        (tekiRun (tekiEnv env q lik ω) (nextTemperature c) m (Teki.startup (tekiEnv env q lik ω) (fun k i => i :: k) x none k)).1.sim) ∂ideal
      = ∫⁻ y, stages env lik (temperatureAt c) h m 0 0 (x, y) ∂(Measure.pi fun i => dataLaw lik (x i)) := by
  have hn : 0 < n := Nat.pos_of_ne_zero (NeZero.ne n)
  set T := temperatureAt c with hT
  have hd := draws_teki (n := n) (dy := dy) hq
  have hs := measurable_tekiStep hE T
  have hh' : Measurable fun z : ((Fin n → Fin dx → ℝ) × (Fin n → Fin dy → ℝ)) × ℝ × ℕ => h z.1 := hh.comp measurable_fst
  simp only [nextTemperature_eq, Teki.startup, tekiRun_eq, ← hT]
  have m2 : Measurable fun (ω : Tape) (i : Fin n) => subtape ((i : ℕ) :: k) ω := measurable_pi_lambda _ fun i => measurable_subtape _
  have d2 : DependsOn (fun (ω : Tape) (i : Fin n) => subtape ((i : ℕ) :: k) ω) (⋃ i : Fin n, below ((i : ℕ) :: k)) := fun ω ω' h => by
    funext i
    exact subtape_dependsOn _ fun s hs => h s (Set.mem_iUnion.2 ⟨i, hs⟩)
  have hdis : Disjoint (⋃ i : Fin n, below ((i : ℕ) :: k)) (below ((2 * n - 1) :: k)) := by
    rw [Set.disjoint_iUnion_left]
    intro i
    exact below_disjoint (by have := i.isLt; omega)
  have hl : Measurable fun (τ : Fin n → Tape) i => lik (x i) (τ i) := measurable_pi_lambda _ fun i => (hE.lik.comp measurable_prodMk_left).comp (measurable_pi_apply i)
  have hin : Measurable fun τ : Fin n → Tape => (((x, fun i => lik (x i) (τ i)), (0 : ℝ), 0) : ((Fin n → Fin dx → ℝ) × (Fin n → Fin dy → ℝ)) × ℝ × ℕ) :=
    (measurable_const.prodMk hl).prodMk measurable_const
  have hit := measurable_tapeIter hd hs m ((2 * n - 1) :: k)
  have hjoint : Measurable fun z : (Fin n → Tape) × Tape =>
      h (tapeIter (tekiDraw q n dy) (fun k => (n + 1) :: k) (tekiStep env lik T) m ((2 * n - 1) :: k) ((x, fun i => lik (x i) (z.1 i)), 0, 0) z.2).1 := by
    have h1 := hit.comp ((hin.comp measurable_fst).prodMk measurable_snd)
    exact hh'.comp h1
  have e1 := fresh hdis (f := fun (ω : Tape) (i : Fin n) => subtape ((i : ℕ) :: k) ω)
    (g := fun τ ω => h (tapeIter (tekiDraw q n dy) (fun k => (n + 1) :: k) (tekiStep env lik T) m ((2 * n - 1) :: k) ((x, fun i => lik (x i) (τ i)), 0, 0) ω).1) m2 d2 hjoint
    fun τ ω ω' hω => by
      have := tapeIter_dependsOn hd (tekiStep env lik T) m ((2 * n - 1) :: k) ((x, fun i => lik (x i) (τ i)), 0, 0) hω
      simp only [this]
  have e2 : ∀ y, ∫⁻ ω, h (tapeIter (tekiDraw q n dy) (fun k => (n + 1) :: k) (tekiStep env lik T) m ((2 * n - 1) :: k) ((x, y), 0, 0) ω).1 ∂ideal
      = stages env lik T h m 0 0 (x, y) := fun y => (lintegral_tapeIter hd hs m _ _ hh').trans (stepOp_stages hE T hh m 0 0 (x, y))
  have hst : Measurable fun y => stages env lik T h m 0 0 (x, y) := by
    simp only [← stepOp_stages hE T hh]
    exact (measurable_stepOp_iterate hs m hh').comp (by fun_prop)
  refine e1.trans ?_
  simp only [e2]
  have hlaw : ideal.map (fun (ω : Tape) (i : Fin n) => subtape ((i : ℕ) :: k) ω) = Measure.pi fun _ : Fin n => ideal := by
    rw [map_pi (S := fun i : Fin n => below ((i : ℕ) :: k)) (f := fun i ω => subtape ((i : ℕ) :: k) ω)
        (fun a b hab => below_disjoint fun h => hab (Fin.ext h)) (fun i => measurable_subtape _) (fun i => subtape_dependsOn _)]
    simp only [map_subtape]
  have hst' : Measurable fun τ : Fin n → Tape => stages env lik T h m 0 0 (x, fun i => lik (x i) (τ i)) := hst.comp hl
  rw [lintegral_dataLaw hE x hst, ← hlaw, lintegral_map hst' m2]

/-- C93, whole runs started with simulated data given by the user: those data are used as they are, and no randomness is spent on start-up. -/
theorem C93_run_given [NeZero n] (hE : MeasurableEnv env lik) (hq : IsNormalDraw q) (c : Teki.Config) (x : Fin n → Fin dx → ℝ) (y : Fin n → Fin dy → ℝ) (k : Keys.Key) (m : ℕ)
    {h : (Fin n → Fin dx → ℝ) × (Fin n → Fin dy → ℝ) → ℝ≥0∞} (hh : Measurable h) :
    ∫⁻ ω, h ((tekiRun (tekiEnv env q lik ω) (nextTemperature c) m (Teki.startup (tekiEnv env q lik ω) (fun k i => i :: k) x (some y) k)).1.value,
        (tekiRun (tekiEnv env q lik ω) (nextTemperature c) m (Teki.startup (tekiEnv env q lik ω) (fun k i => i :: k) x (some y) k)).1.sim) ∂ideal
      = stages env lik (temperatureAt c) h m 0 0 (x, y) := by
  simp only [nextTemperature_eq, Teki.startup]
  exact C93_chain hE hq (temperatureAt c) m ⟨x, y, 0⟩ ⟨k, 0, 1⟩ hh

/-- C93: either way a run starts at temperature 0, iteration 0, with the given values. -/
theorem C93_startup [NeZero n] {K : Type*} (env : Env K n dx dy) (split2n : K → ℕ → K) (x : Fin n → Fin dx → ℝ) (sim : Option (Fin n → Fin dy → ℝ)) (k : K) :
    (Teki.startup env split2n x sim k).1.temperature = 0 ∧ (Teki.startup env split2n x sim k).2.iter = 0 ∧ (Teki.startup env split2n x sim k).1.value = x := by
  cases sim <;> exact ⟨rfl, rfl, rfl⟩

/-! ## A case that meets the hypotheses -/

theorem measurable_inv (d : ℕ) (i j : Fin d) : Measurable fun A : Fin d → Fin d → ℝ => (Matrix.of A)⁻¹ i j := by
  have hd : Measurable fun A : Fin d → Fin d → ℝ => (Matrix.of A).det := by
    simp only [det_apply]
    refine Finset.measurable_sum _ fun σ _ => ?_
    refine Measurable.const_smul (Finset.measurable_prod _ fun k _ => ?_) _
    exact (measurable_pi_apply k).comp (measurable_pi_apply (σ k))
  have ha : Measurable fun A : Fin d → Fin d → ℝ => (Matrix.of A).adjugate i j := by
    simp only [adjugate_apply, det_apply]
    refine Finset.measurable_sum _ fun σ _ => Measurable.const_smul (Finset.measurable_prod _ fun k _ => ?_) _
    simp only [updateRow_apply]
    split_ifs
    · exact measurable_const
    · exact (measurable_pi_apply k).comp (measurable_pi_apply (σ k))
  have : ∀ A : Fin d → Fin d → ℝ, (Matrix.of A)⁻¹ i j = ((Matrix.of A).det)⁻¹ * (Matrix.of A).adjugate i j := fun A => by
    rw [inv_def, Ring.inverse_eq_inv', Matrix.smul_apply, smul_eq_mul]
  simp only [this]
  exact hd.inv.mul ha

/-- Ten members in the plane, data the squared length plus normal noise, default temperatures. -/
example : ∃ (env : Env Keys.Key 10 2 1) (q : ℝ → ℝ) (lik : (Fin 2 → ℝ) → Tape → Fin 1 → ℝ), MeasurableEnv env lik ∧ IsNormalDraw q ∧ env.data = (fun _ => 3) ∧ env.nugget = 1e-5 ∧
    ∀ x, dataLaw lik x = (stdNormal 1).map fun z j => x 0 ^ 2 + x 1 ^ 2 + z j := by
  obtain ⟨q, hq⟩ := exists_isNormalDraw
  refine ⟨{ inv := fun _ A => A⁻¹, chol := fun A => if 0 < A 0 0 then some (Real.sqrt (A 0 0) • 1) else none, splitN := fun k _ => k, normal := fun _ => 0, simulate := fun _ _ => 0,
            data := fun _ => 3, nugget := 1e-5 }, q, fun x τ j => x 0 ^ 2 + x 1 ^ 2 + normalAt q 1 τ [] j, ⟨?_, ?_, ?_⟩, hq, rfl, rfl, fun x => ?_⟩
  · exact fun d i j => measurable_inv d i j
  · intro i j
    have h1 : ∀ A : Fin 1 → Fin 1 → ℝ, (if 0 < A 0 0 then some (Real.sqrt (A 0 0) • (1 : Matrix (Fin 1) (Fin 1) ℝ)) else none).getD 0 i j = Real.sqrt (A 0 0) := fun A => by
      fin_cases i; fin_cases j
      split_ifs with h
      · simp
      · simp [Real.sqrt_eq_zero'.2 (not_lt.1 h)]
    simp only [h1]
    fun_prop
  · have := measurable_normalAt (d := 1) hq []
    exact measurable_pi_lambda _ fun j => Measurable.add (by fun_prop) ((measurable_pi_apply j).comp (this.comp measurable_snd))
  · rw [← map_normalAt (d := 1) hq [], Measure.map_map (by fun_prop) (measurable_normalAt hq [])]
    rfl

end Mocat.Props
