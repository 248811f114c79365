import Verif.Lemmas.Rejection
import Verif.Lemmas.Categorical
/-!
# C83, C84: the law of backward simulation

The draws come from an ideal generator (`Verif.Spec.Tape`): `cat` is how `random.categorical` turns a uniform into an index.
-/
namespace Mocat.Props
open Mocat Mocat.Backward Mocat.Ideal Mocat.Meas MeasureTheory
open scoped ENNReal

variable {X : Type} {m N : ℕ}

/-- The library routines of the rejection sampler, with an ideal generator. -/
def tapeRand (cat : (Fin N → Fl) → ℝ → Fin N) (ω : Tape) : Rand Keys.Key m N where
  choice k lw := cat lw (ω (k, 0))
  choices k lw i := cat lw (ω (k, i))
  uniform k := ω (k, 0)
  uniforms k i := ω (k, i)
  split3 := Keys.split3
  splitN k i := (i : ℕ) :: k

/-- Specification: the backward distribution of one particle among the candidates, weights `w_j` times transition densities `exp (-pot j)`, normalised. -/
noncomputable def backwardProb (w : Fin N → ℝ) (pot : Fin N → ℝ) (j : Fin N) : ℝ := w j * Real.exp (-pot j) / ∑ k, w k * Real.exp (-pot k)

theorem unif_rejects {d B : ℝ} (hB : 0 < B) (hd0 : 0 ≤ d) (hd : d ≤ B) : unif.real {u | Rejects u d B} = 1 - d / B := by
  have hm : MeasurableSet {u : ℝ | Rejects u d B} := by
    have : {u : ℝ | Rejects u d B} = Set.Ioi (d / B) := by
      ext u; simp [Rejects, hB.ne']
    rw [this]; exact measurableSet_Ioi
  have e : {u : ℝ | Rejects u d B} ∩ Set.Ico 0 1 = Set.Ioo (d / B) 1 := by
    ext u
    simp only [Rejects, Set.mem_inter_iff, Set.mem_ofPred_eq, Set.mem_Ico, Set.mem_Ioo, ne_eq, hB.ne', not_false_eq_true, true_and]
    constructor
    · rintro ⟨h1, -, h3⟩; exact ⟨h1, h3⟩
    · rintro ⟨h1, h2⟩; exact ⟨h1, le_trans (div_nonneg hd0 hB.le) h1.le, h2⟩
  rw [Measure.real, unif, Measure.restrict_apply hm, e, Real.volume_Ioo, ENNReal.toReal_ofReal]
  have : d / B ≤ 1 := (div_le_one hB).mpr hd
  linarith

theorem measurableSet_rejects (d B : ℝ) : MeasurableSet {u : ℝ | Rejects u d B} := by
  by_cases hB : B = 0
  · have : {u : ℝ | Rejects u d B} = ∅ := by ext u; simp [Rejects, hB]
    rw [this]; exact MeasurableSet.empty
  · have : {u : ℝ | Rejects u d B} = Set.Ioi (d / B) := by
      ext u; simp [Rejects, hB]
    rw [this]; exact measurableSet_Ioi

/-- One particle's attempts: events of the draws at one attempt, independent of what is drawn elsewhere. -/
theorem attempt_law {cat : (Fin N → Fl) → ℝ → Fin N} (hcat : IsCategorical cat) (lw : Fin N → Fl) (pot : Fin N → ℝ) {w : Fin N → ℝ}
    (hw : ∀ j, Fl.exp (lw j) = .fin (w j)) (hw0 : 0 < ∑ j, w j) {B : ℝ} (hB : 0 < B) (hd : ∀ j, Real.exp (-pot j) ≤ B)
    (c u : Site) (hcu : c ≠ u) (S : Set Site) (hc : c ∉ S) (hu : u ∉ S) (next : Tape → Fin N) (hnm : ∀ j, MeasurableSet {ω | next ω = j})
    (hnS : DependsOn next S) (hn : ∀ j, ideal.real {ω | next ω = j} = backwardProb w pot j) (j : Fin N) :
    ideal.real {ω | (open Classical in if Rejects (ω u) (Real.exp (-pot (cat lw (ω c)))) B then next ω else cat lw (ω c)) = j} = backwardProb w pot j ∧
    MeasurableSet {ω | (open Classical in if Rejects (ω u) (Real.exp (-pot (cat lw (ω c)))) B then next ω else cat lw (ω c)) = j} := by
  classical
  set A : Fin N → Set Tape := fun k => {ω | cat lw (ω c) = k} with hA
  set U : Fin N → Set Tape := fun k => {ω | Rejects (ω u) (Real.exp (-pot k)) B} with hU
  have hAm : ∀ k, MeasurableSet (A k) := fun k => ((hcat.measurable lw).comp (measurable_pi_apply c)) (measurableSet_singleton k)
  have hUm : ∀ k, MeasurableSet (U k) := fun k => (measurable_pi_apply u : Measurable fun ω : Tape => ω u) (measurableSet_rejects (Real.exp (-pot k)) B)
  have hset : {ω : Tape | (if Rejects (ω u) (Real.exp (-pot (cat lw (ω c)))) B then next ω else cat lw (ω c)) = j}
      = (A j ∩ (U j)ᶜ) ∪ ⋃ k ∈ (Finset.univ : Finset (Fin N)), (A k ∩ (U k ∩ {ω | next ω = j})) := by
    ext ω
    simp only [Set.mem_ofPred_eq, Set.mem_union, Set.mem_inter_iff, Set.mem_compl_iff, Set.mem_iUnion, Finset.mem_univ, exists_const, hA, hU]
    by_cases hr : Rejects (ω u) (Real.exp (-pot (cat lw (ω c)))) B
    · rw [if_pos hr]
      constructor
      · intro h; exact Or.inr ⟨_, rfl, hr, h⟩
      · rintro (⟨h1, h2⟩ | ⟨k, h1, h2, h3⟩)
        · rw [h1] at hr; exact absurd hr h2
        · exact h3
    · rw [if_neg hr]
      constructor
      · intro h; refine Or.inl ⟨h, ?_⟩; rw [← h]; exact hr
      · rintro (⟨h1, h2⟩ | ⟨k, h1, h2, h3⟩)
        · exact h1
        · rw [← h1] at h2; exact absurd h2 hr
  have hAdep : ∀ k, DependsOn (· ∈ A k) {c} := fun k x y h => by
    simp only [hA, Set.mem_ofPred_eq]; rw [h c rfl]
  have hUdep : ∀ k, DependsOn (· ∈ U k) {u} := fun k x y h => by
    simp only [hU, Set.mem_ofPred_eq]; rw [h u rfl]
  have hUcdep : ∀ k, DependsOn (· ∈ (U k)ᶜ) {u} := fun k x y h => by
    simp only [hU, Set.mem_compl_iff, Set.mem_ofPred_eq]; rw [h u rfl]
  have hnd : DependsOn (· ∈ {ω | next ω = j}) S := fun x y h => by
    simp only [Set.mem_ofPred_eq]; rw [hnS h]
  have hUnd : ∀ k, DependsOn (· ∈ U k ∩ {ω | next ω = j}) ({u} ∪ S) := fun k x y h => by
    have h1 := hUdep k (fun i hi => h i (Or.inl hi))
    have h2 := hnd (fun i hi => h i (Or.inr hi))
    simp only [Set.mem_inter_iff] at h1 h2 ⊢
    rw [h1, h2]
  have d1 : Disjoint ({c} : Set Site) {u} := by simpa using hcu
  have d2 : Disjoint ({u} : Set Site) S := by simpa using hu
  have d3 : Disjoint ({c} : Set Site) ({u} ∪ S) := by
    rw [Set.disjoint_singleton_left]
    rintro (h | h)
    · exact hcu h
    · exact hc h
  have hPA : ∀ k, ideal.real (A k) = w k / ∑ l, w l := fun k => by
    have h1 : ideal (A k) = unif {x | cat lw x = k} := site c ((hcat.measurable lw) (measurableSet_singleton k))
    have hwn : 0 ≤ w k := by
      have := hw k
      generalize lw k = z at this
      cases z with
      | nan => simp [Fl.exp] at this
      | ninf => simp [Fl.exp] at this; exact this.le
      | fin x => simp [Fl.exp] at this; rw [← this]; exact (Real.exp_pos _).le
      | pinf => simp [Fl.exp] at this
    rw [Measure.real, h1, hcat.prob lw w hw hw0, ENNReal.toReal_ofReal (div_nonneg hwn hw0.le)]
  have hPU : ∀ k, ideal.real (U k) = 1 - Real.exp (-pot k) / B := fun k => by
    have h1 : ideal (U k) = unif {x | Rejects x (Real.exp (-pot k)) B} := site u (measurableSet_rejects _ _)
    rw [Measure.real, h1, ← Measure.real, unif_rejects hB (Real.exp_pos _).le (hd k)]
  have hmU : MeasurableSet (⋃ k ∈ (Finset.univ : Finset (Fin N)), (A k ∩ (U k ∩ {ω | next ω = j}))) :=
    Finset.measurableSet_biUnion _ fun k _ => (hAm k).inter ((hUm k).inter (hnm j))
  rw [hset]
  refine ⟨?_, ((hAm j).inter (hUm j).compl).union hmU⟩
  rw [measureReal_union ?_ hmU (measure_ne_top _ _) (measure_ne_top _ _), measureReal_biUnion_finset ?_ (fun k _ => (hAm k).inter ((hUm k).inter (hnm j)))]
  · have e1 : ideal.real (A j ∩ (U j)ᶜ) = w j / (∑ l, w l) * (Real.exp (-pot j) / B) := by
      rw [Measure.real, inter d1 (hAm j) (hUm j).compl (hAdep j) (hUcdep j), ENNReal.toReal_mul, ← Measure.real, ← Measure.real, hPA,
        probReal_compl_eq_one_sub (hUm j), hPU]
      ring
    have e2 : ∀ k, ideal.real (A k ∩ (U k ∩ {ω | next ω = j})) = w k / (∑ l, w l) * ((1 - Real.exp (-pot k) / B) * backwardProb w pot j) := fun k => by
      rw [Measure.real, inter d3 (hAm k) ((hUm k).inter (hnm j)) (hAdep k) (hUnd k), inter d2 (hUm k) (hnm j) (hUdep k) hnd,
        ENNReal.toReal_mul, ENNReal.toReal_mul, ← Measure.real, ← Measure.real, ← Measure.real, hPA, hPU, hn]
    rw [e1, Finset.sum_congr rfl fun k _ => e2 k]
    have hZ : 0 < ∑ k, w k * Real.exp (-pot k) := by
      obtain ⟨k, -, hk⟩ := Finset.exists_lt_of_sum_lt (s := Finset.univ) (f := fun _ : Fin N => (0 : ℝ)) (g := w) (by simpa using hw0)
      refine Finset.sum_pos' (fun l _ => mul_nonneg ?_ (Real.exp_pos _).le) ⟨k, Finset.mem_univ _, mul_pos hk (Real.exp_pos _)⟩
      have := hPA l
      have h2 : 0 ≤ w l / ∑ l, w l := this ▸ measureReal_nonneg
      by_contra hneg
      exact absurd h2 (not_le.mpr (div_neg_of_neg_of_pos (not_le.mp hneg) hw0))
    have e3 : ∑ k, w k / (∑ l, w l) * ((1 - Real.exp (-pot k) / B) * backwardProb w pot j)
        = (1 - (∑ k, w k * Real.exp (-pot k)) / (B * ∑ l, w l)) * backwardProb w pot j := by
      have : ∀ k, w k / (∑ l, w l) * ((1 - Real.exp (-pot k) / B) * backwardProb w pot j)
          = (w k * (1 / ∑ l, w l) - w k * Real.exp (-pot k) * (1 / (B * ∑ l, w l))) * backwardProb w pot j := by
        intro k; field_simp
      rw [Finset.sum_congr rfl fun k _ => this k, ← Finset.sum_mul, Finset.sum_sub_distrib, ← Finset.sum_mul, ← Finset.sum_mul]
      field_simp
    rw [e3]
    unfold backwardProb
    field_simp
    ring
  · intro k _ l _ hkl
    rw [Function.onFun, Set.disjoint_left]
    rintro ω ⟨h1, -⟩ ⟨h2, -⟩
    exact hkl (h1.symm.trans h2)
  · rw [Set.disjoint_left]
    rintro ω ⟨h1, h2⟩ h3
    simp only [Finset.mem_univ, Set.iUnion_true, Set.mem_iUnion] at h3
    obtain ⟨k, h4, h5, -⟩ := h3
    have : j = k := h1.symm.trans h4
    rw [← this] at h5
    exact h2 h5

theorem weight_nonneg {lw : Fin N → Fl} {w : Fin N → ℝ} (hw : ∀ j, Fl.exp (lw j) = .fin (w j)) (k : Fin N) : 0 ≤ w k := by
  have := hw k
  generalize lw k = z at this
  cases z with
  | nan => simp [Fl.exp] at this
  | ninf => simp [Fl.exp] at this; exact this.le
  | fin x => simp [Fl.exp] at this; rw [← this]; exact (Real.exp_pos _).le
  | pinf => simp [Fl.exp] at this

theorem total_pos {w : Fin N → ℝ} (hn : ∀ k, 0 ≤ w k) (hw0 : 0 < ∑ j, w j) (pot : Fin N → ℝ) : 0 < ∑ k, w k * Real.exp (-pot k) := by
  obtain ⟨k, -, hk⟩ := Finset.exists_lt_of_sum_lt (s := Finset.univ) (f := fun _ : Fin N => (0 : ℝ)) (g := w) (by simpa using hw0)
  exact Finset.sum_pos' (fun l _ => mul_nonneg (hn l) (Real.exp_pos _).le) ⟨k, Finset.mem_univ _, mul_pos hk (Real.exp_pos _)⟩

/-- The draw from the full weights has the backward distribution. -/
theorem full_law {cat : (Fin N → Fl) → ℝ → Fin N} (hcat : IsCategorical cat) (lw : Fin N → Fl) (pot : Fin N → ℝ) {w : Fin N → ℝ}
    (hw : ∀ j, Fl.exp (lw j) = .fin (w j)) (hw0 : 0 < ∑ j, w j) (c : Site) (j : Fin N) :
    ideal.real {ω | cat (fullLogWeight lw pot) (ω c) = j} = backwardProb w pot j ∧ MeasurableSet {ω : Tape | cat (fullLogWeight lw pot) (ω c) = j} := by
  have hn := weight_nonneg hw
  have hm : MeasurableSet {u | cat (fullLogWeight lw pot) u = j} := (hcat.measurable _) (measurableSet_singleton j)
  refine ⟨?_, (measurable_pi_apply c : Measurable fun ω : Tape => ω c) hm⟩
  have hw' : ∀ k, Fl.exp (fullLogWeight lw pot k) = .fin (w k * Real.exp (-pot k)) := by
    intro k
    have := hw k
    unfold fullLogWeight
    generalize lw k = z at this
    cases z with
    | nan => simp [Fl.exp] at this
    | ninf => simp [Fl.exp] at this; simp [Fl.sub, Fl.neg, Fl.add, Fl.exp, ← this]
    | fin x => simp [Fl.exp] at this; simp [Fl.sub, Fl.neg, Fl.add, Fl.exp, ← this, Real.exp_add]
    | pinf => simp [Fl.exp] at this
  have hZ := total_pos hn hw0 pot
  have h1 : ideal {ω | cat (fullLogWeight lw pot) (ω c) = j} = unif {x | cat (fullLogWeight lw pot) x = j} := site c hm
  rw [Measure.real, h1, hcat.prob _ _ hw' hZ, ENNReal.toReal_ofReal (div_nonneg (mul_nonneg (hn j) (Real.exp_pos _).le) hZ.le)]
  rfl

theorem attempts_dependsOn (cat : (Fin N → Fl) → ℝ → Fin N) (lw : Fin N → Fl) (pot : Fin N → ℝ) (B : ℝ) (n : ℕ) (k : Keys.Key) :
    DependsOn (fun ω => attempts (tapeRand (m := m) cat ω) lw pot B n k) (below k) := by
  induction n generalizing k with
  | zero =>
    intro x y h
    simp only [attempts, tapeRand]
    rw [h (k, 0) ⟨[], rfl⟩]
  | succ n ih =>
    intro x y h
    have e1 : x (1 :: k, 0) = y (1 :: k, 0) := h _ ⟨[1], rfl⟩
    have e2 : x (2 :: k, 0) = y (2 :: k, 0) := h _ ⟨[2], rfl⟩
    have e3 := ih (0 :: k) fun s hs => h s (mem_below_cons hs)
    have c : ∀ ω : Tape, attempts (tapeRand (m := m) cat ω) lw pot B (n + 1) k = (open Classical in
        if Rejects (ω (2 :: k, 0)) (Real.exp (-pot (cat lw (ω (1 :: k, 0))))) B then attempts (tapeRand (m := m) cat ω) lw pot B n (0 :: k)
        else cat lw (ω (1 :: k, 0))) := fun _ => rfl
    simp only at e3 ⊢
    rw [c, c, e1, e2, e3]

theorem attempts_law {cat : (Fin N → Fl) → ℝ → Fin N} (hcat : IsCategorical cat) (lw : Fin N → Fl) (pot : Fin N → ℝ) {w : Fin N → ℝ}
    (hw : ∀ j, Fl.exp (lw j) = .fin (w j)) (hw0 : 0 < ∑ j, w j) {B : ℝ} (hB : 0 < B) (hd : ∀ j, Real.exp (-pot j) ≤ B) (n : ℕ) (k : Keys.Key) (j : Fin N) :
    ideal.real {ω | attempts (tapeRand (m := m) cat ω) lw pot B n k = j} = backwardProb w pot j ∧
    MeasurableSet {ω | attempts (tapeRand (m := m) cat ω) lw pot B n k = j} := by
  induction n generalizing k j with
  | zero => exact full_law hcat lw pot hw hw0 (k, 0) j
  | succ n ih =>
    exact attempt_law hcat lw pot hw hw0 hB hd (1 :: k, 0) (2 :: k, 0) (by simp) (below (0 :: k)) (below_cons_ne (by decide)) (below_cons_ne (by decide))
      (fun ω => attempts (tapeRand (m := m) cat ω) lw pot B n (0 :: k)) (fun j => (ih (0 :: k) j).2) (attempts_dependsOn cat lw pot B n (0 :: k))
      (fun j => (ih (0 :: k) j).1) j

section
variable [NeZero m]

/-- What the rejection sampler draws depends only on the tape below its key. -/
theorem rejection_site {cat : (Fin N → Fl) → ℝ → Fin N} (lw : Fin N → Fl) (pot : Fin m → Fin N → ℝ) {B : ℝ} (hB : 0 < B)
    (hd : ∀ i j, Real.exp (-pot i j) ≤ B) (inflation : ℝ) (maxRej : ℤ) (key : Keys.Key) (i : Fin m) :
    (fun ω => (rejection (tapeRand cat ω) lw pot B inflation maxRej key).1 i) = fun ω : Tape => (open Classical in
      if Rejects (ω (1 :: key, (i : ℕ))) (Real.exp (-pot i (cat lw (ω (0 :: key, (i : ℕ)))))) B then
        attempts (tapeRand (m := m) cat ω) lw (pot i) B (maxRej - 1).toNat ((i : ℕ) :: 2 :: key)
      else cat lw (ω (0 :: key, (i : ℕ)))) :=
  funext fun ω => rejection_eq (tapeRand cat ω) lw pot B inflation hB.le hd maxRej key i

/-- The positions of the tape read for particle `i`. -/
def particleSites (key : Keys.Key) (i : Fin m) : Set Site := {(0 :: key, (i : ℕ)), (1 :: key, (i : ℕ))} ∪ below ((i : ℕ) :: 2 :: key)

omit [NeZero m] in
theorem particleSites_below (key : Keys.Key) (i : Fin m) : particleSites key i ⊆ below key := by
  rintro s ((rfl | rfl) | h)
  · exact ⟨[0], rfl⟩
  · exact ⟨[1], rfl⟩
  · exact mem_below_cons (mem_below_cons h)

omit [NeZero m] in
theorem particleSites_disjoint (key : Keys.Key) {i i' : Fin m} (h : i ≠ i') : Disjoint (particleSites key i) (particleSites key i') := by
  have hv : (i : ℕ) ≠ i' := fun e => h (Fin.ext e)
  have hbelow : ∀ {a x : ℕ} {l : Fin m}, a ≠ 2 → ((a :: key, x) : Site) ∉ below ((l : ℕ) :: 2 :: key) :=
    fun ha hm => below_cons_ne ha (mem_below_cons hm)
  rw [Set.disjoint_left]
  rintro s ((rfl | rfl) | h1) ((h2 | h2) | h2)
  · simp at h2; exact hv h2
  · simp at h2
  · exact hbelow (by decide) h2
  · simp at h2
  · simp at h2; exact hv h2
  · exact hbelow (by decide) h2
  · subst h2; exact hbelow (by decide) h1
  · rw [Set.mem_singleton_iff] at h2; subst h2; exact hbelow (by decide) h1
  · exact Set.disjoint_left.mp (below_disjoint hv) h1 h2

theorem rejection_dependsOn {cat : (Fin N → Fl) → ℝ → Fin N} (lw : Fin N → Fl) (pot : Fin m → Fin N → ℝ) {B : ℝ} (hB : 0 < B)
    (hd : ∀ i j, Real.exp (-pot i j) ≤ B) (inflation : ℝ) (maxRej : ℤ) (key : Keys.Key) (i : Fin m) :
    DependsOn (fun ω => (rejection (tapeRand cat ω) lw pot B inflation maxRej key).1 i) (particleSites key i) := by
  rw [rejection_site lw pot hB hd]
  intro x y h
  have e1 := h _ (Or.inl (Or.inl rfl))
  have e2 := h _ (Or.inl (Or.inr rfl))
  have e3 := attempts_dependsOn (m := m) cat lw (pot i) B (maxRej - 1).toNat ((i : ℕ) :: 2 :: key) fun s hs => h s (Or.inr hs)
  simp only at e1 e2 e3 ⊢
  rw [e1, e2, e3]

theorem rejection_law {cat : (Fin N → Fl) → ℝ → Fin N} (hcat : IsCategorical cat) (lw : Fin N → Fl) (pot : Fin m → Fin N → ℝ) {w : Fin N → ℝ}
    (hw : ∀ j, Fl.exp (lw j) = .fin (w j)) (hw0 : 0 < ∑ j, w j) {B : ℝ} (hB : 0 < B) (hd : ∀ i j, Real.exp (-pot i j) ≤ B) (inflation : ℝ) (maxRej : ℤ)
    (key : Keys.Key) (i : Fin m) (j : Fin N) :
    ideal.real {ω | (rejection (tapeRand cat ω) lw pot B inflation maxRej key).1 i = j} = backwardProb w (pot i) j ∧
    MeasurableSet {ω | (rejection (tapeRand cat ω) lw pot B inflation maxRej key).1 i = j} := by
  have := rejection_site (cat := cat) lw pot hB hd inflation maxRej key i
  have h2 : {ω | (rejection (tapeRand cat ω) lw pot B inflation maxRej key).1 i = j} = {ω | (fun ω => (rejection (tapeRand cat ω) lw pot B inflation maxRej key).1 i) ω = j} := rfl
  rw [h2, this]
  exact attempt_law hcat lw (pot i) hw hw0 hB (hd i) (0 :: key, (i : ℕ)) (1 :: key, (i : ℕ)) (by simp) (below ((i : ℕ) :: 2 :: key))
    (fun h => below_cons_ne (by decide) (mem_below_cons h)) (fun h => below_cons_ne (by decide) (mem_below_cons h))
    (fun ω => attempts (tapeRand (m := m) cat ω) lw (pot i) B (maxRej - 1).toNat ((i : ℕ) :: 2 :: key))
    (fun j => (attempts_law hcat lw (pot i) hw hw0 hB (hd i) _ _ j).2) (attempts_dependsOn cat lw (pot i) B _ _)
    (fun j => (attempts_law hcat lw (pot i) hw hw0 hB (hd i) _ _ j).1) j

/-- C83: with an initial bound at least every transition density, the rejection sampler draws the particles independently and each exactly from its backward distribution, whatever the number of rejections allowed and the
inflation factor. -/
theorem C83_exact_partial {cat : (Fin N → Fl) → ℝ → Fin N} (hcat : IsCategorical cat) (lw : Fin N → Fl) (pot : Fin m → Fin N → ℝ) (w : Fin N → ℝ)
    (hw : ∀ j, Fl.exp (lw j) = .fin (w j)) (hw0 : 0 < ∑ j, w j) (bound : ℝ) (hd : ∀ i j, Real.exp (-pot i j) ≤ bound) (inflation : ℝ) (maxRej : ℤ)
    (key : Keys.Key) (J : Fin m → Fin N) :
    ideal.real {ω | (rejection (tapeRand cat ω) lw pot bound inflation maxRej key).1 = J} = ∏ i, w (J i) * Real.exp (-pot i (J i)) / ∑ k, w k * Real.exp (-pot i k) := by
  have hB : 0 < bound := (Real.exp_pos _).trans_le (hd 0 (J 0))
  have hset : {ω | (rejection (tapeRand cat ω) lw pot bound inflation maxRej key).1 = J}
      = ⋂ i ∈ (Finset.univ : Finset (Fin m)), {ω | (rejection (tapeRand cat ω) lw pot bound inflation maxRej key).1 i = J i} := by
    ext ω; simp [funext_iff]
  rw [hset, Measure.real, biInter Finset.univ (S := particleSites key) (fun a _ b _ h => particleSites_disjoint key h)
    (fun i _ => (rejection_law hcat lw pot hw hw0 hB hd inflation maxRej key i (J i)).2)
    (fun i _ x y h => by
      have := rejection_dependsOn (cat := cat) lw pot hB hd inflation maxRej key i h
      simp only [Set.mem_ofPred_eq] at this ⊢
      rw [this]), ENNReal.toReal_prod]
  exact Finset.prod_congr rfl fun i _ => (rejection_law hcat lw pot hw hw0 hB hd inflation maxRej key i (J i)).1

omit [NeZero m] in
/-- C83: so does full resampling. -/
theorem C83_full {cat : (Fin N → Fl) → ℝ → Fin N} (hcat : IsCategorical cat) (lw : Fin N → Fl) (pot : Fin m → Fin N → ℝ) (w : Fin N → ℝ)
    (hw : ∀ j, Fl.exp (lw j) = .fin (w j)) (hw0 : 0 < ∑ j, w j) (key : Keys.Key) (J : Fin m → Fin N) :
    ideal.real {ω | full (tapeRand cat ω) lw pot key = J} = ∏ i, w (J i) * Real.exp (-pot i (J i)) / ∑ k, w k * Real.exp (-pot i k) := by
  have hset : {ω | full (tapeRand cat ω) lw pot key = J}
      = ⋂ i ∈ (Finset.univ : Finset (Fin m)), {ω : Tape | cat (fullLogWeight lw (pot i)) (ω ((i : ℕ) :: key, 0)) = J i} := by
    ext ω; simp [funext_iff, full, tapeRand]
  rw [hset, Measure.real, biInter Finset.univ (S := fun i : Fin m => {((i : ℕ) :: key, 0)}) (fun a _ b _ h => by simp [Fin.val_inj, h])
    (fun i _ => (full_law hcat lw (pot i) hw hw0 _ (J i)).2)
    (fun i _ x y h => by simp only [Set.mem_ofPred_eq]; rw [h _ rfl]), ENNReal.toReal_prod]
  exact Finset.prod_congr rfl fun i _ => (full_law hcat lw (pot i) hw hw0 _ (J i)).1

/-- A case of `C83_exact_partial`: three candidates of different weights, one of weight zero, and densities in `(0, 1]`. -/
example : IsCategorical (invCdf (N := 3)) ∧
    (∀ j, Fl.exp (![.fin 0, .ninf, .fin (Real.log 3)] j : Fl) = .fin (![1, 0, 3] j)) ∧ (0 : ℝ) < ∑ j, (![1, 0, 3] : Fin 3 → ℝ) j ∧
    ∀ j, Real.exp (-(![0, 1, 2] : Fin 3 → ℝ) j) ≤ 1 := by
  refine ⟨isCategorical_invCdf, ?_, ?_, ?_⟩
  · intro j; fin_cases j
    · simp [Fl.exp]
    · simp [Fl.exp]
    · simp [Fl.exp, Real.exp_log]
  · simp [Fin.sum_univ_three]; norm_num
  · intro j; fin_cases j <;> norm_num

/-- C83 fails for the default bound 0, which is raised to the largest density met so far: with two equally weighted candidates of transition densities 1/100 and 1, the first is drawn with probability at least 49/100
instead of 1/101, whatever the number of rejections allowed. -/
theorem C83_fails_default_bound {cat : (Fin 2 → Fl) → ℝ → Fin 2} (hcat : IsCategorical cat) (maxRej : ℤ) (key : Keys.Key) :
    let lw : Fin 2 → Fl := fun _ => .fin 0
    let pot : Fin 1 → Fin 2 → ℝ := fun _ => ![Real.log 100, 0]
    49 / 100 ≤ ideal.real {ω | (rejection (m := 1) (tapeRand cat ω) lw pot 0 1.01 maxRej key).1 0 = 0} ∧
    backwardProb (fun _ => 1) (pot 0) 0 = 1 / 101 := by
  intro lw pot
  have e0 : Real.exp (-pot 0 0) = 1 / 100 := by simp [pot, Real.exp_neg, Real.exp_log]
  have e1 : Real.exp (-pot 0 1) = 1 := by simp [pot]
  refine ⟨?_, ?_⟩
  · set A : Set Tape := {ω | cat lw (ω (0 :: key, 0)) = 0} with hA
    set U : Set Tape := {ω | ω (1 :: key, 0) ≤ 100 / 101} with hU
    have hAm : MeasurableSet A := ((hcat.measurable lw).comp (measurable_pi_apply _)) (measurableSet_singleton 0)
    have hUm : MeasurableSet U := (measurable_pi_apply _ : Measurable fun ω : Tape => ω (1 :: key, 0)) measurableSet_Iic
    have hsub : A ∩ U ⊆ {ω | (rejection (m := 1) (tapeRand cat ω) lw pot 0 1.01 maxRej key).1 0 = 0} := by
      rintro ω ⟨h1, h2⟩
      simp only [hA, hU, Set.mem_ofPred_eq] at h1 h2 ⊢
      have hmax : ∀ f : Fin 1 → ℝ, maxOf f = f 0 := fun f => by
        obtain ⟨i, hi⟩ := maxOf_mem f
        rw [hi]; congr 1; exact Subsingleton.elim _ _
      set s := rejectionInit (tapeRand (m := 1) cat ω) lw (fun i j => Real.exp (-pot i j)) 0 1.01 key with hs
      have hidx : ∀ i, s.idx i = 0 := fun i => by
        have : i = 0 := Subsingleton.elim _ _
        subst this; exact h1
      have hb : s.bound = 101 / 10000 := by
        have : s.bound = if 0 < maxOf (fun i => Real.exp (-pot i (s.idx i))) then maxOf (fun i => Real.exp (-pot i (s.idx i))) * 1.01 else 0 := by
          rw [hs]; unfold rejectionInit; dsimp only
        rw [this, hmax, hidx, e0, if_pos (by norm_num)]
        norm_num
      have hny : ∀ i, s.notYet i = false := fun i => by
        have : i = 0 := Subsingleton.elim _ _
        subst this
        have h3 : ¬ Rejects (ω (1 :: key, 0)) (Real.exp (-pot 0 (s.idx 0))) s.bound := by
          rw [hidx, e0, hb]
          rintro ⟨-, h⟩
          norm_num at h
          linarith
        exact @decide_eq_false _ (_) h3
      have hloop : rejectionLoop (tapeRand (m := 1) cat ω) lw (fun i j => Real.exp (-pot i j)) 1.01 maxRej s = s := by
        rw [rejectionLoop, if_neg]
        simp [continues, RState.pending, hny]
      unfold rejection
      dsimp only
      rw [← hs, hloop, hny 0]
      exact hidx 0
    have hP : ideal.real (A ∩ U) = 1 / 2 * (100 / 101) := by
      rw [Measure.real, inter (S := {(0 :: key, 0)}) (T := {(1 :: key, 0)}) (by simp) hAm hUm
        (fun x y h => by simp only [hA, Set.mem_ofPred_eq]; rw [h _ rfl]) (fun x y h => by simp only [hU, Set.mem_ofPred_eq]; rw [h _ rfl]),
        ENNReal.toReal_mul]
      have h1 : ideal A = unif {x | cat lw x = 0} := site _ ((hcat.measurable lw) (measurableSet_singleton 0))
      have h2 : ideal U = unif (Set.Iic (100 / 101)) := site _ measurableSet_Iic
      rw [h1, hcat.prob lw (fun _ => 1) (fun j => by simp [lw, Fl.exp]) (by simp), h2, unif, Measure.restrict_apply measurableSet_Iic]
      have : Set.Iic (100 / 101 : ℝ) ∩ Set.Ico 0 1 = Set.Icc 0 (100 / 101) := by
        ext u; simp only [Set.mem_inter_iff, Set.mem_Iic, Set.mem_Ico, Set.mem_Icc]
        constructor
        · rintro ⟨h, h', -⟩; exact ⟨h', h⟩
        · rintro ⟨h, h'⟩; exact ⟨h', h, by linarith⟩
      rw [this, Real.volume_Icc, ENNReal.toReal_ofReal (by norm_num), ENNReal.toReal_ofReal (by norm_num)]
      norm_num
    have := measureReal_mono (μ := ideal) hsub (measure_ne_top _ _)
    rw [hP] at this
    linarith
  · unfold backwardProb
    rw [Fin.sum_univ_two, e0, e1]
    norm_num

/-! ## C84 -/

/-- The indices drawn by one step back. -/
noncomputable def stepIdx (r : Rand Keys.Key m N) (trans : X → ℝ → X → ℝ → ℝ) (p : Marginals X N) (maxRej : ℤ) (initBound inflation : ℝ) (tKeys : ℕ → Keys.Key)
    (xNext : Fin m → X) (ind : ℕ) : Fin m → Fin N :=
  let pot := fun i j => trans (p.value ind j) (p.t ind) (xNext i) (p.t (ind + 1))
  if 0 < maxRej then (rejection r (p.logWeight ind) pot initBound inflation maxRej (tKeys ind)).1 else full r (p.logWeight ind) pot (tKeys ind)

theorem backStep_eq (r : Rand Keys.Key m N) (trans : X → ℝ → X → ℝ → ℝ) (p : Marginals X N) (maxRej : ℤ) (initBound inflation : ℝ) (tKeys : ℕ → Keys.Key)
    (xNext : Fin m → X) (ind : ℕ) : (backStep r trans p maxRej initBound inflation tKeys xNext ind).1
      = fun i => p.value ind (stepIdx r trans p maxRej initBound inflation tKeys xNext ind i) := by
  unfold backStep stepIdx
  dsimp only
  split_ifs <;> rfl

/-- The indices drawn, `k` steps back from the last time. -/
noncomputable def pathBack (r : Rand Keys.Key m N) (trans : X → ℝ → X → ℝ → ℝ) (p : Marginals X N) (T : ℕ) (maxRej : ℤ) (initBound inflation : ℝ) (tKeys : ℕ → Keys.Key) :
    ℕ → Fin m → Fin N
  | 0 => r.choices (tKeys (T - 1)) (p.logWeight (T - 1))
  | k + 1 => stepIdx r trans p maxRej initBound inflation tKeys
      (fun i => p.value (T - 1 - k) (pathBack r trans p T maxRej initBound inflation tKeys k i)) (T - 1 - (k + 1))

theorem stepIdx_law {cat : (Fin N → Fl) → ℝ → Fin N} (hcat : IsCategorical cat) (trans : X → ℝ → X → ℝ → ℝ) (p : Marginals X N) (maxRej : ℤ) (bound inflation : ℝ)
    (key : Keys.Key) (w : ℕ → Fin N → ℝ) (ind : ℕ) (hw : ∀ j, Fl.exp (p.logWeight ind j) = .fin (w ind j)) (hw0 : 0 < ∑ j, w ind j) (xNext : Fin m → X)
    (hd : 0 < maxRej → ∀ i j, Real.exp (-trans (p.value ind j) (p.t ind) (xNext i) (p.t (ind + 1))) ≤ bound) (J : Fin m → Fin N) :
    ideal.real {ω | stepIdx (tapeRand cat ω) trans p maxRej bound inflation (· :: key) xNext ind = J}
      = ∏ i, backwardProb (w ind) (fun j => trans (p.value ind j) (p.t ind) (xNext i) (p.t (ind + 1))) (J i) ∧
    MeasurableSet {ω | stepIdx (tapeRand cat ω) trans p maxRej bound inflation (· :: key) xNext ind = J} ∧
    DependsOn (fun ω => stepIdx (tapeRand cat ω) trans p maxRej bound inflation (· :: key) xNext ind) (below (ind :: key)) := by
  unfold stepIdx
  dsimp only
  by_cases hR : 0 < maxRej
  · simp only [if_pos hR]
    have hB : 0 < bound := (Real.exp_pos _).trans_le (hd hR 0 (J 0))
    refine ⟨C83_exact_partial hcat _ _ _ hw hw0 bound (hd hR) inflation maxRej (ind :: key) J, ?_, ?_⟩
    · have hset : ∀ f : Tape → Fin m → Fin N, {ω | f ω = J} = ⋂ i, {ω | f ω i = J i} := fun f => by ext ω; simp [funext_iff]
      rw [hset]
      exact MeasurableSet.iInter fun i => (rejection_law hcat _ _ hw hw0 hB (hd hR) inflation maxRej (ind :: key) i (J i)).2
    · intro x y h
      funext i
      exact rejection_dependsOn (cat := cat) (p.logWeight ind) _ hB (hd hR) inflation maxRej (ind :: key) i fun s hs => h s (particleSites_below _ _ hs)
  · simp only [if_neg hR]
    refine ⟨C83_full hcat _ _ _ hw hw0 (ind :: key) J, ?_, ?_⟩
    · have hset : ∀ f : Tape → Fin m → Fin N, {ω | f ω = J} = ⋂ i, {ω | f ω i = J i} := fun f => by ext ω; simp [funext_iff]
      rw [hset]
      exact MeasurableSet.iInter fun i => (full_law hcat _ (fun j => trans (p.value ind j) (p.t ind) (xNext i) (p.t (ind + 1))) hw hw0 ((i : ℕ) :: ind :: key, 0) (J i)).2
    · intro x y h
      funext i
      simp only [full, tapeRand]
      rw [h _ ⟨[(i : ℕ)], rfl⟩]

/-- The returned trajectories are those of the drawn indices. -/
theorem returned_pathBack (r : Rand Keys.Key m N) (trans : X → ℝ → X → ℝ → ℝ) (p : Marginals X N) (T : ℕ) (hT : 1 ≤ T) (maxRej : ℤ) (bound inflation : ℝ) (tKeys : ℕ → Keys.Key) :
    (backwardSimulation (m := m) r trans p T maxRej bound inflation tKeys).1
      = (List.range T).map fun s i => p.value s (pathBack r trans p T maxRej bound inflation tKeys (T - 1 - s) i) := by
  obtain ⟨traj, h1, -, h3, h4⟩ := C53_steps (m := m) r trans p T maxRej bound inflation tKeys hT
  rw [h1]
  refine List.map_congr_left fun s hs => ?_
  rw [List.mem_range] at hs
  have : ∀ k, k < T → traj (T - 1 - k) = fun i => p.value (T - 1 - k) (pathBack r trans p T maxRej bound inflation tKeys k i) := by
    intro k
    induction k with
    | zero => intro _; funext i; exact h3 i
    | succ k ih =>
      intro hk
      have := (h4 (T - 1 - (k + 1)) (by omega)).1
      rw [show T - 1 - (k + 1) + 1 = T - 1 - k by omega, ih (by omega), backStep_eq] at this
      rw [this]
      rfl
  have h5 := this (T - 1 - s) (by omega)
  rw [show T - 1 - (T - 1 - s) = s by omega] at h5
  exact h5

/-- C84: the trajectories returned by backward simulation take the values of filter particles whose indices are drawn from the backward Markov chain, independently across trajectories: the last index with the filter weights
at the last time, and each earlier one with the filter weights at its time multiplied by the transition densities to the particle chosen after it. This holds without rejection, and with rejection when the bound parameter
is at least every transition density. -/
theorem C84_law {cat : (Fin N → Fl) → ℝ → Fin N} (hcat : IsCategorical cat) (trans : X → ℝ → X → ℝ → ℝ) (p : Marginals X N) (T : ℕ) (hT : 1 ≤ T) (maxRej : ℤ)
    (bound inflation : ℝ) (key : Keys.Key) (w : ℕ → Fin N → ℝ) (hw : ∀ s < T, ∀ j, Fl.exp (p.logWeight s j) = .fin (w s j)) (hw0 : ∀ s < T, 0 < ∑ j, w s j)
    (hd : 0 < maxRej → ∀ s, s + 1 < T → ∀ j j', Real.exp (-trans (p.value s j) (p.t s) (p.value (s + 1) j') (p.t (s + 1))) ≤ bound) :
    ∃ idx : Tape → ℕ → Fin m → Fin N,
      (∀ ω, (backwardSimulation (m := m) (tapeRand cat ω) trans p T maxRej bound inflation (· :: key)).1 = (List.range T).map fun s i => p.value s (idx ω s i)) ∧
      ∀ J : ℕ → Fin m → Fin N, ideal.real {ω | ∀ s < T, idx ω s = J s} =
        ∏ i, (w (T - 1) (J (T - 1) i) / ∑ k, w (T - 1) k) * ∏ s ∈ Finset.range (T - 1),
          w s (J s i) * Real.exp (-trans (p.value s (J s i)) (p.t s) (p.value (s + 1) (J (s + 1) i)) (p.t (s + 1))) /
            ∑ k, w s k * Real.exp (-trans (p.value s k) (p.t s) (p.value (s + 1) (J (s + 1) i)) (p.t (s + 1))) := by
  set pb : Tape → ℕ → Fin m → Fin N := fun ω => pathBack (tapeRand cat ω) trans p T maxRej bound inflation (· :: key) with hpb
  refine ⟨fun ω s => pb ω (T - 1 - s), fun ω => returned_pathBack (tapeRand cat ω) trans p T hT maxRej bound inflation (· :: key), fun J => ?_⟩
  · set pot : ℕ → Fin m → Fin N → ℝ := fun s i j => trans (p.value s j) (p.t s) (p.value (s + 1) (J (s + 1) i)) (p.t (s + 1)) with hpot
    have key_claim : ∀ n, n < T → ideal.real {ω | ∀ k ≤ n, pb ω k = J (T - 1 - k)}
        = (∏ i, w (T - 1) (J (T - 1) i) / ∑ k, w (T - 1) k) * ∏ k ∈ Finset.range n, ∏ i, backwardProb (w (T - 1 - (k + 1))) (pot (T - 1 - (k + 1)) i) (J (T - 1 - (k + 1)) i) ∧
        MeasurableSet {ω | ∀ k ≤ n, pb ω k = J (T - 1 - k)} ∧
        DependsOn (· ∈ {ω | ∀ k ≤ n, pb ω k = J (T - 1 - k)}) (⋃ k ∈ Finset.range (n + 1), below ((T - 1 - k) :: key)) := by
      intro n
      induction n with
      | zero =>
        intro hn
        have hset : {ω | ∀ k ≤ 0, pb ω k = J (T - 1 - k)}
            = ⋂ i ∈ (Finset.univ : Finset (Fin m)), {ω : Tape | cat (p.logWeight (T - 1)) (ω ((T - 1) :: key, (i : ℕ))) = J (T - 1) i} := by
          ext ω
          simp only [Nat.le_zero, Set.mem_ofPred_eq, forall_eq, Nat.sub_zero, hpb, pathBack, tapeRand, funext_iff, Finset.mem_univ, Set.iInter_true, Set.mem_iInter]
        have hm : ∀ i : Fin m, MeasurableSet {ω : Tape | cat (p.logWeight (T - 1)) (ω ((T - 1) :: key, (i : ℕ))) = J (T - 1) i} := fun i =>
          ((hcat.measurable _).comp (measurable_pi_apply _)) (measurableSet_singleton _)
        have hdep : ∀ i : Fin m, DependsOn (· ∈ {ω : Tape | cat (p.logWeight (T - 1)) (ω ((T - 1) :: key, (i : ℕ))) = J (T - 1) i}) {((T - 1) :: key, (i : ℕ))} :=
          fun i x y h => by simp only [Set.mem_ofPred_eq]; rw [h _ rfl]
        rw [hset]
        refine ⟨?_, Finset.measurableSet_biInter _ fun i _ => hm i, ?_⟩
        · rw [Measure.real, biInter Finset.univ (S := fun i : Fin m => {((T - 1) :: key, (i : ℕ))}) (fun a _ b _ h => by simp [Fin.val_inj, h])
            (fun i _ => hm i) (fun i _ => hdep i), ENNReal.toReal_prod, Finset.range_zero, Finset.prod_empty, mul_one]
          refine Finset.prod_congr rfl fun i _ => ?_
          have h1 : ideal {ω : Tape | cat (p.logWeight (T - 1)) (ω ((T - 1) :: key, (i : ℕ))) = J (T - 1) i} = unif {x | cat (p.logWeight (T - 1)) x = J (T - 1) i} :=
            site _ ((hcat.measurable _) (measurableSet_singleton _))
          rw [h1, hcat.prob _ _ (hw (T - 1) (by omega)) (hw0 (T - 1) (by omega)),
            ENNReal.toReal_ofReal (div_nonneg (weight_nonneg (hw (T - 1) (by omega)) _) (hw0 (T - 1) (by omega)).le)]
        · intro x y h
          simp only [Finset.mem_univ, Set.iInter_true, Set.mem_iInter]
          refine propext (forall_congr' fun i => iff_of_eq (hdep i fun s hs => h s ?_))
          rw [Set.mem_singleton_iff] at hs
          subst hs
          simp only [zero_add, Finset.range_one, Finset.mem_singleton, Set.iUnion_iUnion_eq_left, Nat.sub_zero]
          exact ⟨[], rfl⟩
      | succ n ih =>
        intro hn
        obtain ⟨i1, i2, i3⟩ := ih (by omega)
        set ind := T - 1 - (n + 1) with hind
        have hind1 : ind + 1 = T - 1 - n := by omega
        have hindT : ind + 1 < T := by omega
        obtain ⟨s1, s2, s3⟩ := stepIdx_law hcat trans p maxRej bound inflation key w ind (hw ind (by omega)) (hw0 ind (by omega))
          (fun i => p.value (ind + 1) (J (ind + 1) i)) (fun h i j => hd h ind hindT j _) (J ind)
        have hset : {ω | ∀ k ≤ n + 1, pb ω k = J (T - 1 - k)} = {ω | ∀ k ≤ n, pb ω k = J (T - 1 - k)} ∩
            {ω | stepIdx (tapeRand cat ω) trans p maxRej bound inflation (· :: key) (fun i => p.value (ind + 1) (J (ind + 1) i)) ind = J ind} := by
          ext ω
          simp only [Set.mem_ofPred_eq, Set.mem_inter_iff]
          have hstep : (∀ k ≤ n, pb ω k = J (T - 1 - k)) → pb ω (n + 1) =
              stepIdx (tapeRand cat ω) trans p maxRej bound inflation (· :: key) (fun i => p.value (ind + 1) (J (ind + 1) i)) ind := by
            intro h
            have h0 := h n le_rfl
            rw [hind1, ← h0]
            rfl
          constructor
          · intro h
            have h' : ∀ k ≤ n, pb ω k = J (T - 1 - k) := fun k hk => h k (by omega)
            refine ⟨h', ?_⟩
            rw [← hstep h']
            exact h (n + 1) le_rfl
          · rintro ⟨h', h2⟩ k hk
            rcases Nat.lt_or_ge n k with h | h
            · obtain rfl : k = n + 1 := by omega
              rw [hstep h', h2]
            · exact h' k h
        have s3' : DependsOn (· ∈ {ω | stepIdx (tapeRand cat ω) trans p maxRej bound inflation (· :: key) (fun i => p.value (ind + 1) (J (ind + 1) i)) ind = J ind})
            (below (ind :: key)) := fun x y h => by
          have := s3 h
          simp only [Set.mem_ofPred_eq] at this ⊢
          rw [this]
        have hdisj : Disjoint (⋃ k ∈ Finset.range (n + 1), below ((T - 1 - k) :: key)) (below (ind :: key)) := by
          rw [Set.disjoint_iUnion₂_left]
          intro k hk
          rw [Finset.mem_range] at hk
          exact below_disjoint (by omega)
        rw [hset]
        refine ⟨?_, i2.inter s2, ?_⟩
        · rw [Measure.real, inter hdisj i2 s2 i3 s3', ENNReal.toReal_mul, ← Measure.real, ← Measure.real, i1, s1, Finset.prod_range_succ, mul_assoc]
        · intro x y h
          have a1 := i3 (fun s hs => h s (by
            obtain ⟨k, hk, hs⟩ := Set.mem_iUnion₂.mp hs
            exact Set.mem_iUnion₂.mpr ⟨k, Finset.mem_range.mpr (by have := Finset.mem_range.mp hk; omega), hs⟩))
          have a2 := s3' (fun s hs => h s (Set.mem_iUnion₂.mpr ⟨n + 1, Finset.mem_range.mpr (by omega), hs⟩))
          simp only [Set.mem_inter_iff] at a1 a2 ⊢
          rw [a1, a2]
    have hfin := (key_claim (T - 1) (by omega)).1
    have hset : {ω | ∀ s < T, pb ω (T - 1 - s) = J s} = {ω | ∀ k ≤ T - 1, pb ω k = J (T - 1 - k)} := by
      ext ω
      simp only [Set.mem_ofPred_eq]
      constructor
      · intro h k hk
        have := h (T - 1 - k) (by omega)
        rwa [show T - 1 - (T - 1 - k) = k by omega] at this
      · intro h s hs
        have := h (T - 1 - s) (by omega)
        rwa [show T - 1 - (T - 1 - s) = s by omega] at this
    rw [hset, hfin, Finset.prod_mul_distrib]
    congr 1
    rw [Finset.prod_comm]
    refine Finset.prod_congr rfl fun i _ => ?_
    rw [← Finset.prod_range_reflect]
    refine Finset.prod_congr rfl fun s hs => ?_
    rw [Finset.mem_range] at hs
    have e : T - 1 - (T - 1 - 1 - s + 1) = s := by omega
    rw [e]
    rfl

end

end Mocat.Props
