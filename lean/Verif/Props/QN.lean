import Verif.Model.QN
import Verif.Lemmas.Mcmc
import Verif.Props.Bfgs
import Mathlib.Tactic.NormNum
import Mathlib.Tactic.Linarith
/-!
# C24, C69: the memory of the quasi-Newton sampler
-/
namespace Mocat.Props
open Mocat Mocat.Mcmc Mocat.Bfgs Mocat.QN Matrix

variable {K : Type*} {d : ℕ}

/-! ## C24 -/

/-- Specification: the last `m` entries of a list. -/
def lastN {α : Type*} (m : ℕ) (l : List α) : List α := l.drop (l.length - m)

theorem push_lastN {α : Type*} (m : ℕ) (hm : 1 ≤ m) (l : List α) (hl : m ≤ l.length) (x : α) :
    push (lastN m l) x = lastN m (l ++ [x]) := by
  simp only [push, lastN, List.tail_drop, List.length_append, List.length_singleton]
  rw [show l.length + 1 - m = l.length - m + 1 by omega, List.drop_append_of_le_length (by omega)]

/-- A correction that returns one of the two payloads it is given. -/
def Selects {σ π : Type*} (corr : Correction K σ π) : Prop :=
  ∀ smp rs re ps pe, (corr smp rs re ps pe).1.payload = rs.payload ∨ (corr smp rs re ps pe).1.payload = ps.payload

theorem selects_uncorrected {σ π : Type*} : Selects (uncorrected : Correction K σ π) := fun _ _ _ _ _ => Or.inr rfl

theorem selects_metropolis {σ π : Type*} (split : K → K × K) (uniform : K → ℝ) :
    Selects (metropolis split uniform : Correction K σ π) := by
  intro smp rs re ps pe
  classical
  simp only [metropolis]
  by_cases h : Fl.lt (Fl.fin (uniform (split pe.key).2))
      (if (smp.acceptance rs re ps pe).isNan then Fl.fin 0 else smp.acceptance rs re ps pe)
  · right; rw [if_pos h]
  · left; rw [if_neg h]

theorem selects_rm {σ π : Type*} (rm : RM π) (sup : Correction K σ π) (h : Selects sup) : Selects (rm.correct sup) := by
  intro smp rs re ps pe
  have := h smp rs re ps pe
  simp only [RM.correct, RM.adapt]
  split_ifs <;> exact this

section
variable (split : K → K × K) (splitN : K → ℕ → K × List K) (normal : K → Vec d)
  (argsort : Option (List Fl → List ℕ)) (prior lik : ValGrad K d) (T : ℝ) (L : ℕ) (r : Option ℝ)
  (corr : Correction K (QNState d) QNParams)

/-- One update of a quasi-Newton run. -/
noncomputable def qnUpdate : State (QNState d) → Extra K QNParams → State (QNState d) × Extra K QNParams :=
  update (qnUnderdamped split splitN normal argsort prior lik T L r) corr

theorem qn_memory_step (hc : Selects corr) (s : State (QNState d)) (e : Extra K QNParams) :
    (qnUpdate split splitN normal argsort prior lik T L r corr s e).1.payload.memory
      = updateMemory argsort r s.payload.memory s.payload.lf.value (Fl.fin s.payload.lf.priorPotential)
          s.payload.lf.gradPriorPotential (Fl.fin s.payload.lf.likelihoodPotential)
          s.payload.lf.gradLikelihoodPotential T := by
  unfold qnUpdate update
  dsimp -proj -iota only
  rcases hc (qnUnderdamped split splitN normal argsort prior lik T L r)
    ((qnUnderdamped split splitN normal argsort prior lik T L r).always s { e with iter := e.iter + 1 }).1
    ((qnUnderdamped split splitN normal argsort prior lik T L r).always s { e with iter := e.iter + 1 }).2
    ((qnUnderdamped split splitN normal argsort prior lik T L r).proposal
      ((qnUnderdamped split splitN normal argsort prior lik T L r).always s { e with iter := e.iter + 1 }).1
      ((qnUnderdamped split splitN normal argsort prior lik T L r).always s { e with iter := e.iter + 1 }).2).1
    ((qnUnderdamped split splitN normal argsort prior lik T L r).proposal
      ((qnUnderdamped split splitN normal argsort prior lik T L r).always s { e with iter := e.iter + 1 }).1
      ((qnUnderdamped split splitN normal argsort prior lik T L r).always s { e with iter := e.iter + 1 }).2).2 with h | h
  · rw [h]; rfl
  · rw [h]; rfl

/-- All five arrays of a memory have `m` rows. -/
structure HasRows (m : ℕ) (mem : Memory d) : Prop where
  value : mem.value.length = m
  priorPotential : mem.priorPotential.length = m
  gradPriorPotential : mem.gradPriorPotential.length = m
  likelihoodPotential : mem.likelihoodPotential.length = m
  gradLikelihoodPotential : mem.gradLikelihoodPotential.length = m

/-- The arrays of a memory are the last `m` rows of those of `mem0` followed by the states `visited`. -/
structure IsWindow (m : ℕ) (mem0 : Memory d) (visited : List (LfState d)) (mem : Memory d) : Prop where
  value : mem.value = lastN m (mem0.value ++ visited.map (·.value))
  priorPotential : mem.priorPotential = lastN m (mem0.priorPotential ++ visited.map fun s => Fl.fin s.priorPotential)
  gradPriorPotential : mem.gradPriorPotential = lastN m (mem0.gradPriorPotential ++ visited.map (·.gradPriorPotential))
  likelihoodPotential :
    mem.likelihoodPotential = lastN m (mem0.likelihoodPotential ++ visited.map fun s => Fl.fin s.likelihoodPotential)
  gradLikelihoodPotential :
    mem.gradLikelihoodPotential = lastN m (mem0.gradLikelihoodPotential ++ visited.map (·.gradLikelihoodPotential))

/-- C24: after `k` updates (accepted or rejected, any correction that keeps or accepts, any randomness) each of the five
arrays of the memory holds the last `m` rows of: the initial memory, then one row for each of the states visited before the
last update, in order. -/
theorem C24_window (hc : Selects corr) (m : ℕ) (hm : 1 ≤ m) (s0 : State (QNState d)) (e0 : Extra K QNParams)
    (h0 : HasRows m s0.payload.memory) (k : ℕ) :
    let st := fun i => (bodyIter (qnUpdate split splitN normal argsort prior lik T L r corr) i (s0, e0)).1
    IsWindow m s0.payload.memory ((List.range k).map fun i => (st i).payload.lf) (st k).payload.memory := by
  intro st
  induction k with
  | zero =>
    constructor <;> simp [lastN, st, bodyIter, h0.1, h0.2, h0.3, h0.4, h0.5]
  | succ k ih =>
    have hstep : (st (k + 1)).payload.memory = _ :=
      (congrArg (fun c => c.1.payload.memory) (bodyIter_succ _ k (s0, e0))).trans
        (qn_memory_step split splitN normal argsort prior lik T L r corr hc _ _)
    have hs : ∀ {α : Type _} (x : List α) (f : LfState d → α), x.length = m →
        push (lastN m (x ++ ((List.range k).map fun i => (st i).payload.lf).map f)) (f (st k).payload.lf)
          = lastN m (x ++ ((List.range (k + 1)).map fun i => (st i).payload.lf).map f) := by
      intro α x f hx
      rw [push_lastN m hm _ (by rw [List.length_append]; omega), List.range_succ, List.map_append, List.map_append,
        List.append_assoc]
      rfl
    constructor
    · rw [hstep, ← hs _ _ h0.1, ← ih.1]; rfl
    · rw [hstep, ← hs _ (fun s => Fl.fin s.priorPotential) h0.2, ← ih.2]; rfl
    · rw [hstep, ← hs _ _ h0.3, ← ih.3]; rfl
    · rw [hstep, ← hs _ (fun s => Fl.fin s.likelihoodPotential) h0.4, ← ih.4]; rfl
    · rw [hstep, ← hs _ _ h0.5, ← ih.5]; rfl

/-- C24: the memory made at start-up is `m` rows of zeros with potentials `-inf`. -/
theorem C24_initial (m : ℕ) (hm : 1 ≤ m) (diag : Diag d) :
    (initMemory argsort r m diag T).value = List.replicate m 0 ∧
    (initMemory argsort r m diag T).priorPotential = List.replicate m Fl.ninf ∧
    (initMemory argsort r m diag T).gradPriorPotential = List.replicate m 0 ∧
    (initMemory argsort r m diag T).likelihoodPotential = List.replicate m Fl.ninf ∧
    (initMemory argsort r m diag T).gradLikelihoodPotential = List.replicate m 0 := by
  have hp : ∀ {α : Type _} (x : α), push (List.replicate m x) x = List.replicate m x := by
    intro α x
    obtain ⟨k, rfl⟩ : ∃ k, m = k + 1 := ⟨m - 1, by omega⟩
    rw [push, List.replicate_succ, List.tail_cons, ← List.replicate_succ', List.replicate_succ]
  exact ⟨hp _, hp _, hp _, hp _, hp _⟩

/-- C24: the factors in use after each update are those of the window: BFGS of the differences of successive rows (reordered
by potential if `sort_bfgs`, each value staying with its own gradient), a row pair being enabled when its first slot holds a real entry. -/
theorem C24_factors (hc : Selects corr) (s0 : State (QNState d)) (e0 : Extra K QNParams) (k : ℕ) :
    let st := fun i => (bodyIter (qnUpdate split splitN normal argsort prior lik T L r corr) i (s0, e0)).1
    let mem := (st (k + 1)).payload.memory
    let potentials := List.zipWith (fun a b => Fl.add a (Fl.mul (Fl.fin T) b)) mem.priorPotential mem.likelihoodPotential
    let grads := List.zipWith (fun a b => a + T • b) mem.gradPriorPotential mem.gradLikelihoodPotential
    ∃ (rows : List (Vec d × Vec d)) (flags : List Bool),
      mem.factors = sqrtPqut mem.diag r (pairs rows flags) ∧
      (argsort = none → rows = mem.value.zip grads) ∧
      (∀ f, argsort = some f → rows.length = (f potentials).length ∧ ∀ (j i : ℕ) (v g : Vec d), (f potentials)[j]? = some i → mem.value[i]? = some v → grads[i]? = some g →
        rows[j]? = some (v, g)) ∧
      flags.length = mem.priorPotential.length - 1 ∧
      (∀ i : ℕ, ∀ h : i < flags.length, ∀ x, mem.priorPotential[i]? = some x → (flags[i] = true ↔ Fl.lt Fl.ninf x)) ∧
      mem.diag = s0.payload.memory.diag := by
  intro st mem potentials grads
  have hstep : mem = _ :=
    (congrArg (fun c => c.1.payload.memory) (bodyIter_succ _ k (s0, e0))).trans
      (qn_memory_step split splitN normal argsort prior lik T L r corr hc _ _)
  have hdiag : ∀ j, (st j).payload.memory.diag = s0.payload.memory.diag := by
    intro j
    induction j with
    | zero => rfl
    | succ j ih =>
      have : (st (j + 1)).payload.memory = _ :=
        (congrArg (fun c => c.1.payload.memory) (bodyIter_succ _ j (s0, e0))).trans
          (qn_memory_step split splitN normal argsort prior lik T L r corr hc _ _)
      rw [this]; exact ih
  classical
  refine ⟨valsGrads argsort mem.value potentials grads, mem.priorPotential.dropLast.map fun p => decide (Fl.lt Fl.ninf p), ?_, ?_, ?_, by simp, ?_, hdiag (k + 1)⟩
  · simp only [potentials, grads]
    rw [hstep]; rfl
  · rintro rfl; rfl
  · rintro f rfl
    refine ⟨by simp [valsGrads], fun j i v g h1 h2 h3 => ?_⟩
    simp only [valsGrads, List.getElem?_map, h1, Option.map_some, List.getD_eq_getElem?_getD, h2, h3, Option.getD_some]
  · intro i h x hx
    simp only [List.getElem_map, decide_eq_true_eq, List.getElem_dropLast]
    rw [List.getElem?_eq_some_iff] at hx
    obtain ⟨_, hx⟩ := hx
    rw [hx]

end

/-- Non-vacuity of C24: a start-up memory of three rows. -/
example : HasRows 3 (initMemory none (some 0.5) 3 (Diag.scalar (d := 2) 1) 1) := by
  obtain ⟨h1, h2, h3, h4, h5⟩ := C24_initial (d := 2) none 1 (some 0.5) 3 (by norm_num) (Diag.scalar 1)
  exact ⟨by rw [h1]; simp, by rw [h2]; simp, by rw [h3]; simp, by rw [h4]; simp, by rw [h5]; simp⟩

/-! ## C69 -/

theorem scan_flags (diag : Diag d) (rInf : Prop) (m : ℕ) (l : List (Pair d)) :
    ∀ (done : List (Vec d × Vec d)) (i : ℕ) (p : Pair d), l[i]? = some p → p.flag = false →
      (scanPairs diag rInf m done l)[i]? = some ⟨0, 0, 0, 0⟩ := by
  induction l with
  | nil => intro done i p h; simp at h
  | cons a l ih =>
    intro done i p h hf
    cases i with
    | zero =>
      simp only [List.getElem?_cons_zero, Option.some.injEq] at h
      subst h
      simp only [scanPairs, List.getElem?_cons_zero, Option.some.injEq]
      unfold bodyFun
      exact if_neg fun hu => by have := hu.2; rw [hf] at this; cases this
    | succ i =>
      simp only [List.getElem?_cons_succ] at h
      simp only [scanPairs, List.getElem?_cons_succ]
      exact ih _ i p h hf

/-- C69, what holds: a pair whose flag is off (its first row is a fill row) contributes no factor of its own. -/
theorem C69_padding_pairs_partial (diag : Diag d) (r : Option ℝ) (l : List (Pair d)) (i : ℕ) (p : Pair d)
    (h : l[i]? = some p) (hf : p.flag = false) : (sqrtPqut diag r l)[i]? = some ⟨0, 0, 0, 0⟩ := by
  refine scan_flags diag (r = none) l.length _ [] i (damp diag (lambd diag r l) p) ?_ hf
  rw [List.getElem?_map, h]; rfl

/-- C69, what fails: the pair made of the last fill row and the first real row is switched off but still enters the damping
constant. In one dimension, after two updates from positions 1 and 2 with gradients -5 and -3, the memory
of three rows gives damping 5.5, where the real pair alone (curvature 2) would need none: the factor `p = s / s·y` of the real
pair is 1/7.5 instead of 1/2. -/
theorem C69_padding_damps :
    let mem := updateMemory none (some 0.5) (updateMemory none (some 0.5) (initMemory none (some 0.5) 3
      (Diag.scalar (d := 1) 1) 1) (fun _ => 1) (Fl.fin 0) (fun _ => -5) (Fl.fin 0) 0 1)
      (fun _ => 2) (Fl.fin 0) (fun _ => -3) (Fl.fin 0) 0 1
    mem.factors.map (fun o => o.p 0) = [0, 1 / 7.5] ∧
    (sqrtPqut (Diag.scalar (d := 1) 1) (some 0.5) [⟨fun _ => 1, fun _ => 2, true⟩]).map (fun o => o.p 0) = [1 / 2] := by
  have hB : ∀ c : ℝ, sBs (Diag.scalar (d := 1) 1) (fun _ => c) = c ^ 2 := by
    intro c; simp [sBs, Diag.at]
  have key : ∀ (rInf : Prop) (uts : List (Vec 1 × Vec 1)) (n : ℕ) (y : ℝ), (∀ x ∈ uts, x = (0, 0)) → 1 ≤ y →
      (bodyFun (Diag.scalar (d := 1) 1) rInf (uts ++ List.replicate n (0, 0)) ⟨fun _ => 1, fun _ => y, true⟩).p 0
        = 1 / y := by
    intro rInf uts n y hz hy
    have he : uts = List.replicate uts.length (0, 0) := List.eq_replicate_iff.2 ⟨rfl, hz⟩
    have hh : (fun _ : Fin 1 => (1 : ℝ)) ⬝ᵥ (hess uts (Diag.scalar (d := 1) 1) *ᵥ fun _ => 1) = 1 := by
      have := sqrtMat_pad ([] : List (Vec 1 × Vec 1)) uts.length (Diag.scalar (d := 1) 1)
      rw [quad_hess, he]
      rw [List.nil_append] at this
      rw [this]
      simp [sqrtMat, facs, Diag.at]
    have hy' : (fun _ : Fin 1 => (1 : ℝ)) ⬝ᵥ (fun _ => y) = y := by simp [dotProduct]
    rw [bodyFun_used]
    · simp [hy']
    · refine ⟨⟨?_, Or.inr ?_⟩, rfl⟩
      · simp only [hh, hy', abs_one, gt_iff_lt, lt_min_iff]
        exact ⟨by norm_num, by rw [abs_of_nonneg (by linarith)]; norm_num; linarith⟩
      · simp only [hy']; linarith
  have hdot : ∀ a b : ℝ, (fun _ : Fin 1 => a) ⬝ᵥ (fun _ => b) = a * b := by intro a b; simp [dotProduct]
  constructor
  · have hpairs : (updateMemory none (some 0.5) (updateMemory none (some 0.5) (initMemory none (some 0.5) 3
        (Diag.scalar (d := 1) 1) 1) (fun _ => 1) (Fl.fin 0) (fun _ => -5) (Fl.fin 0) 0 1)
        (fun _ => 2) (Fl.fin 0) (fun _ => -3) (Fl.fin 0) 0 1).factors
        = sqrtPqut (Diag.scalar (d := 1) 1) (some 0.5) [⟨fun _ => 1, fun _ => -5, false⟩, ⟨fun _ => 1, fun _ => 2, true⟩] := by
      have hz : (fun _ : Fin 1 => (1 : ℝ)) - 0 = fun _ => 1 := by simp
      simp only [updateMemory, initMemory, push, valsGrads, List.replicate, List.tail_cons, List.cons_append,
        List.nil_append, List.zip_cons_cons, List.zipWith_cons_cons, List.zipWith_nil_right, List.zip_nil_right,
        List.dropLast_cons_cons, List.dropLast_singleton, List.map_cons, List.map_nil, pairs]
      congr 3
      · funext i; simp
      · exact @decide_eq_false _ (_) fun h => h
      · rw [Pair.mk.injEq]
        exact ⟨by funext i; norm_num, by funext i; norm_num, @decide_eq_true _ (_) trivial⟩
    have hlam : lambd (Diag.scalar (d := 1) 1) (some 0.5)
        [⟨fun _ => 1, fun _ => -5, false⟩, ⟨fun _ => 1, fun _ => 2, true⟩] = 5.5 := by
      have : ratios (Diag.scalar (d := 1) 1) [⟨fun _ => 1, fun _ => -5, false⟩, ⟨fun _ => 1, fun _ => 2, true⟩]
          = [5, -2] := by
        unfold ratios
        rw [List.filter_eq_self.2]
        · simp [hdot, hB]
        · intro p hp
          simp only [List.mem_cons, List.not_mem_nil, or_false] at hp
          rcases hp with rfl | rfl <;> simp [hB] <;> norm_num
      simp only [lambd, this]
      norm_num [List.max?]
    rw [hpairs, sqrtPqut, hlam]
    have hskip : bodyFun (Diag.scalar (d := 1) 1) (some (0.5 : ℝ) = none) ([] ++ List.replicate 2 (0, 0))
        (damp (Diag.scalar (d := 1) 1) 5.5 ⟨fun _ => 1, fun _ => -5, false⟩) = ⟨0, 0, 0, 0⟩ := by
      unfold bodyFun
      exact if_neg fun hu => by cases hu.2
    have hd2 : damp (Diag.scalar (d := 1) 1) 5.5 ⟨fun _ => 1, fun _ => 2, true⟩ = ⟨fun _ => 1, fun _ => 7.5, true⟩ := by
      simp only [damp, Diag.at]; congr 1; funext i; norm_num
    simp only [List.map_cons, List.map_nil, scanPairs, List.length_cons, List.length_nil, Nat.sub_zero, Nat.zero_add,
      Nat.reduceAdd]
    rw [hskip, hd2]
    have := key (some (0.5 : ℝ) = none) [((0 : Vec 1), (0 : Vec 1))] 1 7.5 (by simp) (by norm_num)
    simp only [List.nil_append, List.length_cons, List.length_nil]
    rw [show (2 - (0 + 1)) = 1 from rfl, this]
    simp
  · have hlam : lambd (Diag.scalar (d := 1) 1) (some 0.5) [⟨fun _ => 1, fun _ => 2, true⟩] = 0 := by
      have : ratios (Diag.scalar (d := 1) 1) [⟨fun _ => 1, fun _ => 2, true⟩] = [-2] := by
        unfold ratios
        rw [List.filter_eq_self.2]
        · simp [hdot, hB]
        · intro p hp
          simp only [List.mem_cons, List.not_mem_nil, or_false] at hp
          subst hp; simp [hB]; norm_num
      simp only [lambd, this]
      norm_num [List.max?]
    have hd2 : damp (Diag.scalar (d := 1) 1) 0 ⟨fun _ => 1, fun _ => 2, true⟩ = ⟨fun _ => 1, fun _ => 2, true⟩ := by
      simp only [damp, Diag.at]; congr 1; funext i; norm_num
    rw [sqrtPqut, hlam]
    simp only [List.map_cons, List.map_nil, scanPairs, List.length_cons, List.length_nil]
    rw [hd2, key (some (0.5 : ℝ) = none) [] _ 2 (by simp) (by norm_num)]

end Mocat.Props
