import Verif.Model.Utils
import Mathlib.Analysis.SpecificLimits.Basic
import Mathlib.Topology.Order.IntermediateValue
import Mathlib.Tactic.Linarith
import Mathlib.Tactic.Positivity
import Mathlib.Tactic.FieldSimp
/-!
# C25 (leave-one-out indices), C28 (bisect), C32 (localisation matrix)
-/
namespace Mocat.Props
open Mocat.Utils

/-! ## C25 -/

theorem leaveOneOut_eq (n : ℕ) (r : ℤ) :
    leaveOneOut n r = (List.range n).map fun i : ℕ => if (i : ℤ) < r then i else i + 1 := by
  apply List.ext_getElem
  · simp [leaveOneOut]
  · intro i h1 h2
    simp [leaveOneOut, add_comm]

/-- C25: the result has `n` entries, strictly increasing, and contains exactly the indices `0..n` except `r`. -/
theorem C25_in_range (n r : ℕ) (hr : r ≤ n) :
    (leaveOneOut n r).length = n ∧ (leaveOneOut n r).Pairwise (· < ·) ∧
    ∀ i, i ∈ leaveOneOut n r ↔ i ≤ n ∧ i ≠ r := by
  rw [leaveOneOut_eq]
  refine ⟨by simp, ?_, ?_⟩
  · rw [List.pairwise_map]
    refine List.pairwise_lt_range.imp ?_
    intro a b hab
    split_ifs <;> omega
  · intro i
    simp only [List.mem_map, List.mem_range]
    constructor
    · rintro ⟨a, ha, rfl⟩
      split_ifs with h <;> constructor <;> omega
    · rintro ⟨h1, h2⟩
      by_cases h : i < r
      · exact ⟨i, by omega, by rw [if_pos]; exact_mod_cast h⟩
      · refine ⟨i - 1, by omega, ?_⟩
        rw [if_neg (by omega)]; omega

/-- C25: an index above `n` removes the last, a negative one removes the first. -/
theorem C25_out_of_range (n : ℕ) (r : ℤ) :
    ((n : ℤ) ≤ r → leaveOneOut n r = List.range n) ∧
    (r ≤ 0 → leaveOneOut n r = (List.range n).map (· + 1)) := by
  constructor <;> intro h <;> rw [leaveOneOut_eq]
  · conv_rhs => rw [← List.map_id (List.range n)]
    refine List.map_congr_left fun i hi => ?_
    rw [List.mem_range] at hi
    rw [if_pos (by omega), id]
  · refine List.map_congr_left fun i hi => ?_
    rw [if_neg (by omega)]

example : leaveOneOut 4 2 = [0, 1, 3, 4] := by decide

/-! ## C28 -/

/-- States reached by the loop from `s`: the loop body is applied while the stopping test fails. -/
inductive Reaches (f : ℝ → ℝ) (inc : Prop) (maxIter : ℕ) (tol : ℝ) (s : BState) : BState → Prop
  | refl : Reaches f inc maxIter tol s s
  | step {t} : Reaches f inc maxIter tol s t → ¬ t.stop maxIter tol → Reaches f inc maxIter tol s (t.step f inc)

theorem bisectLoop_reaches (f : ℝ → ℝ) (inc : Prop) (maxIter : ℕ) (tol : ℝ) (s0 : BState) :
    ∀ s, Reaches f inc maxIter tol s0 s →
      Reaches f inc maxIter tol s0 (bisectLoop f inc maxIter tol s) ∧ (bisectLoop f inc maxIter tol s).stop maxIter tol := by
  intro s
  induction s using bisectLoop.induct f inc maxIter tol with
  | case1 s h => intro hs; unfold bisectLoop; rw [dif_pos h]; exact ⟨hs, h⟩
  | case2 s h ih => intro hs; unfold bisectLoop; rw [dif_neg h]; exact ih (hs.step h)

/-- The sign condition of a bracket, in the direction seen at the start. -/
def Bracket (inc : Prop) (s : BState) : Prop :=
  (inc → s.flo ≤ 0 ∧ 0 ≤ s.fhi) ∧ (¬ inc → s.fhi ≤ 0 ∧ 0 ≤ s.flo)

theorem secant_mem (lo hi flo fhi : ℝ) (h : flo ≤ 0 ∧ 0 ≤ fhi ∨ fhi ≤ 0 ∧ 0 ≤ flo) :
    lo - flo * (hi - lo) / (fhi - flo) ∈ Set.uIcc lo hi := by
  have ht : 0 ≤ -flo / (fhi - flo) ∧ -flo / (fhi - flo) ≤ 1 := by
    rcases eq_or_ne (fhi - flo) 0 with h0 | h0
    · rw [h0]; simp
    rcases h with ⟨h1, h2⟩ | ⟨h1, h2⟩
    · have hp : 0 < fhi - flo := lt_of_le_of_ne (by linarith) (Ne.symm h0)
      exact ⟨div_nonneg (by linarith) hp.le, (div_le_one hp).2 (by linarith)⟩
    · have hp : fhi - flo < 0 := lt_of_le_of_ne (by linarith) h0
      exact ⟨div_nonneg_of_nonpos (by linarith) hp.le, (div_le_one_of_neg hp).2 (by linarith)⟩
  have he : lo - flo * (hi - lo) / (fhi - flo) = lo + (-flo / (fhi - flo)) * (hi - lo) := by ring
  rw [he]
  set t := -flo / (fhi - flo)
  rcases le_total lo hi with hle | hle
  · rw [Set.uIcc_of_le hle]
    constructor <;> nlinarith [ht.1, ht.2]
  · rw [Set.uIcc_of_ge hle]
    constructor <;> nlinarith [ht.1, ht.2]

theorem step_spec (f : ℝ → ℝ) (inc : Prop) (s : BState) (hb : Bracket inc s) (h1 : s.flo = f s.lo) (h2 : s.fhi = f s.hi) :
    Bracket inc (s.step f inc) ∧ (s.step f inc).flo = f (s.step f inc).lo ∧ (s.step f inc).fhi = f (s.step f inc).hi ∧
    Set.uIcc (s.step f inc).lo (s.step f inc).hi ⊆ Set.uIcc s.lo s.hi ∧ (s.step f inc).iter = s.iter + 1 := by
  have hsec : s.lo - s.flo * (s.hi - s.lo) / (s.fhi - s.flo) ∈ Set.uIcc s.lo s.hi := by
    apply secant_mem
    by_cases hi : inc
    · exact Or.inl (hb.1 hi)
    · exact Or.inr (hb.2 hi)
  unfold BState.step
  dsimp only
  set p := s.lo - s.flo * (s.hi - s.lo) / (s.fhi - s.flo)
  by_cases hi : inc
  · by_cases hr : f p > 0
    · simp only [hi, if_true, hr]
      refine ⟨⟨fun _ => ⟨(hb.1 hi).1, hr.le⟩, fun h => absurd trivial h⟩, h1, trivial, ?_, trivial⟩
      exact Set.uIcc_subset_uIcc Set.left_mem_uIcc hsec
    · simp only [hi, if_true, hr, if_false]
      refine ⟨⟨fun _ => ⟨not_lt.1 hr, (hb.1 hi).2⟩, fun h => absurd trivial h⟩, trivial, h2, ?_, trivial⟩
      exact Set.uIcc_subset_uIcc hsec Set.right_mem_uIcc
  · by_cases hr : f p < 0
    · simp only [hi, if_false, hr, if_true]
      refine ⟨⟨fun h => absurd h id, fun _ => ⟨hr.le, (hb.2 hi).2⟩⟩, h1, trivial, ?_, trivial⟩
      exact Set.uIcc_subset_uIcc Set.left_mem_uIcc hsec
    · simp only [hi, if_false, hr]
      refine ⟨⟨fun h => absurd h id, fun _ => ⟨(hb.2 hi).1, not_lt.1 hr⟩⟩, trivial, h2, ?_, trivial⟩
      exact Set.uIcc_subset_uIcc hsec Set.right_mem_uIcc

/-- C28: if the signs at the bounds are opposite, every iterate of the loop has its bounds inside the bounds of the
iterate before it, evaluations that are the function at the bounds, and opposite (or zero) signs. -/
theorem C28_iterates (f : ℝ → ℝ) (a b : ℝ) (hsign : f a * f b ≤ 0) (maxIter : ℕ) (tol : ℝ) (s : BState)
    (hs : Reaches f (f b > f a) maxIter tol (bisectInit f a b) s) :
    s.flo = f s.lo ∧ s.fhi = f s.hi ∧ s.flo * s.fhi ≤ 0 ∧ Set.uIcc s.lo s.hi ⊆ Set.uIcc a b ∧ s.iter ≤ maxIter ∧
    (¬ s.stop maxIter tol →
      Set.uIcc (s.step f (f b > f a)).lo (s.step f (f b > f a)).hi ⊆ Set.uIcc s.lo s.hi) := by
  have key : Bracket (f b > f a) s ∧ s.flo = f s.lo ∧ s.fhi = f s.hi ∧ Set.uIcc s.lo s.hi ⊆ Set.uIcc a b ∧
      s.iter ≤ maxIter := by
    induction hs with
    | refl =>
      refine ⟨⟨fun h => ?_, fun h => ?_⟩, rfl, rfl, subset_rfl, Nat.zero_le _⟩
      · simp only [bisectInit]; constructor <;> nlinarith
      · simp only [bisectInit, gt_iff_lt, not_lt] at h ⊢; constructor <;> nlinarith
    | @step t _ hstop ih =>
      obtain ⟨i1, i2, i3, i4, i5⟩ := ih
      obtain ⟨j1, j2, j3, j4, j5⟩ := step_spec f _ t i1 i2 i3
      refine ⟨j1, j2, j3, j4.trans i4, ?_⟩
      have : ¬ t.iter ≥ maxIter := fun h => hstop (Or.inr (Or.inl h))
      omega
  obtain ⟨k1, k2, k3, k4, k5⟩ := key
  refine ⟨k2, k3, ?_, k4, k5, fun _ => (step_spec f _ s k1 k2 k3).2.2.2.1⟩
  by_cases hi : f b > f a
  · exact mul_nonpos_of_nonpos_of_nonneg (k1.1 hi).1 (k1.1 hi).2
  · exact mul_nonpos_of_nonneg_of_nonpos (k1.2 hi).2 (k1.2 hi).1

/-- C28: the result of `bisect` is one of those iterates, and it stopped because an evaluation is below the tolerance
or the iteration limit is reached. -/
theorem C28_result (f : ℝ → ℝ) (a b : ℝ) (hsign : f a * f b ≤ 0) (maxIter : ℕ) (tol : ℝ) :
    Reaches f (f b > f a) maxIter tol (bisectInit f a b) (bisect f a b maxIter tol) ∧
    let s := bisect f a b maxIter tol
    min |f s.lo| |f s.hi| < tol ∨ s.iter = maxIter := by
  obtain ⟨hr, hstop⟩ := bisectLoop_reaches f (f b > f a) maxIter tol (bisectInit f a b) _ .refl
  refine ⟨hr, ?_⟩
  obtain ⟨h1, h2, h3, -, h5, -⟩ := C28_iterates f a b hsign maxIter tol _ hr
  intro s
  have hs : s = bisectLoop f (f b > f a) maxIter tol (bisectInit f a b) := rfl
  rw [← hs] at h1 h2 h3 h5 hstop
  rcases hstop with h | h | ⟨h, h'⟩ | ⟨h, h'⟩
  · left; rwa [← h1, ← h2]
  · right; omega
  · nlinarith
  · nlinarith

/-- C28: if the function is continuous, the final bounds contain a root. -/
theorem C28_root (f : ℝ → ℝ) (hf : Continuous f) (a b : ℝ) (hsign : f a * f b ≤ 0) (maxIter : ℕ) (tol : ℝ) :
    let s := bisect f a b maxIter tol
    ∃ x ∈ Set.uIcc s.lo s.hi, f x = 0 := by
  intro s
  obtain ⟨h1, h2, h3, -, -, -⟩ := C28_iterates f a b hsign maxIter tol _ (C28_result f a b hsign maxIter tol).1
  have hs : s = bisect f a b maxIter tol := rfl
  rw [← hs] at h1 h2 h3
  rw [h1, h2] at h3
  have h0 : (0 : ℝ) ∈ Set.uIcc (f s.lo) (f s.hi) := by
    rw [Set.mem_uIcc]
    rcases le_total (f s.lo) 0 with hl | hl
    · rcases eq_or_lt_of_le hl with he | hl'
      · rw [he]; rcases le_total 0 (f s.hi) with h | h
        · exact Or.inl ⟨le_rfl, h⟩
        · exact Or.inr ⟨h, le_rfl⟩
      · exact Or.inl ⟨hl, by nlinarith⟩
    · rcases eq_or_lt_of_le hl with he | hl'
      · rw [← he]; rcases le_total 0 (f s.hi) with h | h
        · exact Or.inl ⟨le_rfl, h⟩
        · exact Or.inr ⟨h, le_rfl⟩
      · exact Or.inr ⟨by nlinarith, hl⟩
  obtain ⟨x, hx, hfx⟩ := intermediate_value_uIcc (f := f) hf.continuousOn h0
  exact ⟨x, hx, hfx⟩

/-- C28: with both evaluations of the same (non-zero) sign the input bounds come back unchanged. -/
theorem C28_same_sign (f : ℝ → ℝ) (a b : ℝ) (hsign : f a * f b > 0) (maxIter : ℕ) (tol : ℝ) :
    bisect f a b maxIter tol = ⟨a, b, f a, f b, 0⟩ := by
  unfold bisect bisectLoop
  rw [dif_pos]
  · rfl
  · rcases pos_and_pos_or_neg_and_neg_of_mul_pos hsign with h | h
    · exact Or.inr (Or.inr (Or.inr h))
    · exact Or.inr (Or.inr (Or.inl h))

/-- Non-vacuity: `x^2 - 2` on `[0, 2]`. -/
example : (fun x : ℝ => x ^ 2 - 2) 0 * (fun x : ℝ => x ^ 2 - 2) 2 ≤ 0 ∧ Continuous fun x : ℝ => x ^ 2 - 2 := by
  constructor
  · norm_num
  · fun_prop

/-! ## C32 -/

theorem gcMid_eq (z : ℝ) (hz : z ≠ 0) : gcMid z = (z - 2) ^ 4 * (z ^ 2 + 2 * z - 1 / 2) / (12 * z) := by
  unfold gcMid; field_simp; ring

theorem gc_of_nonneg {z radius : ℝ} (hz : 0 ≤ z) :
    gc z radius = if z < radius then gcClose (z / radius) else if z < 2 * radius then gcMid (z / radius) else 0 := by
  unfold gc
  simp only [abs_of_nonneg hz]
  by_cases h1 : z < radius
  · rw [if_neg (by intro h; linarith [h.1]), if_pos h1, if_pos h1]
  · rw [if_neg h1, if_neg h1]
    by_cases h2 : z < 2 * radius
    · rw [if_pos ⟨not_lt.1 h1, h2⟩, if_pos h2]
    · rw [if_neg (fun h => h2 h.2), if_neg h2]

/-- C32: the taper is between 0 and 1, 1 at distance 0 and 0 from distance `2 * radius` on. -/
theorem C32_taper (z radius : ℝ) (hr : 0 < radius) (hz : 0 ≤ z) :
    0 ≤ gc z radius ∧ gc z radius ≤ 1 ∧ gc 0 radius = 1 ∧ (2 * radius ≤ z → gc z radius = 0) := by
  have hbd : 0 ≤ gc z radius ∧ gc z radius ≤ 1 := by
    rw [gc_of_nonneg hz]
    have hq : 0 ≤ z / radius := div_nonneg hz hr.le
    split_ifs with h1 h2
    · have hq1 : z / radius < 1 := (div_lt_one hr).2 h1
      set q := z / radius
      unfold gcClose
      have hq2 : 0 ≤ q ^ 2 := by positivity
      have hq3 : 0 ≤ q ^ 3 := by positivity
      constructor
      · have e : -0.25 * q ^ 5 + 0.5 * q ^ 4 + 5 / 8 * q ^ 3 - 5 / 3 * q ^ 2 + 1
            = (1 - q) * (1 + q - 2 / 3 * q ^ 2 - 1 / 24 * q ^ 3) + q ^ 4 * (11 / 24 - 1 / 4 * q) := by ring
        rw [e]
        have a1 : 0 ≤ 1 + q - 2 / 3 * q ^ 2 - 1 / 24 * q ^ 3 := by nlinarith [mul_nonneg hq2 (sub_nonneg.2 hq1.le)]
        have a2 : 0 ≤ q ^ 4 * (11 / 24 - 1 / 4 * q) := mul_nonneg (by positivity) (by linarith)
        have := mul_nonneg (sub_nonneg.2 hq1.le) a1
        linarith
      · have e : -0.25 * q ^ 5 + 0.5 * q ^ 4 + 5 / 8 * q ^ 3 - 5 / 3 * q ^ 2 + 1
            = 1 - q ^ 2 * (5 / 3 - 5 / 8 * q - 1 / 2 * q ^ 2 + 1 / 4 * q ^ 3) := by ring
        rw [e]
        have : 0 ≤ 5 / 3 - 5 / 8 * q - 1 / 2 * q ^ 2 + 1 / 4 * q ^ 3 := by nlinarith
        have := mul_nonneg hq2 this
        linarith
    · have hq1 : 1 ≤ z / radius := (one_le_div hr).2 (not_lt.1 h1)
      have hq2 : z / radius < 2 := (div_lt_iff₀ hr).2 h2
      rw [gcMid_eq _ (by linarith)]
      set q := z / radius
      have hnum : 0 ≤ q ^ 2 + 2 * q - 1 / 2 := by nlinarith
      refine ⟨by positivity, ?_⟩
      rw [div_le_one (by linarith)]
      have h4 : (q - 2) ^ 4 ≤ 1 := by
        have : (q - 2) ^ 2 ≤ 1 := by nlinarith
        calc (q - 2) ^ 4 = ((q - 2) ^ 2) ^ 2 := by ring
          _ ≤ 1 := by nlinarith [sq_nonneg (q - 2)]
      calc (q - 2) ^ 4 * (q ^ 2 + 2 * q - 1 / 2) ≤ 1 * (q ^ 2 + 2 * q - 1 / 2) := mul_le_mul_of_nonneg_right h4 hnum
        _ ≤ 12 * q := by nlinarith
    · exact ⟨le_rfl, zero_le_one⟩
  refine ⟨hbd.1, hbd.2, ?_, ?_⟩
  · rw [gc_of_nonneg le_rfl, if_pos hr]; norm_num [gcClose]
  · intro h
    rw [gc_of_nonneg hz, if_neg (by linarith), if_neg (by linarith)]

/-- C32: the taper is continuous in the distance. -/
theorem C32_continuous (radius : ℝ) (hr : 0 < radius) : ContinuousOn (fun z => gc z radius) (Set.Ici 0) := by
  have heq : Set.EqOn (fun z => gc z radius)
      (fun z => if z ≤ radius then gcClose (z / radius) else if z ≤ 2 * radius then gcMid (z / radius) else 0)
      (Set.Ici 0) := by
    intro z hz
    simp only
    rw [gc_of_nonneg hz]
    rcases lt_trichotomy z radius with h | h | h
    · rw [if_pos h, if_pos h.le]
    · subst h
      rw [if_neg (lt_irrefl _), if_pos le_rfl, if_pos (by linarith)]
      rw [div_self hr.ne']; norm_num [gcMid, gcClose]
    · rw [if_neg (not_lt.2 h.le), if_neg (not_le.2 h)]
      rcases lt_trichotomy z (2 * radius) with h' | h' | h'
      · rw [if_pos h', if_pos h'.le]
      · rw [h', if_neg (lt_irrefl _), if_pos le_rfl, mul_div_assoc, div_self hr.ne']; norm_num [gcMid]
      · rw [if_neg (not_lt.2 h'.le), if_neg (not_le.2 h')]
  refine ContinuousOn.congr ?_ heq
  have hclose : Continuous fun z : ℝ => gcClose (z / radius) := by unfold gcClose; fun_prop
  have hmid : ContinuousOn (fun z : ℝ => gcMid (z / radius)) (Set.Ici radius) := by
    unfold gcMid
    have hne : ∀ z ∈ Set.Ici radius, z / radius ≠ 0 := fun z hz => by
      have : 0 < z := lt_of_lt_of_le hr hz
      positivity
    have h1 : ContinuousOn (fun z : ℝ => z / radius) (Set.Ici radius) := by fun_prop
    exact (by fun_prop : ContinuousOn (fun z : ℝ => 1 / 12 * (z / radius) ^ 5 - 0.5 * (z / radius) ^ 4
      + 5 / 8 * (z / radius) ^ 3 + 5 / 3 * (z / radius) ^ 2 - 5 * (z / radius) + 4) (Set.Ici radius)).sub
      (continuousOn_const.div h1 hne)
  have hmax : Continuous fun z : ℝ => max z radius := by fun_prop
  -- outer function of `z`: the middle part, extended constantly to the left of `radius`
  have hmid' : Continuous fun z : ℝ => gcMid (max z radius / radius) :=
    continuousOn_univ.1 (hmid.comp hmax.continuousOn fun z _ => Set.mem_Ici.2 (le_max_right _ _))
  have hinner : Continuous fun z : ℝ => if z ≤ 2 * radius then gcMid (max z radius / radius) else (0 : ℝ) := by
    refine Continuous.if_le hmid' continuous_const continuous_id continuous_const ?_
    intro z hz
    rw [hz, max_eq_left (by linarith), mul_div_assoc, div_self hr.ne']; norm_num [gcMid]
  have hall : Continuous fun z : ℝ => if z ≤ radius then gcClose (z / radius)
      else if z ≤ 2 * radius then gcMid (max z radius / radius) else (0 : ℝ) := by
    refine Continuous.if_le hclose hinner continuous_id continuous_const ?_
    intro z hz
    subst hz
    rw [if_pos (by linarith), max_self, div_self hr.ne']; norm_num [gcMid, gcClose]
  refine hall.continuousOn.congr fun z _ => ?_
  simp only
  by_cases h : z ≤ radius
  · rw [if_pos h, if_pos h]
  · rw [if_neg h, if_neg h, max_eq_left (le_of_not_ge h)]

/-- C32: the matrix is symmetric, 1 on the diagonal, with entries in `[0, 1]`, and 0 where the circular distance
is at least `2 * radius`. -/
theorem C32_matrix (dim : ℕ) (radius : ℝ) (hr : 0 < radius) (i j : Fin dim) :
    gcMatrix dim radius i j = gcMatrix dim radius j i ∧ gcMatrix dim radius i i = 1 ∧
    0 ≤ gcMatrix dim radius i j ∧ gcMatrix dim radius i j ≤ 1 ∧
    (2 * radius ≤ min ((i : ℤ) - j).natAbs (dim - ((i : ℤ) - j).natAbs : ℕ) → gcMatrix dim radius i j = 0) := by
  have hij : circDist dim i j = min ((i : ℤ) - j).natAbs (dim - ((i : ℤ) - j).natAbs) := by
    unfold circDist; omega
  have hii : circDist dim i i = 0 := by unfold circDist; omega
  have hsymm : circDist dim i j = circDist dim j i := by unfold circDist; omega
  have hnn : (0 : ℝ) ≤ (circDist dim i j : ℝ) := Nat.cast_nonneg _
  obtain ⟨t1, t2, t3, t4⟩ := C32_taper (circDist dim i j : ℝ) radius hr hnn
  refine ⟨by unfold gcMatrix; rw [hsymm], ?_, t1, t2, ?_⟩
  · unfold gcMatrix; rw [hii]; simpa using t3
  · intro h
    apply t4
    rw [hij]; exact h

/-- C32: the matrix is circulant: moving both indices one step round the circle changes nothing. -/
theorem C32_circulant (dim : ℕ) (radius : ℝ) (i j : Fin dim) :
    let next (k : Fin dim) : Fin dim := ⟨(k + 1) % dim, Nat.mod_lt _ k.pos⟩
    gcMatrix dim radius (next i) (next j) = gcMatrix dim radius i j := by
  intro next
  have hk : ∀ k : Fin dim, ((next k : Fin dim) : ℕ) = if (k : ℕ) + 1 = dim then (0 : ℕ) else (k : ℕ) + 1 := by
    intro k
    simp only [next]
    have := k.isLt
    split_ifs with h
    · rw [h, Nat.mod_self]
    · exact Nat.mod_eq_of_lt (by omega)
  have : circDist dim (next i) (next j) = circDist dim i j := by
    rw [hk i, hk j]
    have := i.isLt; have := j.isLt
    unfold circDist
    split_ifs <;> omega
  unfold gcMatrix; rw [this]

/-- Non-vacuity: with 10 points and radius 2, points 0 and 9 are neighbours and points 0 and 5 are not correlated. -/
example : gcMatrix 10 2 0 5 = 0 ∧ gcMatrix 10 2 0 9 = gcClose (1 / 2) := by
  constructor
  · refine (C32_matrix 10 2 (by norm_num) 0 5).2.2.2.2 ?_
    norm_num [show ((0 : Fin 10) : ℕ) = 0 from rfl, show ((5 : Fin 10) : ℕ) = 5 from rfl]
  · have : circDist 10 ((0 : Fin 10) : ℕ) ((9 : Fin 10) : ℕ) = 1 := by decide
    unfold gcMatrix
    rw [this, gc_of_nonneg (by norm_num), if_pos (by norm_num)]
    norm_num

end Mocat.Props
