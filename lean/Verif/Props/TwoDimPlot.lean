import Verif.Model.TwoDimPlot
import Mathlib.Algebra.Order.Archimedean.Real.Basic
import Mathlib.Algebra.Order.Round
import Mathlib.Tactic.Linarith
import Mathlib.Tactic.FieldSimp
import Mathlib.Tactic.Ring
import Mathlib.Tactic.Positivity
import Mathlib.Tactic.NormNum
/-!
# C160: plots of two-dimensional scenarios show the density (or the potential) in the frame asked for
-/
namespace Mocat.Props
open Mocat.TwoDim

variable {m : ℕ}

/-- The picture is right: every value drawn is that of its own point, density or potential as asked. -/
def ShowsTarget (pot : ℝ → ℝ → Fl) (showPotential : Bool) (dr : Drawing m) : Prop :=
  ∀ i j, dr.z i j = if showPotential then pot (dr.xs j) (dr.ys i) else Fl.exp (Fl.neg (pot (dr.xs j) (dr.ys i)))

/-- The points fill the interval: all lie in it, and none of its points is further than half a step from one of them. -/
def Fills (m : ℕ) (p : Fin m → ℝ) (lim : ℝ × ℝ) : Prop :=
  (∀ i, p i ∈ Set.Icc lim.1 lim.2) ∧ ∀ t ∈ Set.Icc lim.1 lim.2, ∃ i, |t - p i| ≤ (lim.2 - lim.1) / (m - 1) / 2

theorem linspaceOf_fills (hm : 2 ≤ m) (lim : ℝ × ℝ) (hl : lim.1 ≤ lim.2) : Fills m (linspaceOf m lim) lim := by
  have hm' : (1 : ℝ) ≤ (m : ℝ) - 1 := by
    have : (2 : ℝ) ≤ m := by exact_mod_cast hm
    linarith
  have hpos : (0 : ℝ) < (m : ℝ) - 1 := by linarith
  constructor
  · intro i
    have hi : (i : ℝ) ≤ (m : ℝ) - 1 := by
      have : (i : ℕ) + 1 ≤ m := i.isLt
      have : ((i : ℕ) : ℝ) + 1 ≤ m := by exact_mod_cast this
      linarith
    have h0 : (0 : ℝ) ≤ i := Nat.cast_nonneg _
    have hd : 0 ≤ lim.2 - lim.1 := by linarith
    have e : (i : ℝ) * ((lim.2 - lim.1) / (m - 1)) = (i / (m - 1)) * (lim.2 - lim.1) := by ring
    have h1 : (i : ℝ) / (m - 1) ≤ 1 := (div_le_one hpos).2 hi
    have h2 : 0 ≤ (i : ℝ) / (m - 1) := by positivity
    simp only [linspaceOf, Set.mem_Icc, e]
    constructor
    · have := mul_nonneg h2 hd; linarith
    · have := mul_le_mul_of_nonneg_right h1 hd; linarith
  · intro t ht
    rcases hl.eq_or_lt with hl | hl
    · refine ⟨⟨0, by omega⟩, ?_⟩
      have : t = lim.1 := le_antisymm (hl ▸ ht.2) ht.1
      simp [linspaceOf, this, hl]
    · set h := (lim.2 - lim.1) / (m - 1) with hh
      have hh0 : 0 < h := div_pos (by linarith) hpos
      set u := (t - lim.1) / h with hu
      have hu0 : 0 ≤ u := div_nonneg (by linarith [ht.1]) hh0.le
      have hu1 : u ≤ (m : ℝ) - 1 := by
        rw [hu, div_le_iff₀ hh0, hh, mul_div_cancel₀ _ hpos.ne']
        linarith [ht.2]
      have hr := abs_sub_round u
      have hr0 : 0 ≤ round u := by
        by_contra hneg
        have : round u ≤ -1 := by omega
        have : (round u : ℝ) ≤ -1 := by exact_mod_cast this
        rw [abs_le] at hr
        linarith
      obtain ⟨k, hk⟩ := Int.eq_ofNat_of_zero_le hr0
      have hkm : k < m := by
        by_contra hneg
        have : (m : ℝ) ≤ k := by exact_mod_cast not_lt.1 hneg
        rw [hk, abs_le] at hr
        push_cast at hr
        linarith
      refine ⟨⟨k, hkm⟩, ?_⟩
      have e : t - linspaceOf m lim ⟨k, hkm⟩ = (u - k) * h := by
        simp only [linspaceOf, ← hh]
        rw [sub_mul, hu, div_mul_cancel₀ _ hh0.ne']
        ring
      rw [e, abs_mul, abs_of_pos hh0]
      rw [hk] at hr
      push_cast at hr
      have := mul_le_mul_of_nonneg_right hr hh0.le
      linarith

theorem plotLims_used (fuel : ℕ) (o : Obj) (pot : ℝ → ℝ → Fl) (xlim ylim : Option (ℝ × ℝ)) (recalc : Bool)
    {o' : Obj} {lx ly : ℝ × ℝ} (h : plotLims fuel o pot none xlim ylim recalc = some (o', lx, ly)) :
    some lx = xlim.or o'.xlim ∧ some ly = ylim.or o'.ylim := by
  have key : ∀ o2 : Obj, ((xlim.or o2.xlim).bind fun x => (ylim.or o2.ylim).bind fun y => some (o2, x, y)) = some (o', lx, ly) →
      some lx = xlim.or o'.xlim ∧ some ly = ylim.or o'.ylim := by
    intro o2 h
    simp only [Option.bind_eq_some_iff, Option.some.injEq, Prod.mk.injEq] at h
    obtain ⟨a, ha, b, hb, rfl, rfl, rfl⟩ := h
    exact ⟨ha.symm, hb.symm⟩
  by_cases hb : xlim.isSome ∧ ylim.isSome
  · obtain ⟨x, rfl⟩ := Option.isSome_iff_exists.1 hb.1
    obtain ⟨y, rfl⟩ := Option.isSome_iff_exists.1 hb.2
    simp only [plotLims, Option.some.injEq, Prod.mk.injEq] at h
    simp [h.2.1, h.2.2]
  · have e : plotLims fuel o pot none xlim ylim recalc = (if o.xlim.isNone || recalc then
          match autoAxesLims pot fuel 10 10 with
          | some (.limits x y) => some ⟨some x, some y⟩
          | _ => none
        else some o).bind fun o2 => (xlim.or o2.xlim).bind fun x => (ylim.or o2.ylim).bind fun y => some (o2, x, y) := by
      rcases xlim with _ | x <;> rcases ylim with _ | y <;>
        first
        | (exact absurd ⟨rfl, rfl⟩ hb)
        | (simp only [plotLims]
           split
           · rcases autoAxesLims pot fuel 10 10 with _ | (_ | ⟨a, b⟩) <;> rfl
           · rfl)
    rw [e, Option.bind_eq_some_iff] at h
    obtain ⟨o2, -, h⟩ := h
    exact key o2 h

/-- C160, every picture: whatever is passed, the values drawn are those of the potential or density at their points. -/
theorem C160_values (fuel : ℕ) (o o' : Obj) (pot : ℝ → ℝ → Fl) (ax : Option ((ℝ × ℝ) × (ℝ × ℝ))) (xlim ylim : Option (ℝ × ℝ))
    (recalc showPotential : Bool) (dr : Drawing m) (h : plot fuel m o pot ax xlim ylim recalc showPotential = some (o', dr)) :
    ShowsTarget pot showPotential dr ∧ (dr.newAxes = true ↔ ax = none) := by
  simp only [plot, Option.map_eq_some_iff, Prod.mk.injEq] at h
  obtain ⟨r, -, -, rfl⟩ := h
  refine ⟨fun i j => ?_, by simp⟩
  cases showPotential <;> simp [vecPotential]

/-- C160 (partial: without axes): limits given are the frame of the picture; a missing pair of limits is the one the scenario
has afterwards; the points drawn fill the frame. Missing: with axes passed, see the failure below. -/
theorem C160_frame_partial (hm : 2 ≤ m) (fuel : ℕ) (o o' : Obj) (pot : ℝ → ℝ → Fl) (xlim ylim : Option (ℝ × ℝ))
    (recalc showPotential : Bool) (dr : Drawing m)
    (h : plot fuel m o pot none xlim ylim recalc showPotential = some (o', dr)) :
    ∃ lx ly, some lx = xlim.or o'.xlim ∧ some ly = ylim.or o'.ylim ∧
      (lx.1 ≤ lx.2 → Fills m dr.xs lx) ∧ (ly.1 ≤ ly.2 → Fills m dr.ys ly) := by
  simp only [plot, Option.map_eq_some_iff, Prod.mk.injEq] at h
  obtain ⟨⟨o1, lx, ly⟩, hr, rfl, rfl⟩ := h
  refine ⟨lx, ly, ?_, ?_, linspaceOf_fills hm lx, linspaceOf_fills hm ly⟩
  · exact (plotLims_used _ _ _ _ _ _ hr).1
  · exact (plotLims_used _ _ _ _ _ _ hr).2

/-- C160: with both limits given (and no axes), `plot` always draws, in them, and leaves the scenario's own limits alone. -/
theorem C160_given (fuel : ℕ) (o : Obj) (pot : ℝ → ℝ → Fl) (x y : ℝ × ℝ) (recalc showPotential : Bool) :
    ∃ dr : Drawing m, plot fuel m o pot none (some x) (some y) recalc showPotential = some (o, dr) := ⟨_, rfl⟩

/-- C160 fails when axes are passed: limits passed with them are ignored. -/
theorem C160_fails_axes (fuel : ℕ) (o : Obj) (pot : ℝ → ℝ → Fl) (ax : (ℝ × ℝ) × (ℝ × ℝ)) (xlim ylim : Option (ℝ × ℝ))
    (recalc showPotential : Bool) :
    plot fuel m o pot (some ax) xlim ylim recalc showPotential = plot fuel m o pot (some ax) none none recalc showPotential :=
  rfl

/-- C160 fails for a scenario whose `xlim` was assigned but not its `ylim`: `plot()` raises. -/
theorem C160_fails_half_set (fuel : ℕ) (pot : ℝ → ℝ → Fl) (x : ℝ × ℝ) (xlim : Option (ℝ × ℝ)) (showPotential : Bool) :
    plot fuel m ⟨some x, none⟩ pot none xlim none false showPotential = none := by
  cases xlim <;> simp [plot, plotLims]

/-! ## Concrete cases -/

private noncomputable def bowl (x y : ℝ) : Fl := .fin (x ^ 2 + y)

/-- With five points from 0 to 4 and from 10 to 14, the value in row 1 and column 2 is that of the point (2, 11). -/
example : ∃ dr : Drawing 5, plot 0 5 ⟨none, none⟩ bowl none (some (0, 4)) (some (10, 14)) false true = some (⟨none, none⟩, dr) ∧
    dr.z 1 2 = .fin 15 ∧ Fills 5 dr.xs (0, 4) := by
  obtain ⟨dr, h⟩ := C160_given (m := 5) 0 ⟨none, none⟩ bowl (0, 4) (10, 14) false true
  refine ⟨dr, h, ?_, ?_⟩
  · rw [(C160_values _ _ _ _ _ _ _ _ _ _ h).1 1 2]
    simp only [plot, plotLims, Option.map_some, Option.some.injEq, Prod.mk.injEq, true_and] at h
    subst h
    norm_num [bowl, linspaceOf]
  · obtain ⟨lx, ly, h1, -, h3, -⟩ := C160_frame_partial (by norm_num) _ _ _ _ _ _ _ _ _ h
    obtain rfl : lx = (0, 4) := by simpa using h1
    exact h3 (by norm_num)

/-- Asking for the frame [0, 4] x [10, 14] on axes that show [0, 1] x [0, 1] draws nothing of it. -/
example : ∃ (o : Obj) (dr : Drawing 5),
    plot 0 5 ⟨none, none⟩ bowl (some ((0, 1), (0, 1))) (some (0, 4)) (some (10, 14)) false true = some (o, dr) ∧
    ∀ i, dr.ys i ∉ Set.Icc (10 : ℝ) 14 := by
  refine ⟨_, _, rfl, fun i h => ?_⟩
  have := ((linspaceOf_fills (m := 5) (by norm_num) ((0, 1) : ℝ × ℝ) (by norm_num)).1 i).2
  have h1 := h.1
  simp only at this h1
  linarith

end Mocat.Props
