import Verif.Model.TwoDim
import Mathlib.Analysis.SpecialFunctions.Exp
import Mathlib.Tactic.Linarith
import Mathlib.Tactic.Positivity
import Mathlib.Tactic.NormNum
/-!
# C117: limits for plotting two-dimensional scenarios
-/
namespace Mocat.Props
open Mocat.TwoDim

/-! ## Specification -/

/-- The 100 equally spaced points from `-lim` to `lim`. -/
def Grid (lim : ℝ) : Set ℝ := {x | ∃ k : ℕ, k < 100 ∧ x = -lim + k * (2 * lim / 99)}

/-- `exp(-potential)`; 0 where the potential is `+∞`. -/
noncomputable def density2 (pot : ℝ → ℝ → Fl) (x y : ℝ) : ℝ :=
  match pot x y with
  | .fin u => Real.exp (-u)
  | _ => 0

/-- A grid point whose density is more than a tenth of the largest density on the grid. -/
def Visible (pot : ℝ → ℝ → Fl) (xlim ylim x y : ℝ) : Prop :=
  x ∈ Grid xlim ∧ y ∈ Grid ylim ∧ ∀ x' ∈ Grid xlim, ∀ y' ∈ Grid ylim, density2 pot x' y' < 10 * density2 pot x y

/-- `auto_axes_lims()` ends, with these limits. -/
def AutoLims (pot : ℝ → ℝ → Fl) (x y : ℝ × ℝ) : Prop := ∃ fuel, autoAxesLims pot fuel 10 10 = some (.limits x y)

/-! ## One call -/

variable {m : ℕ}

theorem findRow_up {M : Fin m → Fin m → Prop} {i : Fin m} (h : findRow M true = some i) : (∃ j, M i j) ∧ ∀ k j, M k j → i ≤ k := by
  classical
  simp only [findRow, if_true] at h
  rw [List.find?_eq_some_iff_getElem] at h
  obtain ⟨h1, k, hk, rfl, h2⟩ := h
  refine ⟨by simpa using h1, fun l j hl => ?_⟩
  by_contra hlt
  have hlt : (l : ℕ) < k := by have := not_le.1 hlt; rw [Fin.lt_def] at this; simpa using this
  have := h2 l hlt
  simp only [List.getElem_finRange, Bool.not_eq_true', decide_eq_false_iff_not] at this
  exact this ⟨j, by simpa using hl⟩

theorem findRow_down {M : Fin m → Fin m → Prop} {i : Fin m} (h : findRow M false = some i) : (∃ j, M i j) ∧ ∀ k j, M k j → k ≤ i := by
  classical
  simp only [findRow, Bool.false_eq_true, if_false] at h
  rw [List.find?_eq_some_iff_getElem] at h
  obtain ⟨h1, k, hk, rfl, h2⟩ := h
  refine ⟨by simpa using h1, fun l j hl => ?_⟩
  by_contra hlt
  have hk' : k < m := by simpa using hk
  have hlt : m - 1 - k < (l : ℕ) := by
    have := not_le.1 hlt
    rw [Fin.lt_def] at this
    simpa using this
  have := h2 (m - 1 - l) (by omega)
  simp only [List.getElem_reverse, List.getElem_finRange, Bool.not_eq_true', decide_eq_false_iff_not, List.length_finRange, Fin.cast_mk] at this
  refine this ⟨j, ?_⟩
  have e : m - 1 - (m - 1 - (l : ℕ)) = l := by omega
  simpa [e] using hl

theorem findRow_isSome {M : Fin m → Fin m → Prop} (h : ∃ i j, M i j) (up : Bool) : ∃ i, findRow M up = some i := by
  classical
  rw [← Option.isSome_iff_exists]
  unfold findRow
  rw [List.find?_isSome]
  obtain ⟨i, j, h⟩ := h
  refine ⟨i, ?_, by simpa using ⟨j, h⟩⟩
  cases up <;> simp

theorem linspace_mono [NeZero m] {lim : ℝ} (h : 0 ≤ lim) : Monotone (linspace lim : Fin m → ℝ) := by
  intro i j hij
  unfold linspace
  have h1 : (1 : ℝ) ≤ m := by exact_mod_cast Nat.one_le_iff_ne_zero.2 (NeZero.ne m)
  have h2 : 0 ≤ 2 * lim / ((m : ℝ) - 1) := div_nonneg (by linarith) (by linarith)
  have h3 : (i : ℝ) ≤ (j : ℝ) := by exact_mod_cast hij
  nlinarith [mul_le_mul_of_nonneg_right h3 h2]

/-- What one call returns, for any grid size. -/
theorem step_limits [NeZero m] {pot : ℝ → ℝ → Fl} {X Y : ℝ} (hX : 0 < X) (hY : 0 < Y) {xl yl : ℝ × ℝ} (h : step m pot X Y = .limits xl yl) :
    ∃ keep : Fin m → Fin m → Prop,
      (∀ i j, keep i j ↔ ∀ i' j', density2 pot (linspace X (j' : Fin m)) (linspace Y (i' : Fin m)) < 10 * density2 pot (linspace X j) (linspace Y i)) ∧
      (∀ i j, keep i j → xl.1 ≤ linspace X j ∧ linspace X j ≤ xl.2 ∧ yl.1 ≤ linspace Y i ∧ linspace Y i ≤ yl.2) ∧
      (∃ i j, keep i j ∧ linspace X j = xl.1) ∧ (∃ i j, keep i j ∧ linspace X j = xl.2) ∧
      (∃ i j, keep i j ∧ linspace Y i = yl.1) ∧ (∃ i j, keep i j ∧ linspace Y i = yl.2) ∧
      X ≠ |xl.1| ∧ X ≠ |xl.2| ∧ Y ≠ |yl.1| ∧ Y ≠ |yl.2| := by
  classical
  unfold step at h
  dsimp only at h
  split at h
  · cases h
  split at h
  · cases h
  rename_i hnan hinf
  split at h
  · cases h
  have hz : ∀ i j : Fin m, toReal (Fl.exp (Fl.neg (vecPotential pot (linspace X) (linspace Y) i j))) = density2 pot (linspace X j) (linspace Y i) := by
    intro i j
    unfold density2 vecPotential
    cases hp : pot (linspace X j) (linspace Y i) with
    | nan => rfl
    | ninf => exact absurd ⟨i, j, by rw [vecPotential, hp]; rfl⟩ hinf
    | fin u => rfl
    | pinf => rfl
  simp only [hz] at h
  set mx := (Finset.univ : Finset (Fin m × Fin m)).sup' Finset.univ_nonempty fun p => density2 pot (linspace X p.2) (linspace Y p.1) with hmx
  have hkeep : ∀ i j : Fin m, mx / 10 < density2 pot (linspace X j) (linspace Y i) ↔
      ∀ i' j', density2 pot (linspace X (j' : Fin m)) (linspace Y (i' : Fin m)) < 10 * density2 pot (linspace X j) (linspace Y i) := by
    intro i j
    rw [div_lt_iff₀ (by norm_num), mul_comm, hmx, Finset.sup'_lt_iff]
    exact ⟨fun h i' j' => h (i', j') (Finset.mem_univ _), fun h p _ => h p.1 p.2⟩
  split at h
  · rename_i x0 x1 y0 y1 e0 e1 e2 e3
    split at h
    · cases h
    · rename_i hhit
      cases h
      obtain ⟨⟨i0, a0⟩, b0⟩ := findRow_up e0
      obtain ⟨⟨i1, a1⟩, b1⟩ := findRow_down e1
      obtain ⟨⟨j0, a2⟩, b2⟩ := findRow_up e2
      obtain ⟨⟨j1, a3⟩, b3⟩ := findRow_down e3
      simp only [not_or] at hhit
      refine ⟨_, hkeep, fun i j hij => ⟨?_, ?_, ?_, ?_⟩, ⟨i0, x0, a0, rfl⟩, ⟨i1, x1, a1, rfl⟩, ⟨y0, j0, a2, rfl⟩, ⟨y1, j1, a3, rfl⟩,
        hhit.1.1, hhit.1.2, hhit.2.1, hhit.2.2⟩
      · exact linspace_mono hX.le (b0 j i hij)
      · exact linspace_mono hX.le (b1 j i hij)
      · exact linspace_mono hY.le (b2 i j hij)
      · exact linspace_mono hY.le (b3 i j hij)
  · cases h

theorem density2_nonneg (pot : ℝ → ℝ → Fl) (x y : ℝ) : 0 ≤ density2 pot x y := by
  unfold density2
  split
  · positivity
  · exact le_rfl

/-- One call on a grid without `nan` and `-∞`, with a positive density somewhere. -/
theorem step_cases [NeZero m] {pot : ℝ → ℝ → Fl} {X Y : ℝ} (hfin : ∀ i j : Fin m, pot (linspace X j) (linspace Y i) = .pinf ∨ ∃ u, pot (linspace X j) (linspace Y i) = .fin u)
    (hpos : ∃ i j : Fin m, 0 < density2 pot (linspace X j) (linspace Y i)) :
    ∃ keep : Fin m → Fin m → Prop,
      (∀ i j, keep i j ↔ ∀ i' j', density2 pot (linspace X (j' : Fin m)) (linspace Y (i' : Fin m)) < 10 * density2 pot (linspace X j) (linspace Y i)) ∧
      ∃ x0 x1 y0 y1 : Fin m, findRow (fun i j => keep j i) true = some x0 ∧ findRow (fun i j => keep j i) false = some x1 ∧ findRow keep true = some y0 ∧ findRow keep false = some y1 ∧
        open Classical in step m pot X Y =
          if (X = |linspace X x0| ∨ X = |linspace X x1|) ∨ (Y = |linspace Y y0| ∨ Y = |linspace Y y1|) then
            .again (if X = |linspace X x0| ∨ X = |linspace X x1| then 2 * X else X) (if Y = |linspace Y y0| ∨ Y = |linspace Y y1| then 2 * Y else Y)
          else .limits (linspace X x0, linspace X x1) (linspace Y y0, linspace Y y1) := by
  classical
  have hz : ∀ i j : Fin m, toReal (Fl.exp (Fl.neg (vecPotential pot (linspace X) (linspace Y) i j))) = density2 pot (linspace X j) (linspace Y i) := by
    intro i j
    unfold density2 vecPotential
    rcases hfin i j with h | ⟨u, h⟩ <;> rw [h] <;> rfl
  set mx := (Finset.univ : Finset (Fin m × Fin m)).sup' Finset.univ_nonempty fun p => density2 pot (linspace X p.2) (linspace Y p.1) with hmx
  have hle : ∀ i j : Fin m, density2 pot (linspace X j) (linspace Y i) ≤ mx := fun i j =>
    Finset.le_sup' (fun p : Fin m × Fin m => density2 pot (linspace X p.2) (linspace Y p.1)) (Finset.mem_univ (i, j))
  have hmpos : 0 < mx := by
    obtain ⟨i, j, h⟩ := hpos
    exact h.trans_le (hle i j)
  have hkeep : ∀ i j : Fin m, mx / 10 < density2 pot (linspace X j) (linspace Y i) ↔
      ∀ i' j', density2 pot (linspace X (j' : Fin m)) (linspace Y (i' : Fin m)) < 10 * density2 pot (linspace X j) (linspace Y i) := by
    intro i j
    rw [div_lt_iff₀ (by norm_num), mul_comm, hmx, Finset.sup'_lt_iff]
    exact ⟨fun h i' j' => h (i', j') (Finset.mem_univ _), fun h p _ => h p.1 p.2⟩
  obtain ⟨⟨iM, jM⟩, -, hM⟩ := Finset.exists_mem_eq_sup' (Finset.univ_nonempty (α := Fin m × Fin m)) fun p => density2 pot (linspace X p.2) (linspace Y p.1)
  have hkM : mx / 10 < density2 pot (linspace X jM) (linspace Y iM) := by
    have : mx = density2 pot (linspace X jM) (linspace Y iM) := hM
    rw [← this]; linarith
  refine ⟨fun i j => mx / 10 < density2 pot (linspace X j) (linspace Y i), hkeep, ?_⟩
  obtain ⟨x0, e0⟩ := findRow_isSome (M := fun j i : Fin m => mx / 10 < density2 pot (linspace X j) (linspace Y i)) ⟨jM, iM, hkM⟩ true
  obtain ⟨x1, e1⟩ := findRow_isSome (M := fun j i : Fin m => mx / 10 < density2 pot (linspace X j) (linspace Y i)) ⟨jM, iM, hkM⟩ false
  obtain ⟨y0, e2⟩ := findRow_isSome (M := fun i j : Fin m => mx / 10 < density2 pot (linspace X j) (linspace Y i)) ⟨iM, jM, hkM⟩ true
  obtain ⟨y1, e3⟩ := findRow_isSome (M := fun i j : Fin m => mx / 10 < density2 pot (linspace X j) (linspace Y i)) ⟨iM, jM, hkM⟩ false
  refine ⟨x0, x1, y0, y1, e0, e1, e2, e3, ?_⟩
  unfold step
  dsimp only
  have hbad : ∀ i j : Fin m, Fl.exp (Fl.neg (vecPotential pot (linspace X) (linspace Y) i j)) ≠ .nan ∧ Fl.exp (Fl.neg (vecPotential pot (linspace X) (linspace Y) i j)) ≠ .pinf := by
    intro i j
    unfold vecPotential
    rcases hfin i j with h | ⟨u, h⟩ <;> rw [h] <;> simp [Fl.neg, Fl.exp]
  rw [if_neg (by rintro ⟨i, j, h⟩; exact (hbad i j).1 h), if_neg (by rintro ⟨i, j, h⟩; exact (hbad i j).2 h)]
  simp only [hz]
  rw [if_neg hmpos.ne']
  simp only [← hmx, e0, e1, e2, e3]

theorem mem_grid {X x : ℝ} : x ∈ Grid X ↔ ∃ i : Fin gridSize, x = linspace X i := by
  have e : ((gridSize : ℕ) : ℝ) - 1 = 99 := by norm_num [gridSize]
  unfold Grid linspace
  rw [e]
  exact ⟨fun ⟨k, hk, h⟩ => ⟨⟨k, hk⟩, h⟩, fun ⟨i, h⟩ => ⟨i, i.2, h⟩⟩

theorem visible_iff {pot : ℝ → ℝ → Fl} {X Y x y : ℝ} : Visible pot X Y x y ↔
    ∃ i j : Fin gridSize, x = linspace X j ∧ y = linspace Y i ∧
      ∀ i' j' : Fin gridSize, density2 pot (linspace X j') (linspace Y i') < 10 * density2 pot (linspace X j) (linspace Y i) := by
  constructor
  · rintro ⟨hx, hy, h⟩
    obtain ⟨j, rfl⟩ := mem_grid.1 hx
    obtain ⟨i, rfl⟩ := mem_grid.1 hy
    exact ⟨i, j, rfl, rfl, fun i' j' => h _ (mem_grid.2 ⟨j', rfl⟩) _ (mem_grid.2 ⟨i', rfl⟩)⟩
  · rintro ⟨i, j, rfl, rfl, h⟩
    refine ⟨mem_grid.2 ⟨j, rfl⟩, mem_grid.2 ⟨i, rfl⟩, ?_⟩
    rintro x' hx y' hy
    obtain ⟨j', rfl⟩ := mem_grid.1 hx
    obtain ⟨i', rfl⟩ := mem_grid.1 hy
    exact h i' j'

theorem abs_grid_le {X x : ℝ} (hX : 0 < X) (hx : x ∈ Grid X) : |x| ≤ X := by
  obtain ⟨k, hk, rfl⟩ := hx
  have h1 : (k : ℝ) ≤ 99 := by exact_mod_cast Nat.lt_succ_iff.1 hk
  have h0 : (0 : ℝ) ≤ k := by positivity
  rw [abs_le]
  constructor
  · have : 0 ≤ (k : ℝ) * (2 * X / 99) := by positivity
    linarith
  · have : (k : ℝ) * (2 * X / 99) ≤ 99 * (2 * X / 99) := mul_le_mul_of_nonneg_right h1 (by positivity)
    linarith

/-- Whatever potential: what one call passes on to the next is positive. -/
theorem step_again {pot : ℝ → ℝ → Fl} {X Y X' Y' : ℝ} [NeZero m] (hX : 0 < X) (hY : 0 < Y) (h : step m pot X Y = .again X' Y') : 0 < X' ∧ 0 < Y' := by
  classical
  unfold step at h
  dsimp only at h
  split at h
  · cases h
  split at h
  · cases h
  split at h
  · cases h; constructor <;> positivity
  split at h
  · split at h
    · cases h
      constructor <;> split_ifs <;> linarith
    · cases h
  · cases h

/-! ## C117 -/

/-- C117, what does hold: if `auto_axes_lims` ends with limits, they are read off some 100 by 100 grid: every point of the grid whose density exceeds a tenth of the largest lies within them, and they lie strictly inside the grid.
(Missing: it need not end, and there is no margin: `C117_fails_flat`, `C117_fails_margin`.) -/
theorem C117_limits_partial {pot : ℝ → ℝ → Fl} {xl yl : ℝ × ℝ} (h : AutoLims pot xl yl) :
    ∃ X Y, (∃ x y, Visible pot X Y x y) ∧ (∀ x y, Visible pot X Y x y → x ∈ Set.Icc xl.1 xl.2 ∧ y ∈ Set.Icc yl.1 yl.2) ∧
      (-X < xl.1 ∧ xl.1 ≤ xl.2 ∧ xl.2 < X) ∧ (-Y < yl.1 ∧ yl.1 ≤ yl.2 ∧ yl.2 < Y) ∧
      (∃ y, Visible pot X Y xl.1 y) ∧ (∃ y, Visible pot X Y xl.2 y) ∧ (∃ x, Visible pot X Y x yl.1) ∧ ∃ x, Visible pot X Y x yl.2 := by
  obtain ⟨fuel, h⟩ := h
  have key : ∀ fuel X Y, 0 < X → 0 < Y → autoAxesLims pot fuel X Y = some (.limits xl yl) → ∃ X Y, 0 < X ∧ 0 < Y ∧ step gridSize pot X Y = .limits xl yl := by
    intro fuel
    induction fuel with
    | zero => intro X Y _ _ h; cases h
    | succ fuel ih =>
      intro X Y hX hY h
      unfold autoAxesLims at h
      cases e : step gridSize pot X Y with
      | typeError => rw [e] at h; cases h
      | loops => rw [e] at h; cases h
      | again x y =>
        rw [e] at h
        obtain ⟨a, b⟩ := step_again hX hY e
        exact ih _ _ a b h
      | limits x y =>
        rw [e] at h
        cases h
        exact ⟨X, Y, hX, hY, e⟩
  obtain ⟨X, Y, hX, hY, hs⟩ := key fuel 10 10 (by norm_num) (by norm_num) h
  obtain ⟨keep, hk, hin, ⟨i0, j0, k0, e0⟩, ⟨i1, j1, k1, e1⟩, ⟨i2, j2, k2, e2⟩, ⟨i3, j3, k3, e3⟩, n0, n1, n2, n3⟩ := step_limits hX hY hs
  have hv : ∀ i j : Fin gridSize, keep i j → Visible pot X Y (linspace X j) (linspace Y i) := fun i j h => visible_iff.2 ⟨i, j, rfl, rfl, (hk i j).1 h⟩
  have hlt : ∀ {X x : ℝ}, 0 < X → x ∈ Grid X → X ≠ |x| → -X < x ∧ x < X := fun hX hx hn => abs_lt.1 (lt_of_le_of_ne (abs_grid_le hX hx) hn.symm)
  have g0 : xl.1 ∈ Grid X := mem_grid.2 ⟨j0, e0.symm⟩
  have g1 : xl.2 ∈ Grid X := mem_grid.2 ⟨j1, e1.symm⟩
  have g2 : yl.1 ∈ Grid Y := mem_grid.2 ⟨i2, e2.symm⟩
  have g3 : yl.2 ∈ Grid Y := mem_grid.2 ⟨i3, e3.symm⟩
  refine ⟨X, Y, ⟨_, _, hv _ _ k0⟩, ?_, ⟨(hlt hX g0 n0).1, ?_, (hlt hX g1 n1).2⟩, ⟨(hlt hY g2 n2).1, ?_, (hlt hY g3 n3).2⟩, ⟨_, e0 ▸ hv _ _ k0⟩, ⟨_, e1 ▸ hv _ _ k1⟩, ⟨_, e2 ▸ hv _ _ k2⟩, ⟨_, e3 ▸ hv _ _ k3⟩⟩
  · intro x y hxy
    obtain ⟨i, j, rfl, rfl, h⟩ := visible_iff.1 hxy
    obtain ⟨a, b, c, d⟩ := hin i j ((hk i j).2 h)
    exact ⟨⟨a, b⟩, c, d⟩
  · exact (hin _ _ k0).1.trans (hin _ _ k0).2.1
  · exact (hin _ _ k0).2.2.1.trans (hin _ _ k0).2.2.2

/-- C117: if on the first grid the potential is never `nan` or `-∞`, the density is positive somewhere and no point on the edge has more than a tenth of the largest density, `auto_axes_lims` ends, at the first call. -/
theorem C117_returns_partial {pot : ℝ → ℝ → Fl} (hfin : ∀ x ∈ Grid 10, ∀ y ∈ Grid 10, pot x y = .pinf ∨ ∃ u, pot x y = .fin u)
    (hpos : ∃ x ∈ Grid 10, ∃ y ∈ Grid 10, 0 < density2 pot x y) (hedge : ∀ x y, Visible pot 10 10 x y → |x| < 10 ∧ |y| < 10) : ∃ xl yl, AutoLims pot xl yl := by
  classical
  obtain ⟨x, hx, y, hy, hp⟩ := hpos
  obtain ⟨j, rfl⟩ := mem_grid.1 hx
  obtain ⟨i, rfl⟩ := mem_grid.1 hy
  obtain ⟨keep, hk, x0, x1, y0, y1, e0, e1, e2, e3, hs⟩ := step_cases (m := gridSize) (pot := pot) (X := 10) (Y := 10)
    (fun i j => hfin _ (mem_grid.2 ⟨j, rfl⟩) _ (mem_grid.2 ⟨i, rfl⟩)) ⟨i, j, hp⟩
  have hv : ∀ i j : Fin gridSize, keep i j → |(linspace 10 j : ℝ)| < 10 ∧ |(linspace 10 i : ℝ)| < 10 := fun i j h => hedge _ _ (visible_iff.2 ⟨i, j, rfl, rfl, (hk i j).1 h⟩)
  obtain ⟨⟨a0, k0⟩, -⟩ := findRow_up e0
  obtain ⟨⟨a1, k1⟩, -⟩ := findRow_down e1
  obtain ⟨⟨a2, k2⟩, -⟩ := findRow_up e2
  obtain ⟨⟨a3, k3⟩, -⟩ := findRow_down e3
  refine ⟨(linspace 10 x0, linspace 10 x1), (linspace 10 y0, linspace 10 y1), 1, ?_⟩
  unfold autoAxesLims
  rw [hs, if_neg]
  rintro ((h | h) | h | h)
  · exact (hv _ _ k0).1.ne h.symm
  · exact (hv _ _ k1).1.ne h.symm
  · exact (hv _ _ k2).2.ne h.symm
  · exact (hv _ _ k3).2.ne h.symm

/-- C117 fails: the limits have no margin. Every side of the frame passes through a point whose density exceeds a tenth of the largest (lines 85-87, which should widen the frame, change variables that are not used afterwards). -/
theorem C117_fails_margin {pot : ℝ → ℝ → Fl} {xl yl : ℝ × ℝ} (h : AutoLims pot xl yl) :
    ∃ X Y, (∃ y, Visible pot X Y xl.1 y) ∧ (∃ y, Visible pot X Y xl.2 y) ∧ (∃ x, Visible pot X Y x yl.1) ∧ ∃ x, Visible pot X Y x yl.2 := by
  obtain ⟨X, Y, -, -, -, -, h⟩ := C117_limits_partial h
  exact ⟨X, Y, h⟩

/-- C117 fails: for a flat potential the grid is doubled for ever. -/
theorem C117_fails_flat (c : ℝ) (fuel : ℕ) (X Y : ℝ) (hX : 0 < X) (hY : 0 < Y) : autoAxesLims (fun _ _ => .fin c) fuel X Y = none := by
  classical
  induction fuel generalizing X Y with
  | zero => rfl
  | succ fuel ih =>
    obtain ⟨keep, hk, x0, x1, y0, y1, e0, e1, e2, e3, hs⟩ := step_cases (m := gridSize) (pot := fun _ _ => .fin c) (X := X) (Y := Y)
      (fun i j => Or.inr ⟨c, rfl⟩) ⟨0, 0, Real.exp_pos _⟩
    have hall : ∀ i j, keep i j := by
      intro i j
      rw [hk]
      intro i' j'
      have := Real.exp_pos (-c)
      change Real.exp (-c) < 10 * Real.exp (-c)
      linarith
    have hx0 : x0 = 0 := by
      have := (findRow_up e0).2 0 0 (hall _ _)
      exact Fin.le_zero_iff.1 this
    have hy0 : y0 = 0 := by
      have := (findRow_up e2).2 0 0 (hall _ _)
      exact Fin.le_zero_iff.1 this
    have hl : ∀ L : ℝ, 0 < L → L = |(linspace L (0 : Fin gridSize) : ℝ)| := by
      intro L hL
      simp [linspace, abs_of_pos hL]
    unfold autoAxesLims
    rw [hs, if_pos (Or.inl (Or.inl (by rw [hx0]; exact hl X hX)))]
    dsimp only
    refine ih _ _ ?_ ?_ <;> split_ifs <;> linarith

/-- C117 fails: if the density vanishes at all points, the grid is shrunk for ever. -/
theorem C117_fails_zero (fuel : ℕ) (X Y : ℝ) : autoAxesLims (fun _ _ => .pinf) fuel X Y = none := by
  classical
  induction fuel generalizing X Y with
  | zero => rfl
  | succ fuel ih =>
    unfold autoAxesLims
    have : step gridSize (fun _ _ => .pinf) X Y = .again (X / 1.5) (Y / 1.5) := by
      unfold step
      dsimp only [vecPotential, Fl.neg, Fl.exp, toReal]
      rw [if_neg (by rintro ⟨_, _, h⟩; cases h), if_neg (by rintro ⟨_, _, h⟩; cases h), if_pos (by rw [Finset.sup'_const])]
    rw [this]
    exact ih _ _

/-- C117: the first `plot` (no axes, no limits given) draws in the limits of `auto_axes_lims`, and so does any with `recalc_axes`. -/
theorem C117_plot {pot : ℝ → ℝ → Fl} {fuel : ℕ} {x y : ℝ × ℝ} (h : autoAxesLims pot fuel 10 10 = some (.limits x y)) (o : Obj) (recalc : Bool) (ho : o.xlim = none ∨ recalc = true) :
    plotLims fuel o pot none none none recalc = some (⟨some x, some y⟩, x, y) := by
  unfold plotLims
  have : (o.xlim.isNone || recalc) = true := by rcases ho with h | h <;> simp [h]
  simp [this, h]

/-- C117: limits once found are kept: later plots use them whatever the potential is then, unless `recalc_axes` is set. -/
theorem C117_plot_keeps {pot : ℝ → ℝ → Fl} {fuel fuel' : ℕ} {x y : ℝ × ℝ} (h : autoAxesLims pot fuel 10 10 = some (.limits x y)) (pot' : ℝ → ℝ → Fl) :
    ∃ o, plotLims fuel ⟨none, none⟩ pot none none none false = some (o, x, y) ∧ plotLims fuel' o pot' none none none false = some (o, x, y) := by
  refine ⟨_, C117_plot h _ _ (Or.inl rfl), ?_⟩
  simp [plotLims]

/-- C117: axes passed by the caller keep their limits, and the scenario keeps its own. -/
theorem C117_plot_axes (pot : ℝ → ℝ → Fl) (fuel : ℕ) (o : Obj) (ax ay : ℝ × ℝ) (xlim ylim : Option (ℝ × ℝ)) (recalc : Bool) :
    plotLims fuel o pot (some (ax, ay)) xlim ylim recalc = some (o, ax, ay) := rfl

/-- C117: limits passed by the caller for both axes are used, and the scenario keeps its own. -/
theorem C117_plot_given (pot : ℝ → ℝ → Fl) (fuel : ℕ) (o : Obj) (x y : ℝ × ℝ) (recalc : Bool) :
    plotLims fuel o pot none (some x) (some y) recalc = some (o, x, y) := rfl

/-- C117: limits passed for one axis are used for it, with the limits of `auto_axes_lims` (found now or before) for the other. -/
theorem C117_plot_one_axis {pot : ℝ → ℝ → Fl} {fuel : ℕ} {x y : ℝ × ℝ} (h : autoAxesLims pot fuel 10 10 = some (.limits x y)) (o : Obj) (recalc : Bool) (ho : o.xlim = none ∨ recalc = true) (given : ℝ × ℝ) :
    plotLims fuel o pot none (some given) none recalc = some (⟨some x, some y⟩, given, y) ∧ plotLims fuel o pot none none (some given) recalc = some (⟨some x, some y⟩, x, given) ∧
      plotLims fuel ⟨some x, some y⟩ pot none (some given) none false = some (⟨some x, some y⟩, given, y) ∧ plotLims fuel ⟨some x, some y⟩ pot none none (some given) false = some (⟨some x, some y⟩, x, given) := by
  have : (o.xlim.isNone || recalc) = true := by rcases ho with h | h <;> simp [h]
  refine ⟨?_, ?_, ?_, ?_⟩ <;> simp [plotLims, this, h]

/-! ## Non-vacuity -/

/-- The standard normal potential. -/
noncomputable def pot2 (x y : ℝ) : Fl := .fin ((x ^ 2 + y ^ 2) / 2)

/-- The standard normal meets the hypotheses of `C117_returns_partial`, hence those of `C117_limits_partial` and `C117_plot`. -/
theorem pot2_returns : ∃ xl yl, AutoLims pot2 xl yl := by
  have hg : (10 / 99 : ℝ) ∈ Grid 10 := ⟨50, by norm_num, by norm_num⟩
  have hd : ∀ x y, density2 pot2 x y = Real.exp (-((x ^ 2 + y ^ 2) / 2)) := fun _ _ => rfl
  have hfar : ∀ x y : ℝ, 100 ≤ x ^ 2 + y ^ 2 → 10 * density2 pot2 x y < density2 pot2 (10 / 99) (10 / 99) := by
    intro x y h
    rw [hd, hd]
    have h1 : Real.exp (-((x ^ 2 + y ^ 2) / 2)) ≤ Real.exp (-50) := Real.exp_le_exp.2 (by linarith)
    have h2 : Real.exp (-1) ≤ Real.exp (-(((10 / 99 : ℝ) ^ 2 + (10 / 99) ^ 2) / 2)) := Real.exp_le_exp.2 (by norm_num)
    have h3 : (50 : ℝ) ≤ Real.exp 49 := by have := Real.add_one_le_exp (49 : ℝ); linarith
    have h4 : Real.exp (-1) = Real.exp 49 * Real.exp (-50) := by rw [← Real.exp_add]; norm_num
    have h5 := Real.exp_pos (-50)
    nlinarith
  refine C117_returns_partial (fun x _ y _ => Or.inr ⟨_, rfl⟩) ⟨_, hg, _, hg, Real.exp_pos _⟩ ?_
  rintro x y ⟨hx, hy, h⟩
  have hlt := h _ hg _ hg
  have : x ^ 2 + y ^ 2 < 100 := by
    by_contra hge
    exact absurd (hfar x y (not_lt.1 hge)) (not_lt.2 hlt.le)
  constructor
  · rw [abs_lt]; constructor <;> nlinarith [sq_nonneg y]
  · rw [abs_lt]; constructor <;> nlinarith [sq_nonneg x]

end Mocat.Props
