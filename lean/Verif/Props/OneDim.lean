import Verif.Model.OneDim
import Verif.Model.ToyExamples
import Mathlib.Tactic.NormNum
import Mathlib.Tactic.Ring
/-!
# C129: one-dimensional scenarios accept a float, an array with one entry, or many points at once
-/
namespace Mocat.Props
open Mocat Mocat.OneDim

variable {K : Type*}

/-! ## Specification -/

/-- `f` evaluates the rows of a column of points one by one: `g` on each. -/
def RowWise (f : Pot K) (g : ℝ → K → ℝ) : Prop := ∀ (l : List ℝ) (k : K), f ⟨[l.length, 1], l⟩ k = ⟨[l.length], l.map (g · k)⟩

/-- A column of values, as the potentials of the points in `l` should be returned: a number for one point, an array of shape `[n]` otherwise. -/
def Values (l : List ℝ) : Arr := if l.length = 1 then ⟨[], l⟩ else ⟨[l.length], l⟩

/-! ## The cleaned function -/

theorem column_atleast1d {x : Arr} (hx : x.Valid) : column (atleast1d x) = ⟨[x.data.length, 1], x.data⟩ := by
  unfold atleast1d column
  rw [hx]
  split_ifs with h
  · simp [h]
  · rfl

/-- C129: whatever the shape in which points are given, the cleaned function of a row-wise potential returns their potentials in order. -/
theorem C129_clean {f : Pot K} {g : ℝ → K → ℝ} (hf : RowWise f g) {x : Arr} (hx : x.Valid) (k : K) : clean f x k = Values (x.data.map (g · k)) := by
  unfold clean
  rw [column_atleast1d hx, hf]
  unfold squeeze Values
  by_cases h : x.data.length = 1 <;> simp [h]

/-- C129: a point given as a float, as an array of one entry or as a one by one array has the same potential, a number (as differentiation needs). -/
theorem C129_point {f : Pot K} {g : ℝ → K → ℝ} (hf : RowWise f g) (r : ℝ) (k : K) :
    clean f (float r) k = float (g r k) ∧ clean f ⟨[1], [r]⟩ k = float (g r k) ∧ clean f ⟨[1, 1], [r]⟩ k = float (g r k) := by
  refine ⟨?_, ?_, ?_⟩ <;> rw [C129_clean hf (by simp [Arr.Valid, float])] <;> rfl

theorem add_values {l l' : List ℝ} (h : l.length = l'.length) : OneDim.add (Values l) (Values l') = some (Values (List.zipWith (· + ·) l l')) := by
  unfold Values OneDim.add
  rw [List.length_zipWith, ← h, min_self]
  by_cases h1 : l.length = 1
  · simp [h1]
  · simp [h1]

theorem scale_values (t : ℝ) (l : List ℝ) : scale t (Values l) = Values (l.map (t * ·)) := by
  unfold scale Values
  rw [List.length_map]
  split_ifs <;> rfl

theorem add_zero_values (l : List ℝ) : OneDim.add (float 0) (Values l) = some (Values l) := by
  unfold OneDim.add Values float
  by_cases h1 : l.length = 1
  · obtain ⟨r, rfl⟩ := List.length_eq_one_iff.mp h1
    simp
  · simp [h1]

/-- C129, for the functions given at construction (missing: functions assigned later, see `C129_fails_assigned`): the potential of a one-dimensional scenario built from row-wise functions is prior plus temperature times likelihood, point by point. The prior may be left out (then it is
zero), `potential` may be given instead of `likelihood_potential`, the temperature is one unless given. -/
theorem C129_potential_partial {u : Spec K} (hdim : u.dim = 1) {fl : Pot K} {gl : ℝ → K → ℝ} (hl : u.lik = some fl ∨ u.lik = none ∧ u.pot = some fl) (hfl : RowWise fl gl) {gp : ℝ → K → ℝ}
    (hp : (∃ fp, u.prior = some fp ∧ RowWise fp gp) ∨ u.prior = none ∧ gp = fun _ _ => 0) {x : Arr} (hx : x.Valid) (k : K) :
    ∃ s, construct u = some s ∧ s.potential x k = some (Values (x.data.map fun r => gp r k + u.temp.getD 1 * gl r k)) := by
  have hc : construct u = some ⟨(u.prior.map clean).getD fun _ _ => float 0, clean fl, u.temp.getD 1⟩ := by
    unfold construct
    simp only [hdim, if_true]
    rcases hl with h | ⟨h, h'⟩
    · simp [h]
    · simp [h, h']
  refine ⟨_, hc, ?_⟩
  simp only [Scen.potential]
  rw [C129_clean hfl hx, scale_values, List.map_map]
  rcases hp with ⟨fp, h, hfp⟩ | ⟨h, rfl⟩
  · rw [h, Option.map_some, Option.getD_some, C129_clean hfp hx, add_values (by simp), List.zipWith_map_left, List.zipWith_map_right, List.zipWith_self]
    rfl
  · rw [h, Option.map_none, Option.getD_none, add_zero_values]
    simp [Function.comp_def]

/-! ## The library's double well -/

theorem sumLast_column (l : List ℝ) : sumLast ⟨[l.length, 1], l⟩ = ⟨[l.length], l⟩ := by
  simp only [sumLast, mul_one, Arr.mk.injEq, true_and]
  refine List.ext_getElem (by simp) fun i h1 h2 => ?_
  simp [List.take_one_drop_eq_of_lt_length (show i < l.length from h2)]

/-- C129: the double well of the library is row-wise. -/
theorem C129_doubleWell : RowWise (fun x (_ : K) => doubleWellArr x) fun r _ => ToyExamples.doubleWell fun _ : Fin 1 => r := by
  intro l k
  have h : ∀ f : ℝ → ℝ, sumLast (entries f ⟨[l.length, 1], l⟩) = ⟨[l.length], l.map f⟩ := by
    intro f
    have := sumLast_column (l.map f)
    rwa [List.length_map] at this
  simp only [doubleWellArr, h]
  simp only [entries, List.map_map, Arr.mk.injEq, true_and]
  rw [List.zipWith_map_left, List.zipWith_map_right, List.zipWith_self]
  simp [ToyExamples.doubleWell]

/-- Non-vacuity: the double well at temperature 2 at the points 0, 1, 2 given as an array of shape [3], and at the float 2. -/
example : ∃ s, construct (K := Unit) { dim := 1, lik := some fun x _ => doubleWellArr x, temp := some 2 } = some s ∧
    s.potential ⟨[3], [0, 1, 2]⟩ () = some ⟨[3], [0, -1 / 2, 4]⟩ ∧ s.potential (float 2) () = some (float 4) := by
  obtain ⟨s, hs, h⟩ := C129_potential_partial (u := { dim := 1, lik := some fun x (_ : Unit) => doubleWellArr x, temp := some 2 }) rfl (.inl rfl) C129_doubleWell (.inr ⟨rfl, rfl⟩)
    (x := ⟨[3], [0, 1, 2]⟩) (by simp [Arr.Valid]) ()
  obtain ⟨s', hs', h'⟩ := C129_potential_partial (u := { dim := 1, lik := some fun x (_ : Unit) => doubleWellArr x, temp := some 2 }) rfl (.inl rfl) C129_doubleWell (.inr ⟨rfl, rfl⟩)
    (x := float 2) (by simp [Arr.Valid, float]) ()
  obtain rfl : s = s' := by rw [hs] at hs'; exact Option.some.inj hs'
  refine ⟨s, hs, ?_, ?_⟩
  · rw [h]
    simp only [Values, ToyExamples.doubleWell]
    norm_num
  · rw [h']
    simp only [Values, ToyExamples.doubleWell, float]
    norm_num

/-! ## Where it fails -/

/-- C129 fails for a potential written with `jnp.sum(x ** 2)`: at two points it returns one number, the sum of the two potentials, though at one point it is right. -/
theorem C129_fails_sum (k : K) (r r' : ℝ) : clean (fun x (_ : K) => float (x.data.map (· ^ 2)).sum) (float r) k = float (r ^ 2) ∧
    clean (fun x (_ : K) => float (x.data.map (· ^ 2)).sum) ⟨[2], [r, r']⟩ k = float (r ^ 2 + r' ^ 2) := by
  constructor <;> simp [clean, squeeze, column, atleast1d, float]

/-- C129 fails for a likelihood potential assigned after construction: it is not cleaned. The double well, assigned to a scenario that already had it, sums the points it is given. -/
theorem C129_fails_assigned : ∃ s, construct (K := Unit) { dim := 1, lik := some fun x _ => doubleWellArr x } = some s ∧
    s.potential ⟨[2], [2, 2]⟩ () = some ⟨[2], [2, 2]⟩ ∧ (s.setLik fun x _ => doubleWellArr x).potential ⟨[2], [2, 2]⟩ () = some (float 4) := by
  obtain ⟨s, hs, h⟩ := C129_potential_partial (u := { dim := 1, lik := some fun x (_ : Unit) => doubleWellArr x }) rfl (.inl rfl) C129_doubleWell (.inr ⟨rfl, rfl⟩)
    (x := ⟨[2], [2, 2]⟩) (by simp [Arr.Valid]) ()
  refine ⟨s, hs, ?_, ?_⟩
  · rw [h]
    simp only [Values, ToyExamples.doubleWell]
    norm_num
  · obtain ⟨rfl⟩ : s = ⟨fun _ _ => float 0, clean fun x _ => doubleWellArr x, 1⟩ := by
      simp only [construct] at hs
      exact (Option.some.inj hs).symm
    simp only [Scen.potential, Scen.setLik, doubleWellArr, entries, sumLast, scale, OneDim.add, float]
    norm_num

end Mocat.Props
