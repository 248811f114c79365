import Verif.Model.Plots
import Verif.Props.Metrics
/-!
# C152: plots show the values they are asked to show
-/
namespace Mocat.Props
open Mocat Mocat.Metrics Mocat.Plots

/-! ## Specification -/

/-- The one-dimensional series a trace or autocorrelation plot is about: the array itself, or the potentials of a sample. -/
inductive IsSeries : Sample → List ℝ → Prop
  | array (v) : IsSeries (.array (.one v)) v
  | potential (x v) : IsSeries (.cdict x (some (.one v))) v

/-- The rows a scatter plot or histogram is about: those of a matrix, or those of all ensembles one after another. -/
inductive ShowsRows {d : ℕ} : Sample → List (Fin d → ℝ) → Prop
  | array (v) : ShowsRows (.array (.two d v)) v
  | arrays (v) : ShowsRows (.array (.three d v)) v.flatten
  | value (v p) : ShowsRows (.cdict (some (.two d v)) p) v
  | values (v p) : ShowsRows (.cdict (some (.three d v)) p) v.flatten

/-- The plotting function made these calls and no others: on a new figure if no axis was given, otherwise after those already made on the given axis. -/
def DrawnOn (out : Option Out) (ax : Option Axis) (calls : List Draw) : Prop :=
  (ax = none → out = some (.figure calls)) ∧ ∀ a, ax = some a → out = some (.given (a ++ calls))

/-- The height of the bar at position `x`. -/
def barAt : List Draw → ℕ → Option ℝ
  | .bar xs hs :: _, x => ((xs.zip hs).find? fun p => p.1 == x).map Prod.snd
  | _ :: l, x => barAt l x
  | [], _ => none

/-! ## C152 -/

theorem drawnOn_metricPlot (c : List Draw) (ax : Option Axis) : DrawnOn (metricPlot (some c) ax) ax c :=
  ⟨fun h => by subst h; simp [metricPlot], fun a h => by subst h; simp [metricPlot]⟩

theorem extract1d_of {s : Sample} {v : List ℝ} (h : IsSeries s v) : extract1d s = some v := by
  cases h <;> rfl

/-- C152: `trace_plot` draws the whole series, or its last `last_n` values when it has that many. It also draws the whole series when `last_n` is at least twice its length. -/
theorem C152_trace_partial {s : Sample} {v : List ℝ} (h : IsSeries s v) (lastN : Option ℕ) (hl : ∀ k ∈ lastN, k ≤ v.length ∨ 2 * v.length ≤ k) (ax : Option Axis) :
    ∃ shown, DrawnOn (tracePlot s lastN ax) ax [.plot shown] ∧ shown <:+ v ∧ shown.length = min (lastN.getD v.length) v.length := by
  unfold tracePlot
  rw [extract1d_of h]
  refine ⟨_, drawnOn_metricPlot _ ax, ?_⟩
  cases lastN with
  | none => simp [sliceFrom]
  | some k =>
    simp only [sliceFrom, Option.getD_some]
    rcases hl k rfl with hk | hk
    · rw [if_neg (by omega)]
      exact ⟨List.drop_suffix _ _, by rw [List.length_drop]; omega⟩
    · by_cases hv : v.length = 0
      · rw [List.eq_nil_of_length_eq_zero hv]
        simp
      · rw [if_pos (by omega)]
        exact ⟨List.drop_suffix _ _, by rw [List.length_drop]; omega⟩

/-- C152, what fails: asked for more values than there are, `trace_plot` shows fewer than there are, namely the last `last_n - len`. -/
theorem C152_trace_fails {s : Sample} {v : List ℝ} (h : IsSeries s v) (k : ℕ) (h1 : v.length < k) (h2 : k < 2 * v.length) (ax : Option Axis) :
    ∃ shown, DrawnOn (tracePlot s (some k) ax) ax [.plot shown] ∧ shown <:+ v ∧ shown.length = k - v.length ∧ shown.length < v.length := by
  unfold tracePlot
  rw [extract1d_of h]
  refine ⟨_, drawnOn_metricPlot _ ax, ?_⟩
  have e : (v.length : ℤ) - (k : ℤ) < 0 := by omega
  simp only [sliceFrom, if_pos e]
  refine ⟨List.drop_suffix _ _, ?_, ?_⟩ <;> rw [List.length_drop] <;> omega

theorem bar_position (hs : List ℝ) (k : ℕ) : (((List.range hs.length).map fun k => 1 + k).zip hs).find? (fun p => p.1 == k + 1) = hs[k]?.map fun a => (k + 1, a) := by
  have key : ∀ (hs : List ℝ) (o : ℕ), (((List.range' o hs.length).map fun k => 1 + k).zip hs).find? (fun p => p.1 == o + k + 1) = hs[k]?.map fun a => (o + k + 1, a) := by
    induction k with
    | zero =>
      intro hs o
      cases hs with
      | nil => rfl
      | cons a hs => simp [List.range'_succ, Nat.add_comm]
    | succ k ih =>
      intro hs o
      cases hs with
      | nil => rfl
      | cons a hs =>
        have := ih hs (o + 1)
        simp only [List.length_cons, List.range'_succ, List.map_cons, List.zip_cons_cons, List.getElem?_cons_succ]
        rw [List.find?_cons_of_neg (by simp; omega), show o + (k + 1) + 1 = o + 1 + k + 1 by omega]
        exact this
  have := key hs 0
  rwa [← List.range_eq_range', Nat.zero_add] at this

/-- C152: `autocorrelation_plot` draws one bar for every lag evaluated. The bar of lag `k` stands at `k + 1`. -/
theorem C152_autocorrelation_partial {s : Sample} {v : List ℝ} (h : IsSeries s v) (maxPlot maxEval : ℕ) (ax : Option Axis) :
    ∃ calls, DrawnOn (autocorrelationPlot s maxPlot maxEval ax) ax calls ∧ .xlim 0 maxPlot ∈ calls ∧ ∀ k, barAt calls (k + 1) = (autocorrelation v maxEval)[k]? := by
  unfold autocorrelationPlot
  rw [extract1d_of h]
  refine ⟨_, drawnOn_metricPlot _ ax, by simp, fun k => ?_⟩
  simp only [barAt]
  rw [bar_position, Option.map_map]
  simp [Function.comp_def]

theorem no_bar_zero (hs : List ℝ) : (((List.range hs.length).map fun k => 1 + k).zip hs).find? (fun p => p.1 == 0) = none := by
  rw [List.find?_eq_none]
  rintro ⟨x, y⟩ hp
  obtain ⟨k, -, rfl⟩ := List.mem_map.1 (List.of_mem_zip hp).1
  simp

/-- C152, what fails: bars are not at their lags. At position 0 there is none, and at position 1 the one of lag 0: of height 1 for this series, of which the autocorrelation at lag 1 is 0. -/
theorem C152_autocorrelation_shifted_fails (maxPlot : ℕ) (ax : Option Axis) :
    ∃ calls, DrawnOn (autocorrelationPlot (.array (.one [1, 0, 0, 1])) maxPlot 2 ax) ax calls ∧ barAt calls 0 = none ∧ barAt calls 1 = some 1 ∧ (autocorrelation [1, 0, 0, 1] 2)[1]? = some 0 := by
  unfold autocorrelationPlot
  rw [extract1d_of (.array [1, 0, 0, 1])]
  refine ⟨_, drawnOn_metricPlot _ ax, ?_, ?_, by rw [C34_wraps.1]; rfl⟩
  · simp only [barAt]
    rw [no_bar_zero]
    rfl
  · simp only [barAt]
    rw [bar_position _ 0, C34_wraps.1]
    rfl

theorem rows_of {d : ℕ} {s : Sample} {rows : List (Fin d → ℝ)} (h : ShowsRows s rows) : ∃ a, extractValue s = some a ∧ (a = .two d rows ∨ ∃ v, a = .three d v ∧ rows = v.flatten) := by
  cases h with
  | array v => exact ⟨_, rfl, .inl rfl⟩
  | arrays v => exact ⟨_, rfl, .inr ⟨v, rfl, rfl⟩⟩
  | value v p => exact ⟨_, rfl, .inl rfl⟩
  | values v p => exact ⟨_, rfl, .inr ⟨v, rfl, rfl⟩⟩

/-- C152: `plot_2d_samples` draws, for every row in order, the two coordinates asked for. -/
theorem C152_scatter {d : ℕ} (hd : d ≠ 1) {s : Sample} {rows : List (Fin d → ℝ)} (h : ShowsRows s rows) (i j : Fin d) (size : ℝ) (ax : Option Axis) :
    DrawnOn (plot2d s i j size ax) ax [.scatter (rows.map fun x => x i) (rows.map fun x => x j) size] := by
  obtain ⟨a, e, ha⟩ := rows_of h
  unfold plot2d
  rw [e]
  rcases ha with rfl | ⟨v, rfl, rfl⟩
  · simp only [Option.bind_some, if_neg hd, dif_pos (⟨i.2, j.2⟩ : (i : ℕ) < d ∧ (j : ℕ) < d)]
    exact drawnOn_metricPlot _ ax
  · simp only [Option.bind_some, if_neg hd, dif_pos (⟨i.2, j.2⟩ : (i : ℕ) < d ∧ (j : ℕ) < d)]
    exact drawnOn_metricPlot _ ax

/-- C152: samples of dimension one are refused. -/
theorem C152_scatter_refuses (size : ℝ) (i j : ℕ) (ax : Option Axis) :
    (∀ v, plot2d (.array (.one v)) i j size ax = none) ∧ ∀ s (rows : List (Fin 1 → ℝ)), ShowsRows s rows → plot2d s i j size ax = none := by
  have hn : metricPlot none ax = none := by cases ax <;> rfl
  refine ⟨fun v => hn, fun s rows h => ?_⟩
  obtain ⟨a, e, ha⟩ := rows_of h
  unfold plot2d
  rw [e]
  rcases ha with rfl | ⟨v, rfl, rfl⟩ <;> exact hn

/-- C152: `hist_1d_samples` counts the coordinate asked for of every row; a one-dimensional array is a list of rows with one coordinate. -/
theorem C152_hist {d : ℕ} {s : Sample} {rows : List (Fin d → ℝ)} (h : ShowsRows s rows) (i : Fin d) (bins : ℕ) (density : Bool) (ax : Option Axis) :
    DrawnOn (hist1d s i bins density ax) ax [.hist (rows.map fun x => x i) bins density] ∧ ∀ v, DrawnOn (hist1d (.array (.one v)) 0 bins density ax) ax [.hist v bins density] := by
  constructor
  · obtain ⟨a, e, ha⟩ := rows_of h
    unfold hist1d
    rw [e]
    rcases ha with rfl | ⟨v, rfl, rfl⟩
    · simp only [Option.bind_some, dif_pos i.2]
      exact drawnOn_metricPlot _ ax
    · simp only [Option.bind_some, dif_pos i.2]
      exact drawnOn_metricPlot _ ax
  · intro v
    have := drawnOn_metricPlot [.hist v bins density] ax
    simpa [hist1d, extractValue, Function.comp_def] using this

/-- C152: a series with more than one axis, and a sample without the attribute to be plotted, are refused. -/
theorem C152_series_refuses (s : Sample) (h : ∀ v, ¬ IsSeries s v) (ax : Option Axis) :
    (∀ k, tracePlot s k ax = none) ∧ ∀ m e, autocorrelationPlot s m e ax = none := by
  have hn : extract1d s = none := by
    rcases s with (v | ⟨d, v⟩ | ⟨d, v⟩) | ⟨x, _ | (v | ⟨d, v⟩ | ⟨d, v⟩)⟩ <;> first | rfl | exact absurd (IsSeries.array v) (h v) | exact absurd (IsSeries.potential x v) (h v)
  have hm : metricPlot none ax = none := by cases ax <;> rfl
  exact ⟨fun k => by rw [tracePlot, hn]; exact hm, fun m e => by rw [autocorrelationPlot, hn]; exact hm⟩

/-- The hypotheses are met: an ensemble of two chains, and its potentials. -/
example : DrawnOn (plot2d (.cdict (some (.three 2 [[![1, 2], ![3, 4]], [![5, 6], ![7, 8]]])) (some (.one [1, 0, 0, 1]))) 1 0 2 (some [.xlim 0 1]))
      (some [.xlim 0 1]) [.scatter [2, 4, 6, 8] [1, 3, 5, 7] 2] ∧
    ∃ shown, DrawnOn (tracePlot (.cdict none (some (.one [1, 2, 3, 4]))) (some 3) none) none [.plot shown] ∧ shown <:+ [1, 2, 3, 4] ∧ shown.length = 3 := by
  refine ⟨by simpa using C152_scatter (by decide) (.values [[![1, 2], ![3, 4]], [![5, 6], ![7, 8]]] _) (1 : Fin 2) 0 2 _, ?_⟩
  exact C152_trace_partial (.potential none [1, 2, 3, 4]) (some 3) (fun k hk => by cases hk; simp) none

end Mocat.Props
