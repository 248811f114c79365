import Verif.Model.Metrics
import Mathlib.Data.Fin.VecNotation
/-!
# What the plotting functions of `mocat/src/metrics.py` draw (lines 22-26 and 134-206)

Matplotlib is not modelled: an axis is the list of the drawing calls made on it. `none` as a result: the call raises.
-/
namespace Mocat.Plots
open Mocat Mocat.Metrics

/-- An array with one, two or three axes; the last axis of the latter two has `d` entries. -/
inductive Arr
  | one (v : List ℝ)
  | two (d : ℕ) (v : List (Fin d → ℝ))
  | three (d : ℕ) (v : List (List (Fin d → ℝ)))

/-- The argument `sample`: an array, or a `cdict` of which the plots read `value` and `potential`. -/
inductive Sample
  | array (a : Arr)
  | cdict (value potential : Option Arr)

/-- metrics.py 22-26, `extract_1d_vals` -/
def extract1d : Sample → Option (List ℝ)
  | .array (.one v) => some v
  | .cdict _ (some (.one v)) => some v
  | _ => none

/-- `vals = sample.value if isinstance(sample, cdict) else sample` (metrics.py 181, 198) -/
def extractValue : Sample → Option Arr
  | .array a => some a
  | .cdict v _ => v

/-- One call on an axis. -/
inductive Draw
  | bar (xs : List ℕ) (heights : List ℝ)
  | xlim (lo hi : ℝ)
  | plot (ys : List ℝ)
  | scatter (xs ys : List ℝ) (size : ℝ)
  | hist (vals : List ℝ) (bins : ℕ) (density : Bool)

/-- An axis: the calls made on it so far. -/
abbrev Axis := List Draw

/-- The result of a plotting function: a new figure and axis, or the axis that was given. -/
inductive Out
  | figure (ax : Axis)
  | given (ax : Axis)

/-- metrics.py 133-145, `metric_plot`; `draw` is what the decorated function does to its axis. -/
def metricPlot (draw : Option (List Draw)) (ax : Option Axis) : Option Out :=
  match ax with
  | none => draw.map fun c => .figure ([] ++ c)
  | some a => draw.map fun c => .given (a ++ c)

/-- metrics.py 148-158, `autocorrelation_plot` -/
noncomputable def autocorrelationPlot (sample : Sample) (maxLagPlot maxLagEval : ℕ) (ax : Option Axis) : Option Out :=
  metricPlot ((extract1d sample).map fun vals =>
    let autocor := autocorrelation vals maxLagEval
    [.bar ((List.range autocor.length).map fun k => 1 + k) autocor, .xlim 0 maxLagPlot]) ax

/-- Python's `l[start:]` -/
def sliceFrom {α : Type*} (l : List α) (start : ℤ) : List α :=
  if start < 0 then l.drop ((l.length : ℤ) + start).toNat else l.drop start.toNat

/-- metrics.py 161-172, `trace_plot` -/
def tracePlot (sample : Sample) (lastN : Option ℕ) (ax : Option Axis) : Option Out :=
  metricPlot ((extract1d sample).map fun vals =>
    let start : ℤ := match lastN with
      | none => 0
      | some k => (vals.length : ℤ) - k
    [.plot (sliceFrom vals start)]) ax

/-- metrics.py 175-189, `plot_2d_samples`. Indices `dim1`, `dim2` that do not exist are not modelled (`none`). -/
def plot2d (sample : Sample) (dim1 dim2 : ℕ) (s : ℝ) (ax : Option Axis) : Option Out :=
  let points (d : ℕ) (v : List (Fin d → ℝ)) : Option (List Draw) :=
    if d = 1 then none
    else if h : dim1 < d ∧ dim2 < d then some [.scatter (v.map fun x => x ⟨dim1, h.1⟩) (v.map fun x => x ⟨dim2, h.2⟩) s] else none
  metricPlot ((extractValue sample).bind fun vals =>
    match vals with
    | .one _ => none
    | .two d v => points d v
    | .three d v => points d v.flatten) ax

/-- metrics.py 192-206, `hist_1d_samples`. An index `dim` that does not exist is not modelled (`none`). -/
def hist1d (sample : Sample) (dim bins : ℕ) (density : Bool) (ax : Option Axis) : Option Out :=
  let column (d : ℕ) (v : List (Fin d → ℝ)) : Option (List Draw) :=
    if h : dim < d then some [.hist (v.map fun x => x ⟨dim, h⟩) bins density] else none
  metricPlot ((extractValue sample).bind fun vals =>
    match vals with
    | .one v => column 1 (v.map fun x _ => x)
    | .two d v => column d v
    | .three d v => column d v.flatten) ax

end Mocat.Plots
