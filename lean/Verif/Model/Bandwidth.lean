import Verif.Model.Svgd
import Mathlib.Data.List.Sort
/-!
# The median rule for the bandwidth (kernels.py 220-224)

The mean rule is `Svgd.meanBandwidth`.
-/
namespace Mocat.Bandwidth
open Mocat Mocat.Svgd

variable {n d : ℕ}

/-- utils.py 437-439, `l2_distance_matrix`, flattened as by `jnp.median`. -/
noncomputable def distances (vals : Fin n → Fin d → ℝ) : List ℝ := (List.ofFn fun i => List.ofFn fun j => l2Distance (vals i) (vals j)).flatten

/-- Library: `jnp.median` of the entries of a finite array: the middle entry after sorting, or the mean of the two middle entries. -/
noncomputable def median (l : List ℝ) : ℝ :=
  ((l.insertionSort (· ≤ ·)).getD ((l.length - 1) / 2) 0 + (l.insertionSort (· ≤ ·)).getD (l.length / 2) 0) / 2

/-- kernels.py 220-224, `median_bandwidth_update` -/
noncomputable def medianBandwidth (vals : Fin n → Fin d → ℝ) : Fl := fdiv (median (distances vals)) (Real.sqrt (2 * Real.log n))

end Mocat.Bandwidth
