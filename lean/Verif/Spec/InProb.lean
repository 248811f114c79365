import Mathlib.MeasureTheory.Measure.Typeclasses.Probability
import Mathlib.Topology.Instances.ENNReal.Lemmas
/-!
# Specification: convergence in probability to a constant
-/
namespace Mocat.Spec
open MeasureTheory Filter Topology

/-- The quantities `f 0, f 1, ...`, each random on its own space, converge in probability to `c`: the probability of being outside a neighbourhood of `c` tends to 0. -/
def InProb {Ω : ℕ → Type*} [∀ n, MeasurableSpace (Ω n)] (μ : ∀ n, Measure (Ω n)) {V : Type*} [TopologicalSpace V] (f : ∀ n, Ω n → V) (c : V) : Prop :=
  ∀ U ∈ 𝓝 c, Tendsto (fun n => μ n {ω | f n ω ∉ U}) atTop (𝓝 0)

end Mocat.Spec
