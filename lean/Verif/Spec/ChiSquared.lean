import Mathlib.Probability.Distributions.Gaussian.Real
import Mathlib.MeasureTheory.Constructions.Pi

/-!
# Specification: the chi-squared distribution
-/

open MeasureTheory ProbabilityTheory

namespace Pyblp.Spec

/-- The chi-squared distribution with `k` degrees of freedom: that of the sum of squares of `k` independent standard normal variables. -/
noncomputable def chiSquared (k : ℕ) : Measure ℝ := (Measure.pi fun _ : Fin k => gaussianReal 0 1).map fun z => ∑ j, z j ^ 2

end Pyblp.Spec
