import Mathlib.LinearAlgebra.Matrix.PosDef
import Mathlib.Probability.Distributions.Gaussian.Real
import Mathlib.MeasureTheory.Constructions.Pi

/-!
# Specification: bootstrapped distributions
-/

open MeasureTheory ProbabilityTheory

namespace Pyblp.Spec

/-- Independent standard normal variables. -/
noncomputable abbrev normals (P : Type) [Fintype P] : Measure (P → ℝ) := Measure.pi fun _ => gaussianReal 0 1

/-- The variance of a linear function of variables with a covariance matrix. -/
noncomputable def functionVariance {P : Type} [Fintype P] [DecidableEq P] (V : Matrix P P ℝ) (f : (P → ℝ) → ℝ) : ℝ :=
  ∑ p, ∑ p', f (Pi.single p 1) * V p p' * f (Pi.single p' 1)

/-- What is computed from covariance matrices before standard normal variables are multiplied by it is a root. -/
def ComputesRoots {P : Type} [Fintype P] (root : Matrix P P ℝ → Matrix P P ℝ) : Prop := ∀ V, V.PosSemidef → (root V).transpose * root V = V

end Pyblp.Spec
