import Mathlib.MeasureTheory.Constructions.Pi
import Mathlib.MeasureTheory.Measure.Lebesgue.Basic
import Mathlib.Probability.Distributions.Gaussian.Real
import Mathlib.Probability.Independence.Basic

/-!
# Specification: even spread of points in a cube
-/

open MeasureTheory ProbabilityTheory

namespace Pyblp.Spec

/-- A box in the unit cube whose edge in dimension `j` is the interval number `a j` of `m j` intervals of equal length. -/
def box {d : ℕ} (m a : Fin d → ℕ) : Set (Fin d → ℝ) := {x | ∀ j, (a j : ℝ) / m j ≤ x j ∧ x j < ((a j : ℝ) + 1) / m j}

/-- The uniform distribution on the unit cube. -/
noncomputable abbrev uniformCube (d : ℕ) : Measure (Fin d → ℝ) := Measure.pi fun _ => volume.restrict (Set.Ico (0 : ℝ) 1)

/-- Independent standard normal variables. -/
noncomputable abbrev normalNodes (d : ℕ) : Measure (Fin d → ℝ) := Measure.pi fun _ => gaussianReal 0 1

/-- The quantile function of the standard normal distribution. -/
def NormalQuantile (ppf : ℝ → ℝ) : Prop := ∀ u, 0 < u → u < 1 → (gaussianReal 0 1).real (Set.Iic (ppf u)) = u

/-- Random numbers for Latin Hypercube Sampling: in each dimension, a permutation that is equally likely to be any, and uniform numbers that are independent of it.
Dimensions are independent. Uniform numbers of a dimension can depend on each other, as they do when they are all the same. -/
structure LatinDraws {Ω : Type} [MeasurableSpace Ω] (P : Measure Ω) {d size : ℕ} (permutations : Ω → Fin d → Fin size → Fin size)
    (uniform : Ω → Fin d → Fin size → ℝ) : Prop where
  permutations_measurable : ∀ j, Measurable fun ω => permutations ω j
  uniform_measurable : ∀ j, Measurable fun ω => uniform ω j
  equally_likely : ∀ j (σ : Equiv.Perm (Fin size)), P.real {ω | permutations ω j = σ} = 1 / (size.factorial : ℝ)
  uniform_law : ∀ j i, P.map (fun ω => uniform ω j i) = volume.restrict (Set.Ico (0 : ℝ) 1)
  independent : ∀ j, IndepFun (fun ω => permutations ω j) (fun ω => uniform ω j) P
  dimensions : iIndepFun (fun j ω => (permutations ω j, uniform ω j)) P

end Pyblp.Spec
