import Mathlib.Probability.Distributions.Exponential
import Mathlib.MeasureTheory.Constructions.Pi
import Mathlib.Analysis.SpecialFunctions.Pow.Real

/-! What it means for consumers to maximize utility when their tastes for alternatives are independent and have type I extreme
value distributions. -/

namespace Pyblp
namespace Spec
open MeasureTheory ProbabilityTheory

variable {J : Type}

/-- The standard type I extreme value (Gumbel) distribution: the law of minus the log of a standard exponential variable.
`C148_gumbel` says that its distribution function is `exp (-exp (-x))`. -/
noncomputable def gumbel : Measure ℝ := (expMeasure 1).map fun x => -Real.log x

/-- Independent Gumbel tastes for all products and for the outside option `none`. -/
noncomputable def gumbelTastes (J : Type) [Fintype J] : Measure (Option J → ℝ) := Measure.pi fun _ => gumbel

/-- Utility from an alternative: `v j` for product `j` and zero for the outside option, plus a taste times its scale. -/
def tasteUtility (v : J → ℝ) (scale : ℝ) (taste : Option J → ℝ) : Option J → ℝ
  | some j => v j + scale * taste (some j)
  | none => 0 + scale * taste none

/-- A consumer who can choose from a menu chooses `c`: it is on the menu and better than everything else on it. -/
def Chooses (menu : Finset (Option J)) (v : J → ℝ) (scale : ℝ) (c : Option J) (taste : Option J → ℝ) : Prop :=
  c ∈ menu ∧ ∀ d ∈ menu, d ≠ c → tasteUtility v scale taste d < tasteUtility v scale taste c

/-- The utility of a consumer who chooses the best alternative on a menu. -/
noncomputable def bestUtility (menu : Finset (Option J)) (h : menu.Nonempty) (v : J → ℝ) (scale : ℝ) (taste : Option J → ℝ) : ℝ :=
  menu.sup' h (tasteUtility v scale taste)

/-- The function that generates a nested logit model with dissimilarity `1 - rho h` in group `h`, for a set of alternatives and minus
arguments of the distribution function. -/
noncomputable def nestedGenerator {G : Type} [Fintype J] [DecidableEq J] [Fintype G] [DecidableEq G] (group : J → G) (rho : G → ℝ)
    (alternatives : Finset (Option J)) (x : Option J → ℝ) : ℝ :=
  (if none ∈ alternatives then Real.exp (x none) else 0) +
    ∑ h, (∑ j with group j = h, if some j ∈ alternatives then Real.exp (x (some j) / (1 - rho h)) else 0) ^ (1 - rho h)

/-- Tastes of a nested logit model: the joint distribution function of tastes for any set of alternatives is the generalized extreme
value one. Without nesting it would be a product of `exp (-exp (-x))`. -/
structure NestedTastes {G : Type} [Fintype J] [DecidableEq J] [Fintype G] [DecidableEq G] (group : J → G) (rho : G → ℝ)
    (law : Measure (Option J → ℝ)) : Prop where
  probability : IsProbabilityMeasure law
  cdf : ∀ (alternatives : Finset (Option J)) (x : Option J → ℝ), law.real {taste | ∀ c ∈ alternatives, taste c ≤ x c} =
    Real.exp (-nestedGenerator group rho alternatives fun c => -x c)

end Spec
end Pyblp
