import Mathlib.Analysis.SpecialFunctions.Pow.Real
import Mathlib.Data.Fintype.BigOperators

/-!
# Specification of logit and nested logit choice probabilities

Textbook formulas for one consumer, as in docs/background.rst (equations `probabilities`, `nested_probabilities` and
`inclusive_value`). `a j` multiplies the exponentiated utility of `j` (one for a product in the choice set, zero for one that is
not), `o` is one when the outside option is in the choice set and zero when it is not.
Nothing here refers to the model of the code.
-/

namespace Pyblp.Spec

variable {J G : Type} [Fintype J] [Fintype G] [DecidableEq G]

/-- Plain logit probability of `j`. -/
noncomputable def logit (v a : J → ℝ) (o : ℝ) (j : J) : ℝ :=
  a j * Real.exp (v j) / (o + ∑ k, a k * Real.exp (v k))

/-- `∑_{k in h} a_k exp(v_k / (1 - ρ_h))`. -/
noncomputable def groupSum (group : J → G) (rho : G → ℝ) (v a : J → ℝ) (h : G) : ℝ :=
  ∑ k with group k = h, a k * Real.exp (v k / (1 - rho h))

/-- `exp V_h = (∑_{k in h} a_k exp(v_k / (1 - ρ_h)))^(1 - ρ_h)`, zero for a group with nothing to choose. -/
noncomputable def expInclusive (group : J → G) (rho : G → ℝ) (v a : J → ℝ) (h : G) : ℝ :=
  groupSum group rho v a h ^ (1 - rho h)

/-- Probability of `j` conditional on choosing from its group. -/
noncomputable def within (group : J → G) (rho : G → ℝ) (v a : J → ℝ) (j : J) : ℝ :=
  a j * Real.exp (v j / (1 - rho (group j))) / groupSum group rho v a (group j)

/-- Probability of choosing from group `h`. -/
noncomputable def groupProb (group : J → G) (rho : G → ℝ) (v a : J → ℝ) (o : ℝ) (h : G) : ℝ :=
  expInclusive group rho v a h / (o + ∑ h', expInclusive group rho v a h')

/-- Nested logit probability of `j`. -/
noncomputable def nested (group : J → G) (rho : G → ℝ) (v a : J → ℝ) (o : ℝ) (j : J) : ℝ :=
  within group rho v a j * groupProb group rho v a o (group j)

/-- Probability of the outside option. -/
noncomputable def logitOutside (v a : J → ℝ) (o : ℝ) : ℝ := o / (o + ∑ k, a k * Real.exp (v k))

/-- Probability of the outside option with nesting. -/
noncomputable def nestedOutside (group : J → G) (rho : G → ℝ) (v a : J → ℝ) (o : ℝ) : ℝ :=
  o / (o + ∑ h, expInclusive group rho v a h)

end Pyblp.Spec
