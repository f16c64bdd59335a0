import Mathlib.MeasureTheory.Measure.Lebesgue.Basic
import Mathlib.MeasureTheory.Measure.Prod
import Mathlib.Probability.Independence.Basic

/-!
# Specification: randomness of accept-reject sampling
-/

open MeasureTheory ProbabilityTheory

namespace Pyblp.Spec

/-- Candidate agents and random numbers for accept-reject sampling. Candidates are independent draws from a population. Cutoffs are uniform numbers that are
independent of candidates and of each other. What would be chosen from any list of positions is independent of candidates and cutoffs. -/
structure Candidates {Ω E : Type} [MeasurableSpace Ω] [MeasurableSpace E] (P : Measure Ω) (population : Measure E) {n : ℕ} (agents : Ω → Fin n → E)
    (cutoffs : Ω → Fin n → ℝ) (choice : Ω → List ℕ → List ℕ) : Prop where
  measurable : ∀ i, Measurable fun ω => (agents ω i, cutoffs ω i)
  law : ∀ i, P.map (fun ω => (agents ω i, cutoffs ω i)) = population.prod (volume.restrict (Set.Ico (0 : ℝ) 1))
  independent : iIndepFun (fun i ω => (agents ω i, cutoffs ω i)) P
  choice_measurable : ∀ l, Measurable[_, ⊤] fun ω => choice ω l
  choice_independent : ∀ l, @IndepFun Ω (List ℕ) (Fin n → E × ℝ) _ ⊤ _ (fun ω => choice ω l) (fun ω i => (agents ω i, cutoffs ω i)) P

end Pyblp.Spec
