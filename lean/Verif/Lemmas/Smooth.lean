import Verif.Lemmas.RhoDeriv
import Mathlib.Analysis.Calculus.ImplicitFunction.ProdDomain
import Mathlib.Analysis.SpecialFunctions.ExpDeriv
import Mathlib.Analysis.SpecialFunctions.Pow.Deriv
import Mathlib.Analysis.Calculus.ContDiff.Operations

/-! Logit and nested logit probabilities are continuously differentiable functions of utilities and nesting parameters. -/

set_option linter.unusedSectionVars false

namespace Pyblp

variable {J A G E : Type} [Fintype J] [DecidableEq J] [Nonempty J] [Fintype G] [DecidableEq G]
  [NormedAddCommGroup E] [NormedSpace ℝ E]

section

variable (group : J → G) (rho : G → E → ℝ) (v : J → E → ℝ) (x : E) (a : J → ℝ)
  (hr : ∀ g, rho g x < 1) (hrho : ∀ g, ContDiffAt ℝ 1 (rho g) x) (hv : ∀ k, ContDiffAt ℝ 1 (v k) x) (ha : ∀ j, 0 ≤ a j)

include hv in
lemma contDiffAt_logit (o : ℝ) (hden : o + ∑ k, a k * Real.exp (v k x) ≠ 0) (j : J) :
    ContDiffAt ℝ 1 (fun y => Spec.logit (fun k => v k y) a o j) x := by
  unfold Spec.logit
  refine ContDiffAt.div (contDiffAt_const.mul (hv j).exp) ?_ hden
  exact contDiffAt_const.add (ContDiffAt.sum fun k _ => contDiffAt_const.mul (hv k).exp)

include hr hrho hv in
lemma contDiffAt_groupSum (g : G) : ContDiffAt ℝ 1 (fun y => Spec.groupSum group (fun g => rho g y) (fun k => v k y) a g) x := by
  unfold Spec.groupSum
  refine ContDiffAt.sum fun k _ => contDiffAt_const.mul (ContDiffAt.exp ?_)
  exact (hv k).div (contDiffAt_const.sub (hrho g)) (by linarith [hr g])

include hr hrho hv ha in
lemma contDiffAt_within (j : J) : ContDiffAt ℝ 1 (fun y => Spec.within group (fun g => rho g y) (fun k => v k y) a j) x := by
  unfold Spec.within
  rcases (ha j).lt_or_eq with hj | hj
  · refine ContDiffAt.div (contDiffAt_const.mul (ContDiffAt.exp ?_)) (contDiffAt_groupSum group rho v x a hr hrho hv (group j))
      (groupSum_pos ha hj).ne'
    exact (hv j).div (contDiffAt_const.sub (hrho (group j))) (by linarith [hr (group j)])
  · simp only [← hj, zero_mul, zero_div]
    exact contDiffAt_const

include hr hrho hv ha in
lemma contDiffAt_expInclusive (g : G) :
    ContDiffAt ℝ 1 (fun y => Spec.expInclusive group (fun g => rho g y) (fun k => v k y) a g) x := by
  rcases group_cases group ha g with ⟨j, rfl, hj⟩ | h0
  · unfold Spec.expInclusive
    exact ContDiffAt.rpow (contDiffAt_groupSum group rho v x a hr hrho hv (group j))
      (contDiffAt_const.sub (hrho (group j))) (groupSum_pos ha hj).ne'
  · have hz : (fun y => Spec.expInclusive group (fun g => rho g y) (fun k => v k y) a g) =ᶠ[nhds x] fun _ => 0 := by
      filter_upwards [(hrho g).continuousAt.eventually_lt continuousAt_const (hr g)] with s hs
      unfold Spec.expInclusive
      rw [groupSum_zero_of h0, Real.zero_rpow (by linarith)]
    exact contDiffAt_const.congr_of_eventuallyEq hz

include hr hrho hv ha in
lemma contDiffAt_nested (o : ℝ) (hden : o + ∑ g, Spec.expInclusive group (fun g => rho g x) (fun k => v k x) a g ≠ 0) (j : J) :
    ContDiffAt ℝ 1 (fun y => Spec.nested group (fun g => rho g y) (fun k => v k y) a o j) x := by
  unfold Spec.nested Spec.groupProb
  refine (contDiffAt_within group rho v x a hr hrho hv ha j).mul (ContDiffAt.div
    (contDiffAt_expInclusive group rho v x a hr hrho hv ha (group j)) ?_ hden)
  exact contDiffAt_const.add (ContDiffAt.sum fun g _ => contDiffAt_expInclusive group rho v x a hr hrho hv ha g)

end

end Pyblp
