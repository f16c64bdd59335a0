import Verif.Model.Probabilities
import Verif.Spec.Choice
import Mathlib.Analysis.SpecialFunctions.Pow.Real
import Verif.Tactics

set_option linter.unusedSectionVars false
set_option linter.unusedSimpArgs false

namespace Pyblp

variable {J A G : Type}

lemma expLogMul_eq_rpow {x y : ℝ} (hx : 0 ≤ x) (hy : y ≠ 0) : expLogMul x y = x ^ y := by
  unfold expLogMul
  split_ifs with h
  · rw [h, Real.zero_rpow hy]
  · rw [Real.rpow_def_of_pos (lt_of_le_of_ne hx (Ne.symm h))]

lemma safeDiv_eq (x y : ℝ) : safeDiv x y = x / y := by
  unfold safeDiv
  split_ifs with h
  · rw [h, div_zero]
  · rfl

/-- The number by which the exponentiated utility of product `j` of agent `i` is multiplied. -/
noncomputable def multiplier [DecidableEq J] (m : Market J A G) (o : ProbOpts J A) (i : A) (j : J) : ℝ :=
  if o.eliminateProduct = some j ∨ o.eliminateMask j = true then 0
  else
    match (o.availability <|> m.availability) with
    | some a => a i j
    | none => 1

lemma restrict_eq [DecidableEq J] (m : Market J A G) (o : ProbOpts J A) (e : J → ℝ) (i : A) (j : J) :
    restrict m o e i j = multiplier m o i j * e j := by
  unfold restrict multiplier
  split_ifs
  · ring
  · cases (o.availability <|> m.availability) with
    | none => simp
    | some a => simp only []; ring

lemma groupSum_nonneg [Fintype J] [DecidableEq G] (group : J → G) (rho : G → ℝ) (v a : J → ℝ) (ha : ∀ j, 0 ≤ a j) (h : G) :
    0 ≤ Spec.groupSum group rho v a h :=
  Finset.sum_nonneg fun k _ => mul_nonneg (ha k) (Real.exp_pos _).le

lemma expInclusive_nonneg [Fintype J] [DecidableEq G] (group : J → G) (rho : G → ℝ) (v a : J → ℝ)
    (ha : ∀ j, 0 ≤ a j) (h : G) : 0 ≤ Spec.expInclusive group rho v a h :=
  Real.rpow_nonneg (groupSum_nonneg group rho v a ha h) _

variable [Fintype J] [DecidableEq J] [Nonempty J] [Fintype G] [DecidableEq G]

/-- Scaling numerator and denominator of the plain logit formula. -/
lemma plain_scaled (a u : J → ℝ) (r : ℝ) (oz : ℝ) (j : J) :
    a j * Real.exp (u j - r) / (oz * Real.exp (-r) + ∑ k, a k * Real.exp (u k - r)) =
      a j * Real.exp (u j) / (oz + ∑ k, a k * Real.exp (u k)) := by
  have h1 : ∀ k, a k * Real.exp (u k - r) = (a k * Real.exp (u k)) * Real.exp (-r) := by
    intro k; rw [sub_eq_add_neg, Real.exp_add]; ring
  simp only [h1]
  rw [← Finset.sum_mul, ← add_mul, mul_div_mul_right _ _ (Real.exp_pos _).ne']

/-- The plain branch of the code computes logit probabilities, for both values of `safe`. -/
lemma computeProbabilities_plain (m : Market J A G) (o : ProbOpts J A) (delta : J → ℝ) (mu : J → A → ℝ)
    (hn : m.nesting = none) (i : A) (j : J) :
    computeProbabilities m o delta mu j i =
      Spec.logit (fun k => (delta k + mu k i) / m.epsilonScale) (multiplier m o i)
        (if o.eliminateOutside then 0 else 1) j := by
  unfold computeProbabilities agentProbabilities
  rw [hn]
  have hu : ∀ k, utilities m delta mu k i = (delta k + mu k i) / m.epsilonScale := by
    intro k; unfold utilities; rw [hn]; simp only []
    split_ifs with h
    · rfl
    · push Not at h; rw [h, div_one]
  simp only [restrict_eq, hu]
  unfold Spec.logit plainScale
  cases hs : o.safe <;> cases he : o.eliminateOutside <;> simp only [Option.getD, sub_zero, if_true, if_false,
    Bool.false_eq_true, ite_true, ite_false]
  · have := plain_scaled (multiplier m o i) (fun k => (delta k + mu k i) / m.epsilonScale)
      (utilityReduction fun j => (delta j + mu j i) / m.epsilonScale) 1 j
    rw [one_mul] at this
    exact this
  · have := plain_scaled (multiplier m o i) (fun k => (delta k + mu k i) / m.epsilonScale)
      (utilityReduction fun j => (delta j + mu j i) / m.epsilonScale) 0 j
    rw [zero_mul] at this
    exact this

lemma groupSum_scaled (n : Nesting J G) (a v : J → ℝ) (r : ℝ) (g : G) :
    (∑ k with n.group k = g, a k * Real.exp (v k / (1 - n.productRho k) - r)) =
      Real.exp (-r) * Spec.groupSum n.group n.rho.groupRho v a g := by
  unfold Spec.groupSum
  rw [Finset.mul_sum]
  refine Finset.sum_congr rfl fun k hk => ?_
  rw [Finset.mem_filter] at hk
  unfold Nesting.productRho
  rw [hk.2, sub_eq_add_neg, Real.exp_add]; ring

lemma scaleWeight_eq (n : Nesting J G) (r : ℝ) (g h : G) :
    scaleWeight n (some r) g h = Real.exp (-r * (n.rho.groupRho h - n.rho.groupRho g)) := by
  unfold scaleWeight
  cases hr : n.rho with
  | single c => simp [RhoParam.sizeGtOne, RhoParam.groupRho]
  | perGroup c => simp [RhoParam.sizeGtOne]

lemma weighted_scaled (n : Nesting J G) (a v : J → ℝ) (r : ℝ) (ha : ∀ j, 0 ≤ a j)
    (hrho : ∀ g, n.rho.groupRho g ≠ 1) (g : G) :
    expLogMul (∑ k with n.group k = g, a k * Real.exp (v k / (1 - n.productRho k) - r)) (1 - n.rho.groupRho g) =
      Real.exp (-r * (1 - n.rho.groupRho g)) * Spec.expInclusive n.group n.rho.groupRho v a g := by
  have h1 : (1 : ℝ) - n.rho.groupRho g ≠ 0 := sub_ne_zero.mpr (Ne.symm (hrho g))
  have hD := groupSum_nonneg n.group n.rho.groupRho v a ha g
  rw [groupSum_scaled, expLogMul_eq_rpow (mul_nonneg (Real.exp_pos _).le hD) h1,
    Real.mul_rpow (Real.exp_pos _).le hD, ← Real.exp_mul]
  rfl

/-- Marginals with any common reduction. -/
lemma marginal_scaled (n : Nesting J G) (a v : J → ℝ) (r oz : ℝ) (ha : ∀ j, 0 ≤ a j)
    (hrho : ∀ g, n.rho.groupRho g ≠ 1) (g : G) :
    expLogMul (∑ k with n.group k = g, a k * Real.exp (v k / (1 - n.productRho k) - r)) (1 - n.rho.groupRho g) /
      (oz * Real.exp (-r * (1 - n.rho.groupRho g)) + ∑ h, Real.exp (-r * (n.rho.groupRho h - n.rho.groupRho g)) *
        expLogMul (∑ k with n.group k = h, a k * Real.exp (v k / (1 - n.productRho k) - r)) (1 - n.rho.groupRho h)) =
      Spec.groupProb n.group n.rho.groupRho v a oz g := by
  simp only [weighted_scaled n a v r ha hrho]
  have h2 : ∀ h, Real.exp (-r * (n.rho.groupRho h - n.rho.groupRho g)) *
      (Real.exp (-r * (1 - n.rho.groupRho h)) * Spec.expInclusive n.group n.rho.groupRho v a h) =
      Real.exp (-r * (1 - n.rho.groupRho g)) * Spec.expInclusive n.group n.rho.groupRho v a h := by
    intro h
    rw [← mul_assoc, ← Real.exp_add]; congr 2; ring
  simp only [h2]
  unfold Spec.groupProb
  rw [← Finset.mul_sum, mul_comm oz, ← mul_add, mul_div_mul_left _ _ (Real.exp_pos _).ne']

lemma within_scaled (n : Nesting J G) (a v : J → ℝ) (r : ℝ) (j : J) :
    safeDiv (a j * Real.exp (v j / (1 - n.productRho j) - r))
      (∑ k with n.group k = n.group j, a k * Real.exp (v k / (1 - n.productRho k) - r)) =
    Spec.within n.group n.rho.groupRho v a j := by
  rw [safeDiv_eq, groupSum_scaled]
  unfold Spec.within
  rw [sub_eq_add_neg, Real.exp_add, show ∀ x y z : ℝ, x * (y * z) = z * (x * y) by intros; ring,
    mul_div_mul_left _ _ (Real.exp_pos _).ne']
  rfl

/-- The nested branch of the code computes nested logit probabilities, for both values of `safe`. -/
lemma agentProbabilities_nested (m : Market J A G) (o : ProbOpts J A) (delta : J → ℝ) (mu : J → A → ℝ)
    (n : Nesting J G) (hn : m.nesting = some n) (i : A) (ha : ∀ j, 0 ≤ multiplier m o i j)
    (hrho : ∀ g, n.rho.groupRho g ≠ 1) :
    agentProbabilities m o delta mu i =
      (Spec.nested n.group n.rho.groupRho (fun k => delta k + mu k i) (multiplier m o i)
        (if o.eliminateOutside then 0 else 1),
       some (Spec.within n.group n.rho.groupRho (fun k => delta k + mu k i) (multiplier m o i))) := by
  unfold agentProbabilities
  rw [hn]
  have hu : ∀ k, utilities m delta mu k i = (delta k + mu k i) / (1 - n.productRho k) := by
    intro k; unfold utilities; rw [hn]
  simp only [restrict_eq, hu]
  generalize hr : (if o.safe = true then
      some (utilityReduction fun j => (delta j + mu j i) / (1 - n.productRho j)) else none : Option ℝ) = r
  have hns : ∀ g, nestedScale n o.eliminateOutside r g =
      (if o.eliminateOutside then 0 else 1) * Real.exp (-(r.getD 0) * (1 - n.rho.groupRho g)) := by
    intro g; unfold nestedScale
    cases r <;> cases o.eliminateOutside <;> simp
  have hsw : ∀ g h, scaleWeight n r g h = Real.exp (-(r.getD 0) * (n.rho.groupRho h - n.rho.groupRho g)) := by
    intro g h
    cases r with
    | none => simp [scaleWeight]
    | some r => rw [scaleWeight_eq]; simp
  simp only [hns, hsw]
  refine Prod.ext ?_ ?_
  · funext j
    simp only []
    rw [within_scaled n (multiplier m o i) (fun k => delta k + mu k i),
      marginal_scaled n (multiplier m o i) (fun k => delta k + mu k i) _ _ ha hrho]
    rfl
  · simp only []
    congr 1
    funext j
    rw [within_scaled n (multiplier m o i) (fun k => delta k + mu k i)]

end Pyblp
