import Verif.Lemmas.DemandDeriv

/-! Derivatives of probabilities, shares and demand Jacobians along an arbitrary path of the characteristic. -/

set_option linter.unusedSectionVars false

namespace Pyblp

variable {J A G K1 K2 : Type} [Fintype J] [DecidableEq J] [Nonempty J] [Fintype G] [DecidableEq G] [Fintype A]
  [Fintype K1] [Fintype K2]

/-- A function of the characteristic whose value only depends on coordinate `k`. -/
lemma hasDerivAt_own {f : (J → ℝ) → ℝ} {k : J} (hf : ∀ x y : J → ℝ, x k = y k → f x = f y) {x : ℝ → J → ℝ} {d x' t : ℝ}
    (h : HasDerivAt (fun r => f (Function.update (x t) k r)) d (x t k)) (hx : HasDerivAt (fun r => x r k) x' t) :
    HasDerivAt (fun r => f (x r)) (d * x') t := by
  have : (fun r => f (x r)) = (fun r => f (Function.update (x t) k r)) ∘ fun r => x r k := by
    funext r
    exact hf _ _ (by simp)
  rw [this]
  exact h.comp t hx

lemma dProb_sum (m : Market J A G) (P C : J → ℝ) (V : J → J → ℝ) (j : J) :
    dProb m P C (fun k => ∑ l, V l k) j = ∑ l, dProb m P C (V l) j := by
  unfold dProb
  cases m.nesting with
  | none =>
    simp only []
    rw [← Finset.mul_sum, Finset.sum_sub_distrib, Finset.sum_comm (f := fun l k => P k * V l k)]
    congr 2
    exact Finset.sum_congr rfl fun k _ => by rw [Finset.mul_sum]
  | some n =>
    simp only []
    rw [← Finset.mul_sum, Finset.sum_sub_distrib, Finset.sum_sub_distrib, ← Finset.mul_sum, ← Finset.sum_div,
      Finset.sum_comm (f := fun l k => P k * V l k), Finset.sum_comm (s := Finset.univ) (f := fun l k => C k * V l k)]
    simp only [Finset.mul_sum]

lemma probabilityDerivatives_smul (m : Market J A G) (P C U : J → A → ℝ) (y : J → ℝ) (l j : J) (i : A) :
    probabilityDerivatives m P C (fun k i => U k i * y k) l j i = probabilityDerivatives m P C U l j i * y l := by
  unfold probabilityDerivatives
  cases m.nesting with
  | none =>
    simp only []
    split_ifs <;> ring
  | some n =>
    simp only []
    split_ifs <;> ring

variable (m : Market J A G) (hm : WellFormed m) (c : Characteristic J A K1 K2) (hc : c.Smooth) (x : ℝ → J → ℝ) (x' : J → ℝ)
  (t : ℝ) (hx : ∀ k, HasDerivAt (fun r => x r k) (x' k) t)

include hc hx

lemma path_utility (k : J) (i : A) :
    HasDerivAt (fun r => (updateDelta c (x r) k + updateMu c (x r) k i) / m.epsilonScale)
      (utilityDerivatives m c (x t) k i * x' k) t := by
  refine hasDerivAt_own (f := fun y => (updateDelta c y k + updateMu c y k i) / m.epsilonScale) (k := k) ?_ ?_ (hx k)
  · intro a b hab; simp only [updateDelta, updateMu, hab]
  · have := hasDerivAt_utility m c hc (x t) k k i
    rwa [if_pos rfl] at this

lemma path_utilityDerivatives (k : J) (i : A) :
    HasDerivAt (fun r => utilityDerivatives m c (x r) k i) (utilitySecondDerivatives m c (x t) k i * x' k) t := by
  refine hasDerivAt_own (f := fun y => utilityDerivatives m c y k i) (k := k) ?_ ?_ (hx k)
  · intro a b hab; simp only [utilityDerivatives, hab]
  · have := hasDerivAt_utilityDerivatives m c hc (x t) k k i
    rwa [if_pos rfl] at this

include hm

lemma path_probabilities (j : J) (i : A) :
    HasDerivAt (fun r => probabilitiesAt m c (x r) j i)
      (∑ l, probabilityDerivatives m (probabilitiesAt m c (x t)) (conditionalsAt m c (x t)) (utilityDerivatives m c (x t))
        l j i * x' l) t := by
  have := hasDerivAt_computeProbabilities m hm true (fun r => updateDelta c (x r)) (fun r => updateMu c (x r)) i
    (fun k => utilityDerivatives m c (x t) k i * x' k) t (fun k => path_utility m c hc x x' t hx k i) j
  refine this.congr_deriv ?_
  have hsplit : (fun k => utilityDerivatives m c (x t) k i * x' k) =
      fun k => ∑ l, if k = l then utilityDerivatives m c (x t) l i * x' l else 0 := by
    funext k; simp
  rw [hsplit, dProb_sum]
  refine Finset.sum_congr rfl fun l _ => ?_
  rw [← probabilityDerivatives_smul]
  exact dProb_single m hm true _ _ i (fun k i => utilityDerivatives m c (x t) k i * x' k) l j

lemma path_conditionals (n : Nesting J G) (hn : m.nesting = some n) (j : J) (i : A) :
    HasDerivAt (fun r => conditionalsAt m c (x r) j i)
      (∑ l, conditionalDerivatives n (conditionalsAt m c (x t)) (utilityDerivatives m c (x t)) l j i * x' l) t := by
  have := hasDerivAt_computeConditionals m hm true (fun r => updateDelta c (x r)) (fun r => updateMu c (x r)) i
    (fun k => utilityDerivatives m c (x t) k i * x' k) t (fun k => path_utility m c hc x x' t hx k i) n hn j
  refine this.congr_deriv ?_
  unfold conditionalDerivatives membership
  simp only [add_mul, ite_mul, zero_mul, Finset.sum_add_distrib, Finset.sum_ite_eq, Finset.mem_univ, if_true]
  rw [Finset.sum_filter, mul_div_assoc', mul_sub, sub_div, Finset.mul_sum, Finset.sum_div, sub_eq_add_neg,
    ← Finset.sum_neg_distrib, add_comm]
  congr 1
  · refine Finset.sum_congr rfl fun l _ => ?_
    by_cases h : n.group j = n.group l
    · simp only [h, if_true, Nesting.productRho, conditionalsAt]; ring
    · simp [h, Ne.symm h]
  · simp only [conditionalsAt]; ring

lemma path_shares (j : J) :
    HasDerivAt (fun r => sharesAt m c (x r) j)
      (∑ l, sharesJacobian m (probabilitiesAt m c (x t)) (conditionalsAt m c (x t)) (utilityDerivatives m c (x t)) j l *
        x' l) t := by
  unfold sharesAt
  refine (HasDerivAt.fun_sum (u := Finset.univ) (A := fun i r => probabilitiesAt m c (x r) j i * m.weights i)
    fun i _ => (path_probabilities m hm c hc x x' t hx j i).mul_const (m.weights i)).congr_deriv ?_
  simp only [Finset.sum_mul]
  rw [Finset.sum_comm]
  refine Finset.sum_congr rfl fun l _ => ?_
  unfold sharesJacobian capitalLamda capitalGamma probabilityDerivatives
  cases hn : m.nesting with
  | none =>
    simp only []
    by_cases h : j = l
    · subst h
      simp only [if_true]
      rw [← Finset.sum_sub_distrib, Finset.sum_mul]
      exact Finset.sum_congr rfl fun i _ => by ring
    · simp only [h, if_false, zero_sub]
      rw [← Finset.sum_neg_distrib, Finset.sum_mul]
      exact Finset.sum_congr rfl fun i _ => by ring
  | some n =>
    simp only []
    by_cases h : j = l
    · subst h
      simp only [if_true]
      rw [Finset.sum_div, Finset.mul_sum, ← Finset.sum_add_distrib, ← Finset.sum_sub_distrib, Finset.sum_mul]
      exact Finset.sum_congr rfl fun i _ => by ring
    · simp only [h, if_false, zero_sub]
      rw [Finset.mul_sum, ← Finset.sum_add_distrib, ← Finset.sum_neg_distrib, Finset.sum_mul]
      exact Finset.sum_congr rfl fun i _ => by ring

lemma path_pu (k : J) (i : A) :
    HasDerivAt (fun r => probabilitiesAt m c (x r) k i * utilityDerivatives m c (x r) k i)
      (∑ l, probabilityUtilitySecondDerivatives m (probabilitiesAt m c (x t)) (conditionalsAt m c (x t))
        (utilityDerivatives m c (x t)) (utilitySecondDerivatives m c (x t)) l k i * x' l) t := by
  refine ((path_probabilities m hm c hc x x' t hx k i).fun_mul
    (path_utilityDerivatives m c hc x x' t hx k i)).congr_deriv ?_
  unfold probabilityUtilitySecondDerivatives
  simp only [add_mul, ite_mul, zero_mul, Finset.sum_add_distrib, Finset.sum_ite_eq, Finset.mem_univ, if_true]
  rw [Finset.sum_mul]
  congr 1
  · exact Finset.sum_congr rfl fun l _ => by ring
  · ring

lemma path_lamda (j : J) :
    HasDerivAt (fun r => capitalLamda m (probabilitiesAt m c (x r)) (utilityDerivatives m c (x r)) j)
      (∑ l, capitalLamdaTensor m (probabilitiesAt m c (x t)) (conditionalsAt m c (x t)) (utilityDerivatives m c (x t))
        (utilitySecondDerivatives m c (x t)) j l * x' l) t := by
  have key : HasDerivAt (fun r => ∑ i, probabilitiesAt m c (x r) j i * utilityDerivatives m c (x r) j i * m.weights i)
      (∑ l, (∑ i, probabilityUtilitySecondDerivatives m (probabilitiesAt m c (x t)) (conditionalsAt m c (x t))
        (utilityDerivatives m c (x t)) (utilitySecondDerivatives m c (x t)) l j i * m.weights i) * x' l) t := by
    refine (HasDerivAt.fun_sum (u := Finset.univ)
      (A := fun i r => probabilitiesAt m c (x r) j i * utilityDerivatives m c (x r) j i * m.weights i)
      fun i _ => (path_pu m hm c hc x x' t hx j i).mul_const (m.weights i)).congr_deriv ?_
    simp only [Finset.sum_mul]
    rw [Finset.sum_comm]
    exact Finset.sum_congr rfl fun l _ => Finset.sum_congr rfl fun i _ => by ring
  unfold capitalLamda capitalLamdaTensor
  cases hn : m.nesting with
  | none => exact key
  | some n =>
    refine (key.div_const (1 - n.productRho j)).congr_deriv ?_
    rw [Finset.sum_div]
    exact Finset.sum_congr rfl fun l _ => by ring

lemma path_gamma (j k : J) :
    HasDerivAt (fun r => capitalGamma m (probabilitiesAt m c (x r)) (conditionalsAt m c (x r))
        (utilityDerivatives m c (x r)) j k)
      (∑ l, capitalGammaTensor m (probabilitiesAt m c (x t)) (conditionalsAt m c (x t)) (utilityDerivatives m c (x t))
        (utilitySecondDerivatives m c (x t)) j k l * x' l) t := by
  have key : ∀ (B : ℝ → A → ℝ) (B' : J → A → ℝ), (∀ i, HasDerivAt (fun r => B r i) (∑ l, B' l i * x' l) t) →
      HasDerivAt (fun r => ∑ i, B r i * (m.weights i * (probabilitiesAt m c (x r) k i *
        utilityDerivatives m c (x r) k i)))
      (∑ l, ((∑ i, B' l i * (m.weights i * (probabilitiesAt m c (x t) k i * utilityDerivatives m c (x t) k i))) +
        ∑ i, B t i * (m.weights i * probabilityUtilitySecondDerivatives m (probabilitiesAt m c (x t))
          (conditionalsAt m c (x t)) (utilityDerivatives m c (x t)) (utilitySecondDerivatives m c (x t)) l k i)) * x' l)
        t := by
    intro B B' hB
    refine (HasDerivAt.fun_sum (u := Finset.univ)
      (A := fun i r => B r i * (m.weights i * (probabilitiesAt m c (x r) k i * utilityDerivatives m c (x r) k i)))
      fun i _ => (hB i).fun_mul ((path_pu m hm c hc x x' t hx k i).const_mul (m.weights i))).congr_deriv ?_
    simp only [Finset.sum_mul, Finset.mul_sum, add_mul, Finset.sum_add_distrib]
    congr 1
    · rw [Finset.sum_comm]
      exact Finset.sum_congr rfl fun l _ => Finset.sum_congr rfl fun i _ => by ring
    · rw [Finset.sum_comm]
      exact Finset.sum_congr rfl fun l _ => Finset.sum_congr rfl fun i _ => by ring
  have k1 := key (fun r i => probabilitiesAt m c (x r) j i) _ (fun i => path_probabilities m hm c hc x x' t hx j i)
  unfold capitalGamma capitalGammaTensor
  cases hn : m.nesting with
  | none => exact k1
  | some n =>
    have k2 := key (fun r i => conditionalsAt m c (x r) j i) _ (fun i => path_conditionals m hm c hc x x' t hx n hn j i)
    refine (k1.fun_add (k2.const_mul (n.productRho j / (1 - n.productRho j) * membership n j k))).congr_deriv ?_
    rw [Finset.mul_sum, ← Finset.sum_add_distrib]
    exact Finset.sum_congr rfl fun l _ => by ring

/-- The derivative of the demand Jacobian along a path. -/
lemma path_jacobian (j k : J) :
    HasDerivAt (fun r => sharesJacobian m (probabilitiesAt m c (x r)) (conditionalsAt m c (x r))
        (utilityDerivatives m c (x r)) j k)
      (∑ l, sharesHessian m (probabilitiesAt m c (x t)) (conditionalsAt m c (x t)) (utilityDerivatives m c (x t))
        (utilitySecondDerivatives m c (x t)) j k l * x' l) t := by
  unfold sharesJacobian sharesHessian
  simp only [sub_mul, Finset.sum_sub_distrib]
  refine HasDerivAt.fun_sub ?_ (path_gamma m hm c hc x x' t hx j k)
  by_cases h : j = k
  · simp only [h, if_true]; exact path_lamda m hm c hc x x' t hx k
  · simp only [h, if_false, zero_mul, Finset.sum_const_zero]; exact hasDerivAt_const _ _

end Pyblp
