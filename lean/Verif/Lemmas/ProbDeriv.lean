import Verif.Lemmas.Contraction
import Mathlib.Analysis.SpecialFunctions.ExpDeriv
import Mathlib.Analysis.SpecialFunctions.Pow.Deriv
import Mathlib.Analysis.Calculus.Deriv.Inv

/-! Derivatives of logit and nested logit probabilities along a differentiable path of utilities. -/

set_option linter.unusedSectionVars false

namespace Pyblp

variable {J A G : Type} [Fintype J] [DecidableEq J] [Nonempty J] [Fintype G] [DecidableEq G]

lemma hasDerivAt_expsum (v : J → ℝ → ℝ) (v' : J → ℝ) (t : ℝ) (h : ∀ k, HasDerivAt (v k) (v' k) t) (a : J → ℝ)
    (S : Finset J) :
    HasDerivAt (fun t => ∑ k ∈ S, a k * Real.exp (v k t)) (∑ k ∈ S, a k * Real.exp (v k t) * v' k) t := by
  have := HasDerivAt.fun_sum (u := S) (A := fun k t => a k * Real.exp (v k t))
    (A' := fun k => a k * Real.exp (v k t) * v' k) (x := t) (fun k _ => by
      have := ((h k).exp).const_mul (a k)
      rwa [← mul_assoc] at this)
  exact this

lemma hasDerivAt_logit (v : J → ℝ → ℝ) (v' : J → ℝ) (t : ℝ) (h : ∀ k, HasDerivAt (v k) (v' k) t) (a : J → ℝ) (o : ℝ)
    (hden : o + ∑ k, a k * Real.exp (v k t) ≠ 0) (j : J) :
    HasDerivAt (fun t => Spec.logit (fun k => v k t) a o j)
      (Spec.logit (fun k => v k t) a o j * (v' j - ∑ k, Spec.logit (fun k => v k t) a o k * v' k)) t := by
  unfold Spec.logit
  have hnum : HasDerivAt (fun t => a j * Real.exp (v j t)) (a j * Real.exp (v j t) * v' j) t := by
    have := ((h j).exp).const_mul (a j)
    rwa [← mul_assoc] at this
  have hd := (hasDerivAt_expsum v v' t h a Finset.univ).const_add o
  refine (hnum.fun_div hd hden).congr_deriv ?_
  have : ∑ k, a k * Real.exp (v k t) / (o + ∑ k, a k * Real.exp (v k t)) * v' k =
      (∑ k, a k * Real.exp (v k t) * v' k) / (o + ∑ k, a k * Real.exp (v k t)) := by
    rw [Finset.sum_div]; refine Finset.sum_congr rfl fun k _ => by ring
  rw [this]
  field_simp

/-- Average of `v'` over the group with the within-group probabilities as weights. -/
noncomputable def withinMean (group : J → G) (rho : G → ℝ) (v a v' : J → ℝ) (g : G) : ℝ :=
  ∑ k with group k = g, Spec.within group rho v a k * v' k

lemma hasDerivAt_groupSum (group : J → G) (rho : G → ℝ) (v : J → ℝ → ℝ) (v' : J → ℝ) (t : ℝ)
    (h : ∀ k, HasDerivAt (v k) (v' k) t) (a : J → ℝ) (g : G)
    (hD : Spec.groupSum group rho (fun k => v k t) a g ≠ 0) :
    HasDerivAt (fun t => Spec.groupSum group rho (fun k => v k t) a g)
      (Spec.groupSum group rho (fun k => v k t) a g * withinMean group rho (fun k => v k t) a v' g / (1 - rho g)) t := by
  have := hasDerivAt_expsum (fun k t => v k t / (1 - rho g)) (fun k => v' k / (1 - rho g)) t
    (fun k => (h k).div_const _) a (Finset.univ.filter fun k => group k = g)
  refine this.congr_deriv ?_
  unfold withinMean
  rw [Finset.mul_sum, Finset.sum_div]
  refine Finset.sum_congr rfl fun k hk => ?_
  unfold Spec.within
  rw [(Finset.mem_filter.mp hk).2]
  field_simp

lemma hasDerivAt_within (group : J → G) (rho : G → ℝ) (hrho : ∀ g, rho g < 1) (v : J → ℝ → ℝ) (v' : J → ℝ) (t : ℝ)
    (h : ∀ k, HasDerivAt (v k) (v' k) t) (a : J → ℝ) (ha : ∀ j, 0 ≤ a j) (j : J) :
    HasDerivAt (fun t => Spec.within group rho (fun k => v k t) a j)
      (Spec.within group rho (fun k => v k t) a j *
        ((v' j - withinMean group rho (fun k => v k t) a v' (group j)) / (1 - rho (group j)))) t := by
  rcases (ha j).lt_or_eq with hj | hj
  swap
  · unfold Spec.within
    simp only [← hj, zero_mul, zero_div]
    exact hasDerivAt_const _ _
  have hD : 0 < Spec.groupSum group rho (fun k => v k t) a (group j) := groupSum_pos ha hj
  have hd := hasDerivAt_groupSum group rho v v' t h a (group j) hD.ne'
  have hnum : HasDerivAt (fun t => a j * Real.exp (v j t / (1 - rho (group j))))
      (a j * Real.exp (v j t / (1 - rho (group j))) * (v' j / (1 - rho (group j)))) t := by
    have := (((h j).div_const (1 - rho (group j))).exp).const_mul (a j)
    rwa [← mul_assoc] at this
  unfold Spec.within
  refine (hnum.fun_div hd hD.ne').congr_deriv ?_
  have hne := hD.ne'
  have hr : 1 - rho (group j) ≠ 0 := by linarith [hrho (group j)]
  field_simp

lemma groupSum_zero_of {group : J → G} {rho : G → ℝ} {a : J → ℝ} {g : G} (h : ∀ j, group j = g → a j = 0) (v : J → ℝ) :
    Spec.groupSum group rho v a g = 0 := by
  unfold Spec.groupSum
  refine Finset.sum_eq_zero fun k hk => ?_
  rw [h k (Finset.mem_filter.mp hk).2, zero_mul]

lemma group_cases (group : J → G) {a : J → ℝ} (ha : ∀ j, 0 ≤ a j) (g : G) :
    (∃ j, group j = g ∧ 0 < a j) ∨ ∀ j, group j = g → a j = 0 := by
  by_cases h : ∃ j, group j = g ∧ 0 < a j
  · exact Or.inl h
  · right
    push Not at h
    exact fun j hj => le_antisymm (h j hj) (ha j)

lemma hasDerivAt_expInclusive (group : J → G) (rho : G → ℝ) (hrho : ∀ g, rho g < 1) (v : J → ℝ → ℝ) (v' : J → ℝ)
    (t : ℝ) (h : ∀ k, HasDerivAt (v k) (v' k) t) (a : J → ℝ) (ha : ∀ j, 0 ≤ a j) (g : G) :
    HasDerivAt (fun t => Spec.expInclusive group rho (fun k => v k t) a g)
      (Spec.expInclusive group rho (fun k => v k t) a g * withinMean group rho (fun k => v k t) a v' g) t := by
  have hr : 1 - rho g ≠ 0 := by linarith [hrho g]
  rcases group_cases group ha g with ⟨j, rfl, hj⟩ | h0
  · have hD : 0 < Spec.groupSum group rho (fun k => v k t) a (group j) := groupSum_pos ha hj
    have hd := hasDerivAt_groupSum group rho v v' t h a (group j) hD.ne'
    unfold Spec.expInclusive
    refine (hd.rpow_const (p := 1 - rho (group j)) (Or.inl hD.ne')).congr_deriv ?_
    rw [Real.rpow_sub_one hD.ne']
    field_simp
  · unfold Spec.expInclusive
    simp only [groupSum_zero_of h0, Real.zero_rpow hr, zero_mul]
    exact hasDerivAt_const _ _

lemma sum_groupProb_mean (group : J → G) (rho : G → ℝ) (v a v' : J → ℝ) (o : ℝ) :
    ∑ g, Spec.groupProb group rho v a o g * withinMean group rho v a v' g =
      ∑ k, Spec.nested group rho v a o k * v' k := by
  rw [← Finset.sum_fiberwise Finset.univ group]
  refine Finset.sum_congr rfl fun g _ => ?_
  unfold withinMean
  rw [Finset.mul_sum]
  refine Finset.sum_congr rfl fun k hk => ?_
  unfold Spec.nested
  rw [(Finset.mem_filter.mp hk).2]
  ring

lemma hasDerivAt_groupProb (group : J → G) (rho : G → ℝ) (hrho : ∀ g, rho g < 1) (v : J → ℝ → ℝ) (v' : J → ℝ) (t : ℝ)
    (h : ∀ k, HasDerivAt (v k) (v' k) t) (a : J → ℝ) (ha : ∀ j, 0 ≤ a j) (o : ℝ)
    (hden : o + ∑ g, Spec.expInclusive group rho (fun k => v k t) a g ≠ 0) (g : G) :
    HasDerivAt (fun t => Spec.groupProb group rho (fun k => v k t) a o g)
      (Spec.groupProb group rho (fun k => v k t) a o g *
        (withinMean group rho (fun k => v k t) a v' g - ∑ k, Spec.nested group rho (fun k => v k t) a o k * v' k)) t := by
  have hnum := hasDerivAt_expInclusive group rho hrho v v' t h a ha g
  have hd := (HasDerivAt.fun_sum (u := Finset.univ) (fun g _ =>
    hasDerivAt_expInclusive group rho hrho v v' t h a ha g)).const_add o
  rw [← sum_groupProb_mean]
  unfold Spec.groupProb
  refine (hnum.fun_div hd hden).congr_deriv ?_
  have : ∑ x, Spec.expInclusive group rho (fun k => v k t) a x / (o + ∑ h', Spec.expInclusive group rho (fun k => v k t) a h') *
        withinMean group rho (fun k => v k t) a v' x =
      (∑ x, Spec.expInclusive group rho (fun k => v k t) a x * withinMean group rho (fun k => v k t) a v' x) /
        (o + ∑ h', Spec.expInclusive group rho (fun k => v k t) a h') := by
    rw [Finset.sum_div]; refine Finset.sum_congr rfl fun k _ => by ring
  rw [this]
  field_simp

lemma hasDerivAt_nested (group : J → G) (rho : G → ℝ) (hrho : ∀ g, rho g < 1) (v : J → ℝ → ℝ) (v' : J → ℝ) (t : ℝ)
    (h : ∀ k, HasDerivAt (v k) (v' k) t) (a : J → ℝ) (ha : ∀ j, 0 ≤ a j) (o : ℝ)
    (hden : o + ∑ g, Spec.expInclusive group rho (fun k => v k t) a g ≠ 0) (j : J) :
    HasDerivAt (fun t => Spec.nested group rho (fun k => v k t) a o j)
      (Spec.nested group rho (fun k => v k t) a o j *
        (v' j / (1 - rho (group j)) - rho (group j) / (1 - rho (group j)) *
          withinMean group rho (fun k => v k t) a v' (group j) -
          ∑ k, Spec.nested group rho (fun k => v k t) a o k * v' k)) t := by
  have h1 := hasDerivAt_within group rho hrho v v' t h a ha j
  have h2 := hasDerivAt_groupProb group rho hrho v v' t h a ha o hden (group j)
  have hr : 1 - rho (group j) ≠ 0 := by linarith [hrho (group j)]
  unfold Spec.nested
  refine (h1.fun_mul h2).congr_deriv ?_
  unfold Spec.nested
  field_simp
  ring

end Pyblp
