import Verif.Lemmas.DemandDeriv

/-! Derivatives of nested logit probabilities along a path on which both utilities and nesting parameters change. -/

set_option linter.unusedSectionVars false

namespace Pyblp

variable {J A G : Type} [Fintype J] [DecidableEq J] [Nonempty J] [Fintype G] [DecidableEq G]

section paths

variable (group : J → G) (rho : G → ℝ → ℝ) (rho' : G → ℝ) (v : J → ℝ → ℝ) (v' : J → ℝ) (t : ℝ) (a : J → ℝ)

/-- Derivative of `v k / (1 - rho)`. -/
noncomputable def scaledSlope (k : J) : ℝ :=
  v' k / (1 - rho (group k) t) + v k t * rho' (group k) / (1 - rho (group k) t) ^ 2

variable (hr : ∀ g, rho g t < 1) (hrho : ∀ g, HasDerivAt (rho g) (rho' g) t) (hv : ∀ k, HasDerivAt (v k) (v' k) t)
  (ha : ∀ j, 0 ≤ a j)

include hr hrho hv in
lemma hasDerivAt_scaled (k : J) :
    HasDerivAt (fun s => v k s / (1 - rho (group k) s)) (scaledSlope group rho rho' v v' t k) t := by
  have h1 : (1 : ℝ) - rho (group k) t ≠ 0 := by linarith [hr (group k)]
  refine ((hv k).fun_div ((hrho (group k)).const_sub 1) h1).congr_deriv ?_
  unfold scaledSlope
  field_simp
  ring

lemma eventually_rho_lt (hr : ∀ g, rho g t < 1) (hrho : ∀ g, HasDerivAt (rho g) (rho' g) t) :
    ∀ᶠ s in nhds t, ∀ g, rho g s < 1 :=
  Filter.eventually_all.mpr fun g => (hrho g).continuousAt.eventually_lt continuousAt_const (hr g)

include hr hrho hv in
lemma hasDerivAt_groupSum_rho (g : G) (hD : Spec.groupSum group (fun g => rho g t) (fun k => v k t) a g ≠ 0) :
    HasDerivAt (fun s => Spec.groupSum group (fun g => rho g s) (fun k => v k s) a g)
      (Spec.groupSum group (fun g => rho g t) (fun k => v k t) a g *
        withinMean group (fun g => rho g t) (fun k => v k t) a (scaledSlope group rho rho' v v' t) g) t := by
  have := HasDerivAt.fun_sum (u := Finset.univ.filter fun k => group k = g)
    (A := fun k s => a k * Real.exp (v k s / (1 - rho g s)))
    (A' := fun k => a k * Real.exp (v k t / (1 - rho g t)) * scaledSlope group rho rho' v v' t k) (x := t) (fun k hk => by
      have hk := (Finset.mem_filter.mp hk).2
      subst hk
      have := ((hasDerivAt_scaled group rho rho' v v' t hr hrho hv k).exp).const_mul (a k)
      rwa [← mul_assoc] at this)
  refine this.congr_deriv ?_
  unfold withinMean
  rw [Finset.mul_sum]
  refine Finset.sum_congr rfl fun k hk => ?_
  unfold Spec.within
  rw [(Finset.mem_filter.mp hk).2]
  field_simp

include hr hrho hv ha in
lemma hasDerivAt_within_rho (j : J) :
    HasDerivAt (fun s => Spec.within group (fun g => rho g s) (fun k => v k s) a j)
      (Spec.within group (fun g => rho g t) (fun k => v k t) a j * (scaledSlope group rho rho' v v' t j -
        withinMean group (fun g => rho g t) (fun k => v k t) a (scaledSlope group rho rho' v v' t) (group j))) t := by
  rcases (ha j).lt_or_eq with hj | hj
  swap
  · unfold Spec.within
    simp only [← hj, zero_mul, zero_div]
    exact hasDerivAt_const _ _
  have hD : 0 < Spec.groupSum group (fun g => rho g t) (fun k => v k t) a (group j) := groupSum_pos ha hj
  have hd := hasDerivAt_groupSum_rho group rho rho' v v' t a hr hrho hv (group j) hD.ne'
  have hnum : HasDerivAt (fun s => a j * Real.exp (v j s / (1 - rho (group j) s)))
      (a j * Real.exp (v j t / (1 - rho (group j) t)) * scaledSlope group rho rho' v v' t j) t := by
    have := ((hasDerivAt_scaled group rho rho' v v' t hr hrho hv j).exp).const_mul (a j)
    rwa [← mul_assoc] at this
  unfold Spec.within
  refine (hnum.fun_div hd hD.ne').congr_deriv ?_
  have hne := hD.ne'
  field_simp

/-- Relative derivative of the exponentiated inclusive value. -/
noncomputable def inclusiveSlope (g : G) : ℝ :=
  (1 - rho g t) * withinMean group (fun g => rho g t) (fun k => v k t) a (scaledSlope group rho rho' v v' t) g -
    rho' g * Real.log (Spec.groupSum group (fun g => rho g t) (fun k => v k t) a g)

include hr hrho hv ha in
lemma hasDerivAt_expInclusive_rho (g : G) :
    HasDerivAt (fun s => Spec.expInclusive group (fun g => rho g s) (fun k => v k s) a g)
      (Spec.expInclusive group (fun g => rho g t) (fun k => v k t) a g * inclusiveSlope group rho rho' v v' t a g) t := by
  rcases group_cases group ha g with ⟨j, rfl, hj⟩ | h0
  · have hD : 0 < Spec.groupSum group (fun g => rho g t) (fun k => v k t) a (group j) := groupSum_pos ha hj
    have hd := hasDerivAt_groupSum_rho group rho rho' v v' t a hr hrho hv (group j) hD.ne'
    unfold Spec.expInclusive
    refine (hd.rpow ((hrho (group j)).const_sub 1) hD).congr_deriv ?_
    rw [Real.rpow_sub_one hD.ne']
    unfold inclusiveSlope
    have := hD.ne'
    field_simp
    ring
  · have hz : (fun s => Spec.expInclusive group (fun g => rho g s) (fun k => v k s) a g) =ᶠ[nhds t] fun _ => 0 := by
      filter_upwards [eventually_rho_lt rho rho' t hr hrho] with s hs
      unfold Spec.expInclusive
      rw [groupSum_zero_of h0, Real.zero_rpow (by linarith [hs g])]
    have h1 : Spec.expInclusive group (fun g => rho g t) (fun k => v k t) a g = 0 := hz.self_of_nhds
    rw [h1, zero_mul]
    exact (hasDerivAt_const t (0 : ℝ)).congr_of_eventuallyEq hz

include hr hrho hv ha in
lemma hasDerivAt_groupProb_rho (o : ℝ)
    (hden : o + ∑ g, Spec.expInclusive group (fun g => rho g t) (fun k => v k t) a g ≠ 0) (g : G) :
    HasDerivAt (fun s => Spec.groupProb group (fun g => rho g s) (fun k => v k s) a o g)
      (Spec.groupProb group (fun g => rho g t) (fun k => v k t) a o g * (inclusiveSlope group rho rho' v v' t a g -
        ∑ h, Spec.groupProb group (fun g => rho g t) (fun k => v k t) a o h * inclusiveSlope group rho rho' v v' t a h)) t := by
  have hnum := hasDerivAt_expInclusive_rho group rho rho' v v' t a hr hrho hv ha g
  have hd := (HasDerivAt.fun_sum (u := Finset.univ) (fun g _ =>
    hasDerivAt_expInclusive_rho group rho rho' v v' t a hr hrho hv ha g)).const_add o
  unfold Spec.groupProb
  refine (hnum.fun_div hd hden).congr_deriv ?_
  have : ∑ x, Spec.expInclusive group (fun g => rho g t) (fun k => v k t) a x /
        (o + ∑ h', Spec.expInclusive group (fun g => rho g t) (fun k => v k t) a h') * inclusiveSlope group rho rho' v v' t a x =
      (∑ x, Spec.expInclusive group (fun g => rho g t) (fun k => v k t) a x * inclusiveSlope group rho rho' v v' t a x) /
        (o + ∑ h', Spec.expInclusive group (fun g => rho g t) (fun k => v k t) a h') := by
    rw [Finset.sum_div]; refine Finset.sum_congr rfl fun k _ => by ring
  rw [this]
  field_simp

include hr hrho hv ha in
lemma hasDerivAt_nested_rho (o : ℝ)
    (hden : o + ∑ g, Spec.expInclusive group (fun g => rho g t) (fun k => v k t) a g ≠ 0) (j : J) :
    HasDerivAt (fun s => Spec.nested group (fun g => rho g s) (fun k => v k s) a o j)
      (Spec.within group (fun g => rho g t) (fun k => v k t) a j * (scaledSlope group rho rho' v v' t j -
        withinMean group (fun g => rho g t) (fun k => v k t) a (scaledSlope group rho rho' v v' t) (group j)) *
        Spec.groupProb group (fun g => rho g t) (fun k => v k t) a o (group j) +
      Spec.within group (fun g => rho g t) (fun k => v k t) a j *
        (Spec.groupProb group (fun g => rho g t) (fun k => v k t) a o (group j) *
          (inclusiveSlope group rho rho' v v' t a (group j) -
        ∑ h, Spec.groupProb group (fun g => rho g t) (fun k => v k t) a o h * inclusiveSlope group rho rho' v v' t a h))) t :=
  (hasDerivAt_within_rho group rho rho' v v' t a hr hrho hv ha j).fun_mul
    (hasDerivAt_groupProb_rho group rho rho' v v' t a hr hrho hv ha o hden (group j))

end paths

end Pyblp
