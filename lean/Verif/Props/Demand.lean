import Verif.Lemmas.DemandDeriv
import Verif.Props.Delta

/-!
# C26–C29: demand Jacobians, Hessians, ξ-Jacobians, contraction Jacobians and profit derivatives are derivatives

All statements are `HasDerivAt` (Mathlib's definition of a derivative) of the model's own shares, probabilities, profits
and contraction in one coordinate, with the others held fixed (`Function.update x l t` sets coordinate `l` of `x` to `t`).
-/

set_option linter.unusedSectionVars false

namespace Pyblp

variable {J A G K1 K2 : Type} [Fintype J] [DecidableEq J] [Nonempty J] [Fintype G] [DecidableEq G] [Fintype A]
  [Fintype K1] [Fintype K2]

/-- C26: entry `(j, k)` of the demand Jacobian is the partial derivative of product `j`'s share with respect to product
`k`'s characteristic (own and cross effects, with or without nesting, for any integration weights), provided only that
the formulas' derivatives are right. -/
theorem C26_demand_jacobian (m : Market J A G) (hm : WellFormed m) (c : Characteristic J A K1 K2) (hc : c.Smooth)
    (x : J → ℝ) (j k : J) :
    HasDerivAt (fun t => sharesAt m c (Function.update x k t) j)
      (sharesJacobian m (probabilitiesAt m c x) (conditionalsAt m c x) (utilityDerivatives m c x) j k) (x k) := by
  unfold sharesAt
  refine (HasDerivAt.fun_sum (u := Finset.univ) (A := fun i t => probabilitiesAt m c (Function.update x k t) j i * m.weights i)
    fun i _ => (hasDerivAt_probabilitiesAt m hm c hc x k j i).mul_const (m.weights i)).congr_deriv ?_
  unfold sharesJacobian capitalLamda capitalGamma probabilityDerivatives
  cases hn : m.nesting with
  | none =>
    simp only []
    by_cases h : j = k
    · subst h
      simp only [if_true]
      rw [← Finset.sum_sub_distrib]
      exact Finset.sum_congr rfl fun i _ => by ring
    · simp only [h, if_false, zero_sub]
      rw [← Finset.sum_neg_distrib]
      exact Finset.sum_congr rfl fun i _ => by ring
  | some n =>
    simp only []
    by_cases h : j = k
    · subst h
      simp only [if_true]
      rw [Finset.sum_div, Finset.mul_sum, ← Finset.sum_add_distrib, ← Finset.sum_sub_distrib]
      exact Finset.sum_congr rfl fun i _ => by ring
    · simp only [h, if_false, zero_sub]
      rw [Finset.mul_sum, ← Finset.sum_add_distrib, ← Finset.sum_neg_distrib]
      exact Finset.sum_congr rfl fun i _ => by ring

/-- Derivative of the capital lambda diagonal. -/
lemma hasDerivAt_capitalLamda (m : Market J A G) (hm : WellFormed m) (c : Characteristic J A K1 K2) (hc : c.Smooth)
    (x : J → ℝ) (j l : J) :
    HasDerivAt (fun t => capitalLamda m (probabilitiesAt m c (Function.update x l t))
        (utilityDerivatives m c (Function.update x l t)) j)
      (capitalLamdaTensor m (probabilitiesAt m c x) (conditionalsAt m c x) (utilityDerivatives m c x)
        (utilitySecondDerivatives m c x) j l) (x l) := by
  have key : HasDerivAt (fun t => ∑ i, probabilitiesAt m c (Function.update x l t) j i *
      utilityDerivatives m c (Function.update x l t) j i * m.weights i)
      (∑ i, probabilityUtilitySecondDerivatives m (probabilitiesAt m c x) (conditionalsAt m c x)
        (utilityDerivatives m c x) (utilitySecondDerivatives m c x) l j i * m.weights i) (x l) := by
    refine HasDerivAt.fun_sum (u := Finset.univ) (A := fun i t => probabilitiesAt m c (Function.update x l t) j i *
      utilityDerivatives m c (Function.update x l t) j i * m.weights i) fun i _ => ?_
    refine (((hasDerivAt_probabilitiesAt m hm c hc x l j i).fun_mul
      (hasDerivAt_utilityDerivatives m c hc x l j i)).mul_const (m.weights i)).congr_deriv ?_
    simp only [Function.update_eq_self]
    unfold probabilityUtilitySecondDerivatives
    by_cases h : j = l
    · subst h; simp
    · simp [h]
  unfold capitalLamda capitalLamdaTensor
  cases hn : m.nesting with
  | none => exact key
  | some n => exact key.div_const _

lemma hasDerivAt_pu (m : Market J A G) (hm : WellFormed m) (c : Characteristic J A K1 K2) (hc : c.Smooth)
    (x : J → ℝ) (k l : J) (i : A) :
    HasDerivAt (fun t => m.weights i * (probabilitiesAt m c (Function.update x l t) k i *
        utilityDerivatives m c (Function.update x l t) k i))
      (m.weights i * probabilityUtilitySecondDerivatives m (probabilitiesAt m c x) (conditionalsAt m c x)
        (utilityDerivatives m c x) (utilitySecondDerivatives m c x) l k i) (x l) := by
  refine (((hasDerivAt_probabilitiesAt m hm c hc x l k i).fun_mul
    (hasDerivAt_utilityDerivatives m c hc x l k i)).const_mul (m.weights i)).congr_deriv ?_
  simp only [Function.update_eq_self]
  unfold probabilityUtilitySecondDerivatives
  by_cases h : k = l
  · subst h; simp
  · simp [h]

lemma hasDerivAt_capitalGamma (m : Market J A G) (hm : WellFormed m) (c : Characteristic J A K1 K2) (hc : c.Smooth)
    (x : J → ℝ) (j k l : J) :
    HasDerivAt (fun t => capitalGamma m (probabilitiesAt m c (Function.update x l t))
        (conditionalsAt m c (Function.update x l t)) (utilityDerivatives m c (Function.update x l t)) j k)
      (capitalGammaTensor m (probabilitiesAt m c x) (conditionalsAt m c x) (utilityDerivatives m c x)
        (utilitySecondDerivatives m c x) j k l) (x l) := by
  have key : HasDerivAt (fun t => ∑ i, probabilitiesAt m c (Function.update x l t) j i * (m.weights i *
      (probabilitiesAt m c (Function.update x l t) k i * utilityDerivatives m c (Function.update x l t) k i)))
      ((∑ i, probabilityDerivatives m (probabilitiesAt m c x) (conditionalsAt m c x) (utilityDerivatives m c x) l j i *
        (m.weights i * (probabilitiesAt m c x k i * utilityDerivatives m c x k i))) +
        ∑ i, probabilitiesAt m c x j i * (m.weights i * probabilityUtilitySecondDerivatives m (probabilitiesAt m c x)
          (conditionalsAt m c x) (utilityDerivatives m c x) (utilitySecondDerivatives m c x) l k i)) (x l) := by
    rw [← Finset.sum_add_distrib]
    refine HasDerivAt.fun_sum (u := Finset.univ) (A := fun i t => probabilitiesAt m c (Function.update x l t) j i *
      (m.weights i * (probabilitiesAt m c (Function.update x l t) k i *
        utilityDerivatives m c (Function.update x l t) k i))) fun i _ => ?_
    refine ((hasDerivAt_probabilitiesAt m hm c hc x l j i).fun_mul (hasDerivAt_pu m hm c hc x k l i)).congr_deriv ?_
    simp only [Function.update_eq_self]
  unfold capitalGamma capitalGammaTensor
  cases hn : m.nesting with
  | none => exact key
  | some n =>
    refine key.add (HasDerivAt.const_mul _ ?_)
    rw [← Finset.sum_add_distrib]
    refine HasDerivAt.fun_sum (u := Finset.univ) (A := fun i t => conditionalsAt m c (Function.update x l t) j i *
      (m.weights i * (probabilitiesAt m c (Function.update x l t) k i *
        utilityDerivatives m c (Function.update x l t) k i))) fun i _ => ?_
    refine ((hasDerivAt_conditionalsAt m hm c hc n hn x l j i).fun_mul (hasDerivAt_pu m hm c hc x k l i)).congr_deriv ?_
    simp only [Function.update_eq_self]

/-- C26: entry `(j, k, l)` of the demand Hessian is the partial derivative of the Jacobian's entry `(j, k)` with respect to
product `l`'s characteristic. -/
theorem C26_demand_hessian (m : Market J A G) (hm : WellFormed m) (c : Characteristic J A K1 K2) (hc : c.Smooth)
    (x : J → ℝ) (j k l : J) :
    HasDerivAt (fun t => sharesJacobian m (probabilitiesAt m c (Function.update x l t))
        (conditionalsAt m c (Function.update x l t)) (utilityDerivatives m c (Function.update x l t)) j k)
      (sharesHessian m (probabilitiesAt m c x) (conditionalsAt m c x) (utilityDerivatives m c x)
        (utilitySecondDerivatives m c x) j k l) (x l) := by
  unfold sharesJacobian sharesHessian
  refine HasDerivAt.sub ?_ (hasDerivAt_capitalGamma m hm c hc x j k l)
  by_cases h : j = k
  · simp only [h, if_true]; exact hasDerivAt_capitalLamda m hm c hc x k l
  · simp only [h, if_false]; exact hasDerivAt_const _ _

/-- C29: entry `(j, k)` of the profit Jacobian is the partial derivative of product `j`'s profit `(p_j - c_j) s_j(p)` with
respect to product `k`'s price. -/
theorem C29_profit_jacobian (m : Market J A G) (hm : WellFormed m) (c : Characteristic J A K1 K2) (hc : c.Smooth)
    (costs p : J → ℝ) (j k : J) :
    HasDerivAt (fun t => (Function.update p k t j - costs j) * sharesAt m c (Function.update p k t) j)
      (profitJacobian m c costs p j k) (p k) := by
  have hs := C26_demand_jacobian m hm c hc p j k
  unfold profitJacobian
  by_cases h : j = k
  · subst h
    simp only [Function.update_self, if_true]
    refine (((hasDerivAt_id (p j)).sub_const (costs j)).fun_mul hs).congr_deriv ?_
    simp only [Function.update_eq_self, id, one_mul]
  · simp only [Function.update_of_ne h, h, if_false, zero_add]
    exact hs.const_mul _

/-- C29: entry `(j, k, l)` of the profit Hessian is the partial derivative of the profit Jacobian's entry `(j, k)`. -/
theorem C29_profit_hessian (m : Market J A G) (hm : WellFormed m) (c : Characteristic J A K1 K2) (hc : c.Smooth)
    (costs p : J → ℝ) (j k l : J) :
    HasDerivAt (fun t => profitJacobian m c costs (Function.update p l t) j k) (profitHessian m c costs p j k l) (p l) := by
  have hs := C26_demand_jacobian m hm c hc p j l
  have hh := C26_demand_hessian m hm c hc p j k l
  have h1 : HasDerivAt (fun t => if j = k then sharesAt m c (Function.update p l t) j else 0)
      (if j = k then sharesJacobian m (probabilitiesAt m c p) (conditionalsAt m c p) (utilityDerivatives m c p) j l else 0)
      (p l) := by
    by_cases h : j = k
    · simp only [if_pos h]; exact hs
    · simp only [if_neg h]; exact hasDerivAt_const _ _
  have h2 : HasDerivAt (fun t => Function.update p l t j - costs j) (if j = l then 1 else 0) (p l) := by
    by_cases h : j = l
    · subst h; simp only [Function.update_self, if_true]; exact (hasDerivAt_id (p j)).sub_const _
    · simp only [Function.update_of_ne h, if_neg h]; exact hasDerivAt_const _ _
  unfold profitJacobian profitHessian
  refine (h1.add (h2.fun_mul hh)).congr_deriv ?_
  simp only [Function.update_eq_self]
  by_cases h : j = l
  · simp only [if_pos h]; ring
  · simp only [if_neg h]; ring

lemma hasDerivAt_delta_path (m : Market J A G) (delta : J → ℝ) (mu : J → A → ℝ) (k l : J) (i : A) :
    HasDerivAt (fun t => (Function.update delta l t k + mu k i) / m.epsilonScale)
      (if k = l then 1 / m.epsilonScale else 0) (delta l) := by
  by_cases h : k = l
  · subst h
    simp only [Function.update_self, if_true]
    exact ((hasDerivAt_id (delta k)).add_const _).div_const _
  · simp only [Function.update_of_ne h, if_neg h]; exact hasDerivAt_const _ _

/-- C27: the tensor used for the ξ-derivatives of probabilities holds the derivatives of each agent's choice probability of
`j` with respect to the mean utility of `k`, also when products or the outside option are eliminated. -/
theorem C27_probabilities_by_xi_options (m : Market J A G) (hm : WellFormed m) (o : ProbOpts J A) (ho : o.availability = none)
    (delta : J → ℝ) (mu : J → A → ℝ) (k j : J) (i : A) (hset : o.eliminateOutside = false ∨ ∃ j, Offered m o i j) :
    HasDerivAt (fun t => computeProbabilities m o (Function.update delta k t) mu j i)
      (probabilitiesByXi m (computeProbabilities m o delta mu) (computeConditionals m o delta mu) k j i)
      (delta k) := by
  have := hasDerivAt_computeProbabilities_options m hm o ho (fun t => Function.update delta k t) (fun _ => mu) i hset
    (fun q => if q = k then 1 / m.epsilonScale else 0) (delta k) (fun q => hasDerivAt_delta_path m delta mu q k i) j
  simp only [Function.update_eq_self] at this
  rw [dProb_single_options m hm o ho delta mu i (fun _ _ => 1 / m.epsilonScale) k j] at this
  refine this.congr_deriv ?_
  unfold probabilityDerivatives probabilitiesByXi
  cases hn : m.nesting with
  | none =>
    simp only []
    by_cases h1 : m.epsilonScale = 1
    · by_cases h : k = j
      · subst h; simp [h1]
      · simp [h1, h, Ne.symm h]
    · by_cases h : k = j
      · subst h; simp [h1]; ring
      · simp [h1, h, Ne.symm h]; ring
  | some n =>
    have he : m.epsilonScale = 1 := hm.scale (by rw [hn]; simp)
    have hr : n.productRho j ≠ 1 := (hm.regular.rhoBelowOne n hn _).ne
    have hr' : 1 - n.productRho j ≠ 0 := sub_ne_zero.mpr hr.symm
    simp only [he]
    by_cases hg : n.group j = n.group k
    · have hrho : n.productRho k = n.productRho j := by simp [Nesting.productRho, hg]
      by_cases h : k = j
      · subst h; simp [membership]; field_simp; ring
      · simp [membership, hg, h, Ne.symm h, hrho]; ring
    · have h : k ≠ j := fun h => hg (by rw [h])
      simp [membership, hg, Ne.symm hg, h, h.symm]

/-- C27: the usual case, in which nothing is eliminated. -/
theorem C27_probabilities_by_xi (m : Market J A G) (hm : WellFormed m) (safe : Bool) (delta : J → ℝ) (mu : J → A → ℝ)
    (k j : J) (i : A) :
    HasDerivAt (fun t => computeProbabilities m { safe } (Function.update delta k t) mu j i)
      (probabilitiesByXi m (computeProbabilities m { safe } delta mu) (computeConditionals m { safe } delta mu) k j i)
      (delta k) :=
  C27_probabilities_by_xi_options m hm { safe } rfl delta mu k j i (Or.inl rfl)

/-- C27: the same for probabilities conditional on a nest. -/
theorem C27_conditionals_by_xi (m : Market J A G) (hm : WellFormed m) (safe : Bool) (delta : J → ℝ) (mu : J → A → ℝ)
    (n : Nesting J G) (hn : m.nesting = some n) (k j : J) (i : A) :
    HasDerivAt (fun t => computeConditionals m { safe } (Function.update delta k t) mu j i)
      (conditionalsByXi n (computeConditionals m { safe } delta mu) k j i) (delta k) := by
  have := hasDerivAt_computeConditionals m hm safe (fun t => Function.update delta k t) (fun _ => mu) i
    (fun q => if q = k then 1 / m.epsilonScale else 0) (delta k) (fun q => hasDerivAt_delta_path m delta mu q k i) n hn j
  simp only [Function.update_eq_self] at this
  refine this.congr_deriv ?_
  have he : m.epsilonScale = 1 := hm.scale (by rw [hn]; simp)
  unfold conditionalsByXi membership
  simp only [he, mul_ite, mul_zero, Finset.sum_ite_eq', Finset.mem_filter, Finset.mem_univ, true_and]
  by_cases hg : n.group k = n.group j
  · have hrho : n.productRho k = n.productRho j := by simp [Nesting.productRho, hg]
    by_cases h : k = j
    · subst h; simp; ring
    · simp [hg, h, Ne.symm h, hrho]; ring
  · have h : k ≠ j := fun h => hg (by rw [h])
    simp [hg, h, h.symm]

/-- C27: where the observed shares are the model's shares, the matrix pyblp inverts to get ξ-derivatives is the Jacobian
of shares with respect to mean utilities. -/
theorem C27_shares_by_xi (m : Market J A G) (hm : WellFormed m) (safe : Bool) (delta : J → ℝ) (mu : J → A → ℝ)
    (s : J → ℝ) (hs : ∀ j, s j = computeShares m { safe } delta mu j) (j k : J) :
    HasDerivAt (fun t => computeShares m { safe } (Function.update delta k t) mu j)
      (sharesByXiJacobian m s (computeProbabilities m { safe } delta mu) (computeConditionals m { safe } delta mu) j k)
      (delta k) := by
  unfold computeShares at hs ⊢
  refine (HasDerivAt.fun_sum (u := Finset.univ)
    (A := fun i t => computeProbabilities m { safe } (Function.update delta k t) mu j i * m.weights i) fun i _ =>
    (C27_probabilities_by_xi m hm safe delta mu k j i).mul_const (m.weights i)).congr_deriv ?_
  unfold probabilitiesByXi sharesByXiJacobian
  cases hn : m.nesting with
  | none =>
    have hsum : (∑ i, (-(computeProbabilities m { safe } delta mu j i) * computeProbabilities m { safe } delta mu k i +
        if k = j then computeProbabilities m { safe } delta mu j i else 0) * m.weights i) =
        (if j = k then s j else 0) - ∑ i, computeProbabilities m { safe } delta mu j i * (m.weights i *
          computeProbabilities m { safe } delta mu k i) := by
      by_cases h : j = k
      · subst h
        simp only [if_true, hs j]
        rw [← Finset.sum_sub_distrib]
        exact Finset.sum_congr rfl fun i _ => by ring
      · simp only [h, Ne.symm h, if_false, zero_sub]
        rw [← Finset.sum_neg_distrib]
        exact Finset.sum_congr rfl fun i _ => by ring
    by_cases h1 : m.epsilonScale = 1
    · simp only [h1, ne_eq, not_true_eq_false, if_false]; exact hsum
    · simp only [h1, ne_eq, not_false_eq_true, if_true, ← hsum, Finset.sum_div]
      exact Finset.sum_congr rfl fun i _ => by ring
  | some n =>
    simp only []
    by_cases hg : n.group j = n.group k
    · have hrho : n.productRho k = n.productRho j := by simp [Nesting.productRho, hg]
      have hc : ∀ i, computeConditionals m { safe } delta mu k i * computeProbabilities m { safe } delta mu j i =
          computeConditionals m { safe } delta mu j i * computeProbabilities m { safe } delta mu k i := fun i =>
        cond_mul_prob m hm { safe } rfl delta mu i n hn k j hg.symm
      by_cases h : j = k
      · subst h
        simp only [membership, if_true, hs j, one_mul]
        rw [← Finset.sum_sub_distrib, ← Finset.sum_sub_distrib, Finset.mul_sum, ← Finset.sum_add_distrib]
        exact Finset.sum_congr rfl fun i _ => by ring
      · simp only [membership, hg, h, Ne.symm h, if_true, if_false, zero_sub, one_mul, hrho]
        rw [← Finset.sum_neg_distrib, ← Finset.sum_neg_distrib, Finset.mul_sum, ← Finset.sum_add_distrib]
        exact Finset.sum_congr rfl fun i _ => by ring
    · have h : j ≠ k := fun h => hg (by rw [h])
      simp only [membership, hg, Ne.symm hg, h, h.symm, if_false, zero_sub, zero_mul, neg_zero, mul_zero, add_zero]
      rw [← Finset.sum_neg_distrib]
      exact Finset.sum_congr rfl fun i _ => by ring

/-! ## C28 -/

lemma sharesByXi_of (m : Market J A G) (s s' : J → ℝ) (P C : J → A → ℝ) (j k : J) (h : s j = s' j) :
    sharesByXiJacobian m s P C j k = sharesByXiJacobian m s' P C j k := by
  unfold sharesByXiJacobian; rw [h]

/-- C28: with the default scale of epsilon, where the share of `j` is strictly inside the clipping bounds, the Jacobian
returned by the contraction is the derivative of the contraction. -/
theorem C28_contraction_jacobian_partial (m : Market J A G) (hm : WellFormed m) (he : m.epsilonScale = 1) (safe : Bool)
    (b : SharesBounds) (mu : J → A → ℝ) (s x : J → ℝ) (j k : J) (hpos : 0 < computeShares m { safe } x mu j)
    (hl : ∀ l, b.lb = some l → l < computeShares m { safe } x mu j)
    (hu : ∀ u, b.ub = some u → computeShares m { safe } x mu j < u) :
    HasDerivAt (fun t => linearContraction m safe b mu s (Function.update x k t) j)
      (linearContractionJacobian m safe b mu x j k) (x k) := by
  have hs := C27_shares_by_xi m hm safe x mu (computeShares m { safe } x mu) (fun _ => rfl) j k
  have hclip : ∀ y : ℝ, (∀ l, b.lb = some l → l < y) → (∀ u, b.ub = some u → y < u) → (clipShare b y).1 = y := by
    intro y h1 h2
    unfold clipShare
    cases hbl : b.lb <;> cases hbu : b.ub <;> simp only []
    · rw [if_neg]; simpa using (h2 _ hbu).le
    · rw [if_neg]; simpa using (h1 _ hbl).le
    · have h1' := (h1 _ hbl).le
      have h2' := (h2 _ hbu).le
      simp [not_lt.mpr h1', not_lt.mpr h2']
  -- clipping does nothing close to `x`
  have hev : (fun t => linearContraction m safe b mu s (Function.update x k t) j) =ᶠ[nhds (x k)]
      fun t => Function.update x k t j + (Real.log (s j) - Real.log (computeShares m { safe } (Function.update x k t) mu j)) *
        dampener m j := by
    have hc := hs.continuousAt
    have hc1 : ∀ᶠ t in nhds (x k), ∀ l, b.lb = some l → l < computeShares m { safe } (Function.update x k t) mu j := by
      cases hbl : b.lb with
      | none => simp
      | some l =>
        have := hc.eventually_const_lt (u := l) (by simpa using hl l hbl)
        filter_upwards [this] with t ht l' hl'
        rw [Option.some.injEq] at hl'; rwa [← hl']
    have hc2 : ∀ᶠ t in nhds (x k), ∀ u, b.ub = some u → computeShares m { safe } (Function.update x k t) mu j < u := by
      cases hbu : b.ub with
      | none => simp
      | some l =>
        have := hc.eventually_lt_const (u := l) (by simpa using hu l hbu)
        filter_upwards [this] with t ht l' hl'
        rw [Option.some.injEq] at hl'; rwa [← hl']
    filter_upwards [hc1, hc2] with t h1 h2
    unfold linearContraction
    rw [hclip _ h1 h2]
  refine HasDerivAt.congr_of_eventuallyEq ?_ hev
  have h1 : HasDerivAt (fun t => Function.update x k t j) (if j = k then 1 else 0) (x k) := by
    by_cases h : j = k
    · subst h; simp only [Function.update_self, if_true]; exact hasDerivAt_id _
    · simp only [Function.update_of_ne h, if_neg h]; exact hasDerivAt_const _ _
  have h2 := hs.log (by simpa using hpos.ne')
  refine (h1.add (((h2.const_sub (Real.log (s j))).mul_const (dampener m j)))).congr_deriv ?_
  simp only [Function.update_eq_self]
  unfold linearContractionJacobian sharesByXiJacobian dampener
  rw [hclip _ hl hu]
  have hne := hpos.ne'
  cases hn : m.nesting with
  | none =>
    simp only [he, ne_eq, not_true_eq_false, if_false]
    by_cases h : j = k
    · subst h; simp only [if_true]; field_simp; ring
    · simp only [h, if_false]; field_simp; ring
  | some n =>
    have hr : 1 - n.productRho j ≠ 0 := sub_ne_zero.mpr (hm.regular.rhoBelowOne n hn _).ne'
    simp only [membership]
    by_cases h : j = k
    · subst h; simp only [if_true]; field_simp; ring
    · simp only [h, if_false]; field_simp; ring

/-- C28 fails with any other scale of epsilon: in a market with one product and no clipping, the Jacobian returned by the
contraction is not its derivative. -/
theorem C28_epsilon_refuted (e : ℝ) (he0 : 0 < e) (he1 : e ≠ 1) (safe : Bool) (s x : Unit → ℝ) :
    ¬ HasDerivAt (fun t => linearContraction (oneProduct e) safe ⟨none, none⟩ (fun _ _ => 0) s (Function.update x () t) ())
      (linearContractionJacobian (oneProduct e) safe ⟨none, none⟩ (fun _ _ => 0) x () ()) (x ()) := by
  intro hbad
  have hx : ∀ t, Function.update x () t = fun _ => t := fun t => by ext; simp
  have hx0 : x = fun _ => x () := by ext; rfl
  have htrue : HasDerivAt (fun t => linearContraction (oneProduct e) safe ⟨none, none⟩ (fun _ _ => 0) s
      (Function.update x () t) ()) (1 - 1 / e * (1 / (1 + Real.exp (x () / e)))) (x ()) := by
    have hfun : (fun t => linearContraction (oneProduct e) safe ⟨none, none⟩ (fun _ _ => 0) s
        (Function.update x () t) ()) = fun t => t + (Real.log (s ()) - (t / e - Real.log (1 + Real.exp (t / e)))) := by
      funext t
      rw [hx]
      have := Real.exp_pos (t / e)
      simp only [linearContraction, clipShare, oneProduct_shares]
      rw [Real.log_div this.ne' (by positivity), Real.log_exp]
      simp [dampener, oneProduct]
    rw [hfun]
    have hd : HasDerivAt (fun t : ℝ => t / e) (1 / e) (x ()) := (hasDerivAt_id _).div_const e
    have hexp := (hd.exp.const_add 1).log (by positivity)
    refine ((hasDerivAt_id (x ())).add ((hd.sub hexp).const_sub (Real.log (s ())))).congr_deriv ?_
    have := Real.exp_pos (x () / e)
    field_simp
    ring
  have h := htrue.unique hbad
  have hjac : linearContractionJacobian (oneProduct e) safe ⟨none, none⟩ (fun _ _ => 0) x () () =
      Real.exp (x () / e) / (1 + Real.exp (x () / e)) := by
    have hsh := oneProduct_shares e (x ()) safe
    rw [← hx0] at hsh
    have hP : computeProbabilities (oneProduct e) { safe } x (fun _ _ => 0) () () =
        computeShares (oneProduct e) { safe } x (fun _ _ => 0) () := by
      simp [computeShares, oneProduct]
    simp only [linearContractionJacobian, clipShare, oneProduct, Finset.univ_unique, Finset.sum_singleton]
    simp only [oneProduct] at hP hsh
    have := Real.exp_pos (x () / e)
    rw [show (default : Unit) = () from rfl, hP, hsh]
    field_simp
  rw [hjac] at h
  have := Real.exp_pos (x () / e)
  field_simp at h
  apply he1
  nlinarith [h]

/-- C28 fails where shares are clipped: in a market with one product and a share below the lower bound, the contraction moves one to one
with mean utility, but the returned Jacobian is smaller than one. -/
theorem C28_clipped_refuted (l : ℝ) (hl : l ≤ 1) (safe : Bool) (s x : Unit → ℝ)
    (hx : computeShares (oneProduct 1) { safe } x (fun _ _ => 0) () < l) :
    HasDerivAt (fun t => linearContraction (oneProduct 1) safe ⟨some l, none⟩ (fun _ _ => 0) s (Function.update x () t) ()) 1 (x ()) ∧
      linearContractionJacobian (oneProduct 1) safe ⟨some l, none⟩ (fun _ _ => 0) x () () < 1 := by
  have hu : ∀ t, Function.update x () t = fun _ => t := fun t => by ext; simp
  have hx0 : x = fun _ => x () := by ext; rfl
  have hsh := oneProduct_shares 1 (x ()) safe
  rw [← hx0, div_one] at hsh
  have hpos : 0 < computeShares (oneProduct 1) { safe } x (fun _ _ => 0) () := by
    rw [hsh]
    positivity
  constructor
  · have hev : (fun t => linearContraction (oneProduct 1) safe ⟨some l, none⟩ (fun _ _ => 0) s (Function.update x () t) ()) =ᶠ[nhds (x ())]
        fun t => t + (Real.log (s ()) - Real.log l) := by
      have hc : ContinuousAt (fun t : ℝ => Real.exp t / (1 + Real.exp t)) (x ()) :=
        (Real.continuous_exp.continuousAt).div (by fun_prop) (by positivity)
      filter_upwards [hc.eventually_lt_const (u := l) (lt_of_eq_of_lt hsh.symm hx)] with t ht
      have hs : computeShares (oneProduct 1) { safe } (fun _ => t) (fun _ _ => 0) () < l := by
        rw [oneProduct_shares, div_one]
        exact ht
      simp only [linearContraction, hu, clipShare, decide_eq_true_eq, if_pos hs]
      simp [dampener, oneProduct]
    exact ((hasDerivAt_id (x ())).add_const _).congr_of_eventuallyEq hev
  · have hP : computeProbabilities (oneProduct 1) { safe } x (fun _ _ => 0) () () =
        computeShares (oneProduct 1) { safe } x (fun _ _ => 0) () := by
      simp [computeShares, oneProduct]
    have hjac : linearContractionJacobian (oneProduct 1) safe ⟨some l, none⟩ (fun _ _ => 0) x () () =
        computeShares (oneProduct 1) { safe } x (fun _ _ => 0) () * computeShares (oneProduct 1) { safe } x (fun _ _ => 0) () / l := by
      rw [← hP]
      simp only [linearContractionJacobian, clipShare, decide_eq_true_eq, if_pos hx]
      simp [oneProduct]
    rw [hjac, div_lt_one (hpos.trans hx)]
    nlinarith

example : computeShares (oneProduct 1) { safe := true } (fun _ => 0) (fun _ _ => 0) () < 3 / 4 ∧ (3 / 4 : ℝ) ≤ 1 := by
  rw [oneProduct_shares]
  norm_num

/-! ## Non-vacuity -/

lemma exampleMarket_wellFormed : WellFormed exampleMarket where
  regular := exampleMarket_regular
  scale := fun _ => rfl
  avail := by
    intro a h i j
    simp [exampleMarket] at h
    subst h
    fin_cases i <;> fin_cases j <;> simp

/-- A characteristic (price) entering mean utility linearly with coefficient -2, and heterogeneous utility squared. -/
noncomputable def exampleCharacteristic : Characteristic (Fin 3) (Fin 2) (Fin 2) (Fin 1) where
  delta := ![1, 2, 3]
  x0 := ![1, 1, 2]
  beta := ![-2, 1]
  has1 := ![true, false]
  x1 := fun k j t => if k = 0 then t else if j = 0 then 5 else 7
  d1 := fun _ _ _ => 1
  dd1 := fun _ _ _ => 0
  coef := fun _ i _ => if i = 0 then 1 else -1
  has2 := fun _ => true
  x2 := fun _ _ t => t ^ 2
  d2 := fun _ _ t => 2 * t
  dd2 := fun _ _ _ => 2

lemma exampleCharacteristic_smooth : exampleCharacteristic.Smooth where
  x1 := by
    intro k hk j t
    fin_cases k
    · exact hasDerivAt_id t
    · simp [exampleCharacteristic] at hk
  d1 := fun k _ j t => hasDerivAt_const t 1
  x2 := fun k _ j t => by
    refine (hasDerivAt_pow 2 t).congr_deriv ?_
    simp [exampleCharacteristic]
  d2 := fun k _ j t => by
    refine ((hasDerivAt_id t).const_mul 2).congr_deriv ?_
    simp [exampleCharacteristic]

/-- Non-vacuity of C26: the example market and characteristic. -/
example : HasDerivAt (fun t => sharesAt exampleMarket exampleCharacteristic (Function.update ![1, 3/2, 2] 1 t) 0)
    (sharesJacobian exampleMarket (probabilitiesAt exampleMarket exampleCharacteristic ![1, 3/2, 2])
      (conditionalsAt exampleMarket exampleCharacteristic ![1, 3/2, 2])
      (utilityDerivatives exampleMarket exampleCharacteristic ![1, 3/2, 2]) 0 1) (![1, 3/2, 2] 1) :=
  C26_demand_jacobian _ exampleMarket_wellFormed _ exampleCharacteristic_smooth _ _ _

/-- Non-vacuity of C29. -/
example : HasDerivAt (fun t => profitJacobian exampleMarket exampleCharacteristic ![1/2, 1/2, 1/2]
    (Function.update ![1, 3/2, 2] 1 t) 0 1) (profitHessian exampleMarket exampleCharacteristic ![1/2, 1/2, 1/2]
      ![1, 3/2, 2] 0 1 1) (![1, 3/2, 2] 1) :=
  C29_profit_hessian _ exampleMarket_wellFormed _ exampleCharacteristic_smooth _ _ _ _ _

/-- Non-vacuity of C27: the example market with two nests. -/
example (mu : Fin 3 → Fin 2 → ℝ) (delta : Fin 3 → ℝ) :
    HasDerivAt (fun t => computeShares exampleMarket {} (Function.update delta 1 t) mu 0)
      (sharesByXiJacobian exampleMarket (computeShares exampleMarket {} delta mu)
        (computeProbabilities exampleMarket {} delta mu) (computeConditionals exampleMarket {} delta mu) 0 1) (delta 1) :=
  C27_shares_by_xi _ exampleMarket_wellFormed true _ _ _ (fun _ => rfl) _ _

/-- Non-vacuity of C28: the example market without bounds. -/
example (mu : Fin 3 → Fin 2 → ℝ) (s x : Fin 3 → ℝ) (j k : Fin 3) :
    HasDerivAt (fun t => linearContraction exampleMarket true ⟨none, none⟩ mu s (Function.update x k t) j)
      (linearContractionJacobian exampleMarket true ⟨none, none⟩ mu x j k) (x k) :=
  C28_contraction_jacobian_partial _ exampleMarket_wellFormed rfl true _ mu s x j k
    (computeShares_pos _ _ _ _ exampleMarket_rho (exampleMarket_avail _ rfl)
      (by intro i; fin_cases i <;> (simp [exampleMarket]; try norm_num)) exampleMarket_offered j) (by simp) (by simp)

end Pyblp
