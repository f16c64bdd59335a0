import Verif.Model.PostEstimation
import Verif.Lemmas.PathDeriv
import Verif.Props.Supply
import Mathlib.Algebra.Order.Chebyshev

/-!
# C33–C37: diversion ratios, elasticities, concentration and consumer surplus
-/

set_option linter.unusedSectionVars false

namespace Pyblp

variable {J A G K1 K2 : Type} [Fintype J] [DecidableEq J] [Nonempty J] [Fintype G] [DecidableEq G] [Fintype A]
  [Fintype K1] [Fintype K2]

/-! ## C33 -/

/-- C33: every row of diversion ratios sums to one, for any Jacobian with a nonzero diagonal. -/
theorem C33_rows_sum (jac : J → J → ℝ) (j : J) (h : jac j j ≠ 0) : ∑ k, diversionRatios jac j k = 1 := by
  have hsplit : ∀ k, diversionRatios jac j k = (if j = k then (∑ l, jac j l) / jac j j + 1 else 0) - jac j k / jac j j := by
    intro k
    unfold diversionRatios
    by_cases hk : j = k
    · subst hk; simp only [if_true]; field_simp; ring
    · simp only [hk, if_false]; ring
  simp only [hsplit, Finset.sum_sub_distrib, Finset.sum_ite_eq, Finset.mem_univ, if_true, ← Finset.sum_div]
  ring

/-- Specification: the documented diversion ratio. `d k` is the derivative of the share of `k` with respect to the
characteristic of `j`. Off the diagonal it is `-d k / d j`, on the diagonal minus the derivative of the outside share
(`1 - ∑ s`) divided by `d j`. -/
noncomputable def Spec.diversion (d : J → ℝ) (j k : J) : ℝ :=
  if j = k then -(-∑ l, d l) / d j else -(d k) / d j

/-- The Jacobian is symmetric if the derivative of utility with respect to the characteristic is the same for all products
(e.g. prices enter linearly with the same coefficients). -/
lemma sharesJacobian_symm (m : Market J A G) (hm : WellFormed m) (delta : J → ℝ) (mu : J → A → ℝ) (U : J → A → ℝ)
    (hU : ∀ j k i, U j i = U k i) (j k : J) :
    sharesJacobian m (computeProbabilities m {} delta mu) (computeConditionals m {} delta mu) U j k =
    sharesJacobian m (computeProbabilities m {} delta mu) (computeConditionals m {} delta mu) U k j := by
  by_cases h : j = k
  · subst h; rfl
  unfold sharesJacobian capitalGamma
  simp only [h, Ne.symm h, if_false]
  congr 1
  cases hn : m.nesting with
  | none =>
    refine Finset.sum_congr rfl fun i _ => ?_
    rw [hU j k i]; ring
  | some n =>
    simp only []
    by_cases hg : n.group j = n.group k
    · have hrho : n.productRho j = n.productRho k := by simp [Nesting.productRho, hg]
      simp only [membership, hg, if_true, hrho]
      congr 1
      · refine Finset.sum_congr rfl fun i _ => ?_
        rw [hU j k i]; ring
      · congr 1
        refine Finset.sum_congr rfl fun i _ => ?_
        have := cond_mul_prob m hm {} rfl delta mu i n hn j k hg
        rw [hU j k i]
        linear_combination (m.weights i * U k i) * this
    · simp only [membership, hg, Ne.symm hg, if_false, mul_zero, zero_mul, add_zero]
      refine Finset.sum_congr rfl fun i _ => ?_
      rw [hU j k i]; ring

/-- C33 where it holds: when the derivative of utility does not differ between products, entry `(j, k)` is the documented
diversion ratio, for the derivatives `d k` of shares with respect to the characteristic of `j`. -/
theorem C33_documented_partial (m : Market J A G) (hm : WellFormed m) (c : Characteristic J A K1 K2) (hc : c.Smooth)
    (hU : ∀ j k i, utilityDerivatives m c c.x0 j i = utilityDerivatives m c c.x0 k i) (j k : J) (d : J → ℝ)
    (hd : ∀ l, HasDerivAt (fun t => sharesAt m c (Function.update c.x0 j t) l) (d l) (c.x0 j)) :
    diversionRatios (jacobianAt m c c.x0) j k = Spec.diversion d j k := by
  have hd' : ∀ l, d l = jacobianAt m c c.x0 j l := by
    intro l
    rw [(hd l).unique (C26_demand_jacobian m hm c hc c.x0 l j)]
    exact sharesJacobian_symm m hm _ _ _ hU l j
  unfold diversionRatios Spec.diversion
  simp only [hd']
  split_ifs <;> rfl

/-- The duopoly, with utility quadratic in the characteristic, whose values are 1 and 2. -/
noncomputable def duopolyQuadratic : Characteristic (Fin 2) Unit Unit (Fin 0) where
  delta := fun _ => 0
  x0 := ![1, 2]
  beta := fun _ => -1
  has1 := fun _ => true
  x1 := fun _ _ t => t ^ 2
  d1 := fun _ _ t => 2 * t
  dd1 := fun _ _ _ => 2
  coef := fun _ _ _ => 0
  has2 := fun _ => false
  x2 := fun _ _ _ => 0
  d2 := fun _ _ _ => 0
  dd2 := fun _ _ _ => 0

lemma duopolyQuadratic_smooth : duopolyQuadratic.Smooth where
  x1 := fun _ _ _ t => by
    refine (hasDerivAt_pow 2 t).congr_deriv ?_
    simp [duopolyQuadratic]
  d1 := fun _ _ _ t => by
    refine ((hasDerivAt_id t).const_mul 2).congr_deriv ?_
    simp [duopolyQuadratic]
  x2 := fun k => k.elim0
  d2 := fun k => k.elim0

lemma duopolyQuadratic_probabilities (j : Fin 2) (i : Unit) :
    probabilitiesAt duopoly duopolyQuadratic duopolyQuadratic.x0 j i = 1 / 3 := by
  unfold probabilitiesAt
  rw [computeProbabilities_plain _ _ _ _ rfl, multiplier_one _ _ rfl rfl rfl (fun _ => rfl)]
  simp [Spec.logit, duopoly, updateDelta, updateMu, duopolyQuadratic]
  norm_num

lemma duopolyQuadratic_jacobian (j k : Fin 2) : jacobianAt duopoly duopolyQuadratic duopolyQuadratic.x0 j k =
    ((if j = k then 1 / 3 else 0) - 1 / 9) * (-2 * ![1, 2] k) := by
  simp only [jacobianAt, sharesJacobian, capitalLamda, capitalGamma, show duopoly.nesting = none from rfl,
    duopolyQuadratic_probabilities, show duopoly.weights = fun _ => 1 from rfl, Finset.univ_unique, Finset.sum_singleton]
  simp only [utilityDerivatives, duopoly, duopolyQuadratic]
  fin_cases j <;> fin_cases k <;> norm_num

/-- C33 fails in general: with utility quadratic in the variable, the reported entry (0, 1) is 1, while the documented
diversion ratio from product 0 to product 1 is 1/2. (The code divides the derivative of the share of 0 with respect to the
variable of 1 instead of the transpose.) -/
theorem C33_documented_refuted : ∃ d : Fin 2 → ℝ,
    (∀ l, HasDerivAt (fun t => sharesAt duopoly duopolyQuadratic (Function.update duopolyQuadratic.x0 0 t) l) (d l)
      (duopolyQuadratic.x0 0)) ∧
    diversionRatios (jacobianAt duopoly duopolyQuadratic duopolyQuadratic.x0) 0 1 = 1 ∧
    Spec.diversion d 0 1 = 1 / 2 := by
  refine ⟨fun l => jacobianAt duopoly duopolyQuadratic duopolyQuadratic.x0 l 0, fun l =>
    C26_demand_jacobian duopoly duopoly_wellFormed _ duopolyQuadratic_smooth _ l 0, ?_, ?_⟩
  · simp only [diversionRatios, duopolyQuadratic_jacobian]; norm_num
  · simp only [Spec.diversion, duopolyQuadratic_jacobian]; norm_num

/-- Non-vacuity of `C33_documented_partial`: the duopoly with linear prices. -/
example : diversionRatios (jacobianAt duopoly duopolyPrices duopolyPrices.x0) 0 1 =
    Spec.diversion (fun l => jacobianAt duopoly duopolyPrices duopolyPrices.x0 l 0) 0 1 :=
  C33_documented_partial _ duopoly_wellFormed _ duopolyPrices_smooth
    (fun j k i => by simp [duopoly_utilityDerivatives]) 0 1 _ (fun l =>
      C26_demand_jacobian duopoly duopoly_wellFormed _ duopolyPrices_smooth _ l 0)

/-! ## C34 -/

/-- Specification: long-run diversion. With `sw` the shares once `j` is gone, the fraction of the share of `j` that goes
to `k`, and on the diagonal the fraction that goes to the outside option. -/
noncomputable def Spec.longRunDiversion (s sw : J → ℝ) (j k : J) : ℝ :=
  if j = k then ((1 - ∑ l, sw l) - (1 - ∑ l, s l)) / s j else (sw k - s k) / s j

/-- C34: entries are documented long-run diversion ratios (with shares computed without `j`, in the market that contains
the other products only), and rows sum to one. -/
theorem C34_long_run (m : Market J A G) (hm : WellFormed m) (delta : J → ℝ) (mu : J → A → ℝ) (s : J → ℝ) (j : J)
    (hs : s j ≠ 0) :
    (∀ k, longRunDiversionRatios s (fun q => computeShares m { eliminateProduct := some q } delta mu) j k =
      Spec.longRunDiversion s (computeShares m { eliminateProduct := some j } delta mu) j k) ∧
    ∑ k, longRunDiversionRatios s (fun q => computeShares m { eliminateProduct := some q } delta mu) j k = 1 := by
  have h0 : computeShares m { eliminateProduct := some j } delta mu j = 0 := by
    unfold computeShares
    refine Finset.sum_eq_zero fun i _ => ?_
    have hmul : multiplier m { eliminateProduct := some j } i j = 0 := by simp [multiplier]
    have : computeProbabilities m { eliminateProduct := some j } delta mu j i = 0 :=
      prob_zero_of_multiplier m hm.regular.rhoBelowOne _ mu i (hm.availNonneg _ rfl i) delta j hmul
    rw [this, zero_mul]
  set sw := computeShares m { eliminateProduct := some j } delta mu with hsw
  refine ⟨fun k => ?_, ?_⟩
  · unfold longRunDiversionRatios Spec.longRunDiversion
    simp only [← hsw]
    by_cases hk : j = k
    · simp only [hk, if_true]
      rw [← Finset.sum_div, Finset.sum_sub_distrib]; ring
    · simp only [hk, if_false]
  · have hsplit : ∀ k, longRunDiversionRatios s (fun q => computeShares m { eliminateProduct := some q } delta mu) j k =
        (if j = k then -(∑ l, (sw l - s l) / s j) - (sw j - s j) / s j else 0) + (sw k - s k) / s j := by
      intro k
      unfold longRunDiversionRatios
      simp only [← hsw]
      by_cases hk : j = k
      · subst hk; simp only [if_true]; ring
      · simp only [hk, if_false, zero_add]
    simp only [hsplit, Finset.sum_add_distrib, Finset.sum_ite_eq, Finset.mem_univ, if_true]
    rw [h0]; field_simp; ring

/-- Removing products (lowering multipliers) never lowers the nested logit probability of a product that stays. -/
lemma nested_anti_multiplier (group : J → G) (rho : G → ℝ) (h0 : ∀ g, 0 ≤ rho g) (h1 : ∀ g, rho g < 1) (v a b : J → ℝ)
    (ha : ∀ k, 0 ≤ a k) (hab : ∀ k, a k ≤ b k) (j : J) (hj : a j = b j) :
    Spec.nested group rho v b 1 j ≤ Spec.nested group rho v a 1 j := by
  have hgs : ∀ g, Spec.groupSum group rho v a g ≤ Spec.groupSum group rho v b g := fun g =>
    Finset.sum_le_sum fun k _ => mul_le_mul_of_nonneg_right (hab k) (Real.exp_pos _).le
  have hga : ∀ g, 0 ≤ Spec.groupSum group rho v a g := fun g => groupSum_nonneg group rho v a ha g
  have hIn : ∀ g, Spec.expInclusive group rho v a g ≤ Spec.expInclusive group rho v b g := fun g =>
    Real.rpow_le_rpow (hga g) (hgs g) (by linarith [h1 g])
  have hIa : ∀ g, 0 ≤ Spec.expInclusive group rho v a g := expInclusive_nonneg group rho v a ha
  have hIb : ∀ g, 0 ≤ Spec.expInclusive group rho v b g := fun g => (hIa g).trans (hIn g)
  rcases eq_or_lt_of_le (ha j) with hz | hpos
  · unfold Spec.nested Spec.within
    rw [← hj, ← hz]; simp
  have hDa : 0 < Spec.groupSum group rho v a (group j) :=
    Finset.sum_pos' (fun k _ => mul_nonneg (ha k) (Real.exp_pos _).le)
      ⟨j, by simp, mul_pos hpos (Real.exp_pos _)⟩
  have hDb : 0 < Spec.groupSum group rho v b (group j) := hDa.trans_le (hgs _)
  set g := group j with hg
  have form : ∀ w : J → ℝ, 0 < Spec.groupSum group rho v w g → w j = a j → Spec.nested group rho v w 1 j =
      a j * Real.exp (v j / (1 - rho g)) * (Spec.groupSum group rho v w g ^ (-(rho g)) /
        (1 + ∑ h, Spec.expInclusive group rho v w h)) := by
    intro w hw hwj
    unfold Spec.nested Spec.within Spec.groupProb
    rw [← hg, hwj]
    have : Spec.expInclusive group rho v w g = Spec.groupSum group rho v w g * Spec.groupSum group rho v w g ^ (-(rho g)) := by
      unfold Spec.expInclusive
      rw [sub_eq_add_neg, Real.rpow_add hw, Real.rpow_one]
    rw [this]
    field_simp
  rw [form a hDa rfl, form b hDb hj.symm]
  refine mul_le_mul_of_nonneg_left ?_ (mul_nonneg (ha j) (Real.exp_pos _).le)
  have hsa : 0 ≤ ∑ h, Spec.expInclusive group rho v a h := Finset.sum_nonneg fun g _ => hIa g
  refine div_le_div₀ (Real.rpow_nonneg (hga g) _) ?_ (by linarith) ?_
  · exact Real.rpow_le_rpow_of_nonpos hDa (hgs g) (by linarith [h0 g])
  · linarith [Finset.sum_le_sum fun g (_ : g ∈ Finset.univ) => hIn g]

lemma logit_anti_multiplier (v a b : J → ℝ) (ha : ∀ k, 0 ≤ a k) (hab : ∀ k, a k ≤ b k) (j : J) (hj : a j = b j) :
    Spec.logit v b 1 j ≤ Spec.logit v a 1 j := by
  unfold Spec.logit
  rw [← hj]
  have hs : 0 ≤ ∑ k, a k * Real.exp (v k) := Finset.sum_nonneg fun k _ => mul_nonneg (ha k) (Real.exp_pos _).le
  have hle : ∑ k, a k * Real.exp (v k) ≤ ∑ k, b k * Real.exp (v k) :=
    Finset.sum_le_sum fun k _ => mul_le_mul_of_nonneg_right (hab k) (Real.exp_pos _).le
  exact div_le_div_of_nonneg_left (mul_nonneg (ha j) (Real.exp_pos _).le) (by linarith) (by linarith)

/-- C34: if observed shares are the model's, weights are nonnegative and the share of `j` is positive, all long-run
diversion ratios of `j` to other products are nonnegative (removing a product never lowers the share of another). -/
theorem C34_nonneg (m : Market J A G) (hm : WellFormed m) (hw : ∀ i, 0 ≤ m.weights i) (delta : J → ℝ) (mu : J → A → ℝ)
    (s : J → ℝ) (hs : ∀ k, s k = computeShares m {} delta mu k) (j k : J) (hpos : 0 < s j) (hjk : j ≠ k) :
    0 ≤ longRunDiversionRatios s (fun q => computeShares m { eliminateProduct := some q } delta mu) j k := by
  rw [(C34_long_run m hm delta mu s j hpos.ne').1 k]
  unfold Spec.longRunDiversion
  rw [if_neg hjk]
  refine div_nonneg ?_ hpos.le
  rw [sub_nonneg, hs k]
  unfold computeShares
  refine Finset.sum_le_sum fun i _ => mul_le_mul_of_nonneg_right ?_ (hw i)
  have ha := hm.availNonneg {} rfl i
  have ha' := hm.availNonneg { eliminateProduct := some j } rfl i
  have hmle : ∀ q, multiplier m { eliminateProduct := some j } i q ≤ multiplier m {} i q := by
    intro q
    by_cases hq : j = q
    · subst hq
      have : multiplier m { eliminateProduct := some j } i j = 0 := by simp [multiplier]
      rw [this]; exact multiplier_nonneg ha j
    · simp [multiplier, hq]
  have hmk : multiplier m { eliminateProduct := some j } i k = multiplier m {} i k := by simp [multiplier, hjk]
  cases hn : m.nesting with
  | none =>
    rw [computeProbabilities_plain m _ _ _ hn, computeProbabilities_plain m _ _ _ hn]
    exact logit_anti_multiplier _ _ _ (multiplier_nonneg ha') hmle k hmk
  | some n =>
    have hr := hm.regular.rho n hn
    rw [computeProbabilities_nested m _ _ _ n hn i ha (fun g => (hr g).2.ne),
      computeProbabilities_nested m _ _ _ n hn i ha' (fun g => (hr g).2.ne)]
    exact nested_anti_multiplier n.group n.rho.groupRho (fun g => (hr g).1) (fun g => (hr g).2) _ _ _
      (multiplier_nonneg ha') hmle k hmk

/-- Non-vacuity of C34: the nested example market. -/
example (delta : Fin 3 → ℝ) (mu : Fin 3 → Fin 2 → ℝ) :
    0 ≤ longRunDiversionRatios (computeShares exampleMarket {} delta mu)
      (fun q => computeShares exampleMarket { eliminateProduct := some q } delta mu) 0 1 :=
  C34_nonneg _ exampleMarket_wellFormed (by intro i; fin_cases i <;> (simp [exampleMarket]; try norm_num)) delta mu _
    (fun _ => rfl) 0 1 (computeShares_pos _ _ _ _ exampleMarket_rho (exampleMarket_avail _ rfl)
      (by intro i; fin_cases i <;> (simp [exampleMarket]; try norm_num)) exampleMarket_offered 0) (by decide)

/-! ## C35 -/

/-- C35: the elasticity in row `j` and column `k` is the derivative of the logarithm of `j`'s share when `k`'s variable is
scaled by `exp r`, at `r = 0`. -/
theorem C35_elasticities (m : Market J A G) (hm : WellFormed m) (c : Characteristic J A K1 K2) (hc : c.Smooth)
    (s : J → ℝ) (hs : ∀ j, s j = sharesAt m c c.x0 j) (j k : J) (hpos : s j ≠ 0) :
    HasDerivAt (fun r => Real.log (sharesAt m c (Function.update c.x0 k (c.x0 k * Real.exp r)) j))
      (elasticities (jacobianAt m c c.x0) c.x0 s j k) 0 := by
  have h1 : HasDerivAt (fun r => c.x0 k * Real.exp r) (c.x0 k) 0 := by
    have := (Real.hasDerivAt_exp 0).const_mul (c.x0 k)
    simpa using this
  have h2 : HasDerivAt (fun t => sharesAt m c (Function.update c.x0 k t) j) (jacobianAt m c c.x0 j k)
      (c.x0 k * Real.exp 0) := by
    rw [Real.exp_zero, mul_one]; exact C26_demand_jacobian m hm c hc c.x0 j k
  have h3 := (h2.comp 0 h1).log (by simpa [← hs] using hpos)
  refine h3.congr_deriv ?_
  simp [elasticities, ← hs]

/-- C35: the same for elasticities with respect to mean utilities, with the default scale of epsilon. -/
theorem C35_delta_elasticities_partial (m : Market J A G) (hm : WellFormed m) (he : m.epsilonScale = 1) (delta : J → ℝ)
    (mu : J → A → ℝ) (s : J → ℝ) (hs : ∀ j, s j = computeShares m {} delta mu j) (j k : J) (hpos : s j ≠ 0) :
    HasDerivAt (fun r => Real.log (computeShares m {} (Function.update delta k (delta k * Real.exp r)) mu j))
      (elasticities (sharesJacobian m (computeProbabilities m {} delta mu) (computeConditionals m {} delta mu)
        onesDerivatives) delta s j k) 0 := by
  have h1 : HasDerivAt (fun r => delta k * Real.exp r) (delta k) 0 := by
    have := (Real.hasDerivAt_exp 0).const_mul (delta k)
    simpa using this
  have hxi := C27_shares_by_xi m hm true delta mu s hs j k
  have hjac : sharesByXiJacobian m s (computeProbabilities m {} delta mu) (computeConditionals m {} delta mu) j k =
      sharesJacobian m (computeProbabilities m {} delta mu) (computeConditionals m {} delta mu) onesDerivatives j k := by
    unfold sharesByXiJacobian sharesJacobian capitalLamda capitalGamma onesDerivatives
    have hsj : s j = ∑ i, computeProbabilities m {} delta mu j i * m.weights i := hs j
    cases hn : m.nesting with
    | none =>
      simp only [he, ne_eq, not_true_eq_false, if_false, mul_one, hsj]
    | some n =>
      have hr : 1 - n.productRho j ≠ 0 := sub_ne_zero.mpr (hm.regular.rhoBelowOne n hn _).ne'
      simp only [mul_one, ← hsj]
      by_cases h : j = k
      · simp only [h, if_true]; rw [← h]; field_simp; ring
      · simp only [h, if_false]; ring
  have h2 : HasDerivAt (fun t => computeShares m {} (Function.update delta k t) mu j)
      (sharesJacobian m (computeProbabilities m {} delta mu) (computeConditionals m {} delta mu) onesDerivatives j k)
      (delta k * Real.exp 0) := by
    rw [Real.exp_zero, mul_one, ← hjac]; exact hxi
  have h3 := (h2.comp 0 h1).log (by simpa [← hs] using hpos)
  refine h3.congr_deriv ?_
  simp [elasticities, ← hs]

/-- C35, plain logit with one (representative) agent: elasticities with respect to mean utilities are
`delta_k (1{j = k} - s_k)`. -/
theorem C35_logit (m : Market J Unit G) (hn : m.nesting = none) (hw : m.weights () = 1) (delta : J → ℝ) (mu : J → Unit → ℝ)
    (s : J → ℝ) (hs : ∀ j, s j = computeShares m {} delta mu j) (j k : J) (hpos : s j ≠ 0) :
    elasticities (sharesJacobian m (computeProbabilities m {} delta mu) (computeConditionals m {} delta mu)
      onesDerivatives) delta s j k = delta k * ((if j = k then 1 else 0) - s k) := by
  have hP : ∀ q, computeProbabilities m {} delta mu q () = s q := by
    intro q; rw [hs q]; simp [computeShares, hw]
  simp only [elasticities, sharesJacobian, capitalLamda, capitalGamma, hn, onesDerivatives, Finset.univ_unique,
    Finset.sum_singleton, show (default : Unit) = () from rfl, hP, hw]
  by_cases h : j = k
  · subst h; simp only [if_true]; field_simp
  · simp only [h, if_false]; field_simp; ring

/-- C35 fails with other scales of epsilon: for one product, the reported elasticity with respect to mean utility is the
scale times the true one, here twice. -/
theorem C35_delta_epsilon_refuted (x : ℝ) (hx : x ≠ 0) :
    ¬ HasDerivAt (fun r => Real.log (computeShares (oneProduct 2) {} (fun _ => x * Real.exp r) (fun _ _ => 0) ()))
      (elasticities (sharesJacobian (oneProduct 2) (computeProbabilities (oneProduct 2) {} (fun _ => x) fun _ _ => 0)
        (computeConditionals (oneProduct 2) {} (fun _ => x) fun _ _ => 0) onesDerivatives) (fun _ => x)
        (computeShares (oneProduct 2) {} (fun _ => x) fun _ _ => 0) () ()) 0 := by
  intro hbad
  have hE := Real.exp_pos (x / 2)
  have h1 : HasDerivAt (fun r => x * Real.exp r) x 0 := by
    have := (Real.hasDerivAt_exp 0).const_mul x
    simpa using this
  have hfun : (fun r => Real.log (computeShares (oneProduct 2) {} (fun _ => x * Real.exp r) (fun _ _ => 0) ())) =
      fun r => x * Real.exp r / 2 - Real.log (1 + Real.exp (x * Real.exp r / 2)) := by
    funext r
    rw [oneProduct_shares, Real.log_div (Real.exp_pos _).ne' (by positivity), Real.log_exp]
  have htrue : HasDerivAt (fun r => Real.log (computeShares (oneProduct 2) {} (fun _ => x * Real.exp r) (fun _ _ => 0) ()))
      (x / 2 * (1 / (1 + Real.exp (x / 2)))) 0 := by
    rw [hfun]
    have hd : HasDerivAt (fun r => x * Real.exp r / 2) (x / 2) 0 := h1.div_const 2
    have hexp := (hd.exp.const_add 1).log (by positivity)
    refine (hd.fun_sub hexp).congr_deriv ?_
    simp only [Real.exp_zero, mul_one]
    field_simp; ring
  have h := htrue.unique hbad
  have hrep : elasticities (sharesJacobian (oneProduct 2) (computeProbabilities (oneProduct 2) {} (fun _ => x) fun _ _ => 0)
      (computeConditionals (oneProduct 2) {} (fun _ => x) fun _ _ => 0) onesDerivatives) (fun _ => x)
      (computeShares (oneProduct 2) {} (fun _ => x) fun _ _ => 0) () () = x * (1 - Real.exp (x / 2) / (1 + Real.exp (x / 2))) := by
    have hpos : computeShares (oneProduct 2) {} (fun _ => x) (fun _ _ => 0) () ≠ 0 := by
      rw [oneProduct_shares]; positivity
    rw [C35_logit (oneProduct 2) rfl rfl _ _ _ (fun _ => rfl) () () hpos, if_pos rfl, oneProduct_shares]
  rw [hrep] at h
  field_simp at h
  apply hx
  have h1p : (1 : ℝ) + Real.exp (x / 2) - Real.exp (x / 2) = 1 := by ring
  nlinarith [h]

/-- C35: aggregate elasticities converge, as the factor goes to zero, to the derivative of the inside share when all values
of the variable are scaled, that is to the share-weighted sum of all elasticities. -/
theorem C35_aggregate (m : Market J A G) (hm : WellFormed m) (c : Characteristic J A K1 K2) (hc : c.Smooth)
    (s : J → ℝ) (hs : ∀ j, s j = sharesAt m c c.x0 j) (hpos : ∀ j, s j ≠ 0) :
    Filter.Tendsto (aggregateElasticity m c s) (nhdsWithin 0 {0}ᶜ)
      (nhds (∑ j, ∑ k, s j * elasticities (jacobianAt m c c.x0) c.x0 s j k)) := by
  have hx : ∀ k, HasDerivAt (fun r : ℝ => (1 + r) * c.x0 k) (c.x0 k) 0 := by
    intro k
    have := (((hasDerivAt_id (0:ℝ)).const_add 1).mul_const (c.x0 k))
    simpa using this
  have h := fun j => path_shares m hm c hc (fun r k => (1 + r) * c.x0 k) c.x0 0 hx j
  have hsum := HasDerivAt.fun_sum (u := Finset.univ) fun j (_ : j ∈ Finset.univ) => h j
  simp only [add_zero, one_mul] at hsum
  have hslope := hsum.tendsto_slope
  have e1 : slope (fun r => ∑ j, sharesAt m c (fun k => (1 + r) * c.x0 k) j) 0 = aggregateElasticity m c s := by
    funext r
    simp only [slope_def_field, aggregateElasticity, sub_zero, add_zero, one_mul, Finset.sum_sub_distrib, hs]
  rw [e1] at hslope
  have e2 : (∑ j, ∑ k, s j * elasticities (jacobianAt m c c.x0) c.x0 s j k) =
      ∑ j, ∑ l, sharesJacobian m (probabilitiesAt m c c.x0) (conditionalsAt m c c.x0) (utilityDerivatives m c c.x0) j l *
        c.x0 l := by
    refine Finset.sum_congr rfl fun j _ => Finset.sum_congr rfl fun k _ => ?_
    have := hpos j
    unfold elasticities jacobianAt
    field_simp
  rw [e2]
  exact hslope

/-- Non-vacuity of C35: the duopoly (shares are 1/3). -/
example : HasDerivAt (fun r => Real.log (sharesAt duopoly duopolyPrices
    (Function.update duopolyPrices.x0 1 (duopolyPrices.x0 1 * Real.exp r)) 0))
      (elasticities (jacobianAt duopoly duopolyPrices duopolyPrices.x0) duopolyPrices.x0
        (sharesAt duopoly duopolyPrices duopolyPrices.x0) 0 1) 0 := by
  refine C35_elasticities _ duopoly_wellFormed _ duopolyPrices_smooth _ (fun _ => rfl) 0 1 ?_
  rw [show duopolyPrices.x0 = fun _ => 3 from rfl, duopoly_shares]; norm_num

/-! ## C36 -/

variable {F F' : Type} [DecidableEq F] [DecidableEq F']

lemma sum_firms (firm : J → F) (s : J → ℝ) : ∑ f ∈ Finset.univ.image firm, ∑ j with firm j = f, s j = ∑ j, s j :=
  Finset.sum_fiberwise_of_maps_to (fun j _ => Finset.mem_image_of_mem _ (Finset.mem_univ j)) s

lemma firm_share_sum (firm : J → F) (s : J → ℝ) (htot : ∑ j, s j ≠ 0) :
    ∑ f ∈ Finset.univ.image firm, (∑ j with firm j = f, s j) / ∑ j, s j = 1 := by
  rw [← Finset.sum_div, sum_firms, div_self htot]

/-- C36: bounds. With nonnegative shares and a positive total, HHI is at most 10,000 and at least 10,000 divided by the
number of firms. -/
theorem C36_bounds (firm : J → F) (s : J → ℝ) (hs : ∀ j, 0 ≤ s j) (htot : 0 < ∑ j, s j) :
    10000 / ((Finset.univ.image firm).card : ℝ) ≤ hhi firm s ∧ hhi firm s ≤ 10000 := by
  have hsum := firm_share_sum firm s htot.ne'
  have hnonneg : ∀ f, 0 ≤ (∑ j with firm j = f, s j) / ∑ j, s j := fun f =>
    div_nonneg (Finset.sum_nonneg fun j _ => hs j) htot.le
  have hcard : 0 < ((Finset.univ.image firm).card : ℝ) := by
    rw [Nat.cast_pos, Finset.card_pos]; exact Finset.univ_nonempty.image firm
  unfold hhi
  constructor
  · have hcs := sq_sum_le_card_mul_sum_sq (s := Finset.univ.image firm)
      (f := fun f => (∑ j with firm j = f, s j) / ∑ j, s j)
    rw [hsum] at hcs
    rw [div_le_iff₀ hcard]
    nlinarith
  · have hle : ∑ f ∈ Finset.univ.image firm, ((∑ j with firm j = f, s j) / ∑ j, s j) ^ 2 ≤
        (∑ f ∈ Finset.univ.image firm, (∑ j with firm j = f, s j) / ∑ j, s j) ^ 2 :=
      Finset.sum_sq_le_sq_sum_of_nonneg fun f _ => hnonneg f
    rw [hsum] at hle
    nlinarith

/-- C36: a monopoly has an HHI of 10,000. -/
theorem C36_monopoly (firm : J → F) (f : F) (hf : ∀ j, firm j = f) (s : J → ℝ) (htot : ∑ j, s j ≠ 0) :
    hhi firm s = 10000 := by
  unfold hhi
  have himg : Finset.univ.image firm = {f} := by
    ext x; simp only [Finset.mem_image, Finset.mem_univ, true_and, Finset.mem_singleton]
    exact ⟨fun ⟨j, hj⟩ => by rw [← hj, hf j], fun h => by
      obtain ⟨j⟩ := (inferInstance : Nonempty J); exact ⟨j, by rw [hf j, h]⟩⟩
  rw [himg, Finset.sum_singleton]
  simp only [hf, Finset.filter_true]
  rw [div_self htot]; norm_num

/-- C36: mergers. If the firms after a merger are obtained from those before by a map that identifies some of them, HHI does
not fall. -/
theorem C36_merger (firm : J → F) (merge : F → F') (s : J → ℝ) (hs : ∀ j, 0 ≤ s j) :
    hhi firm s ≤ hhi (fun j => merge (firm j)) s := by
  unfold hhi
  have htot : 0 ≤ ∑ j, s j := Finset.sum_nonneg fun j _ => hs j
  refine mul_le_mul_of_nonneg_left ?_ (by norm_num)
  have himg : Finset.univ.image (fun j => merge (firm j)) = (Finset.univ.image firm).image merge := by
    rw [Finset.image_image]; rfl
  rw [himg, ← Finset.sum_fiberwise_of_maps_to (s := Finset.univ.image firm) (t := (Finset.univ.image firm).image merge)
    (g := merge) (fun f hf => Finset.mem_image_of_mem _ hf)]
  refine Finset.sum_le_sum fun f' _ => ?_
  refine (Finset.sum_sq_le_sq_sum_of_nonneg (fun f _ => div_nonneg (Finset.sum_nonneg fun j _ => hs j) htot)).trans
    (le_of_eq ?_)
  congr 1
  rw [← Finset.sum_div]
  congr 1
  have hmap : ∀ j ∈ Finset.univ.filter (fun j => merge (firm j) = f'),
      firm j ∈ (Finset.univ.image firm).filter fun f => merge f = f' := by
    intro j hj
    rw [Finset.mem_filter] at hj ⊢
    exact ⟨Finset.mem_image_of_mem _ (Finset.mem_univ j), hj.2⟩
  rw [← Finset.sum_fiberwise_of_maps_to hmap s]
  refine Finset.sum_congr rfl fun f hf => ?_
  rw [Finset.mem_filter] at hf
  refine Finset.sum_congr ?_ fun _ _ => rfl
  ext j
  simp only [Finset.mem_filter, Finset.mem_univ, true_and]
  exact ⟨fun h => ⟨by rw [h]; exact hf.2, h⟩, fun h => h.2⟩

/-- Non-vacuity of C36: shares 1/5, 1/10, 1/10 of firms 0, 0, 1. -/
example : (5000 : ℝ) ≤ hhi (![0, 0, 1] : Fin 3 → Fin 2) ![1/5, 1/10, 1/10] ∧
    hhi (![0, 0, 1] : Fin 3 → Fin 2) ![1/5, 1/10, 1/10] ≤ 10000 := by
  have := C36_bounds (![0, 0, 1] : Fin 3 → Fin 2) ![1/5, 1/10, 1/10] (by intro j; fin_cases j <;> norm_num)
    (by simp [Fin.sum_univ_three]; norm_num)
  have hc : (Finset.univ.image (![0, 0, 1] : Fin 3 → Fin 2)).card = 2 := by decide
  rw [hc] at this
  norm_num at this ⊢
  exact this

/-- The documented formula does not divide by the total inside share, the code does: they differ whenever the total is not
one. Here the code gives 10,000 and the formula 2,500. -/
theorem C36_not_documented_formula : hhi (fun _ : Fin 1 => (0 : Fin 1)) (fun _ => 1/2) = 10000 ∧
    10 ^ 4 * ∑ f : Fin 1, (∑ j : Fin 1 with (fun _ : Fin 1 => (0 : Fin 1)) j = f, (1/2 : ℝ)) ^ 2 = 2500 := by
  constructor
  · exact C36_monopoly _ 0 (fun _ => rfl) _ (by norm_num)
  · simp; norm_num

/-! ## C37 -/

/-- Specification: expected maximum utility (up to a constant) of a consumer with utilities `v`, multipliers `a`. -/
noncomputable def Spec.logSum (nesting : Option (Nesting J G)) (v a : J → ℝ) : ℝ :=
  match nesting with
  | none => Real.log (1 + ∑ j, a j * Real.exp (v j))
  | some n => Real.log (1 + ∑ h, (∑ j with n.group j = h, a j * Real.exp (v j / (1 - n.rho.groupRho h))) ^
      (1 - n.rho.groupRho h))

/-- Multipliers of exponentiated utilities: availability, and zero for eliminated products. -/
def Spec.surplusMultiplier (a : Option (J → ℝ)) (out : J → Bool) (j : J) : ℝ :=
  if out j then 0 else match a with
    | none => 1
    | some a => a j

/-- C37: the rescaling that avoids overflow does not change surplus: the numerator is the log-sum formula. -/
theorem C37_numerator (nesting : Option (Nesting J G)) (hrho : ∀ n, nesting = some n → ∀ g, n.rho.groupRho g < 1)
    (u : J → ℝ) (a : Option (J → ℝ)) (ha : ∀ b, a = some b → ∀ j, 0 ≤ b j) (out : J → Bool) :
    surplusNumerator nesting u a out = Spec.logSum nesting u (Spec.surplusMultiplier a out) := by
  have hmul : ∀ j, 0 ≤ Spec.surplusMultiplier a out j := by
    intro j
    unfold Spec.surplusMultiplier
    split_ifs
    · exact le_rfl
    · cases a with
      | none => exact zero_le_one
      | some b => exact ha b rfl j
  have he : ∀ (x : ℝ) (j : J), surplusExp a out x j = Spec.surplusMultiplier a out j * Real.exp x := by
    intro x j
    unfold Spec.surplusMultiplier surplusExp
    split_ifs
    · ring
    · cases a with
      | none => simp
      | some b => simp only []; ring
  cases nesting with
  | none =>
    simp only [surplusNumerator, he, Spec.logSum]
    set r := utilityReduction fun j => u j
    have h1 : ∀ k, Spec.surplusMultiplier a out k * Real.exp (u k - r) =
        (Spec.surplusMultiplier a out k * Real.exp (u k)) * Real.exp (-r) := by
      intro k; rw [sub_eq_add_neg, Real.exp_add]; ring
    simp only [h1]
    rw [← Finset.sum_mul, ← one_add_mul, Real.log_mul ?_ (Real.exp_pos _).ne', Real.log_exp]
    · ring
    · have : 0 ≤ ∑ k, Spec.surplusMultiplier a out k * Real.exp (u k) :=
        Finset.sum_nonneg fun k _ => mul_nonneg (hmul k) (Real.exp_pos _).le
      linarith
  | some n =>
    have hr : ∀ g, n.rho.groupRho g ≠ 1 := fun g => (hrho n rfl g).ne
    simp only [surplusNumerator, he, Spec.logSum]
    set r := utilityReduction fun j => u j / (1 - n.productRho j)
    set q := (Finset.univ.image fun j => n.rho.groupRho (n.group j)).min' (by simp) with hq
    -- with one nesting parameter, the smallest is that one
    have hw : ∀ g, (if n.rho.sizeGtOne then Real.exp (-r * (n.rho.groupRho g - q)) else 1) =
        Real.exp (-r * (n.rho.groupRho g - q)) := by
      intro g
      cases hr' : n.rho with
      | perGroup c => simp [RhoParam.sizeGtOne]
      | single c =>
        have hqc : q = c := by
          have hmem := Finset.min'_mem (Finset.univ.image fun j => n.rho.groupRho (n.group j)) (by simp)
          rw [← hq] at hmem
          obtain ⟨j, -, hj⟩ := Finset.mem_image.mp hmem
          rw [← hj, hr']; rfl
        simp [RhoParam.sizeGtOne, RhoParam.groupRho, hqc]
    simp only [hw]
    have hterm : ∀ g, Real.exp (-r * (n.rho.groupRho g - q)) *
        expLogMul (∑ j with n.group j = g, Spec.surplusMultiplier a out j * Real.exp (u j / (1 - n.productRho j) - r))
          (1 - n.rho.groupRho g) =
        Spec.expInclusive n.group n.rho.groupRho u (Spec.surplusMultiplier a out) g * Real.exp (-r * (1 - q)) := by
      intro g
      rw [weighted_scaled n _ _ _ hmul hr, ← mul_assoc, ← Real.exp_add, mul_comm]
      congr 2; ring
    simp only [hterm]
    rw [← Finset.sum_mul, ← one_add_mul, Real.log_mul ?_ (Real.exp_pos _).ne', Real.log_exp]
    · unfold Spec.expInclusive Spec.groupSum; ring
    · have : 0 ≤ ∑ g, Spec.expInclusive n.group n.rho.groupRho u (Spec.surplusMultiplier a out) g :=
        Finset.sum_nonneg fun g _ => expInclusive_nonneg _ _ _ _ hmul g
      linarith

/-- C37: with the default scale of epsilon, surplus is the documented formula. -/
theorem C37_surplus_partial (m : Market J A G) (hm : WellFormed m) (he : m.epsilonScale = 1) (c : Characteristic J A K1 K2)
    (first : J) (p : J → ℝ) (out : J → Bool) :
    consumerSurplus m c first p out = ∑ i, m.weights i *
      (Spec.logSum m.nesting (fun j => updateDelta c p j + updateMu c p j i)
        (Spec.surplusMultiplier (m.availability.map fun a => a i) out) /
      (-((∑ k, (if c.has1 k then c.d1 k first (c.x0 first) else 0) * c.beta k) +
        ∑ k, (if c.has2 k then c.d2 k first (c.x0 first) else 0) * c.coef k i first))) := by
  unfold consumerSurplus
  refine Finset.sum_congr rfl fun i _ => ?_
  rw [C37_numerator _ hm.regular.rhoBelowOne _ _ ?_, utilityDerivatives_eq, he, div_one, mul_comm]
  intro b hb j
  cases h : m.availability with
  | none => simp [h] at hb
  | some a => simp [h] at hb; rw [← hb]; exact hm.avail a h i j

lemma logSum_mono (nesting : Option (Nesting J G)) (hrho : ∀ n, nesting = some n → ∀ g, n.rho.groupRho g < 1)
    (v a b : J → ℝ) (ha : ∀ j, 0 ≤ a j) (hab : ∀ j, a j ≤ b j) : Spec.logSum nesting v a ≤ Spec.logSum nesting v b := by
  cases nesting with
  | none =>
    have h0 : 0 ≤ ∑ j, a j * Real.exp (v j) := Finset.sum_nonneg fun j _ => mul_nonneg (ha j) (Real.exp_pos _).le
    refine Real.log_le_log (by linarith) ?_
    gcongr with j
    exact hab j
  | some n =>
    have hg : ∀ h, 0 ≤ ∑ j with n.group j = h, a j * Real.exp (v j / (1 - n.rho.groupRho h)) := fun h =>
      Finset.sum_nonneg fun j _ => mul_nonneg (ha j) (Real.exp_pos _).le
    have h0 : 0 ≤ ∑ h, (∑ j with n.group j = h, a j * Real.exp (v j / (1 - n.rho.groupRho h))) ^ (1 - n.rho.groupRho h) :=
      Finset.sum_nonneg fun h _ => Real.rpow_nonneg (hg h) _
    refine Real.log_le_log (by linarith) ?_
    gcongr with h _ j
    · exact hg h
    · linarith [hrho n rfl h]
    · exact hab j

/-- C37: eliminating more products never raises surplus when utility falls in the price of the first product for every
agent and weights are nonnegative (any scale of epsilon). -/
theorem C37_elimination (m : Market J A G) (hm : WellFormed m) (hw : ∀ i, 0 ≤ m.weights i) (c : Characteristic J A K1 K2)
    (first : J) (hneg : ∀ i, utilityDerivatives m c c.x0 first i < 0) (p : J → ℝ) (out out' : J → Bool)
    (hout : ∀ j, out j = true → out' j = true) :
    consumerSurplus m c first p out' ≤ consumerSurplus m c first p out := by
  unfold consumerSurplus
  refine Finset.sum_le_sum fun i _ => mul_le_mul_of_nonneg_right ?_ (hw i)
  have hav : ∀ b, (m.availability.map fun a => a i) = some b → ∀ j, 0 ≤ b j := by
    intro b hb j
    cases h : m.availability with
    | none => simp [h] at hb
    | some a => simp [h] at hb; rw [← hb]; exact hm.avail a h i j
  rw [C37_numerator _ hm.regular.rhoBelowOne _ _ hav, C37_numerator _ hm.regular.rhoBelowOne _ _ hav]
  refine div_le_div_of_nonneg_right ?_ (by linarith [hneg i])
  have h1 : ∀ o : J → Bool, ∀ j, 0 ≤ Spec.surplusMultiplier (m.availability.map fun a => a i) o j := by
    intro o j
    unfold Spec.surplusMultiplier
    split_ifs
    · exact le_rfl
    · cases h : (m.availability.map fun a => a i) with
      | none => exact zero_le_one
      | some b => exact hav b h j
  refine logSum_mono _ hm.regular.rhoBelowOne _ _ _ (h1 out') fun j => ?_
  by_cases hj : out' j = true
  · have : Spec.surplusMultiplier (m.availability.map fun a => a i) out' j = 0 := by simp [Spec.surplusMultiplier, hj]
    rw [this]; exact h1 out j
  · have hj' : out j ≠ true := fun h => hj (hout j h)
    simp only [Spec.surplusMultiplier, hj, hj']
    exact le_rfl

/-- One product with mean utility 2 at price 3, whose utility falls one for one in its price. -/
noncomputable def oneProductPrices (d : ℝ) : Characteristic Unit Unit Unit (Fin 0) where
  delta := fun _ => d
  x0 := fun _ => 3
  beta := fun _ => -1
  has1 := fun _ => true
  x1 := fun _ _ t => t
  d1 := fun _ _ _ => 1
  dd1 := fun _ _ _ => 0
  coef := fun _ _ _ => 0
  has2 := fun _ => false
  x2 := fun _ _ _ => 0
  d2 := fun _ _ _ => 0
  dd2 := fun _ _ _ => 0

lemma oneProductPrices_smooth (d : ℝ) : (oneProductPrices d).Smooth where
  x1 := fun _ _ _ t => hasDerivAt_id t
  d1 := fun _ _ _ t => hasDerivAt_const t 1
  x2 := fun k => k.elim0
  d2 := fun k => k.elim0

lemma oneProduct_wellFormed : WellFormed (oneProduct 1) where
  regular := ⟨fun n h => by simp [oneProduct] at h, by simp [oneProduct]⟩
  scale := fun h => absurd rfl h
  avail := fun a h => by simp [oneProduct] at h

lemma oneProductPrices_mu (d : ℝ) (x : Unit → ℝ) : updateMu (oneProductPrices d) x = fun _ _ => 0 := by
  funext j i; simp [updateMu]

/-- C37 fails with other scales of epsilon: utilities are not divided by the scale but the price derivative is, so surplus
is not that of the demand system. With one product, mean utility 2, scale 2, and utility falling one for one in the price,
choice probabilities are `e / (1 + e)`, so the surplus of the demand system is `2 log (1 + e)`; reported is
`2 log (1 + e²)`. -/
theorem C37_epsilon_refuted :
    consumerSurplus (oneProduct 2) (oneProductPrices 2) () (oneProductPrices 2).x0 (fun _ => false) =
      2 * Real.log (1 + Real.exp 2) ∧
    computeShares (oneProduct 2) {} (oneProductPrices 2).delta (updateMu (oneProductPrices 2) (oneProductPrices 2).x0) () =
      Real.exp 1 / (1 + Real.exp 1) ∧
    2 * Real.log (1 + Real.exp 2) ≠ 2 * Real.log (1 + Real.exp 1) := by
  refine ⟨?_, ?_, ?_⟩
  · unfold consumerSurplus
    rw [Finset.univ_unique, Finset.sum_singleton, C37_numerator _ (by simp [oneProduct]) _ _ (by simp [oneProduct]),
      oneProductPrices_mu]
    simp [oneProduct, oneProductPrices, Spec.logSum, Spec.surplusMultiplier, updateDelta, utilityDerivatives]
    ring
  · rw [oneProductPrices_mu, show (oneProductPrices 2).delta = fun _ => 2 from rfl, oneProduct_shares]; norm_num
  · have : Real.log (1 + Real.exp 1) < Real.log (1 + Real.exp 2) :=
      Real.log_lt_log (by positivity) (by linarith [Real.exp_lt_exp.mpr (show (1:ℝ) < 2 by norm_num)])
    intro h; linarith

/-- Non-vacuity of C37: hypotheses hold in the duopoly. -/
example : consumerSurplus duopoly duopolyPrices 0 duopolyPrices.x0 (fun j => j = 1) ≤
    consumerSurplus duopoly duopolyPrices 0 duopolyPrices.x0 (fun _ => false) :=
  C37_elimination _ duopoly_wellFormed (fun _ => zero_le_one) _ _ (fun i => by simp [duopoly_utilityDerivatives]) _ _ _
    (by simp)

/-! ## C72 -/

/-- C72: passthrough. Take any path of marginal costs and any path of prices that satisfy every first order condition along
it (with weights in row `j` of the ownership matrix for product `j`), passing through the observed prices. Then the
passthrough matrix maps the derivative of costs to the derivative of prices: if the cost of `l` alone moves, prices move
by column `l`. Needs a symmetric demand Jacobian (see `C72_symmetric` for when it is) and unit own weights. -/
theorem C72_passthrough (m : Market J A G) (hm : WellFormed m) (c : Characteristic J A K1 K2) (hc : c.Smooth)
    (hsym : ∀ x j k, jacobianAt m c x j k = jacobianAt m c x k j)
    (O : J → J → ℝ) (hO : ∀ j, O j j = 1) (s : J → ℝ) (hs : ∀ j, s j = sharesAt m c c.x0 j)
    (hdet : IsUnit (capitalDelta m c O).det) (hdet' : IsUnit (passthroughInverse m c O s).det)
    (costs prices : ℝ → J → ℝ) (dc dp : J → ℝ) (t : ℝ) (h0 : prices t = c.x0)
    (hdc : ∀ k, HasDerivAt (fun r => costs r k) (dc k) t) (hdp : ∀ k, HasDerivAt (fun r => prices r k) (dp k) t)
    (hfoc : ∀ r j, Spec.FirstOrderCondition (sharesAt m c) (O j) (costs r) (prices r) j) :
    dp = (passthrough m c O s).mulVec dc := by
  -- the matrix of the code is that of the first order conditions
  set D : Matrix J J ℝ := Matrix.of fun j k => -(O j k) * jacobianAt m c c.x0 j k with hD
  have hDc : capitalDelta m c O = D := by
    ext j k; rw [capitalDelta_apply, hsym]; simp [hD]
  rw [hDc] at hdet
  -- first order conditions as equations
  have heq : ∀ r j, sharesAt m c (prices r) j = ∑ k, -(O j k) * jacobianAt m c (prices r) j k * (prices r k - costs r k) := by
    intro r j
    have h := (firstOrderCondition_iff m hm c hc _ _ _ _).mp (hfoc r j)
    rw [hO j, one_mul] at h
    have : ∑ k, O j k * ((prices r k - costs r k) * jacobianAt m c (prices r) k j) =
        -∑ k, -(O j k) * jacobianAt m c (prices r) j k * (prices r k - costs r k) := by
      rw [← Finset.sum_neg_distrib]
      exact Finset.sum_congr rfl fun k _ => by rw [hsym _ k j]; ring
    rw [this] at h; linarith
  -- differentiate them
  set H := sharesHessian m (probabilitiesAt m c c.x0) (conditionalsAt m c c.x0) (utilityDerivatives m c c.x0)
    (utilitySecondDerivatives m c c.x0) with hH
  have hder : ∀ j, ∑ l, jacobianAt m c c.x0 j l * dp l =
      ∑ k, ((-(O j k) * ∑ l, H j k l * dp l) * (c.x0 k - costs t k) +
        -(O j k) * jacobianAt m c c.x0 j k * (dp k - dc k)) := by
    intro j
    have h1 := path_shares m hm c hc prices dp t hdp j
    rw [h0] at h1
    have h2 : HasDerivAt (fun r => sharesAt m c (prices r) j) (∑ k, ((-(O j k) * ∑ l, H j k l * dp l) * (c.x0 k - costs t k) +
        -(O j k) * jacobianAt m c c.x0 j k * (dp k - dc k))) t := by
      simp only [heq]
      refine HasDerivAt.fun_sum fun k _ => ?_
      have hj := path_jacobian m hm c hc prices dp t hdp j k
      have := (hj.const_mul (-(O j k))).fun_mul ((hdp k).fun_sub (hdc k))
      rw [h0] at this
      exact this
    exact h1.unique h2
  have hmarkup : (fun k => c.x0 k - costs t k) = D⁻¹.mulVec s := by
    have : D.mulVec (fun k => c.x0 k - costs t k) = s := by
      funext j; rw [hs j, ← h0, heq t j]; simp [Matrix.mulVec, dotProduct, hD, h0]
    rw [← this, Matrix.mulVec_mulVec, Matrix.nonsing_inv_mul _ hdet, Matrix.one_mulVec]
  -- in matrix form
  have hmat : (passthroughInverse m c O s).mulVec dp = dc := by
    set dD : J → Matrix J J ℝ := fun l => Matrix.of fun j k => -(O j k) * H j k l with hdD
    have hP : passthroughInverse m c O s =
        Matrix.of (fun j l => (D⁻¹ * dD l * D⁻¹).mulVec s j) + (1 - D⁻¹ * Matrix.of fun j k => jacobianAt m c c.x0 j k) := rfl
    have hfirst : (Matrix.of (fun j l => (D⁻¹ * dD l * D⁻¹).mulVec s j)).mulVec dp =
        D⁻¹.mulVec (fun j => ∑ l, (dD l).mulVec (D⁻¹.mulVec s) j * dp l) := by
      have hcol : ∀ l, (D⁻¹ * dD l * D⁻¹).mulVec s = D⁻¹.mulVec ((dD l).mulVec (D⁻¹.mulVec s)) := fun l => by
        rw [Matrix.mulVec_mulVec, Matrix.mulVec_mulVec, Matrix.mul_assoc]
      generalize D⁻¹.mulVec s = e at hcol ⊢
      funext j
      show ∑ l, (D⁻¹ * dD l * D⁻¹).mulVec s j * dp l = ∑ k, D⁻¹ j k * ∑ l, (dD l).mulVec e k * dp l
      simp only [hcol, Finset.mul_sum]
      rw [Finset.sum_comm]
      refine Finset.sum_congr rfl fun l _ => ?_
      show (∑ k, D⁻¹ j k * (dD l).mulVec e k) * dp l = _
      rw [Finset.sum_mul]
      exact Finset.sum_congr rfl fun k _ => by ring
    have hrow : D.mulVec dp - D.mulVec dc = (fun j => ∑ l, jacobianAt m c c.x0 j l * dp l) -
        fun j => ∑ l, (dD l).mulVec (D⁻¹.mulVec s) j * dp l := by
      rw [← hmarkup]
      funext j
      show ∑ k, D j k * dp k - ∑ k, D j k * dc k = ∑ l, jacobianAt m c c.x0 j l * dp l -
        ∑ l, (∑ k, dD l j k * (c.x0 k - costs t k)) * dp l
      have hswap : ∑ l, (∑ k, dD l j k * (c.x0 k - costs t k)) * dp l =
          ∑ k, (-(O j k) * ∑ l, H j k l * dp l) * (c.x0 k - costs t k) := by
        simp only [Finset.sum_mul, Finset.mul_sum]
        rw [Finset.sum_comm]
        refine Finset.sum_congr rfl fun k _ => Finset.sum_congr rfl fun l _ => ?_
        simp only [hdD, Matrix.of_apply]; ring
      rw [hder j, Finset.sum_add_distrib, hswap, ← Finset.sum_sub_distrib, add_sub_cancel_left]
      exact Finset.sum_congr rfl fun k _ => by simp only [hD, Matrix.of_apply]; ring
    have hsolve : dp - dc = D⁻¹.mulVec (fun j => ∑ l, jacobianAt m c c.x0 j l * dp l) -
        D⁻¹.mulVec (fun j => ∑ l, (dD l).mulVec (D⁻¹.mulVec s) j * dp l) := by
      rw [← Matrix.mulVec_sub, ← hrow, ← Matrix.mulVec_sub, Matrix.mulVec_mulVec, Matrix.nonsing_inv_mul _ hdet,
        Matrix.one_mulVec]
    have hjac : (D⁻¹ * Matrix.of fun j k => jacobianAt m c c.x0 j k).mulVec dp =
        D⁻¹.mulVec (fun j => ∑ l, jacobianAt m c c.x0 j l * dp l) := by
      rw [← Matrix.mulVec_mulVec]; rfl
    rw [hP, Matrix.add_mulVec, Matrix.sub_mulVec, Matrix.one_mulVec, hfirst, hjac]
    funext j
    have := congrFun hsolve j
    simp only [Pi.sub_apply, Pi.add_apply] at this ⊢
    linarith
  rw [passthrough, ← hmat, Matrix.mulVec_mulVec, Matrix.nonsing_inv_mul _ hdet', Matrix.one_mulVec]

/-- The demand Jacobian is symmetric at all prices if the derivative of utility never differs between products. -/
theorem C72_symmetric (m : Market J A G) (hm : WellFormed m) (c : Characteristic J A K1 K2)
    (hU : ∀ x j k i, utilityDerivatives m c x j i = utilityDerivatives m c x k i) (x : J → ℝ) (j k : J) :
    jacobianAt m c x j k = jacobianAt m c x k j :=
  sharesJacobian_symm m hm _ _ _ (hU x) j k

lemma oneProductPrices_shares (t : ℝ) : sharesAt (oneProduct 1) (oneProductPrices 0) (fun _ => t) () =
    Real.exp (3 - t) / (1 + Real.exp (3 - t)) := by
  show computeShares (oneProduct 1) {} (updateDelta (oneProductPrices 0) fun _ => t) (updateMu (oneProductPrices 0) fun _ => t) () = _
  rw [oneProductPrices_mu, show updateDelta (oneProductPrices 0) (fun _ => t) = fun _ => 3 - t by
    funext j; simp [updateDelta, oneProductPrices], oneProduct_shares, div_one]

lemma oneProductPrices_probabilities (t : ℝ) (j i : Unit) : probabilitiesAt (oneProduct 1) (oneProductPrices 0) (fun _ => t) j i =
    Real.exp (3 - t) / (1 + Real.exp (3 - t)) := by
  rw [← oneProductPrices_shares]
  simp [sharesAt, probabilitiesAt, oneProduct]

lemma oneProductPrices_jacobian (t : ℝ) : jacobianAt (oneProduct 1) (oneProductPrices 0) (fun _ => t) () () =
    -(Real.exp (3 - t) / (1 + Real.exp (3 - t)) ^ 2) := by
  have hU : ∀ j i, utilityDerivatives (oneProduct 1) (oneProductPrices 0) (fun _ => t) j i = -1 := by
    intro j i; simp [utilityDerivatives, oneProduct, oneProductPrices]
  have := Real.exp_pos (3 - t)
  simp only [jacobianAt, sharesJacobian, capitalLamda, capitalGamma, show (oneProduct 1).nesting = none from rfl, hU,
    oneProductPrices_probabilities, show (oneProduct 1).weights = fun _ => 1 from rfl, Finset.univ_unique,
    Finset.sum_singleton, if_true]
  field_simp; ring

/-- Non-vacuity of C72: a monopolist with one product, utility falling one for one in its price. The price `r` is optimal
at cost `r - 1 - exp (3 - r)`; at price 3 the share is 1/2 and passthrough is 1/2. -/
example : (passthrough (oneProduct 1) (oneProductPrices 0) (fun _ _ => 1) (fun _ => 1 / 2)).mulVec (fun _ => 2) = fun _ => 1 := by
  have hs : ∀ j, (fun _ : Unit => (1 / 2 : ℝ)) j = sharesAt (oneProduct 1) (oneProductPrices 0) (oneProductPrices 0).x0 j := by
    intro j; rw [show (oneProductPrices 0).x0 = fun _ => 3 from rfl, oneProductPrices_shares]; norm_num
  have hD : capitalDelta (oneProduct 1) (oneProductPrices 0) (fun _ _ => 1) = Matrix.of fun _ _ => 1 / 4 := by
    ext j k
    rw [capitalDelta_apply, show (oneProductPrices 0).x0 = fun _ => 3 from rfl, oneProductPrices_jacobian]; norm_num [Matrix.of_apply]
  refine (C72_passthrough (oneProduct 1) oneProduct_wellFormed _ (oneProductPrices_smooth 0) (fun _ _ _ => rfl)
    (fun _ _ => 1) (fun _ => rfl) _ hs ?_ ?_ (fun r _ => r - 1 - Real.exp (3 - r)) (fun r _ => r) _ _ 3 rfl ?_
    (fun _ => hasDerivAt_id 3) ?_).symm
  · rw [hD, Matrix.det_unique]; norm_num [Matrix.of_apply]
  · rw [Matrix.det_unique]
    have hP : ∀ j i, probabilitiesAt (oneProduct 1) (oneProductPrices 0) (oneProductPrices 0).x0 j i = 1 / 2 := by
      intro j i; rw [show (oneProductPrices 0).x0 = fun _ => 3 from rfl, oneProductPrices_probabilities]; norm_num
    have hU : ∀ j i, utilityDerivatives (oneProduct 1) (oneProductPrices 0) (oneProductPrices 0).x0 j i = -1 := by
      intro j i; simp [utilityDerivatives, oneProduct, oneProductPrices]
    have hU2 : ∀ j i, utilitySecondDerivatives (oneProduct 1) (oneProductPrices 0) (oneProductPrices 0).x0 j i = 0 := by
      intro j i; simp [utilitySecondDerivatives, oneProduct, oneProductPrices]
    simp [passthroughInverse, sharesHessian, sharesJacobian, capitalLamda, capitalGamma, capitalLamdaTensor,
      capitalGammaTensor, probabilityDerivatives, probabilityUtilitySecondDerivatives, hP, hU, hU2,
      show (oneProduct 1).nesting = none from rfl, show (oneProduct 1).weights = fun _ => 1 from rfl, Matrix.mulVec, dotProduct, Matrix.mul_apply]
    norm_num
  · intro k
    have h1 := (((hasDerivAt_id (3:ℝ)).sub_const 1).fun_sub ((hasDerivAt_id (3:ℝ)).const_sub 3).exp)
    refine h1.congr_deriv ?_
    norm_num
  · rintro r ⟨⟩
    rw [firstOrderCondition_iff _ oneProduct_wellFormed _ (oneProductPrices_smooth 0)]
    simp only [Finset.univ_unique, Finset.sum_singleton, show (default : Unit) = () from rfl, oneProductPrices_jacobian,
      oneProductPrices_shares]
    have := Real.exp_pos (3 - r)
    field_simp; ring

end Pyblp
