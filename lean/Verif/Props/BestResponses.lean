import Verif.Props.Textbook
import Verif.Lemmas.NestedOligopoly
import Mathlib.Analysis.Calculus.Deriv.MeanValue
import Mathlib.Analysis.Calculus.LocalExtr.Basic
import Mathlib.Analysis.SpecialFunctions.Log.Deriv
import Mathlib.Analysis.Complex.ExponentialBounds

/-!
# C149: prices at which iteration stops, best responses, and second order conditions
-/

set_option linter.unusedSectionVars false

namespace Pyblp

open Finset

section General

variable {J A G K1 K2 F : Type} [Fintype J] [DecidableEq J] [Nonempty J] [Fintype G] [DecidableEq G] [Fintype A]
  [Fintype K1] [Fintype K2] [DecidableEq F]

variable (m : Market J A G) (hm : WellFormed m) (c : Characteristic J A K1 K2) (hc : c.Smooth)

include hm hc

lemma hasDerivAt_jointProfit (firm : J → F) (costs p : J → ℝ) (k : J) :
    HasDerivAt (fun t => Spec.jointProfit (sharesAt m c) costs firm (firm k) (Function.update p k t))
      (firmProfitGradient m c (ownershipFromIds firm) costs p k) (p k) := by
  have h := C29_firm_gradient m hm c hc firm costs p k
  refine h.congr_of_eventuallyEq (Filter.Eventually.of_forall fun t => ?_)
  exact Finset.sum_congr rfl fun j _ => mul_comm _ _

/-- **C149.** If no firm can gain by changing its prices, reported profit gradients are zero. -/
theorem C149_gradients (firm : J → F) (costs x : J → ℝ) (hn : Spec.NashEquilibrium (sharesAt m c) costs firm x) (k : J) :
    firmProfitGradient m c (ownershipFromIds firm) costs x k = 0 := by
  refine IsLocalMax.hasDerivAt_eq_zero (Filter.Eventually.of_forall fun t => ?_) (hasDerivAt_jointProfit m hm c hc firm costs x k)
  simp only [Function.update_eq_self]
  exact hn (firm k) _ fun l hl => Function.update_of_ne (fun e => hl (by rw [e])) _ _

/-- Reported profit gradients are zero exactly at prices at which the iteration stops. -/
lemma gradients_iff (firm : J → F) (costs x : J → ℝ) (hl : ∀ j, capitalLamda m (probabilitiesAt m c x) (utilityDerivatives m c x) j ≠ 0) :
    priceContraction m c (ownershipFromIds firm) (fun k _ => costs k) x = x ↔ ∀ k, firmProfitGradient m c (ownershipFromIds firm) costs x k = 0 := by
  rw [C31_fixed_point_iff_foc m hm c hc (ownershipFromIds firm) (fun j => by simp [ownershipFromIds]) _ x hl]
  refine forall_congr' fun k => ?_
  have h1 := hasDerivAt_jointProfit m hm c hc firm costs x k
  have h2 : Spec.pricingProfit (sharesAt m c) (fun j => ownershipFromIds firm j k) costs x k =
      fun t => Spec.jointProfit (sharesAt m c) costs firm (firm k) (Function.update x k t) := by
    funext t
    simp only [Spec.pricingProfit, Spec.jointProfit, ownershipFromIds, Finset.sum_filter]
    exact Finset.sum_congr rfl fun j _ => by split_ifs <;> ring
  rw [Spec.FirstOrderCondition, h2]
  exact ⟨fun h => h1.unique h, fun h => h ▸ h1⟩

/-- **C149.** Whatever demand is, iteration stays where it is at prices at which no firm can gain by changing its prices. -/
theorem C149_necessary (firm : J → F) (costs x : J → ℝ) (hl : ∀ j, capitalLamda m (probabilitiesAt m c x) (utilityDerivatives m c x) j ≠ 0)
    (hn : Spec.NashEquilibrium (sharesAt m c) costs firm x) :
    priceContraction m c (ownershipFromIds firm) (fun k _ => costs k) x = x :=
  (gradients_iff m hm c hc firm costs x hl).mpr (C149_gradients m hm c hc firm costs x hn)

end General

section Nested

variable {J A G K1 K2 F : Type} [Fintype J] [DecidableEq J] [Nonempty J] [Fintype G] [DecidableEq G] [Fintype A]
  [Fintype K1] [Fintype K2] [IsEmpty K2] [DecidableEq F]

variable {m : Market J A G} {c : Characteristic J A K1 K2} {n : Nesting J G} (h : Spec.NestedLogit m n c)

include h

theorem nested_wellFormed (hr : ∀ g, 0 ≤ n.rho.groupRho g) : WellFormed m where
  regular := ⟨fun n' hn' g => by rw [h.nesting, Option.some.injEq] at hn'; exact hn' ▸ ⟨hr g, h.below g⟩, by rw [h.scale]; exact one_pos⟩
  scale := fun _ => h.scale
  avail := fun a ha => by rw [h.availability] at ha; exact absurd ha (by simp)

theorem nested_lamda (x : J → ℝ) (j : J) : capitalLamda m (probabilitiesAt m c x) (utilityDerivatives m c x) j ≠ 0 := by
  have hs := nested_share_pos h x j
  have ha := nested_sensitivity h
  have hb := h.below (n.group j)
  simp only [capitalLamda, h.nesting, nested_shares h, nested_derivative h, Nesting.productRho]
  rw [← Finset.mul_sum, h.weights, mul_one]
  have : (1 : ℝ) - n.rho.groupRho (n.group j) ≠ 0 := by linarith
  exact div_ne_zero (mul_ne_zero hs.ne' (neg_ne_zero.mpr ha.ne')) this

theorem nestShare_bounds (x : J → ℝ) (j : J) : 0 < Spec.nestShare n (sharesAt m c x) j ∧ Spec.nestShare n (sharesAt m c x) j ≤ 1 := by
  have hs := nested_share_pos h x
  have hle : sharesAt m c x j ≤ ∑ k with n.group k = n.group j, sharesAt m c x k :=
    Finset.single_le_sum (fun k _ => (hs k).le) (by simp)
  exact ⟨div_pos (hs j) ((hs j).trans_le hle), div_le_one_of_le₀ hle ((hs j).le.trans hle)⟩

/-- By how much demand for a product falls with its price, relative to its share and to the sensitivity. -/
noncomputable def steepness (m : Market J A G) (c : Characteristic J A K1 K2) (n : Nesting J G) (x : J → ℝ) (j : J) : ℝ :=
  1 / (1 - n.productRho j) - n.productRho j / (1 - n.productRho j) * Spec.nestShare n (sharesAt m c x) j - sharesAt m c x j

theorem steepness_pos (hr : ∀ g, 0 ≤ n.rho.groupRho g) (x : J → ℝ) (j : J) : 0 < steepness m c n x j := by
  obtain ⟨i₀, -⟩ : (Finset.univ : Finset A).Nonempty := by
    by_contra hne
    have := h.weights
    rw [Finset.not_nonempty_iff_eq_empty.mp hne] at this
    simp at this
  have hm := nested_wellFormed h hr
  have hb := nestShare_bounds h x j
  have h1 : sharesAt m c x j < 1 := by
    have hin := C17_probabilities_interior m true (updateDelta c x) (updateMu c x) i₀ h.availability hm.regular.rhoBelowOne
    rw [← nested_shares h x j i₀]
    exact lt_of_le_of_lt (Finset.single_le_sum (fun k _ => (hin.1 k).le) (Finset.mem_univ j)) hin.2
  have hr1 : 0 < 1 - n.productRho j := by have := h.below (n.group j); simp only [Nesting.productRho]; linarith
  have hr0 : 0 ≤ n.productRho j := hr _
  have : 1 ≤ 1 / (1 - n.productRho j) - n.productRho j / (1 - n.productRho j) * Spec.nestShare n (sharesAt m c x) j := by
    rw [div_mul_eq_mul_div, div_sub_div_same, le_div_iff₀ hr1]
    nlinarith [hb.2]
  unfold steepness
  linarith

theorem own_jacobian (x : J → ℝ) (j : J) :
    jacobianAt m c x j j = -(Spec.sensitivity m c * sharesAt m c x j * steepness m c n x j) := by
  have := C126_nested_jacobian h x j j
  simp only [if_true] at this
  rw [this, steepness]

/-- Exponentials of utilities at cost, divided by one minus nesting parameters. -/
noncomputable def nestedAtCost (c : Characteristic J A K1 K2) (n : Nesting J G) (costs : J → ℝ) (j : J) : ℝ :=
  Real.exp ((c.delta j + (∑ k with c.has1 k = true, c.beta k) * (costs j - c.x0 j)) / (1 - n.rho.groupRho (n.group j)))

theorem nested_mass (costs x : J → ℝ) (j : J) :
    Real.exp (updateDelta c x j / (1 - n.rho.groupRho (n.group j))) =
      NestedOligopoly.mass n.group n.rho.groupRho (Spec.sensitivity m c) (nestedAtCost c n costs) (fun k => x k - costs k) j := by
  have hd : updateDelta c x j = c.delta j + (∑ k with c.has1 k = true, c.beta k) * (x j - c.x0 j) := by
    rw [updateDelta, Finset.sum_mul]
    congr 1
    refine Finset.sum_congr rfl fun k hk => ?_
    have := h.linear k (by simpa using hk) j
    rw [(this _).1, (this _).1]
  rw [hd, NestedOligopoly.mass, nestedAtCost, ← Real.exp_add, Spec.sensitivity, h.scale]
  congr 1
  ring

theorem nested_oligopoly_share (costs x : J → ℝ) (j : J) :
    sharesAt m c x j =
      NestedOligopoly.share n.group n.rho.groupRho (Spec.sensitivity m c) (nestedAtCost c n costs) (fun k => x k - costs k) j := by
  obtain ⟨i₀, -⟩ : (Finset.univ : Finset A).Nonempty := by
    by_contra hne
    have := h.weights
    rw [Finset.not_nonempty_iff_eq_empty.mp hne] at this
    simp at this
  have hsum : ∀ g, Spec.groupSum n.group n.rho.groupRho (updateDelta c x) (fun _ => 1) g =
      NestedOligopoly.nestMass n.group n.rho.groupRho (Spec.sensitivity m c) (nestedAtCost c n costs) (fun k => x k - costs k) g := fun g => by
    refine Finset.sum_congr rfl fun k hk => ?_
    have := nested_mass h costs x k
    rw [(Finset.mem_filter.mp hk).2] at this
    rw [one_mul, this]
  have hpos : 0 < NestedOligopoly.nestMass n.group n.rho.groupRho (Spec.sensitivity m c) (nestedAtCost c n costs) (fun k => x k - costs k) (n.group j) :=
    Finset.sum_pos (fun k _ => mul_pos (Real.exp_pos _) (Real.exp_pos _)) ⟨j, by simp⟩
  rw [← nested_shares h x j i₀, nested_probabilities h, Spec.nested, Spec.within, Spec.groupProb]
  simp only [Spec.expInclusive, hsum, one_mul, nested_mass h costs]
  rw [NestedOligopoly.share, NestedOligopoly.denom, Real.rpow_neg hpos.le, sub_eq_add_neg, Real.rpow_add hpos, Real.rpow_one, Real.rpow_neg hpos.le]
  field_simp

theorem nested_oligopoly_nestShare (costs x : J → ℝ) (j : J) :
    Spec.nestShare n (sharesAt m c x) j =
      NestedOligopoly.mass n.group n.rho.groupRho (Spec.sensitivity m c) (nestedAtCost c n costs) (fun k => x k - costs k) j /
        NestedOligopoly.nestMass n.group n.rho.groupRho (Spec.sensitivity m c) (nestedAtCost c n costs) (fun k => x k - costs k) (n.group j) := by
  have hA : ∀ j, 0 < nestedAtCost c n costs j := fun j => Real.exp_pos _
  set z : J → ℝ := fun k => x k - costs k
  have hpos : 0 < NestedOligopoly.nestMass n.group n.rho.groupRho (Spec.sensitivity m c) (nestedAtCost c n costs) z (n.group j) :=
    Finset.sum_pos (fun k _ => NestedOligopoly.mass_pos hA z k) ⟨j, by simp⟩
  set q := NestedOligopoly.nestMass n.group n.rho.groupRho (Spec.sensitivity m c) (nestedAtCost c n costs) z (n.group j) ^ (-n.rho.groupRho (n.group j)) /
    NestedOligopoly.denom n.group n.rho.groupRho (Spec.sensitivity m c) (nestedAtCost c n costs) z with hq
  have hqp : 0 < q := div_pos (Real.rpow_pos_of_pos hpos _) (NestedOligopoly.denom_pos hA z)
  have hs : ∀ k, n.group k = n.group j → sharesAt m c x k =
      NestedOligopoly.mass n.group n.rho.groupRho (Spec.sensitivity m c) (nestedAtCost c n costs) z k * q := fun k hk => by
    rw [nested_oligopoly_share h costs, NestedOligopoly.share, hk, mul_div_assoc]
  have hsum : ∑ k with n.group k = n.group j, sharesAt m c x k =
      NestedOligopoly.nestMass n.group n.rho.groupRho (Spec.sensitivity m c) (nestedAtCost c n costs) z (n.group j) * q := by
    rw [Finset.sum_congr rfl fun k hk => hs k (Finset.mem_filter.mp hk).2, ← Finset.sum_mul]
    rfl
  rw [Spec.nestShare, hsum, hs j rfl, mul_div_mul_right _ _ hqp.ne']

/-- Reported gradients with nested logit demand. -/
theorem nested_gradient (firm : J → F) (costs x : J → ℝ) (k : J) :
    firmProfitGradient m c (ownershipFromIds firm) costs x k = sharesAt m c x k *
      (1 - Spec.sensitivity m c / (1 - n.productRho k) * (x k - costs k) +
        Spec.sensitivity m c / (1 - n.productRho k) * n.productRho k *
          (∑ j with n.group j = n.group k ∧ firm j = firm k, (x j - costs j) * Spec.nestShare n (sharesAt m c x) j) +
        Spec.sensitivity m c * ∑ j with firm j = firm k, (x j - costs j) * sharesAt m c x j) := by
  set a := Spec.sensitivity m c
  have hr : (1 : ℝ) - n.productRho k ≠ 0 := by have := h.below (n.group k); simp only [Nesting.productRho]; linarith
  have hterm : ∀ j, firm j = firm k → ownershipFromIds firm j k * profitJacobian m c costs x j k =
      sharesAt m c x k * (if j = k then 1 - a / (1 - n.productRho k) * (x k - costs k) else 0) +
      sharesAt m c x k * (a / (1 - n.productRho k) * n.productRho k *
        (if n.group j = n.group k then (x j - costs j) * Spec.nestShare n (sharesAt m c x) j else 0)) +
      sharesAt m c x k * (a * ((x j - costs j) * sharesAt m c x j)) := fun j hj => by
    have hjac := C126_nested_jacobian h x j k
    simp only [] at hjac
    rw [ownershipFromIds, if_pos hj, one_mul, profitJacobian]
    change _ + _ * jacobianAt m c x j k = _
    rw [hjac]
    by_cases hjk : j = k
    · subst hjk
      simp only [if_true]
      field_simp
      ring
    · simp only [if_neg hjk]
      by_cases hg : n.group j = n.group k
      · simp only [hg, if_true]
        rw [show n.productRho j = n.productRho k by simp only [Nesting.productRho, hg]]
        ring
      · simp only [if_neg hg]
        ring
  have hzero : ∀ j, firm j ≠ firm k → ownershipFromIds firm j k * profitJacobian m c costs x j k = 0 := fun j hj => by
    rw [ownershipFromIds, if_neg hj, zero_mul]
  rw [firmProfitGradient, ← Finset.sum_filter_add_sum_filter_not Finset.univ fun j => firm j = firm k,
    Finset.sum_congr rfl fun j hj => hterm j (Finset.mem_filter.mp hj).2,
    Finset.sum_eq_zero (s := Finset.univ.filter fun j => ¬ firm j = firm k) fun j hj => hzero j (Finset.mem_filter.mp hj).2, add_zero,
    Finset.sum_add_distrib, Finset.sum_add_distrib, ← Finset.mul_sum, ← Finset.mul_sum, ← Finset.mul_sum, ← Finset.mul_sum, ← Finset.mul_sum]
  have h1 : ∑ j with firm j = firm k, (if j = k then 1 - a / (1 - n.productRho k) * (x k - costs k) else 0) = 1 - a / (1 - n.productRho k) * (x k - costs k) := by
    rw [Finset.sum_eq_single k (fun j _ hj => if_neg hj) (fun hk => absurd (by simp) hk), if_pos rfl]
  have h2 : ∑ j with firm j = firm k, (if n.group j = n.group k then (x j - costs j) * Spec.nestShare n (sharesAt m c x) j else 0) =
      ∑ j with n.group j = n.group k ∧ firm j = firm k, (x j - costs j) * Spec.nestShare n (sharesAt m c x) j := by
    rw [← Finset.sum_filter, Finset.filter_filter]
    refine Finset.sum_congr ?_ fun _ _ => rfl
    ext j; simp [and_comm]
  rw [h1, h2]
  ring

theorem nested_profit (firm : J → F) (costs : J → ℝ) (f : F) (q : J → ℝ) : Spec.jointProfit (sharesAt m c) costs firm f q =
    NestedOligopoly.profit n.group n.rho.groupRho (Spec.sensitivity m c) (nestedAtCost c n costs) (fun k => firm k = f) (fun k => q k - costs k) := by
  refine Finset.sum_congr rfl fun k _ => ?_
  rw [nested_oligopoly_share h costs, mul_comm]

/-- Reported gradients are shares times first order conditions. -/
theorem nested_gradient_foc (firm : J → F) (costs x : J → ℝ) (k : J) :
    firmProfitGradient m c (ownershipFromIds firm) costs x k = sharesAt m c x k *
      (1 - Spec.sensitivity m c / (1 - n.rho.groupRho (n.group k)) * (x k - costs k) +
        Spec.sensitivity m c / (1 - n.rho.groupRho (n.group k)) * n.rho.groupRho (n.group k) *
          ((∑ j with n.group j = n.group k ∧ firm j = firm k, (x j - costs j) *
            NestedOligopoly.mass n.group n.rho.groupRho (Spec.sensitivity m c) (nestedAtCost c n costs) (fun k => x k - costs k) j) /
            NestedOligopoly.nestMass n.group n.rho.groupRho (Spec.sensitivity m c) (nestedAtCost c n costs) (fun k => x k - costs k) (n.group k)) +
        Spec.sensitivity m c *
          NestedOligopoly.profit n.group n.rho.groupRho (Spec.sensitivity m c) (nestedAtCost c n costs) (fun j => firm j = firm k) (fun k => x k - costs k)) := by
  rw [nested_gradient h, ← nested_profit h firm costs (firm k) x]
  have h3 : (∑ j with n.group j = n.group k ∧ firm j = firm k, (x j - costs j) *
      NestedOligopoly.mass n.group n.rho.groupRho (Spec.sensitivity m c) (nestedAtCost c n costs) (fun k => x k - costs k) j) /
        NestedOligopoly.nestMass n.group n.rho.groupRho (Spec.sensitivity m c) (nestedAtCost c n costs) (fun k => x k - costs k) (n.group k) =
      ∑ j with n.group j = n.group k ∧ firm j = firm k, (x j - costs j) * Spec.nestShare n (sharesAt m c x) j := by
    rw [Finset.sum_div]
    refine Finset.sum_congr rfl fun j hj => ?_
    rw [nested_oligopoly_nestShare h costs, (Finset.mem_filter.mp hj).2.1, mul_div_assoc]
  have h4 : Spec.jointProfit (sharesAt m c) costs firm (firm k) x = ∑ j with firm j = firm k, (x j - costs j) * sharesAt m c x j :=
    Finset.sum_congr rfl fun j _ => mul_comm _ _
  rw [h3, h4]
  rfl

theorem nested_foc (firm : J → F) (costs x : J → ℝ) (hg : ∀ k, firmProfitGradient m c (ownershipFromIds firm) costs x k = 0) (f : F) :
    NestedOligopoly.Foc n.group n.rho.groupRho (Spec.sensitivity m c) (nestedAtCost c n costs) (fun k => firm k = f) (fun k => x k - costs k) := by
  intro k hk
  have h1 := hg k
  rw [nested_gradient_foc h] at h1
  have h2 := (mul_eq_zero.mp h1).resolve_left (nested_share_pos h x k).ne'
  rwa [hk] at h2

omit h [IsEmpty K2] [Nonempty J] [Fintype J] [DecidableEq J] [Fintype G] [DecidableEq G] [Fintype A] [Fintype K1] [Fintype K2] [DecidableEq F] in
/-- The same characteristics with second derivatives of zero, which neither shares nor their derivatives depend on. -/
def withoutCurvature (c : Characteristic J A K1 K2) : Characteristic J A K1 K2 := { c with dd1 := fun _ _ _ => 0, dd2 := fun _ _ _ => 0 }

theorem nested_smooth : (withoutCurvature c).Smooth where
  x1 := fun k hk j t => by
    have hx : (withoutCurvature c).x1 k j = fun s => s := funext fun s => (h.linear k hk j s).1
    rw [hx, show (withoutCurvature c).d1 k j t = 1 from (h.linear k hk j t).2]
    exact hasDerivAt_id' t
  d1 := fun k hk j t => by
    have hx : (withoutCurvature c).d1 k j = fun _ => 1 := funext fun s => (h.linear k hk j s).2
    rw [hx]
    exact hasDerivAt_const _ _
  x2 := fun k => isEmptyElim k
  d2 := fun k => isEmptyElim k

/-- Profit gradients are derivatives of profits. -/
theorem nested_derivative_profit (hr : ∀ g, 0 ≤ n.rho.groupRho g) (firm : J → F) (costs p : J → ℝ) (k : J) :
    HasDerivAt (fun t => Spec.jointProfit (sharesAt m c) costs firm (firm k) (Function.update p k t))
      (firmProfitGradient m c (ownershipFromIds firm) costs p k) (p k) :=
  hasDerivAt_jointProfit m (nested_wellFormed h hr) (withoutCurvature c) (nested_smooth h) firm costs p k

/-- **C149, partial (nested logit demand with nesting parameters that are not negative).** Iteration stops exactly at prices at which no
firm can gain by changing any of its prices in any way. Firms can have any number of products, in any nests. -/
theorem C149_nested_partial (hr : ∀ g, 0 ≤ n.rho.groupRho g) (firm : J → F) (costs x : J → ℝ) :
    priceContraction m c (ownershipFromIds firm) (fun k _ => costs k) x = x ↔ Spec.NashEquilibrium (sharesAt m c) costs firm x := by
  have hm := nested_wellFormed h hr
  refine ⟨fun hfix f q hq => ?_, C149_necessary m hm (withoutCurvature c) (nested_smooth h) firm costs x (nested_lamda h x)⟩
  have hg := (gradients_iff m hm (withoutCurvature c) (nested_smooth h) firm costs x (nested_lamda h x)).mp hfix
  rw [nested_profit h, nested_profit h]
  refine NestedOligopoly.optimal (A := nestedAtCost c n costs) (nested_sensitivity h) hr h.below (fun j => Real.exp_pos _) (fun k => firm k = f) (fun k => x k - costs k)
    (nested_foc h firm costs x hg f) _ fun k hk => by simp only [hq k hk, le_refl]

end Nested

section Plain

variable {J A G K1 K2 F : Type} [Fintype J] [DecidableEq J] [Nonempty J] [Fintype G] [DecidableEq G] [Fintype A]
  [Fintype K1] [Fintype K2] [IsEmpty K2] [DecidableEq F]

/-- **C149, partial (plain logit demand).** Firms can have any number of products. -/
theorem C149_plain_partial {m : Market J A G} {c : Characteristic J A K1 K2} (h : Spec.PlainLogit m c) (firm : J → F) (costs x : J → ℝ) :
    priceContraction m c (ownershipFromIds firm) (fun k _ => costs k) x = x ↔ Spec.NashEquilibrium (sharesAt m c) costs firm x :=
  C125_nash h costs firm x

end Plain

/-! ## Random coefficients -/

/-- A monopolist sells to two kinds of consumers. -/
noncomputable def twoKinds : Market (Fin 1) (Fin 2) Unit := ⟨none, 1, fun _ => 1 / 2, none⟩

/-- Utilities are four minus the price and a hundredth of this. The price is four. -/
noncomputable def twoKindsPrices : Characteristic (Fin 1) (Fin 2) (Fin 0) (Fin 2) where
  delta := fun _ => 0
  x0 := fun _ => 4
  beta := fun _ => 0
  has1 := fun _ => false
  x1 := fun _ _ _ => 0
  d1 := fun _ _ _ => 0
  dd1 := fun _ _ _ => 0
  coef := fun k i _ => ![![4, -1], ![1 / 25, -(1 / 100)]] i k
  has2 := ![false, true]
  x2 := fun k _ t => ![1, t] k
  d2 := fun _ _ _ => 1
  dd2 := fun _ _ _ => 0

theorem twoKinds_wellFormed : WellFormed twoKinds :=
  ⟨⟨fun n hn => by simp [twoKinds] at hn, by simp [twoKinds]⟩, fun hn => absurd rfl hn, fun a ha => by simp [twoKinds] at ha⟩

theorem twoKindsPrices_smooth : twoKindsPrices.Smooth where
  x1 := fun k => k.elim0
  d1 := fun k => k.elim0
  x2 := fun k hk j t => by
    fin_cases k
    · simp [twoKindsPrices] at hk
    · exact hasDerivAt_id t
  d2 := fun _ _ _ t => hasDerivAt_const t 1

theorem twoKinds_probability (t : ℝ) (i : Fin 2) :
    probabilitiesAt twoKinds twoKindsPrices (fun _ => t) 0 i = Real.exp (![4 - t, (4 - t) / 100] i) / (1 + Real.exp (![4 - t, (4 - t) / 100] i)) := by
  rw [probabilitiesAt, computeProbabilities_plain _ _ _ _ rfl, multiplier_one _ _ rfl rfl rfl (fun _ => rfl)]
  have hu : updateDelta twoKindsPrices (fun _ => t) 0 + updateMu twoKindsPrices (fun _ => t) 0 i = ![4 - t, (4 - t) / 100] i := by
    fin_cases i <;> simp [updateDelta, updateMu, twoKindsPrices] <;> ring
  simp [Spec.logit, hu, twoKinds]

theorem twoKinds_share (t : ℝ) : sharesAt twoKinds twoKindsPrices (fun _ => t) 0 =
    1 / 2 * (Real.exp (4 - t) / (1 + Real.exp (4 - t))) + 1 / 2 * (Real.exp ((4 - t) / 100) / (1 + Real.exp ((4 - t) / 100))) := by
  rw [sharesAt, Fin.sum_univ_two, twoKinds_probability, twoKinds_probability]
  simp [twoKinds]
  ring

theorem twoKinds_half (i : Fin 2) : probabilitiesAt twoKinds twoKindsPrices (fun _ => 4) 0 i = 1 / 2 := by
  rw [twoKinds_probability]
  fin_cases i <;> norm_num

theorem twoKinds_derivative (i : Fin 2) : utilityDerivatives twoKinds twoKindsPrices (fun _ => 4) 0 i = ![-1, -(1 / 100)] i := by
  fin_cases i <;> simp [utilityDerivatives, twoKindsPrices, twoKinds]

theorem twoKinds_second (i : Fin 2) : utilitySecondDerivatives twoKinds twoKindsPrices (fun _ => 4) 0 i = 0 := by
  fin_cases i <;> simp [utilitySecondDerivatives, twoKindsPrices, twoKinds]

/-- **C149 fails with random coefficients.** All consumers dislike prices. At a price of four the iteration stops, the reported profit
gradient is zero and the reported profit Hessian is negative, but a price of 104 is more than five times as profitable, because only
consumers who dislike prices less buy at it. -/
theorem C149_random_coefficients_refuted :
    let costs : Fin 1 → ℝ := fun _ => 4 / 101
    let x : Fin 1 → ℝ := fun _ => 4
    (∀ p j i, utilityDerivatives twoKinds twoKindsPrices p j i < 0) ∧
    priceContraction twoKinds twoKindsPrices (ownershipFromIds (id : Fin 1 → Fin 1)) (fun k _ => costs k) x = x ∧
    firmProfitGradient twoKinds twoKindsPrices (ownershipFromIds (id : Fin 1 → Fin 1)) costs x 0 = 0 ∧
    firmProfitHessian twoKinds twoKindsPrices (ownershipFromIds (id : Fin 1 → Fin 1)) costs x 0 0 < 0 ∧
    5 * Spec.jointProfit (sharesAt twoKinds twoKindsPrices) costs id 0 x < Spec.jointProfit (sharesAt twoKinds twoKindsPrices) costs id 0 (fun _ => 104) ∧
    ¬ Spec.NashEquilibrium (sharesAt twoKinds twoKindsPrices) costs id x := by
  intro costs x
  have hnest : twoKinds.nesting = none := rfl
  have hw : twoKinds.weights = fun _ => 1 / 2 := rfl
  have hs : sharesAt twoKinds twoKindsPrices x 0 = 1 / 2 := by
    rw [sharesAt, Fin.sum_univ_two, twoKinds_half, twoKinds_half]
    simp [twoKinds]
    norm_num
  have hgrad : firmProfitGradient twoKinds twoKindsPrices (ownershipFromIds (id : Fin 1 → Fin 1)) costs x 0 = 0 := by
    simp only [firmProfitGradient, profitJacobian, Finset.univ_unique, Finset.sum_singleton, Fin.default_eq_zero, hs, ownershipFromIds, if_true,
      sharesJacobian, capitalLamda, capitalGamma, hnest, hw, Fin.sum_univ_two]
    rw [twoKinds_half, twoKinds_half, twoKinds_derivative, twoKinds_derivative]
    norm_num [costs, x]
  have hl : ∀ j, capitalLamda twoKinds (probabilitiesAt twoKinds twoKindsPrices x) (utilityDerivatives twoKinds twoKindsPrices x) j ≠ 0 := by
    intro j
    rw [Subsingleton.elim j 0]
    simp only [capitalLamda, hnest, hw, Fin.sum_univ_two]
    rw [twoKinds_half, twoKinds_half, twoKinds_derivative, twoKinds_derivative]
    norm_num [costs, x]
  have hprofit : 5 * Spec.jointProfit (sharesAt twoKinds twoKindsPrices) costs id 0 x < Spec.jointProfit (sharesAt twoKinds twoKindsPrices) costs id 0 (fun _ => 104) := by
    simp only [Spec.jointProfit, id, Subsingleton.elim _ (0 : Fin 1), Finset.filter_true, Finset.univ_unique, Finset.sum_singleton, hs, twoKinds_share]
    have h1 : (1 : ℝ) / 4 ≤ Real.exp ((4 - 104) / 100) / (1 + Real.exp ((4 - 104) / 100)) := by
      have he : Real.exp 1 < 3 := by have := Real.exp_one_lt_d9; linarith
      have : Real.exp ((4 - 104) / 100) = 1 / Real.exp 1 := by rw [show ((4 : ℝ) - 104) / 100 = -1 by norm_num, Real.exp_neg, one_div]
      have hp := Real.exp_pos 1
      have h3 : 1 / Real.exp 1 / (1 + 1 / Real.exp 1) = 1 / (Real.exp 1 + 1) := by field_simp
      rw [this, h3, div_le_div_iff₀ (by norm_num) (by positivity)]
      linarith
    have h2 : 0 ≤ Real.exp (4 - 104) / (1 + Real.exp (4 - 104)) := by positivity
    simp only [costs, x]
    nlinarith
  refine ⟨?_, (gradients_iff _ twoKinds_wellFormed _ twoKindsPrices_smooth id costs x hl).mpr (fun k => by rw [Subsingleton.elim k 0]; exact hgrad), hgrad, ?_, hprofit, fun hn => ?_⟩
  · intro p j i
    rw [Subsingleton.elim j 0]
    fin_cases i <;> simp [utilityDerivatives, twoKindsPrices, twoKinds]
  · simp only [firmProfitHessian, profitHessian, Finset.univ_unique, Finset.sum_singleton, Fin.default_eq_zero, ownershipFromIds, if_true,
      sharesHessian, capitalLamdaTensor, capitalGammaTensor, probabilityUtilitySecondDerivatives, probabilityDerivatives,
      sharesJacobian, capitalLamda, capitalGamma, hnest, hw, Fin.sum_univ_two]
    rw [twoKinds_half, twoKinds_half, twoKinds_derivative, twoKinds_derivative, twoKinds_second, twoKinds_second]
    norm_num [costs, x]
  · have := hn 0 (fun _ => 104) fun k hk => absurd (Subsingleton.elim _ _) hk
    have hpos : 0 < Spec.jointProfit (sharesAt twoKinds twoKindsPrices) costs id 0 x := by
      simp only [Spec.jointProfit, id, Subsingleton.elim _ (0 : Fin 1), Finset.filter_true, Finset.univ_unique, Finset.sum_singleton, hs, costs, x]
      norm_num
    linarith

/-! ## Non-vacuity -/

/-- In the duopoly, no firm gains by charging anything else than 3. -/
example : Spec.NashEquilibrium (sharesAt duopoly duopolyPrices) (fun _ => 3 / 2) (id : Fin 2 → Fin 2) (fun _ => 3) :=
  (C149_plain_partial duopoly_plain _ _ _).mp duopoly_equilibrium

example (k : Fin 2) : firmProfitGradient duopoly duopolyPrices (ownershipFromIds (id : Fin 2 → Fin 2)) (fun _ => 3 / 2) (fun _ => 3) k = 0 :=
  C149_gradients _ duopoly_wellFormed _ duopolyPrices_smooth _ _ _ ((C149_plain_partial duopoly_plain _ _ _).mp duopoly_equilibrium) k

/-- With the nest there are costs at which prices of 3 are best responses. -/
example : ∃ costs, (∀ j, costs j < 3) ∧ Spec.NashEquilibrium (sharesAt nestedDuopoly duopolyPrices) costs (id : Fin 2 → Fin 2) (fun _ => 3) := by
  have hr : ∀ g : Unit, 0 ≤ (⟨fun _ : Fin 2 => (), .single (1 / 2)⟩ : Nesting (Fin 2) Unit).rho.groupRho g := fun g => by simp only [RhoParam.groupRho]; norm_num
  have hm := nested_wellFormed nestedDuopoly_nested hr
  set x : Fin 2 → ℝ := fun _ => 3
  have hj : ∀ j, jacobianAt nestedDuopoly duopolyPrices x j j < 0 := fun j => by
    rw [own_jacobian nestedDuopoly_nested]
    have := mul_pos (mul_pos (nested_sensitivity nestedDuopoly_nested) (nested_share_pos nestedDuopoly_nested x j)) (steepness_pos nestedDuopoly_nested hr x j)
    linarith
  refine ⟨fun j => 3 + sharesAt nestedDuopoly duopolyPrices x j / jacobianAt nestedDuopoly duopolyPrices x j j, fun j => ?_, ?_⟩
  · have := div_neg_of_pos_of_neg (nested_share_pos nestedDuopoly_nested x j) (hj j)
    linarith
  rw [← C149_nested_partial nestedDuopoly_nested hr id, gradients_iff _ hm _ duopolyPrices_smooth _ _ _ (nested_lamda nestedDuopoly_nested x)]
  intro k
  rw [firmProfitGradient, Finset.sum_eq_single k (fun l _ hl => by rw [ownershipFromIds, if_neg (by simpa using hl), zero_mul]) (fun hk => absurd (Finset.mem_univ k) hk)]
  have := (hj k).ne
  simp only [ownershipFromIds, profitJacobian, if_true]
  change 1 * (sharesAt nestedDuopoly duopolyPrices x k + (3 - (3 + _)) * jacobianAt nestedDuopoly duopolyPrices x k k) = 0
  field_simp
  ring

/-- Once both products of the nest have the same owner, there are also costs at which prices of 3 are best. -/
example : ∃ cost, cost < 3 ∧ Spec.NashEquilibrium (sharesAt nestedDuopoly duopolyPrices) (fun _ => cost) (fun _ : Fin 2 => (0 : Fin 1)) (fun _ => 3) := by
  have hr : ∀ g : Unit, 0 ≤ (⟨fun _ : Fin 2 => (), .single (1 / 2)⟩ : Nesting (Fin 2) Unit).rho.groupRho g := fun g => by simp only [RhoParam.groupRho]; norm_num
  have hm := nested_wellFormed nestedDuopoly_nested hr
  set x : Fin 2 → ℝ := fun _ => 3
  have hp := nested_share_pos nestedDuopoly_nested x
  have ha := nested_sensitivity nestedDuopoly_nested
  have h1 : sharesAt nestedDuopoly duopolyPrices x 0 + sharesAt nestedDuopoly duopolyPrices x 1 < 1 := by
    have hin := C17_probabilities_interior nestedDuopoly true (updateDelta duopolyPrices x) (updateMu duopolyPrices x) () rfl hm.regular.rhoBelowOne
    have h2 := hin.2
    rw [Fin.sum_univ_two] at h2
    rw [← nested_shares nestedDuopoly_nested x 0 (), ← nested_shares nestedDuopoly_nested x 1 ()]
    exact h2
  set a := Spec.sensitivity nestedDuopoly duopolyPrices
  set S := sharesAt nestedDuopoly duopolyPrices x 0 + sharesAt nestedDuopoly duopolyPrices x 1 with hS
  have hS1 : 0 < 1 - S := by linarith
  refine ⟨3 - 1 / (a * (1 - S)), by have : 0 < 1 / (a * (1 - S)) := by positivity
                                    linarith, ?_⟩
  rw [← C149_nested_partial nestedDuopoly_nested hr, gradients_iff _ hm _ duopolyPrices_smooth _ _ _ (nested_lamda nestedDuopoly_nested x)]
  intro k
  have h0 := hp 0
  have h3 := hp 1
  have hSp : S ≠ 0 := by rw [hS]; positivity
  rw [nested_gradient nestedDuopoly_nested]
  simp only [Spec.nestShare, Nesting.productRho, RhoParam.groupRho, and_self, Finset.filter_true, Fin.sum_univ_two, ← hS]
  change _ * (1 - a / _ * (3 - _) + a / _ * _ * ((3 - _) * _ + (3 - _) * _) + a * ((3 - _) * _ + (3 - _) * _)) = 0
  rw [← mul_add, ← mul_add, ← add_div, ← hS, div_self hSp]
  field_simp
  ring

end Pyblp
