import Verif.Props.NestedPricing
import Verif.Lemmas.NestedCosts
import Verif.Lemmas.NestedStrict

/-!
# C151: changes of costs with logit and nested logit demand

Prices are fixed points of `priceContraction` (pyblp/markets/market.py:813-848) for given costs, as `compute_prices` computes them when called
with `costs` (pyblp/results/economy_results.py:717-804), and ownership comes from firm IDs.
-/

set_option linter.unusedSectionVars false

namespace Pyblp

open Finset

namespace Spec

/-- Costs of all products of a firm change by the same amount, such as a tax per unit. -/
def FirmWide {J F : Type} (firm : J → F) (costs costs' : J → ℝ) : Prop := ∀ j k, firm j = firm k → costs' j - costs j = costs' k - costs k

end Spec

variable {J A G K1 K2 F F' : Type} [Fintype J] [DecidableEq J] [Nonempty J] [Fintype G] [DecidableEq G] [Fintype A]
  [Fintype K1] [Fintype K2] [IsEmpty K2] [DecidableEq F] [DecidableEq F']

section Nested

variable {m : Market J A G} {c : Characteristic J A K1 K2} {n : Nesting J G} (h : Spec.NestedLogit m n c)

include h

lemma nestedAtCost_changed (costs costs' : J → ℝ) :
    NestedOligopoly.atChangedCost n.group n.rho.groupRho (Spec.sensitivity m c) (nestedAtCost c n costs) (fun j => costs' j - costs j) = nestedAtCost c n costs' := by
  funext j
  have hs : Spec.sensitivity m c = -∑ k with c.has1 k = true, c.beta k := by rw [Spec.sensitivity, h.scale]; ring
  rw [NestedOligopoly.atChangedCost, nestedAtCost, nestedAtCost, ← Real.exp_add, hs]
  congr 1
  have hb : (1 : ℝ) - n.rho.groupRho (n.group j) ≠ 0 := by linarith [h.below (n.group j)]
  field_simp
  ring

/-- If no price falls and some rise, more consumers choose the outside good, and consumer surplus falls. -/
lemma nested_surplus_falls (first : J) (x x' : J → ℝ) (hle : ∀ k, x k ≤ x' k) (k : J) (hlt : x k < x' k) :
    Spec.outsideShare (sharesAt m c x) < Spec.outsideShare (sharesAt m c x') ∧
      consumerSurplus m c first x' (fun _ => false) < consumerSurplus m c first x (fun _ => false) := by
  have hA : ∀ j, 0 < nestedAtCost c n (fun _ => 0) j := fun j => Real.exp_pos _
  have hout : ∀ x : J → ℝ, Spec.outsideShare (sharesAt m c x) =
      1 / NestedOligopoly.denom n.group n.rho.groupRho (Spec.sensitivity m c) (nestedAtCost c n fun _ => 0) (fun k => x k - 0) := fun x => by
    rw [Spec.outsideShare, Finset.sum_congr rfl fun j _ => nested_oligopoly_share h (fun _ => 0) x j, NestedOligopoly.total_share h.below hA]
    ring
  have h1 : Spec.outsideShare (sharesAt m c x) < Spec.outsideShare (sharesAt m c x') := by
    rw [hout, hout]
    exact one_div_lt_one_div_of_lt (NestedOligopoly.denom_pos hA _)
      (NestedOligopoly.denom_lt (nested_sensitivity h) h.below hA _ _ (fun j => by linarith [hle j]) k (by linarith))
  refine ⟨h1, ?_⟩
  rw [C126_nested_surplus h, C126_nested_surplus h]
  refine div_lt_div_of_pos_right (neg_lt_neg (Real.log_lt_log ?_ h1)) (nested_sensitivity h)
  rw [hout]
  exact one_div_pos.mpr (NestedOligopoly.denom_pos hA _)

section Changes

variable (hr : ∀ g, 0 ≤ n.rho.groupRho g) (costs costs' : J → ℝ) (firm : J → F) (firm' : J → F')
  (hmerge : ∀ j k, firm j = firm k → firm' j = firm' k) (hwide : Spec.FirmWide firm' costs costs') (x x' : J → ℝ)
  (hx : priceContraction m c (ownershipFromIds firm) (fun k _ => costs k) x = x)
  (hx' : priceContraction m c (ownershipFromIds firm') (fun k _ => costs' k) x' = x')

include hr hmerge hwide hx hx'

/-- **C151, increases of costs.** If no costs fall, those of products of a firm rise by the same amount, and firms merge or stay as they are, no
price falls, and prices of products with costs that rise do rise. -/
theorem C151_prices (hup : ∀ j, costs j ≤ costs' j) : (∀ k, x k ≤ x' k) ∧ ∀ k, costs k < costs' k → x k < x' k := by
  rw [nested_fixed_foc h] at hx hx'
  have ha := nested_sensitivity h
  rw [← nestedAtCost_changed h costs' costs] at hx
  have hw : ∀ j k, firm' j = firm' k → costs j - costs' j = costs k - costs' k := fun j k hjk => by linarith [hwide j k hjk]
  have hd : ∀ j, costs j - costs' j ≤ 0 := fun j => by linarith [hup j]
  refine ⟨fun k => ?_, fun k hk => ?_⟩
  · have := NestedOligopoly.change_at_most (A := nestedAtCost c n costs') ha hr h.below (fun j => Real.exp_pos _) firm firm' hmerge _ hw 0 le_rfl hd _ _ hx hx' k
    linarith
  · have := NestedOligopoly.change_up (A := nestedAtCost c n costs') ha hr h.below (fun j => Real.exp_pos _) firm firm' hmerge _ hw hd _ _ hx hx' k (by linarith)
    linarith

/-- **C151, consumers.** If moreover some costs rise, more consumers choose the outside good, and consumer surplus falls. -/
theorem C151_surplus (hup : ∀ j, costs j ≤ costs' j) (k : J) (hk : costs k < costs' k) (first : J) :
    Spec.outsideShare (sharesAt m c x) < Spec.outsideShare (sharesAt m c x') ∧
      consumerSurplus m c first x' (fun _ => false) < consumerSurplus m c first x (fun _ => false) := by
  obtain ⟨hle, hlt⟩ := C151_prices h hr costs costs' firm firm' hmerge hwide x x' hx hx' hup
  exact nested_surplus_falls h first x x' hle k (hlt k hk)

/-- **C151, rivals.** Firms with costs that do not change do not earn less. -/
theorem C151_rivals (hup : ∀ j, costs j ≤ costs' j) (f : F') (hf : ∀ j, firm' j = f → costs' j = costs j) :
    Spec.jointProfit (sharesAt m c) costs firm' f x ≤ Spec.jointProfit (sharesAt m c) costs' firm' f x' := by
  have hle := (C151_prices h hr costs costs' firm firm' hmerge hwide x x' hx hx' hup).1
  rw [nested_fixed_foc h] at hx'
  have heq : Spec.jointProfit (sharesAt m c) costs firm' f x = Spec.jointProfit (sharesAt m c) costs' firm' f x :=
    Finset.sum_congr rfl fun j hj => by rw [hf j (Finset.mem_filter.mp hj).2]
  rw [heq, nested_profit h, nested_profit h]
  exact NestedOligopoly.optimal (A := nestedAtCost c n costs') (nested_sensitivity h) hr h.below (fun j => Real.exp_pos _) (fun k => firm' k = f) _ (hx' f) _
    fun k _ => by linarith [hle k]

/-- **C151, rivals.** If moreover some costs rise, firms with costs that do not change earn more. -/
theorem C151_rivals_gain (hup : ∀ j, costs j ≤ costs' j) (k : J) (hk : costs k < costs' k) (i : J) (hf : ∀ j, firm' j = firm' i → costs' j = costs j) :
    Spec.jointProfit (sharesAt m c) costs firm' (firm' i) x < Spec.jointProfit (sharesAt m c) costs' firm' (firm' i) x' := by
  obtain ⟨hle, hlt⟩ := C151_prices h hr costs costs' firm firm' hmerge hwide x x' hx hx' hup
  have hpos := fun k => (C150_markups h hr firm costs x hx k).1
  rw [nested_fixed_foc h] at hx'
  have heq : Spec.jointProfit (sharesAt m c) costs firm' (firm' i) x = Spec.jointProfit (sharesAt m c) costs' firm' (firm' i) x :=
    Finset.sum_congr rfl fun j hj => by rw [hf j (Finset.mem_filter.mp hj).2]
  rw [heq, nested_profit h, nested_profit h]
  refine NestedOligopoly.optimal_strict (A := nestedAtCost c n costs') (nested_sensitivity h) hr h.below (fun j => Real.exp_pos _) (fun k => firm' k = firm' i) _ _
    (hx' (firm' i)) (fun j _ => by linarith [hle j]) k (fun hki => ?_) (by linarith [hlt k hk]) (fun j hj => ?_) i rfl
  · linarith [hf k hki]
  · linarith [hf j hj, hpos j]

/-- **C151, simulation.** If moreover products of each firm are in one nest and equilibrium prices before are at least costs after, iteration that starts at
these prices raises prices in each step and converges to equilibrium prices after. -/
theorem C151_rises (hone : ∀ j k, firm' j = firm' k → n.group j = n.group k) (hup : ∀ j, costs j ≤ costs' j) (hcosts : ∀ j, costs' j ≤ x j) :
    (∀ i k, (priceContraction m c (ownershipFromIds firm') (fun k _ => costs' k))^[i] x k ≤ (priceContraction m c (ownershipFromIds firm') (fun k _ => costs' k))^[i + 1] x k) ∧
      (∀ i k, (priceContraction m c (ownershipFromIds firm') (fun k _ => costs' k))^[i] x k ≤ x' k) ∧
      Filter.Tendsto (fun i => (priceContraction m c (ownershipFromIds firm') (fun k _ => costs' k))^[i] x) Filter.atTop (nhds x') := by
  have hfirst : ∀ k, x k ≤ priceContraction m c (ownershipFromIds firm') (fun k _ => costs' k) x k := fun k => by
    refine (merger_first_step h hr firm' hone firm hmerge costs x hx k).2.trans ?_
    rw [nested_contraction h, nested_contraction h]
    have h1 := NestedOligopoly.step_changed (group := n.group) (a := Spec.sensitivity m c) (A := nestedAtCost c n costs) hr h.below (fun j => Real.exp_pos _)
      (fun j => costs' j - costs j) (fun k => x k - costs k) hwide (fun k => sub_nonneg.mpr (hup k)) k
    rw [nestedAtCost_changed h] at h1
    have h2 : (fun j => x j - costs j - (costs' j - costs j)) = fun j => x j - costs' j := funext fun j => by ring
    rw [h2] at h1
    linarith
  obtain ⟨y, hy, hmono, hle, hlim⟩ := C150_rises_from h hr firm' hone costs' x hcosts hfirst
  have : y = x' := C150_unique h hr firm' costs' y x' hy hx'
  subst this
  exact ⟨hmono, hle, hlim⟩

end Changes

/-- **C151, pass-through.** If costs of products of a firm change by the same amount, no price rises by more than the largest of these increases, and
not at all if there are only decreases. -/
theorem C151_pass_through (hr : ∀ g, 0 ≤ n.rho.groupRho g) (costs costs' : J → ℝ) (firm : J → F) (hwide : Spec.FirmWide firm costs costs')
    (T : ℝ) (hT : 0 ≤ T) (htT : ∀ j, costs' j ≤ costs j + T) (x x' : J → ℝ)
    (hx : priceContraction m c (ownershipFromIds firm) (fun k _ => costs k) x = x)
    (hx' : priceContraction m c (ownershipFromIds firm) (fun k _ => costs' k) x' = x') (k : J) : x' k ≤ x k + T := by
  rw [nested_fixed_foc h] at hx hx'
  rw [← nestedAtCost_changed h costs costs'] at hx'
  have := NestedOligopoly.change_at_most (A := nestedAtCost c n costs) (nested_sensitivity h) hr h.below (fun j => Real.exp_pos _) firm firm (fun _ _ e => e) _ hwide T hT
    (fun j => by linarith [htT j]) _ _ hx' hx k
  linarith

/-- **C151, all prices.** If no costs fall, those of products of a firm rise by the same amount, and some rise, all prices rise. -/
theorem C151_all_prices (hr : ∀ g, 0 ≤ n.rho.groupRho g) (costs costs' : J → ℝ) (firm : J → F) (hwide : Spec.FirmWide firm costs costs') (x x' : J → ℝ)
    (hx : priceContraction m c (ownershipFromIds firm) (fun k _ => costs k) x = x)
    (hx' : priceContraction m c (ownershipFromIds firm) (fun k _ => costs' k) x' = x') (hup : ∀ j, costs j ≤ costs' j) (i : J) (hi : costs i < costs' i) (k : J) :
    x k < x' k := by
  obtain ⟨hle, hlt⟩ := C151_prices h hr costs costs' firm firm (fun _ _ e => e) hwide x x' hx hx' hup
  rcases (hup k).lt_or_eq with hk | hk
  · exact hlt k hk
  have hsame : ∀ j, firm j = firm k → costs' j = costs j := fun j hj => by linarith [hwide j k hj]
  have hgain := C151_rivals_gain h hr costs costs' firm firm (fun _ _ e => e) hwide x x' hx hx' hup i hi k hsame
  have ha := nested_sensitivity h
  have hA : ∀ j, 0 < nestedAtCost c n (fun _ => 0) j := fun j => Real.exp_pos _
  by_contra hno
  have hxk : x' k = x k := le_antisymm (not_lt.mp hno) (hle k)
  have h1 := C150_markups h hr firm costs x hx
  have h2 := C150_markups h hr firm costs' x' hx'
  -- products of the firm in the nest have the same markup
  have hset : ∀ j, n.group j = n.group k ∧ firm j = firm k →
      (Finset.univ.filter fun l => n.group l = n.group j ∧ firm l = firm j) = Finset.univ.filter fun l => n.group l = n.group k ∧ firm l = firm k := fun j hj => by
    rw [hj.1, hj.2]
  have hrho : ∀ j, n.group j = n.group k → n.productRho j = n.productRho k := fun j hj => by simp only [Nesting.productRho, hj]
  have hown : ∀ j, n.group j = n.group k ∧ firm j = firm k → x' j = x j := fun j hj => by
    have e1 := (h1 j).2
    have e2 := (h2 j).2
    rw [hset j hj, hrho j hj.1, hj.2, ← (h1 k).2] at e1
    rw [hset j hj, hrho j hj.1, hj.2, ← (h2 k).2] at e2
    linarith [hsame j hj.2]
  set S := fun x => ∑ j with n.group j = n.group k ∧ firm j = firm k, Spec.nestShare n (sharesAt m c x) j with hS
  have hSx : ∀ x, S x = (∑ j with n.group j = n.group k ∧ firm j = firm k,
      NestedOligopoly.mass n.group n.rho.groupRho (Spec.sensitivity m c) (nestedAtCost c n fun _ => 0) (fun k => x k - 0) j) /
        NestedOligopoly.nestMass n.group n.rho.groupRho (Spec.sensitivity m c) (nestedAtCost c n fun _ => 0) (fun k => x k - 0) (n.group k) := fun x => by
    simp only [hS]
    rw [Finset.sum_div]
    refine Finset.sum_congr rfl fun j hj => ?_
    rw [nested_oligopoly_nestShare h (fun _ => 0), (Finset.mem_filter.mp hj).2.1]
  have hNp : ∀ x : J → ℝ, 0 < NestedOligopoly.nestMass n.group n.rho.groupRho (Spec.sensitivity m c) (nestedAtCost c n fun _ => 0) (fun k => x k - 0) (n.group k) :=
    fun x => Finset.sum_pos (fun j _ => NestedOligopoly.mass_pos hA _ j) ⟨k, by simp⟩
  have hN : NestedOligopoly.nestMass n.group n.rho.groupRho (Spec.sensitivity m c) (nestedAtCost c n fun _ => 0) (fun k => x' k - 0) (n.group k) ≤
      NestedOligopoly.nestMass n.group n.rho.groupRho (Spec.sensitivity m c) (nestedAtCost c n fun _ => 0) (fun k => x k - 0) (n.group k) :=
    Finset.sum_le_sum fun j _ => by
      rw [NestedOligopoly.mass, NestedOligopoly.mass]
      refine mul_le_mul_of_nonneg_left (Real.exp_le_exp.mpr (neg_le_neg (mul_le_mul_of_nonneg_left (by linarith [hle j]) ?_))) (hA j).le
      exact (div_pos ha (by linarith [h.below (n.group j)])).le
  have hSS : S x ≤ S x' := by
    have hnum : ∑ j with n.group j = n.group k ∧ firm j = firm k,
        NestedOligopoly.mass n.group n.rho.groupRho (Spec.sensitivity m c) (nestedAtCost c n fun _ => 0) (fun k => x k - 0) j =
        ∑ j with n.group j = n.group k ∧ firm j = firm k,
          NestedOligopoly.mass n.group n.rho.groupRho (Spec.sensitivity m c) (nestedAtCost c n fun _ => 0) (fun k => x' k - 0) j :=
      Finset.sum_congr rfl fun j hj => by rw [NestedOligopoly.mass, NestedOligopoly.mass, hown j (Finset.mem_filter.mp hj).2]
    rw [hSx, hSx, hnum]
    exact div_le_div_of_nonneg_left (Finset.sum_nonneg fun j _ => (NestedOligopoly.mass_pos hA _ j).le) (hNp x') hN
  have hS1 : S x' ≤ 1 := by
    rw [hSx, div_le_one (hNp x'), NestedOligopoly.nestMass]
    refine Finset.sum_le_sum_of_subset_of_nonneg (fun j hj => ?_) fun j _ _ => (NestedOligopoly.mass_pos hA _ j).le
    simpa using (Finset.mem_filter.mp hj).2.1
  have hb : n.productRho k < 1 := h.below (n.group k)
  have hb0 : 0 ≤ n.productRho k := hr (n.group k)
  have hpos' : 0 < 1 - n.productRho k * S x' := by nlinarith
  have hmul := mul_le_mul_of_nonneg_left hSS hb0
  have e1 := (h1 k).2
  have e2 := (h2 k).2
  have hmark : x k - costs k = x' k - costs' k := by rw [hxk, hsame k rfl]
  have hq : 0 < x k - costs k := by linarith [(h1 k).1]
  change x k - costs k = (1 - n.productRho k) / (1 - n.productRho k * S x) * _ at e1
  change x' k - costs' k = (1 - n.productRho k) / (1 - n.productRho k * S x') * _ at e2
  rw [div_mul_eq_mul_div, eq_div_iff (by linarith)] at e1
  rw [div_mul_eq_mul_div, eq_div_iff hpos'.ne', ← hmark] at e2
  have h3 := mul_le_mul_of_nonneg_left (show 1 - n.productRho k * S x' ≤ 1 - n.productRho k * S x by linarith) hq.le
  have h4 := mul_lt_mul_of_pos_left hgain (show (0 : ℝ) < 1 - n.productRho k by linarith)
  linarith

/-- **C151, changes within a firm.** That costs of all products of a firm change by the same amount matters: if a firm has all products, which are in
one nest, and costs of some rise, prices of products with costs that do not change fall. -/
theorem C151_within_firm (hr : ∀ g, 0 ≤ n.rho.groupRho g) (costs costs' : J → ℝ) (firm : J → F) (hone : ∀ j k, firm j = firm k)
    (hnest : ∀ j k, n.group j = n.group k) (hup : ∀ j, costs j ≤ costs' j) (j : J) (hj : costs j < costs' j) (x x' : J → ℝ)
    (hx : priceContraction m c (ownershipFromIds firm) (fun k _ => costs k) x = x)
    (hx' : priceContraction m c (ownershipFromIds firm) (fun k _ => costs' k) x' = x') (k : J) (hk : costs' k = costs k) : x' k < x k := by
  have hmark : ∀ (costs x : J → ℝ), priceContraction m c (ownershipFromIds firm) (fun k _ => costs k) x = x →
      x k - costs k = 1 / Spec.sensitivity m c + Spec.jointProfit (sharesAt m c) costs firm (firm k) x := fun costs x hx => by
    have hb : (1 : ℝ) - n.productRho k ≠ 0 := by have := h.below (n.group k); simp only [Nesting.productRho]; linarith
    have hset : (Finset.univ.filter fun j => n.group j = n.group k ∧ firm j = firm k) = Finset.univ := by
      ext j; simp [hone j k, hnest j k]
    have hsum : ∑ j, Spec.nestShare n (sharesAt m c x) j = 1 := by
      have hall : ∀ j, Spec.nestShare n (sharesAt m c x) j = sharesAt m c x j / ∑ l, sharesAt m c x l := fun j => by
        rw [Spec.nestShare]
        congr 1
        refine Finset.sum_congr ?_ fun _ _ => rfl
        ext l; simp [hnest l j]
      rw [Finset.sum_congr rfl fun j _ => hall j, ← Finset.sum_div, div_self]
      exact (Finset.sum_pos (fun l _ => nested_share_pos h x l) Finset.univ_nonempty).ne'
    rw [(C150_markups h hr firm costs x hx k).2, hset, hsum, mul_one, div_self hb, one_mul]
  have h1 := hmark costs x hx
  have h2 := hmark costs' x' hx'
  have hbest := (C149_nested_partial h hr firm costs x).mp hx (firm k) x' fun l hl => absurd (hone l k) hl
  have hless : Spec.jointProfit (sharesAt m c) costs' firm (firm k) x' < Spec.jointProfit (sharesAt m c) costs firm (firm k) x' := by
    refine Finset.sum_lt_sum (fun l _ => ?_) ⟨j, by simp [hone j k], ?_⟩
    · have := nested_share_pos h x' l
      nlinarith [hup l]
    · have := nested_share_pos h x' j
      nlinarith
  linarith

end Nested

section Plain

variable {m : Market J A G} {c : Characteristic J A K1 K2} (h : Spec.PlainLogit m c)

include h

/-- Plain logit demand is nested logit demand with one nest and a nesting parameter of zero. -/
lemma plain_share_nested (costs x : J → ℝ) (j : J) : sharesAt m c x j =
    NestedOligopoly.share (fun _ : J => ()) (fun _ => 0) (Spec.sensitivity m c) (atCost m c costs) (fun k => x k - costs k) j := by
  have hm : ∀ k, NestedOligopoly.mass (fun _ : J => ()) (fun _ => 0) (Spec.sensitivity m c) (atCost m c costs) (fun k => x k - costs k) k =
      atCost m c costs k * Real.exp (-relativeMarkup m c costs x k) := fun k => by
    rw [NestedOligopoly.mass, relativeMarkup, sub_zero, div_one]
  rw [plain_shares h costs]
  simp only [NestedOligopoly.share, NestedOligopoly.denom, NestedOligopoly.nestMass, hm, Oligopoly.share, Oligopoly.denom, neg_zero, Real.rpow_zero, mul_one, sub_zero, Real.rpow_one,
    Finset.filter_true, Finset.univ_unique, Finset.sum_singleton]

lemma plain_foc (firm : J → F) (costs x : J → ℝ) (hx : priceContraction m c (ownershipFromIds firm) (fun k _ => costs k) x = x) (f : F) :
    NestedOligopoly.Foc (fun _ : J => ()) (fun _ => 0) (Spec.sensitivity m c) (atCost m c costs) (fun k => firm k = f) (fun k => x k - costs k) := by
  intro k hk
  have ha := sensitivity_pos h
  have hmark := (C125_markups h costs firm x).mp hx
  have hprofit : NestedOligopoly.profit (fun _ : J => ()) (fun _ => 0) (Spec.sensitivity m c) (atCost m c costs) (fun k => firm k = f) (fun k => x k - costs k) =
      1 / (Spec.sensitivity m c * (1 - Spec.firmShare (sharesAt m c x) firm f)) * Spec.firmShare (sharesAt m c x) firm f := by
    rw [NestedOligopoly.profit, Spec.firmShare, Finset.mul_sum]
    refine Finset.sum_congr rfl fun j hj => ?_
    rw [← plain_share_nested h costs, hmark j, (Finset.mem_filter.mp hj).2]
    rfl
  have hS : (1 : ℝ) - Spec.firmShare (sharesAt m c x) firm f ≠ 0 := by
    have := NestedOligopoly.total_share_lt (group := fun _ : J => ()) (rho := fun _ => 0) (a := Spec.sensitivity m c) (fun _ => zero_lt_one) (atCost_pos m c costs) (fun k => firm k = f)
      (fun k => x k - costs k)
    rw [Finset.sum_congr rfl fun j _ => (plain_share_nested h costs x j).symm] at this
    simp only [Spec.firmShare]
    linarith
  have hmk := hmark k
  rw [hk] at hmk
  have ha' := ha.ne'
  rw [hprofit]
  simp only [hmk, sub_zero, div_one, mul_zero, zero_mul, add_zero]
  field_simp
  ring

lemma atCost_changed (costs costs' : J → ℝ) :
    NestedOligopoly.atChangedCost (fun _ : J => ()) (fun _ => 0) (Spec.sensitivity m c) (atCost m c costs) (fun j => costs' j - costs j) = atCost m c costs' := by
  funext j
  rw [NestedOligopoly.atChangedCost, atCost, atCost, ← Real.exp_add, Spec.sensitivity]
  congr 1
  have := h.scale.ne'
  field_simp
  ring

/-- **C151, plain logit demand.** If no costs fall, those of products of a firm rise by the same amount, and firms merge or stay as they are, no
price falls, and prices of products with costs that rise do rise. -/
theorem C151_plain_prices (costs costs' : J → ℝ) (firm : J → F) (firm' : J → F') (hmerge : ∀ j k, firm j = firm k → firm' j = firm' k)
    (hwide : Spec.FirmWide firm' costs costs') (x x' : J → ℝ) (hx : priceContraction m c (ownershipFromIds firm) (fun k _ => costs k) x = x)
    (hx' : priceContraction m c (ownershipFromIds firm') (fun k _ => costs' k) x' = x') (hup : ∀ j, costs j ≤ costs' j) :
    (∀ k, x k ≤ x' k) ∧ ∀ k, costs k < costs' k → x k < x' k := by
  have ha := sensitivity_pos h
  have hq := plain_foc h firm costs x hx
  have hz := plain_foc h firm' costs' x' hx'
  rw [← atCost_changed h costs' costs] at hq
  have hw : ∀ j k, firm' j = firm' k → costs j - costs' j = costs k - costs' k := fun j k hjk => by linarith [hwide j k hjk]
  have hd : ∀ j, costs j - costs' j ≤ 0 := fun j => by linarith [hup j]
  refine ⟨fun k => ?_, fun k hk => ?_⟩
  · have := NestedOligopoly.change_at_most ha (fun _ => le_rfl) (fun _ => zero_lt_one) (atCost_pos m c costs') firm firm' hmerge _ hw 0 le_rfl hd _ _ hq hz k
    linarith
  · have := NestedOligopoly.change_up ha (fun _ => le_rfl) (fun _ => zero_lt_one) (atCost_pos m c costs') firm firm' hmerge _ hw hd _ _ hq hz k (by linarith)
    linarith

/-- **C151, plain logit demand.** If moreover some costs rise, consumer surplus falls. -/
theorem C151_plain_surplus (costs costs' : J → ℝ) (firm : J → F) (firm' : J → F') (hmerge : ∀ j k, firm j = firm k → firm' j = firm' k)
    (hwide : Spec.FirmWide firm' costs costs') (x x' : J → ℝ) (hx : priceContraction m c (ownershipFromIds firm) (fun k _ => costs k) x = x)
    (hx' : priceContraction m c (ownershipFromIds firm') (fun k _ => costs' k) x' = x') (hup : ∀ j, costs j ≤ costs' j) (k : J) (hk : costs k < costs' k)
    (first : J) : consumerSurplus m c first x' (fun _ => false) < consumerSurplus m c first x (fun _ => false) := by
  obtain ⟨hle, hlt⟩ := C151_plain_prices h costs costs' firm firm' hmerge hwide x x' hx hx' hup
  rw [plain_surplus h, plain_surplus h]
  refine div_lt_div_of_pos_right (Real.log_lt_log ?_ ?_) (sensitivity_pos h)
  · have : 0 ≤ ∑ j, Real.exp (c.delta j + (∑ k with c.has1 k = true, c.beta k) * (x' j - c.x0 j)) := Finset.sum_nonneg fun j _ => (Real.exp_pos _).le
    linarith
  · refine add_lt_add_right (Finset.sum_lt_sum (fun j _ => Real.exp_le_exp.mpr ?_) ⟨k, Finset.mem_univ _, Real.exp_lt_exp.mpr ?_⟩) 1
    · have := mul_le_mul_of_nonpos_left (hle j) h.decreasing.le
      linarith
    · have := mul_lt_mul_of_neg_left (hlt k hk) h.decreasing
      linarith

/-- **C151, plain logit demand.** No price rises by more than the largest increase of costs. -/
theorem C151_plain_pass_through (costs costs' : J → ℝ) (firm : J → F) (hwide : Spec.FirmWide firm costs costs')
    (T : ℝ) (hT : 0 ≤ T) (htT : ∀ j, costs' j ≤ costs j + T) (x x' : J → ℝ)
    (hx : priceContraction m c (ownershipFromIds firm) (fun k _ => costs k) x = x)
    (hx' : priceContraction m c (ownershipFromIds firm) (fun k _ => costs' k) x' = x') (k : J) : x' k ≤ x k + T := by
  have hz := plain_foc h firm costs x hx
  have hq := plain_foc h firm costs' x' hx'
  rw [← atCost_changed h costs costs'] at hq
  have := NestedOligopoly.change_at_most (sensitivity_pos h) (fun _ => le_rfl) (fun _ => zero_lt_one) (atCost_pos m c costs) firm firm (fun _ _ e => e) _ hwide T hT
    (fun j => by linarith [htT j]) _ _ hq hz k
  linarith

/-- **C151, all prices with plain logit demand.** If some costs rise, all prices rise, and firms with costs that do not change earn more. -/
theorem C151_plain_all_prices (costs costs' : J → ℝ) (firm : J → F) (hwide : Spec.FirmWide firm costs costs') (x x' : J → ℝ)
    (hx : priceContraction m c (ownershipFromIds firm) (fun k _ => costs k) x = x)
    (hx' : priceContraction m c (ownershipFromIds firm) (fun k _ => costs' k) x' = x') (hup : ∀ j, costs j ≤ costs' j) (i : J) (hi : costs i < costs' i) (k : J) :
    x k < x' k ∧ (costs' k = costs k → Spec.jointProfit (sharesAt m c) costs firm (firm k) x < Spec.jointProfit (sharesAt m c) costs' firm (firm k) x') := by
  obtain ⟨hle, hlt⟩ := C151_plain_prices h costs costs' firm firm (fun _ _ e => e) hwide x x' hx hx' hup
  have ha := sensitivity_pos h
  have hprofit : ∀ (x : J → ℝ), Spec.jointProfit (sharesAt m c) costs' firm (firm k) x = NestedOligopoly.profit (fun _ : J => ()) (fun _ => 0) (Spec.sensitivity m c)
      (atCost m c costs') (fun j => firm j = firm k) (fun k => x k - costs' k) := fun x =>
    Finset.sum_congr rfl fun j _ => by rw [plain_share_nested h costs', mul_comm]
  have hgain : costs' k = costs k → Spec.jointProfit (sharesAt m c) costs firm (firm k) x < Spec.jointProfit (sharesAt m c) costs' firm (firm k) x' := fun hk => by
    have hsame : ∀ j, firm j = firm k → costs' j = costs j := fun j hj => by linarith [hwide j k hj]
    have heq : Spec.jointProfit (sharesAt m c) costs firm (firm k) x = Spec.jointProfit (sharesAt m c) costs' firm (firm k) x :=
      Finset.sum_congr rfl fun j hj => by rw [hsame j (Finset.mem_filter.mp hj).2]
    rw [heq, hprofit, hprofit]
    refine NestedOligopoly.optimal_strict ha (fun _ => le_rfl) (fun _ => zero_lt_one) (atCost_pos m c costs') (fun j => firm j = firm k) _ _
      (plain_foc h firm costs' x' hx' (firm k)) (fun j _ => by linarith [hle j]) i (fun hik => ?_) (by linarith [hlt i hi]) (fun j hj => ?_) k rfl
    · linarith [hsame i hik]
    · have := Oligopoly.fixed_gt firm _ (atCost_pos m c costs) _ ((fixed_iff h costs firm x).mp hx) j
      simp only [relativeMarkup] at this
      have h1 := (mul_pos_iff_of_pos_left ha).mp (show 0 < Spec.sensitivity m c * (x j - costs j) by linarith)
      linarith [hsame j hj]
  refine ⟨?_, hgain⟩
  rcases (hup k).lt_or_eq with hk | hk
  · exact hlt k hk
  have h0 := hgain hk.symm
  have h1 := (Oligopoly.fixed_eq firm _ (atCost_pos m c costs) _ ((fixed_iff h costs firm x).mp hx) k).2.1
  have h2 := (Oligopoly.fixed_eq firm _ (atCost_pos m c costs') _ ((fixed_iff h costs' firm x').mp hx') k).2.1
  rw [← jointProfit_eq h] at h1 h2
  simp only [relativeMarkup] at h1 h2
  have h3 := mul_lt_mul_of_pos_left h0 ha
  have h4 : Spec.sensitivity m c * (x k - costs k) < Spec.sensitivity m c * (x' k - costs' k) := by linarith
  linarith [lt_of_mul_lt_mul_left h4 ha.le]

end Plain

/-! ## Non-vacuity -/

/-- Two firms that have one product in each of two nests; costs of the first firm rise from 1 to 2. -/
example : ∃ x x' : Fin 2 × Fin 2 → ℝ,
    priceContraction twoNestMarket twoNestPrices (ownershipFromIds (Prod.snd : Fin 2 × Fin 2 → Fin 2)) (fun _ _ => 1) x = x ∧
    priceContraction twoNestMarket twoNestPrices (ownershipFromIds (Prod.snd : Fin 2 × Fin 2 → Fin 2)) (fun k _ => if k.2 = 0 then 2 else 1) x' = x' ∧
    ∀ k, x k < x' k ∧ x' k ≤ x k + 1 := by
  have hr : ∀ g, 0 ≤ (⟨Prod.fst, .single (1 / 2)⟩ : Nesting (Fin 2 × Fin 2) (Fin 2)).rho.groupRho g := fun g => by
    simp only [RhoParam.groupRho]; norm_num
  obtain ⟨x, hx, -⟩ := C150_exists_unique twoNests_nested hr (Prod.snd : Fin 2 × Fin 2 → Fin 2) fun _ => 1
  obtain ⟨x', hx', -⟩ := C150_exists_unique twoNests_nested hr (Prod.snd : Fin 2 × Fin 2 → Fin 2) fun k => if k.2 = 0 then 2 else 1
  have hwide : Spec.FirmWide (Prod.snd : Fin 2 × Fin 2 → Fin 2) (fun _ => 1) fun k => if k.2 = 0 then 2 else 1 := fun j k hjk => by
    simp only [hjk]
  refine ⟨x, x', hx, hx', fun k => ⟨C151_all_prices twoNests_nested hr _ _ Prod.snd hwide x x' hx hx' (fun j => by split_ifs <;> norm_num) (0, 0) (by norm_num) k, ?_⟩⟩
  exact C151_pass_through twoNests_nested hr _ _ Prod.snd hwide 1 zero_le_one (fun j => by split_ifs <;> norm_num) x x' hx hx' k

/-- One firm has both products of the nest; the cost of the first product rises from 1 to 2. -/
example : ∃ x x' : Fin 2 → ℝ, priceContraction nestedDuopoly duopolyPrices (ownershipFromIds fun _ : Fin 2 => ()) (fun _ _ => 1) x = x ∧
    priceContraction nestedDuopoly duopolyPrices (ownershipFromIds fun _ : Fin 2 => ()) (fun k _ => if k = 0 then 2 else 1) x' = x' ∧ x' 1 < x 1 := by
  have hr : ∀ g, 0 ≤ (⟨fun _ : Fin 2 => (), .single (1 / 2)⟩ : Nesting (Fin 2) Unit).rho.groupRho g := fun g => by
    simp only [RhoParam.groupRho]; norm_num
  obtain ⟨x, hx, -⟩ := C150_exists_unique nestedDuopoly_nested hr (fun _ : Fin 2 => ()) fun _ => 1
  obtain ⟨x', hx', -⟩ := C150_exists_unique nestedDuopoly_nested hr (fun _ : Fin 2 => ()) fun k => if k = 0 then 2 else 1
  exact ⟨x, x', hx, hx', C151_within_firm nestedDuopoly_nested hr _ _ _ (fun _ _ => rfl) (fun _ _ => rfl) (fun j => by split_ifs <;> norm_num) 0
    (by norm_num) x x' hx hx' 1 (by norm_num)⟩

/-- Two firms with one product each in a nest; the cost of the first rises up to its price. -/
example : ∃ (t : ℝ) (x x' : Fin 2 → ℝ), 1 < t ∧ x 0 < x' 0 ∧
    Filter.Tendsto (fun i => (priceContraction nestedDuopoly duopolyPrices (ownershipFromIds (id : Fin 2 → Fin 2)) (fun k _ => if k = 0 then t else 1))^[i] x)
      Filter.atTop (nhds x') := by
  have hr : ∀ g, 0 ≤ (⟨fun _ : Fin 2 => (), .single (1 / 2)⟩ : Nesting (Fin 2) Unit).rho.groupRho g := fun g => by
    simp only [RhoParam.groupRho]; norm_num
  obtain ⟨x, hx, -⟩ := C150_exists_unique nestedDuopoly_nested hr (id : Fin 2 → Fin 2) fun _ => 1
  have h1 := fun k => (C150_markups nestedDuopoly_nested hr _ _ x hx k).1
  obtain ⟨x', hx', -⟩ := C150_exists_unique nestedDuopoly_nested hr (id : Fin 2 → Fin 2) fun k => if k = 0 then x 0 else 1
  have hwide : Spec.FirmWide (id : Fin 2 → Fin 2) (fun _ => 1) fun k => if k = 0 then x 0 else 1 := fun j k hjk => by
    rw [show j = k from hjk]
  have hup : ∀ j : Fin 2, (1 : ℝ) ≤ if j = 0 then x 0 else 1 := fun j => by
    split_ifs
    · exact (h1 0).le
    · exact le_rfl
  refine ⟨x 0, x, x', h1 0, (C151_prices nestedDuopoly_nested hr _ _ id id (fun _ _ e => e) hwide x x' hx hx' hup).2 0 (by simpa using h1 0),
    (C151_rises nestedDuopoly_nested hr _ _ id id (fun _ _ e => e) hwide x x' hx hx' (fun _ _ _ => rfl) hup fun j => ?_).2.2⟩
  split_ifs with hj
  · rw [hj]
  · exact (h1 j).le

/-- Two firms with one product each and plain logit demand; the cost of the first rises. -/
example : ∃ x x' : Fin 2 → ℝ, priceContraction duopoly duopolyPrices (ownershipFromIds (id : Fin 2 → Fin 2)) (fun _ _ => 1) x = x ∧
    priceContraction duopoly duopolyPrices (ownershipFromIds (id : Fin 2 → Fin 2)) (fun k _ => if k = 0 then 2 else 1) x' = x' ∧
    ∀ k, x k < x' k ∧ x' k ≤ x k + 1 := by
  obtain ⟨x, hx, -⟩ := C125_exists_unique duopoly_plain (fun _ => 1) (id : Fin 2 → Fin 2)
  obtain ⟨x', hx', -⟩ := C125_exists_unique duopoly_plain (fun k : Fin 2 => if k = 0 then 2 else 1) (id : Fin 2 → Fin 2)
  have hwide : Spec.FirmWide (id : Fin 2 → Fin 2) (fun _ => 1) fun k => if k = 0 then 2 else 1 := fun j k hjk => by
    rw [show j = k from hjk]
  refine ⟨x, x', hx, hx', fun k => ⟨(C151_plain_all_prices duopoly_plain _ _ id hwide x x' hx hx' (fun j => by split_ifs <;> norm_num) 0 (by norm_num) k).1, ?_⟩⟩
  exact C151_plain_pass_through duopoly_plain _ _ id hwide 1 zero_le_one (fun j => by split_ifs <;> norm_num) x x' hx hx' k

end Pyblp
